import Verif.Props.GradGaps

/-!
# C48, C55: the gradient of `max_pool2d`

On exact tensors, see `Model/Grad.lean`.
-/

namespace SyMPC.Grad

open Tensor

/-! ## Specification -/

/-- `p` is a position in the image that window `o` looks at: `o` is `(i, j)` of the image `b`. -/
def Sees (a : PoolArgs) (h v : Nat) (o p : List Nat) : Prop :=
  ∃ b i j u w, o = b ++ [i, j] ∧ u < a.kh ∧ w < a.kw ∧ InImage a h v i j u w ∧ p = b ++ [i * a.sh + u - a.ph, j * a.sw + w - a.pw]

/-- `p` has the largest number among the positions that window `o` looks at. -/
def LargestOf (a : PoolArgs) (h v : Nat) (x : List Nat → ℝ) (o p : List Nat) : Prop :=
  Sees a h v o p ∧ ∀ p', Sees a h v o p' → x p' ≤ x p

/-- Every window has a clear maximum in the image, where the padding counts as `-25` quanta `q`. -/
def ClearWindows (a : PoolArgs) (q : ℝ) (bs : List Nat) (h v : Nat) (x : List Nat → ℝ) : Prop :=
  ∀ b i j, ValidIdx bs b → i < poolOut h a.kh a.sh a.ph → j < poolOut v a.kw a.sw a.pw →
    ∃ us vs, InImage a h v i j us vs ∧ Clear a.kh a.kw (fun u w =>
      if InImage a h v i j u w then x (b ++ [i * a.sh + u - a.ph, j * a.sw + w - a.pw]) else -25 * q) us vs

theorem sees_iff (a : PoolArgs) (h v : Nat) (b : List Nat) (i j : Nat) (p : List Nat) : Sees a h v (b ++ [i, j]) p ↔
    ∃ u w, u < a.kh ∧ w < a.kw ∧ InImage a h v i j u w ∧ p = b ++ [i * a.sh + u - a.ph, j * a.sw + w - a.pw] := by
  constructor
  · rintro ⟨b', i', j', u, w, e, r⟩
    obtain ⟨rfl, e2⟩ := List.append_inj' e rfl
    obtain ⟨rfl, rfl⟩ : i = i' ∧ j = j' := by simpa using e2
    exact ⟨u, w, r⟩
  · rintro ⟨u, w, r⟩
    exact ⟨b, i, j, u, w, rfl, r⟩

theorem backward_ok {R : Type} [Field R] [LinearOrder R] {xShape : List Nat} {p g : Tensor R} {s : PoolSizes} {a : PoolArgs}
    (ha : poolArgs s.kernel s.stride s.padding s.dilation = .ok a) {gs : List (Tensor R)} (h : poolBackward xShape p s g = .ok gs) :
    (g.shape.length = 3 ∨ g.shape.length = 4) ∧ ∃ m r, Tensor.zip (fun p g => g * p) p ⟨g.shape ++ [1, 1], fun o => g.at_ (o.take g.shape.length)⟩
      = .ok m ∧ poolHelper xShape m a = .ok r ∧ gs = [r] := by
  unfold poolBackward at h
  rw [ha, ok_bind] at h
  by_cases c1 : g.shape.length ≠ 4 ∧ g.shape.length ≠ 3
  · rw [if_pos c1] at h
    cases h
  rw [if_neg c1] at h
  by_cases c2 : p.shape.length ≠ g.shape.length + 2
  · rw [if_pos c2] at h
    cases h
  rw [if_neg c2] at h
  dsimp only at h
  cases e1 : Tensor.zip (fun p g => g * p) p ⟨g.shape ++ [1, 1], fun o => g.at_ (o.take g.shape.length)⟩ with
  | error e => rw [e1] at h; cases h
  | ok m =>
    rw [e1, ok_bind] at h
    cases e2 : poolHelper xShape m a with
    | error e => rw [e2] at h; cases h
    | ok r =>
      rw [e2] at h
      exact ⟨by omega, m, r, rfl, e2, (Except.ok.inj h).symm⟩

open Classical in
/-- C48, C55: if all windows have a clear maximum, `max_pool2d` gives the maxima, and its gradient sends what comes from a window to the
position of the maximum of the window; what comes from several windows is added.  Tensors with one leading dimension, or with two and
without padding.
Missing: the other shapes, for which it is false (below).  For rounding see `C48_gradients_rounded_partial`. -/
theorem C55_pool_gradient_partial (x : Tensor ℝ) (q : ℝ) (s : PoolSizes) (a : PoolArgs)
    (ha : poolArgs s.kernel s.stride s.padding s.dilation = .ok a) (hs : s.returnIndices = false) (bs : List Nat) (h v : Nat)
    (hx : x.shape = bs ++ [h, v]) (hb : bs.length = 1 ∨ bs.length = 2 ∧ a.ph = 0 ∧ a.pw = 0) (h1 : a.kh ≤ h + 2 * a.ph)
    (h2 : a.kw ≤ v + 2 * a.pw) (h3 : a.sh ≠ 0) (h4 : a.sw ≠ 0) (hc : ClearWindows a q bs h v x.at_) :
    ∃ r fn, poolForward q x s = .ok (r, fn) ∧ r.shape = bs ++ [poolOut h a.kh a.sh a.ph, poolOut v a.kw a.sw a.pw] ∧
      (∀ o, ValidIdx r.shape o → ∃ p, LargestOf a h v x.at_ o p ∧ r.at_ o = x.at_ p) ∧
      ∀ g, g.shape = r.shape → ∃ m, fn g = .ok [m] ∧ m.shape = x.shape ∧
        ∀ p, ValidIdx x.shape p → m.at_ p = ∑ o ∈ positions r.shape, if LargestOf a h v x.at_ o p then g.at_ o else 0 := by
  obtain ⟨r, p, hr, r1, p1, r2, -⟩ := run_ok a q x bs h v hx h1 h2 h3 h4
  have hw : ∀ b i j, (fun u w => if InImage a h v i j u w then x.at_ (b ++ [i * a.sh + u - a.ph, j * a.sw + w - a.pw]) else -25 * q)
      = poolWindow a q x b i j := by
    intro b i j
    funext u w
    by_cases c : InImage a h v i j u w
    · rw [if_pos c, window_in a q x bs h v hx b i j u w c]
    · rw [if_neg c, window_out a q x bs h v hx b i j u w c]
  have hc' : ∀ b i j, ∃ us vs, ValidIdx bs b → i < poolOut h a.kh a.sh a.ph → j < poolOut v a.kw a.sw a.pw →
      InImage a h v i j us vs ∧ Clear a.kh a.kw (poolWindow a q x b i j) us vs := by
    intro b i j
    by_cases c : ValidIdx bs b ∧ i < poolOut h a.kh a.sh a.ph ∧ j < poolOut v a.kw a.sw a.pw
    · obtain ⟨us, vs, c1, c2⟩ := hc b i j c.1 c.2.1 c.2.2
      rw [hw] at c2
      exact ⟨us, vs, fun _ _ _ => ⟨c1, c2⟩⟩
    · exact ⟨0, 0, fun c1 c2 c3 => absurd ⟨c1, c2, c3⟩ c⟩
  choose us vs huv using hc'
  let place : List Nat → List Nat := fun o => o.take bs.length ++
    [o.getD bs.length 0 * a.sh + us (o.take bs.length) (o.getD bs.length 0) (o.getD (bs.length + 1) 0) - a.ph,
      o.getD (bs.length + 1) 0 * a.sw + vs (o.take bs.length) (o.getD bs.length 0) (o.getD (bs.length + 1) 0) - a.pw]
  have hplace : ∀ b i j, b.length = bs.length →
      place (b ++ [i, j]) = b ++ [i * a.sh + us b i j - a.ph, j * a.sw + vs b i j - a.pw] := by
    intro b i j hl
    obtain ⟨q1, q2, q3⟩ := parts b [] i j
    simp only [place, ← hl, q1, q2, q3]
  have largest : ∀ o, ValidIdx r.shape o → (∀ p, LargestOf a h v x.at_ o p ↔ place o = p) ∧ r.at_ o = x.at_ (place o) := by
    intro o ho
    rw [r1] at ho
    obtain ⟨b, i, j, rfl, vb, vi, vj⟩ := valid_split ho
    obtain ⟨c1, c2⟩ := huv b i j vb vi vj
    have seen : ∀ u < a.kh, ∀ w < a.kw, InImage a h v i j u w → (u, w) ≠ (us b i j, vs b i j) →
        x.at_ (b ++ [i * a.sh + u - a.ph, j * a.sw + w - a.pw]) < x.at_ (b ++ [i * a.sh + us b i j - a.ph, j * a.sw + vs b i j - a.pw]) := by
      intro u hu w hw hin ne
      have := c2.2.2.1 u hu w hw ne
      rwa [window_in a q x bs h v hx b i j u w hin, window_in a q x bs h v hx b i j _ _ c1] at this
    rw [hplace b i j vb.length]
    constructor
    · intro p
      unfold LargestOf
      simp only [sees_iff]
      constructor
      · rintro ⟨⟨u, w, hu, hw, hin, rfl⟩, hmax⟩
        by_contra hne
        have ne : (u, w) ≠ (us b i j, vs b i j) := by
          rintro e
          obtain ⟨rfl, rfl⟩ := Prod.mk.inj e
          exact hne rfl
        exact absurd (hmax _ ⟨_, _, c2.1, c2.2.1, c1, rfl⟩) (not_le.mpr (seen u hu w hw hin ne))
      · rintro rfl
        refine ⟨⟨_, _, c2.1, c2.2.1, c1, rfl⟩, ?_⟩
        rintro p' ⟨u, w, hu, hw, hin, rfl⟩
        by_cases ne : (u, w) = (us b i j, vs b i j)
        · obtain ⟨rfl, rfl⟩ := Prod.mk.inj ne
          exact le_rfl
        · exact (seen u hu w hw hin ne).le
    · rw [r2 b i j vb.length, c2.value, window_in a q x bs h v hx b i j _ _ c1]
  refine ⟨r, poolBackward x.shape p s, ?_, r1, fun o ho => ⟨place o, ((largest o ho).1 _).mpr rfl, (largest o ho).2⟩, fun g hg => ?_⟩
  · unfold poolForward
    rw [ha, ok_bind, hr, ok_bind]
    simp only [hs]
    rfl
  · obtain ⟨gs, g1, g2⟩ := back_pool x r p q s a ha bs h v hx hb hr us vs (fun b i j c1 c2 c3 => (huv b i j c1 c2 c3).1)
      (fun b i j c1 c2 c3 => (huv b i j c1 c2 c3).2) place hplace g hg
    obtain ⟨m, m1, m2, m3⟩ := g2 0 x.shape rfl
    have hl : gs = [m] := by
      obtain ⟨-, -, m', -, -, rfl⟩ := backward_ok ha g1
      rw [Option.some.inj m1]
    refine ⟨m, by rw [g1, hl], m2, fun i hi => ?_⟩
    rw [m3 i hi]
    refine Finset.sum_congr rfl fun o ho => ?_
    rw [mem_positions] at ho
    change g.at_ o * (if place o = i then 1 else 0) = _
    by_cases c : place o = i
    · rw [if_pos c, if_pos (((largest o ho).1 i).mpr c), mul_one]
    · rw [if_neg c, if_neg (fun hc => c (((largest o ho).1 i).mp hc)), mul_zero]

/-- an image of two rows of two windows with clear maxima, of which two windows with stride 1 share one -/
def exPool : Tensor ℚ := ⟨[1, 3, 3], fun o => [3, 1, 4, 1, 5, 9, 2, 6, 0].getD (o.getD 1 0 * 3 + o.getD 2 0) 0⟩

def poolSizes (k s p : Nat) : PoolSizes := ⟨.one k, some (.one s), .one p, .one 1, false⟩

/-- the maxima are `5, 9, 6, 9`; the `9` gets the gradients of two windows -/
example :
    let prog : List (Step ℚ) := [.leaf true, .op (.maxPool2d 0 (1 / 65536) (poolSizes 2 1 0)), .op (.mulPub 1 (counting [1, 2, 2])), .op (.sum 2)]
    elements (gradients (fun _ => exPool) prog 3 1 0) = some (some ([1, 3, 3], [0, 0, 0, 0, 0, 4, 0, 2, 0])) := by
  decide +kernel

/-- a 2×3 image with two windows that meets the hypotheses: the numbers grow along the rows and the columns -/
example : (Op.maxPool2d 0 (1 / 65536) (poolSizes 2 1 0) : Op ℝ).Regular (fun _ => ⟨[1, 2, 3], fun o => (10 * o.getD 1 0 + o.getD 2 0 : Nat)⟩) ∧
    ClearWindows ⟨2, 2, 1, 1, 0, 0⟩ (1 / 65536) [1] 2 3 (fun o => (10 * o.getD 1 0 + o.getD 2 0 : Nat)) := by
  have key : ClearWindows ⟨2, 2, 1, 1, 0, 0⟩ (1 / 65536) [1] 2 3 (fun o => (10 * o.getD 1 0 + o.getD 2 0 : Nat)) := by
    intro b i j hb hi hj
    have hi : i < 1 := hi
    have hj : j < 2 := hj
    have hin : ∀ u < 2, ∀ w < 2, InImage ⟨2, 2, 1, 1, 0, 0⟩ 2 3 i j u w := by
      intro u hu w hw
      unfold InImage
      dsimp only
      omega
    obtain ⟨b0, rfl⟩ : ∃ b0, b = [b0] := List.length_eq_one_iff.mp hb.length
    refine ⟨1, 1, hin 1 (by omega) 1 (by omega), by norm_num, by norm_num, ?_, ?_⟩
    · intro u hu w hw ne
      beta_reduce
      rw [if_pos (hin u hu w hw), if_pos (hin 1 (by omega) 1 (by omega))]
      norm_cast
      simp only [List.cons_append, List.nil_append, List.getD_cons_succ, List.getD_cons_zero]
      have : u ≠ 1 ∨ w ≠ 1 := by
        by_contra h
        push Not at h
        exact ne (by rw [h.1, h.2])
      dsimp only at hu hw
      omega
    · intro u hu _
      refine .inl ⟨1, by norm_num, fun w hw ne => ?_⟩
      beta_reduce
      rw [if_pos (hin u hu w hw), if_pos (hin u hu 1 (by omega))]
      norm_cast
      simp only [List.cons_append, List.nil_append, List.getD_cons_succ, List.getD_cons_zero]
      dsimp only at hw
      omega
  exact ⟨⟨⟨2, 2, 1, 1, 0, 0⟩, [1], 2, 3, rfl, rfl, rfl, .inl rfl, key⟩, key⟩

/-! ## Where the gradient is wrong -/

theorem forward_ok {q : ℚ} {x r : Tensor ℚ} {s : PoolSizes} {fn : Tensor ℚ → Py (List (Tensor ℚ))}
    (hf : poolForward q x s = .ok (r, fn)) : s.returnIndices = false ∧ ∃ a p, poolArgs s.kernel s.stride s.padding s.dilation = .ok a ∧
      poolRun a q x = .ok (r, p) ∧ fn = poolBackward x.shape p s := by
  unfold poolForward at hf
  cases ha : poolArgs s.kernel s.stride s.padding s.dilation with
  | error e => rw [ha] at hf; cases hf
  | ok a =>
    rw [ha, ok_bind] at hf
    cases hr : poolRun a q x with
    | error e => rw [hr] at hf; cases hf
    | ok rp =>
      rw [hr, ok_bind] at hf
      cases hs : s.returnIndices with
      | true => simp only [hs] at hf; cases hf
      | false =>
        simp only [hs] at hf
        cases hf
        exact ⟨rfl, a, _, rfl, hr, rfl⟩

/-- C48, C55 (negation): with four dimensions the gradient of the image has `ph` rows and `pw` columns less than the image, where `ph` and
`pw` are the paddings. -/
theorem C55_pool_padding_wrong_shape (q : ℚ) (x r : Tensor ℚ) (s : PoolSizes) (a : PoolArgs) (fn : Tensor ℚ → Py (List (Tensor ℚ)))
    (n c h v : Nat) (ha : poolArgs s.kernel s.stride s.padding s.dilation = .ok a) (hx : x.shape = [n, c, h, v])
    (hf : poolForward q x s = .ok (r, fn)) (g : Tensor ℚ) (gs : List (Tensor ℚ)) (hg : fn g = .ok gs) :
    ∃ m, gs = [m] ∧ m.shape = [n, c, h - a.ph, v - a.pw] := by
  obtain ⟨-, a', p, ha', -, rfl⟩ := forward_ok hf
  obtain ⟨-, m, r, -, h2, rfl⟩ := backward_ok ha hg
  refine ⟨r, rfl, ?_⟩
  unfold poolHelper at h2
  rw [hx] at h2
  dsimp only at h2
  split at h2
  · cases h2
  · split at h2
    · cases h2
    · rw [← Except.ok.inj h2]
      rfl

/-- the gradient of a 2×2 image with padding 1 has one row and one column -/
example :
    let prog : List (Step ℚ) := [.leaf true, .op (.maxPool2d 0 (1 / 65536) (poolSizes 2 2 1)), .op (.sum 1)]
    elements (gradients (fun _ => counting [1, 1, 2, 2]) prog 2 1 0) = some (some ([1, 1, 1, 1], [1])) := by
  decide +kernel

/-- C48, C55 (negation): `backward` of the pooling of a tensor with neither three nor four dimensions raises `ValueError`, although the
pooling is computed. -/
theorem C55_pool_dimensions_fail (q : ℚ) (x r : Tensor ℚ) (s : PoolSizes) (fn : Tensor ℚ → Py (List (Tensor ℚ)))
    (hf : poolForward q x s = .ok (r, fn)) (hx : x.shape.length ≠ 3 ∧ x.shape.length ≠ 4) (g : Tensor ℚ) (hg : g.shape = r.shape) :
    fn g = .error .valueError := by
  obtain ⟨-, a, p, ha, hr, rfl⟩ := forward_ok hf
  have hl : r.shape.length = x.shape.length := by
    unfold poolRun at hr
    dsimp only at hr
    split at hr
    · cases hr
    · split at hr
      · cases hr
      · split at hr
        · cases hr
        · next h _ _ =>
          rw [← (Prod.mk.inj (Except.ok.inj hr)).1]
          simp only [List.length_append, List.length_take, List.length_cons, List.length_nil]
          omega
  unfold poolBackward
  rw [ha, ok_bind, if_pos]
  rw [hg, hl]
  exact ⟨hx.2, hx.1⟩

/-- the pooling of a plain 3×3 image is computed -/
example :
    let prog : List (Step ℚ) := [.leaf true, .op (.maxPool2d 0 (1 / 65536) (poolSizes 2 1 0)), .op (.sum 1)]
    let x : Tensor ℚ := ⟨[3, 3], fun o => exPool.at_ (0 :: o)⟩
    elements (gradients (fun _ => x) prog 2 0 0) = some none ∧ elements (gradients (fun _ => x) prog 2 1 0) = none := by
  decide +kernel

/-- C55 (negation): with `return_indices=True`, `max_pool2d` of a tensor that requires a gradient raises. -/
theorem C55_pool_indices_fail (q : ℚ) (x : Tensor ℚ) (s : PoolSizes) (hs : s.returnIndices = true) :
    ∃ e, poolForward q x s = .error e := by
  cases h : poolForward q x s with
  | error e => exact ⟨e, rfl⟩
  | ok r => exact absurd (forward_ok (r := r.1) (fn := r.2) h).1 (by simp [hs])

/-- with the indices switched off, the same pooling is computed -/
example : (poolForward (1 / 65536) exPool (poolSizes 2 1 0)).toOption.isSome = true ∧
    (match poolForward (1 / 65536) exPool { poolSizes 2 1 0 with returnIndices := true } with
      | .error .attributeError => true | _ => false) = true := by
  decide +kernel

/-- C48, C55 (negation): the pooling of a window in which the maximum `5` occurs twice in a row is `10`, and the gradient goes to both
places. -/
theorem C55_pool_ties :
    let prog : List (Step ℚ) := [.leaf true, .op (.maxPool2d 0 (1 / 65536) (poolSizes 2 1 0)), .op (.sum 1)]
    let x : Tensor ℚ := ⟨[1, 2, 2], fun o => [5, 5, 1, 2].getD (o.getD 1 0 * 2 + o.getD 2 0) 0⟩
    ((poolForward (1 / 65536) x (poolSizes 2 1 0)).toOption.map fun r => (indices r.1.shape).map r.1.at_) = some [10] ∧
    elements (gradients (fun _ => x) prog 2 1 0) = some (some ([1, 2, 2], [1, 1, 0, 0])) := by
  decide +kernel

/-- C48, C55 (negation): the padding counts as `-25` quanta: the window of a corner where the image is `-1` has the maximum
`-25 / 65536`, and the gradient is lost. -/
theorem C55_pool_padding_wins :
    let prog : List (Step ℚ) := [.leaf true, .op (.maxPool2d 0 (1 / 65536) (poolSizes 2 2 1)), .op (.sum 1)]
    let x : Tensor ℚ := ⟨[1, 2, 2], fun o => [-1, 5, 1, 2].getD (o.getD 1 0 * 2 + o.getD 2 0) 0⟩
    elements (gradients (fun _ => x) prog 2 1 0) = some (some ([1, 2, 2], [0, 1, 1, 1])) := by
  decide +kernel

end SyMPC.Grad
