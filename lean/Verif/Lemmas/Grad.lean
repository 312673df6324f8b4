import Verif.Model.Grad
import Verif.Props.Broadcast
import Mathlib.Analysis.SpecialFunctions.Sigmoid
import Mathlib.Analysis.Calculus.Deriv.Inv
import Mathlib.Analysis.Calculus.Deriv.Pow
import Mathlib.Analysis.Calculus.Deriv.Add
import Mathlib.Analysis.Calculus.Deriv.Mul

/-!
# Derivatives of the operations
-/

namespace SyMPC.Grad

open Tensor Finset

/-! ## Broadcasting to a larger shape -/

theorem broadcastDim_wide (a n : Nat) (h : a = n ∨ a = 1) : broadcastDim n a = .ok n := by
  unfold broadcastDim
  rcases h with rfl | rfl
  · simp
  · by_cases h1 : n = 1 <;> simp [h1]

theorem broadcastRev_wide (w z : List Nat) (hlen : w.length ≤ z.length)
    (h : List.Forall₂ (fun a b => a = b ∨ a = 1) w (z.take w.length)) : broadcastRev z w = .ok z := by
  induction z generalizing w with
  | nil =>
    cases w with
    | nil => rfl
    | cons a w => simp at hlen
  | cons n z ih =>
    cases w with
    | nil => rfl
    | cons a w =>
      rw [List.length_cons, List.take_succ_cons] at h
      cases h with
      | cons h1 h2 =>
        unfold broadcastRev
        rw [broadcastDim_wide a n h1, ih w (by simpa using hlen) h2]
        rfl

theorem broadcastShape_wide (w z : List Nat) (h : Broadcasts w z) : broadcastShape z w = .ok z := by
  obtain ⟨h1, h2⟩ := h
  unfold broadcastShape
  rw [broadcastRev_wide w.reverse z.reverse (by simpa using h1)]
  · change Except.ok z.reverse.reverse = _
    rw [List.reverse_reverse]
  · rw [List.length_reverse, List.take_reverse, List.forall₂_reverse_iff]
    exact h2

theorem broadcasts_self (s : List Nat) : Broadcasts s s :=
  ⟨le_rfl, by
    rw [Nat.sub_self, List.drop_zero]
    exact List.forall₂_same.mpr fun a _ => Or.inl rfl⟩

theorem sourceIdx_self (s i : List Nat) (h : ValidIdx s i) : sourceIdx s i = i := by
  unfold sourceIdx
  rw [h.length, Nat.sub_self, List.drop_zero]
  induction s generalizing i with
  | nil =>
    cases i with
    | nil => rfl
    | cons a i => exact absurd h (by simp [ValidIdx])
  | cons d s ih =>
    cases i with
    | nil => exact absurd h (by simp [ValidIdx])
    | cons a i =>
      rw [List.zipWith_cons_cons, ih i h.2]
      congr 1
      have := h.1
      split <;> omega

theorem zip_ok {A B C : Type} (f : A → B → C) (x : Tensor A) (y : Tensor B) (s : List Nat)
    (h : broadcastShape x.shape y.shape = .ok s) :
    Tensor.zip f x y = .ok ⟨s, fun idx => f (x.at_ (sourceIdx x.shape idx)) (y.at_ (sourceIdx y.shape idx))⟩ := by
  unfold Tensor.zip
  rw [h]
  rfl

/-- an operation on a tensor and one that can be repeated to its shape -/
theorem zip_wide {A B C : Type} (f : A → B → C) (x : Tensor A) (y : Tensor B) (h : Broadcasts y.shape x.shape) :
    ∃ r, Tensor.zip f x y = .ok r ∧ r.shape = x.shape ∧
      ∀ o, ValidIdx x.shape o → r.at_ o = f (x.at_ o) (y.at_ (sourceIdx y.shape o)) := by
  refine ⟨_, zip_ok f x y _ (broadcastShape_wide _ _ h), rfl, fun o ho => ?_⟩
  simp only [sourceIdx_self _ _ ho]

/-- an operation on two tensors of the same shape -/
theorem zip_same {A B C : Type} (f : A → B → C) (x : Tensor A) (y : Tensor B) (h : y.shape = x.shape) :
    ∃ r, Tensor.zip f x y = .ok r ∧ r.shape = x.shape ∧ ∀ o, ValidIdx x.shape o → r.at_ o = f (x.at_ o) (y.at_ o) := by
  obtain ⟨r, h1, h2, h3⟩ := zip_wide f x y (h ▸ broadcasts_self _)
  refine ⟨r, h1, h2, fun o ho => ?_⟩
  rw [h3 o ho, h, sourceIdx_self _ _ ho]

theorem noneLost_of_pos (w z : List Nat) (hw : Broadcasts w z) (hpos : ∀ d ∈ z, d ≠ 0) : NoneLost w z := by
  unfold NoneLost
  have : ∀ d ∈ z.drop (z.length - w.length), d ≠ 0 := fun d hd => hpos d (List.mem_of_mem_drop hd)
  have h2 := hw.2
  clear hw
  generalize z.drop (z.length - w.length) = y at this h2
  induction h2 with
  | nil => exact .nil
  | cons _ _ ih => exact .cons (fun _ => this _ (by simp)) (ih (fun d hd => this d (by simp [hd])))

/-! ## What is to be shown for an operation -/

/-- The elements of `x t` have the derivatives `d` at `t = 0`; the shape does not change. -/
def Deriv (x : ℝ → Tensor ℝ) (d : List Nat → ℝ) : Prop :=
  (∀ t, (x t).shape = (x 0).shape) ∧ ∀ o, ValidIdx (x 0).shape o → HasDerivAt (fun t => (x t).at_ o) (d o) 0

/-- `J k o i` is the derivative of element `o` of the result by element `i` of operand `k`: `fn` sends to operand `k` the
product of the gradient with this matrix.  `s` is the shape of the result, `ws` are the shapes of the operands. -/
def Back (s : List Nat) (fn : Tensor ℝ → Py (List (Tensor ℝ))) (ws : List (List Nat)) (J : Nat → List Nat → List Nat → ℝ) : Prop :=
  ∀ v, v.shape = s → ∃ gs, fn v = .ok gs ∧ ∀ k w, ws[k]? = some w → ∃ m, gs[k]? = some m ∧ m.shape = w ∧
    ∀ i, ValidIdx w i → m.at_ i = ∑ o ∈ positions s, v.at_ o * J k o i

theorem back_two {s w0 w1 : List Nat} {fn : Tensor ℝ → Py (List (Tensor ℝ))} {J : Nat → List Nat → List Nat → ℝ}
    (h : ∀ v, v.shape = s → ∃ m0 m1, fn v = .ok [m0, m1] ∧
      (m0.shape = w0 ∧ ∀ i, ValidIdx w0 i → m0.at_ i = ∑ o ∈ positions s, v.at_ o * J 0 o i) ∧
      (m1.shape = w1 ∧ ∀ i, ValidIdx w1 i → m1.at_ i = ∑ o ∈ positions s, v.at_ o * J 1 o i)) : Back s fn [w0, w1] J := by
  intro v hv
  obtain ⟨m0, m1, h1, ⟨h2, h3⟩, h4, h5⟩ := h v hv
  refine ⟨_, h1, ?_⟩
  rintro (_ | _ | k) w hw
  · obtain rfl : w0 = w := by simpa using hw
    exact ⟨m0, rfl, h2, h3⟩
  · obtain rfl : w1 = w := by simpa using hw
    exact ⟨m1, rfl, h4, h5⟩
  · simp at hw

theorem Back.left {s w0 w1 : List Nat} {fn : Tensor ℝ → Py (List (Tensor ℝ))} {J : Nat → List Nat → List Nat → ℝ}
    (h : Back s fn [w0, w1] J) : Back s fn [w0] J := by
  intro v hv
  obtain ⟨gs, h1, h2⟩ := h v hv
  refine ⟨gs, h1, ?_⟩
  rintro (_ | k) w hw
  · exact h2 0 w (by simpa using hw)
  · simp at hw

theorem back_one {s w0 : List Nat} {fn : Tensor ℝ → Py (List (Tensor ℝ))} {J : Nat → List Nat → List Nat → ℝ}
    (h : ∀ v, v.shape = s → ∃ m0, fn v = .ok [m0] ∧
      (m0.shape = w0 ∧ ∀ i, ValidIdx w0 i → m0.at_ i = ∑ o ∈ positions s, v.at_ o * J 0 o i)) : Back s fn [w0] J := by
  intro v hv
  obtain ⟨m0, h1, h2, h3⟩ := h v hv
  refine ⟨_, h1, ?_⟩
  rintro (_ | k) w hw
  · obtain rfl : w0 = w := by simpa using hw
    exact ⟨m0, rfl, h2, h3⟩
  · simp at hw

/-- the matrix of an operation that reads one element `σ o` for the element `o` of its result -/
def reads (σ : List Nat → List Nat) (c : List Nat → ℝ) (o i : List Nat) : ℝ := if σ o = i then c o else 0

theorem sum_reads (σ : List Nat → List Nat) (c : List Nat → ℝ) (w o : List Nat) (h : ValidIdx w (σ o)) (d : List Nat → ℝ) :
    ∑ i ∈ positions w, reads σ c o i * d i = c o * d (σ o) := by
  simp only [reads, ite_mul, zero_mul]
  rw [Finset.sum_ite_eq, if_pos ((mem_positions _ _).mpr h)]

/-! ## Operations on two tensors, element by element -/

section
variable {x y : ℝ → Tensor ℝ} {dx dy : List Nat → ℝ}

theorem zip_deriv (f : ℝ → ℝ → ℝ) (f0 f1 : List Nat → ℝ) (s : List Nat) (hs : broadcastShape (x 0).shape (y 0).shape = .ok s)
    (hx : Deriv x dx) (hy : Deriv y dy)
    (hf : ∀ o, ValidIdx s o → ∀ (a b : ℝ → ℝ) (a' b' : ℝ), HasDerivAt a a' 0 → HasDerivAt b b' 0 →
      a 0 = (x 0).at_ (sourceIdx (x 0).shape o) → b 0 = (y 0).at_ (sourceIdx (y 0).shape o) →
      HasDerivAt (fun t => f (a t) (b t)) (f0 o * a' + f1 o * b') 0) :
    ∃ out : ℝ → Tensor ℝ, (∀ t, Tensor.zip f (x t) (y t) = .ok (out t)) ∧ (out 0).shape = s ∧
      Deriv out fun o => ∑ i ∈ positions (x 0).shape, reads (sourceIdx (x 0).shape) f0 o i * dx i
        + ∑ i ∈ positions (y 0).shape, reads (sourceIdx (y 0).shape) f1 o i * dy i := by
  obtain ⟨hb1, hb2⟩ := broadcastShape_ok _ _ _ hs
  refine ⟨fun t => ⟨s, fun idx => f ((x t).at_ (sourceIdx (x t).shape idx)) ((y t).at_ (sourceIdx (y t).shape idx))⟩, ?_, rfl, ?_, ?_⟩
  · intro t
    exact zip_ok f _ _ s (by rw [hx.1, hy.1, hs])
  · intro t
    rfl
  · intro o ho
    have v1 := sourceIdx_valid _ _ _ hb1 ho
    have v2 := sourceIdx_valid _ _ _ hb2 ho
    beta_reduce
    rw [sum_reads _ _ _ _ v1, sum_reads _ _ _ _ v2]
    simp only [hx.1, hy.1]
    exact hf o ho _ _ _ _ (hx.2 _ v1) (hy.2 _ v2) rfl rfl

end

/-- the gradient of an operand that may have been repeated -/
theorem reverse_reads (h : Tensor ℝ) (v : Tensor ℝ) (w s : List Nat) (hs : h.shape = s) (hb : Broadcasts w s) (hpos : ∀ d ∈ s, d ≠ 0)
    (c : List Nat → ℝ) (hc : ∀ o, ValidIdx s o → h.at_ o = v.at_ o * c o) :
    ∃ m, reverseBroadcast h w = .ok m ∧ m.shape = w ∧
      ∀ i, ValidIdx w i → m.at_ i = ∑ o ∈ positions s, v.at_ o * reads (sourceIdx w) c o i := by
  subst hs
  obtain ⟨m, h1, h2, h3⟩ := C49_sums_copies_partial h w hb (noneLost_of_pos w _ hb hpos)
  refine ⟨m, h1, h2, fun i hi => ?_⟩
  rw [h3 i hi]
  refine Finset.sum_congr rfl fun o ho => ?_
  simp only [reads]
  split
  · exact hc o ((mem_positions _ _).mp ho)
  · simp

theorem back_add (x y : Tensor ℝ) (s : List Nat) (hs : broadcastShape x.shape y.shape = .ok s) (hpos : ∀ d ∈ s, d ≠ 0) :
    Back s (gradAdd x.shape y.shape) [x.shape, y.shape] fun k => if k = 0 then reads (sourceIdx x.shape) fun _ => 1
      else reads (sourceIdx y.shape) fun _ => 1 := by
  obtain ⟨hb1, hb2⟩ := broadcastShape_ok _ _ _ hs
  refine back_two fun v hv => ?_
  obtain ⟨m0, a1, a2, a3⟩ := reverse_reads v v x.shape s hv hb1 hpos (fun _ => 1) (fun o _ => (mul_one _).symm)
  obtain ⟨m1, b1, b2, b3⟩ := reverse_reads v v y.shape s hv hb2 hpos (fun _ => 1) (fun o _ => (mul_one _).symm)
  refine ⟨m0, m1, ?_, ⟨a2, by simpa using a3⟩, b2, by simpa using b3⟩
  unfold gradAdd
  rw [a1, b1]
  rfl

theorem back_sub (x y : Tensor ℝ) (s : List Nat) (hs : broadcastShape x.shape y.shape = .ok s) (hpos : ∀ d ∈ s, d ≠ 0) :
    Back s (gradSub x.shape y.shape) [x.shape, y.shape] fun k => if k = 0 then reads (sourceIdx x.shape) fun _ => 1
      else reads (sourceIdx y.shape) fun _ => -1 := by
  obtain ⟨hb1, hb2⟩ := broadcastShape_ok _ _ _ hs
  refine back_two fun v hv => ?_
  obtain ⟨m0, a1, a2, a3⟩ := reverse_reads v v x.shape s hv hb1 hpos (fun _ => 1) (fun o _ => (mul_one _).symm)
  obtain ⟨m1, b1, b2, b3⟩ := reverse_reads v v y.shape s hv hb2 hpos (fun _ => 1) (fun o _ => (mul_one _).symm)
  refine ⟨m0, map (-1 * ·) m1, ?_, ⟨a2, by simpa using a3⟩, b2, ?_⟩
  · unfold gradSub
    rw [a1, b1]
    rfl
  · intro i hi
    change -1 * m1.at_ i = _
    rw [b3 i hi, Finset.mul_sum]
    refine Finset.sum_congr rfl fun o _ => ?_
    simp only [reads, one_ne_zero, if_false]
    split <;> ring

theorem back_mul (x y : Tensor ℝ) (s : List Nat) (hs : broadcastShape x.shape y.shape = .ok s) (hpos : ∀ d ∈ s, d ≠ 0) :
    Back s (gradMul x y) [x.shape, y.shape] fun k =>
      if k = 0 then reads (sourceIdx x.shape) fun o => y.at_ (sourceIdx y.shape o)
      else reads (sourceIdx y.shape) fun o => x.at_ (sourceIdx x.shape o) := by
  obtain ⟨hb1, hb2⟩ := broadcastShape_ok _ _ _ hs
  refine back_two fun v hv => ?_
  subst hv
  obtain ⟨h0, p1, p2, p3⟩ := zip_wide (· * ·) v y hb2
  obtain ⟨h1, q1, q2, q3⟩ := zip_wide (· * ·) v x hb1
  obtain ⟨m0, a1, a2, a3⟩ := reverse_reads h0 v x.shape _ p2 hb1 hpos (fun o => y.at_ (sourceIdx y.shape o)) p3
  obtain ⟨m1, b1, b2, b3⟩ := reverse_reads h1 v y.shape _ q2 hb2 hpos (fun o => x.at_ (sourceIdx x.shape o)) q3
  refine ⟨m0, m1, ?_, ⟨a2, by simpa using a3⟩, b2, by simpa using b3⟩
  unfold gradMul
  simp only [p1, q1, bind, Except.bind, a1, b1]
  rfl

/-- a gradient that is multiplied element by element -/
theorem same_reads (m v : Tensor ℝ) (s : List Nat) (c : List Nat → ℝ) (hc : ∀ o, ValidIdx s o → m.at_ o = v.at_ o * c o) (i : List Nat)
    (hi : ValidIdx s i) : m.at_ i = ∑ o ∈ positions s, v.at_ o * reads (fun o => o) c o i := by
  simp only [reads, mul_ite, mul_zero]
  rw [Finset.sum_ite_eq', if_pos ((mem_positions _ _).mpr hi), hc i hi]

theorem back_div (x y r : Tensor ℝ) (hxy : broadcastShape x.shape y.shape = .ok x.shape) (hr : Tensor.zip (· / ·) x y = .ok r) :
    Back x.shape (gradDiv r y) [x.shape] fun _ => reads (fun o => o) fun o => (y.at_ (sourceIdx y.shape o))⁻¹ := by
  obtain ⟨-, hb⟩ := broadcastShape_ok _ _ _ hxy
  obtain ⟨r', h1, h2, h3⟩ := zip_wide (· / ·) x y hb
  obtain rfl : r' = r := by
    rw [h1] at hr
    exact Except.ok.inj hr
  intro v hv
  obtain ⟨gx, a1, a2, a3⟩ := zip_wide (· / ·) v y (hv ▸ hb)
  obtain ⟨p, b1, b2, b3⟩ := zip_same (· * ·) gx r' (by rw [h2, a2, hv])
  refine ⟨[gx, map (-1 * ·) p], ?_, ?_⟩
  · unfold gradDiv
    rw [a1]
    change (do let p ← Tensor.zip (· * ·) gx r'; return [gx, map (-1 * ·) p]) = _
    rw [b1]
    rfl
  · rintro (_ | k) w hw
    · obtain rfl : x.shape = w := by simpa using hw
      refine ⟨gx, rfl, by rw [a2, hv], ?_⟩
      refine same_reads gx v x.shape _ fun o ho => ?_
      rw [a3 o (hv ▸ ho), div_eq_mul_inv]
    · simp at hw

theorem back_div_secret (x y r : Tensor ℝ) (hxy : y.shape = x.shape) (hr : Tensor.zip (· / ·) x y = .ok r) :
    Back x.shape (gradDiv r y) [x.shape, y.shape] fun k => if k = 0 then reads (fun o => o) fun o => (y.at_ o)⁻¹
      else reads (fun o => o) fun o => -(x.at_ o / y.at_ o * (y.at_ o)⁻¹) := by
  obtain ⟨r', h1, h2, h3⟩ := zip_same (· / ·) x y hxy
  obtain rfl : r' = r := by
    rw [h1] at hr
    exact Except.ok.inj hr
  refine back_two fun v hv => ?_
  obtain ⟨gx, a1, a2, a3⟩ := zip_same (· / ·) v y (by rw [hxy, hv])
  obtain ⟨p, b1, b2, b3⟩ := zip_same (· * ·) gx r' (by rw [h2, a2, hv])
  refine ⟨gx, map (-1 * ·) p, ?_, ⟨by rw [a2, hv], ?_⟩, ?_, ?_⟩
  · unfold gradDiv
    rw [a1]
    change (do let p ← Tensor.zip (· * ·) gx r'; return [gx, map (-1 * ·) p]) = _
    rw [b1]
    rfl
  · refine same_reads gx v x.shape _ fun o ho => ?_
    rw [a3 o (hv ▸ ho), div_eq_mul_inv]
  · change p.shape = _
    rw [b2, a2, hv, hxy]
  · rw [hxy]
    refine same_reads (map (-1 * ·) p) v x.shape _ fun o ho => ?_
    change -1 * p.at_ o = _
    rw [b3 o (by rw [a2, hv]; exact ho), a3 o (hv ▸ ho), h3 o ho]
    ring

/-! ## Operations on one tensor, element by element -/

theorem map_deriv {x : ℝ → Tensor ℝ} {dx : List Nat → ℝ} (hx : Deriv x dx) (f : ℝ → ℝ) (f' : List Nat → ℝ)
    (hf : ∀ o, ValidIdx (x 0).shape o → HasDerivAt f (f' o) ((x 0).at_ o)) :
    Deriv (fun t => map f (x t)) fun o => ∑ i ∈ positions (x 0).shape, reads (fun o => o) f' o i * dx i := by
  refine ⟨hx.1, fun o ho => ?_⟩
  beta_reduce
  rw [sum_reads _ _ _ _ ho]
  exact (hf o ho).comp 0 (hx.2 o ho)

theorem back_pow (x : Tensor ℝ) (n : Nat) :
    Back x.shape (gradPow x n) [x.shape] fun _ => reads (fun o => o) fun o => n * x.at_ o ^ (n - 1) := by
  refine back_one fun v hv => ?_
  obtain ⟨r, h1, h2, h3⟩ := zip_same (· * ·) (map (fun a => a ^ (n - 1) * (n : ℝ)) x) v hv
  refine ⟨r, ?_, h2, ?_⟩
  · unfold gradPow
    rw [h1]
    rfl
  · refine same_reads r v x.shape _ fun o ho => ?_
    rw [h3 o ho]
    change x.at_ o ^ (n - 1) * n * v.at_ o = _
    ring

theorem back_sigmoid (p : Tensor ℝ) :
    Back p.shape (gradSigmoid p) [p.shape] fun _ => reads (fun o => o) fun o => p.at_ o * (1 - p.at_ o) := by
  refine back_one fun v hv => ?_
  obtain ⟨a, a1, a2, a3⟩ := zip_same (· * ·) v p hv.symm
  obtain ⟨r, h1, h2, h3⟩ := zip_same (· * ·) a (map (1 - ·) p) (by rw [a2, hv]; rfl)
  refine ⟨r, ?_, by rw [h2, a2, hv], ?_⟩
  · unfold gradSigmoid
    rw [a1]
    change (do let r ← Tensor.zip (· * ·) a (map (1 - ·) p); return [r]) = _
    rw [h1]
    rfl
  · refine same_reads r v p.shape _ fun o ho => ?_
    rw [h3 o (by rw [a2, hv]; exact ho), a3 o (hv ▸ ho)]
    change v.at_ o * p.at_ o * (1 - p.at_ o) = _
    ring

theorem back_relu (x : Tensor ℝ) :
    Back x.shape (gradReLU (map reluMask x)) [x.shape] fun _ => reads (fun o => o) fun o => reluMask (x.at_ o) := by
  refine back_one fun v hv => ?_
  obtain ⟨r, h1, h2, h3⟩ := zip_same (· * ·) v (map reluMask x) (by rw [hv]; rfl)
  refine ⟨r, ?_, by rw [h2, hv], ?_⟩
  · unfold gradReLU
    rw [h1]
    rfl
  · exact same_reads r v x.shape _ fun o ho => h3 o (hv ▸ ho)

theorem relu_deriv (a : ℝ) (ha : a ≠ 0) : HasDerivAt (fun a => a * reluMask a) (reluMask a) a := by
  rcases lt_or_gt_of_ne ha with h | h
  · have e : (fun a : ℝ => a * reluMask a) =ᶠ[nhds a] fun _ => 0 := by
      filter_upwards [Iio_mem_nhds h] with b hb
      simp only [reluMask, Set.mem_Iio] at hb ⊢
      rw [if_neg (not_lt.mpr hb.le), mul_zero]
    rw [show reluMask a = 0 by simp only [reluMask]; rw [if_neg (not_lt.mpr h.le)]]
    exact (hasDerivAt_const a (0 : ℝ)).congr_of_eventuallyEq e
  · have e : (fun a : ℝ => a * reluMask a) =ᶠ[nhds a] fun b => b := by
      filter_upwards [Ioi_mem_nhds h] with b hb
      simp only [reluMask, Set.mem_Ioi] at hb ⊢
      rw [if_pos hb, mul_one]
    rw [show reluMask a = 1 by simp only [reluMask]; rw [if_pos h]]
    exact (hasDerivAt_id a).congr_of_eventuallyEq e

/-! ## Operations that move elements -/

section
variable {x : ℝ → Tensor ℝ} {dx : List Nat → ℝ}

theorem move_deriv (hx : Deriv x dx) (s : List Nat) (ρ : List Nat → List Nat) (hρ : ∀ o, ValidIdx s o → ValidIdx (x 0).shape (ρ o))
    (out : ℝ → Tensor ℝ) (h1 : ∀ t, (out t).shape = s) (h2 : ∀ t o, ValidIdx s o → (out t).at_ o = (x t).at_ (ρ o)) :
    Deriv out fun o => ∑ i ∈ positions (x 0).shape, reads ρ (fun _ => 1) o i * dx i := by
  refine ⟨fun t => by rw [h1, h1], fun o ho => ?_⟩
  rw [h1] at ho
  beta_reduce
  rw [sum_reads _ _ _ _ (hρ o ho), one_mul]
  simp only [h2 _ o ho]
  exact hx.2 _ (hρ o ho)

end

theorem move_reads (m v : Tensor ℝ) (s w : List Nat) (ρ ρ' : List Nat → List Nat) (hρ' : ∀ i, ValidIdx w i → ValidIdx s (ρ' i))
    (hinv : ∀ i, ValidIdx w i → ρ (ρ' i) = i) (hinj : ∀ o, ValidIdx s o → ρ' (ρ o) = o)
    (hm : ∀ i, ValidIdx w i → m.at_ i = v.at_ (ρ' i)) (i : List Nat) (hi : ValidIdx w i) :
    m.at_ i = ∑ o ∈ positions s, v.at_ o * reads ρ (fun _ => 1) o i := by
  rw [hm i hi, Finset.sum_eq_single (ρ' i)]
  · simp [reads, hinv i hi]
  · intro o ho hne
    have : ρ o ≠ i := by
      rintro rfl
      exact hne (hinj o ((mem_positions _ _).mp ho)).symm
    simp [reads, this]
  · intro h
    exact absurd ((mem_positions _ _).mpr (hρ' i hi)) h

theorem numel_flat_lt (s i : List Nat) (h : ValidIdx s i) : flat s i < numel s := by
  induction s generalizing i with
  | nil =>
    cases i with
    | nil => simp [flat, numel]
    | cons a i => exact absurd h (by simp [ValidIdx])
  | cons d s ih =>
    cases i with
    | nil => exact absurd h (by simp [ValidIdx])
    | cons a i =>
      have h1 := ih i h.2
      have h2 := h.1
      simp only [flat, numel]
      calc a * numel s + flat s i < a * numel s + numel s := by omega
        _ = (a + 1) * numel s := by ring
        _ ≤ d * numel s := Nat.mul_le_mul_right _ h2

theorem unflat_flat (s i : List Nat) (h : ValidIdx s i) : unflat s (flat s i) = i := by
  induction s generalizing i with
  | nil =>
    cases i with
    | nil => rfl
    | cons a i => exact absurd h (by simp [ValidIdx])
  | cons d s ih =>
    cases i with
    | nil => exact absurd h (by simp [ValidIdx])
    | cons a i =>
      have h1 := numel_flat_lt s i h.2
      simp only [flat, unflat]
      rw [Nat.mul_comm, Nat.mul_add_div (by omega), Nat.div_eq_of_lt h1, Nat.mul_add_mod, Nat.mod_eq_of_lt h1, ih i h.2, Nat.add_zero]

theorem unflat_valid (s : List Nat) (n : Nat) (h : n < numel s) : ValidIdx s (unflat s n) ∧ flat s (unflat s n) = n := by
  induction s generalizing n with
  | nil =>
    simp only [numel] at h
    exact ⟨trivial, by simp only [flat]; omega⟩
  | cons d s ih =>
    simp only [numel] at h
    have hs : 0 < numel s := by
      by_contra hc
      have : numel s = 0 := by omega
      rw [this] at h
      omega
    obtain ⟨h1, h2⟩ := ih (n % numel s) (Nat.mod_lt _ hs)
    refine ⟨⟨(Nat.div_lt_iff_lt_mul hs).mpr h, h1⟩, ?_⟩
    simp only [unflat, flat, h2]
    rw [Nat.mul_comm]
    exact Nat.div_add_mod n _

theorem back_reshape (w s : List Nat) (h : numel s = numel w) :
    Back s (gradReshape w) [w] fun _ => reads (fun o => unflat w (flat s o)) fun _ => 1 := by
  refine back_one fun v hv => ?_
  subst hv
  refine ⟨⟨w, fun idx => v.at_ (unflat v.shape (flat w idx))⟩, ?_, rfl, ?_⟩
  · unfold gradReshape reshape
    rw [if_pos h.symm]
    rfl
  · refine move_reads _ v v.shape w (fun o => unflat w (flat v.shape o)) (fun i => unflat v.shape (flat w i)) ?_ ?_ ?_ fun i _ => rfl
    · intro i hi
      exact (unflat_valid _ _ (by rw [h]; exact numel_flat_lt _ _ hi)).1
    · intro i hi
      rw [(unflat_valid v.shape _ (by rw [h]; exact numel_flat_lt _ _ hi)).2, unflat_flat _ _ hi]
    · intro o ho
      rw [(unflat_valid w _ (by rw [← h]; exact numel_flat_lt _ _ ho)).2, unflat_flat _ _ ho]

/-- the positions of a transposed tensor -/
def swap : List Nat → List Nat
  | [i, j] => [j, i]
  | idx => idx

theorem swap_swap (i : List Nat) : swap (swap i) = i := by
  match i with
  | [] => rfl
  | [_] => rfl
  | [_, _] => rfl
  | _ :: _ :: _ :: _ => rfl

theorem swap_valid (s i : List Nat) (h : ValidIdx s i) : ValidIdx (swap s) (swap i) := by
  have hl := h.length
  match s, i with
  | [], [] => exact h
  | [_], [_] => exact h
  | [_, _], [_, _] => exact ⟨h.2.1, h.1, trivial⟩
  | _ :: _ :: _ :: _, _ :: _ :: _ :: _ => exact h

theorem transpose_ok (x : Tensor ℝ) (h : x.shape.length ≤ 2) :
    ∃ r, transpose x = .ok r ∧ r.shape = swap x.shape ∧ ∀ o, ValidIdx r.shape o → r.at_ o = x.at_ (swap o) := by
  unfold transpose
  match hx : x.shape with
  | [] =>
    refine ⟨x, rfl, hx, fun o ho => ?_⟩
    have := ho.length
    rw [hx] at this
    obtain rfl : o = [] := List.length_eq_zero_iff.mp (by simpa using this)
    rfl
  | [n] =>
    refine ⟨x, rfl, hx, fun o ho => ?_⟩
    have := ho.length
    rw [hx] at this
    obtain ⟨a, rfl⟩ := List.length_eq_one_iff.mp (by simpa using this)
    rfl
  | [n, m] =>
    refine ⟨_, rfl, rfl, fun o ho => ?_⟩
    have := ho.length
    obtain ⟨a, b, rfl⟩ := List.length_eq_two.mp (by simpa using this)
    rfl
  | _ :: _ :: _ :: _ =>
    rw [hx] at h
    simp at h

theorem back_t (w : List Nat) (h : w.length ≤ 2) : Back (swap w) gradT [w] fun _ => reads swap fun _ => 1 := by
  refine back_one fun v hv => ?_
  have hl : v.shape.length ≤ 2 := by
    rw [hv]
    match w with
    | [] => simp [swap]
    | [_] => simp [swap]
    | [_, _] => simp [swap]
    | _ :: _ :: _ :: _ => simp at h
  obtain ⟨r, h1, h2, h3⟩ := transpose_ok v hl
  have hs : r.shape = w := by rw [h2, hv, swap_swap]
  refine ⟨r, ?_, hs, ?_⟩
  · unfold gradT
    rw [h1]
    rfl
  · exact move_reads r v (swap w) w swap swap (fun i hi => swap_valid _ _ hi) (fun i _ => swap_swap i) (fun o _ => swap_swap o)
      fun i hi => h3 i (by rw [hs]; exact hi)

/-! ## Sums and products of matrices -/

theorem sum_deriv {x : ℝ → Tensor ℝ} {dx : List Nat → ℝ} (hx : Deriv x dx) :
    Deriv (fun t => sumAll (x t)) fun _ => ∑ i ∈ positions (x 0).shape, 1 * dx i := by
  refine ⟨fun _ => rfl, fun o _ => ?_⟩
  have e : (fun t => (sumAll (x t)).at_ o) = fun t => ∑ i ∈ positions (x 0).shape, (x t).at_ i := by
    funext t
    change ((indices (x t).shape).map (x t).at_).sum = _
    rw [← sum_positions, hx.1 t]
  rw [e]
  refine HasDerivAt.fun_sum fun i hi => ?_
  rw [one_mul]
  exact hx.2 i ((mem_positions _ _).mp hi)

theorem back_sum (w : List Nat) : Back [] (gradSum w) [w] fun _ _ _ => 1 := by
  refine back_one fun v hv => ?_
  have hs : broadcastShape v.shape (ones (T := ℝ) w).shape = .ok w := by
    rw [hv]
    change Except.ok w.reverse.reverse = _
    rw [List.reverse_reverse]
  refine ⟨⟨w, fun idx => v.at_ (sourceIdx v.shape idx) * (ones (T := ℝ) w).at_ (sourceIdx (ones (T := ℝ) w).shape idx)⟩,
    ?_, ?_, ?_⟩
  · unfold gradSum
    rw [zip_ok _ _ _ _ hs]
    rfl
  · rfl
  · intro i _
    simp [hv, sourceIdx, ones, positions, indices]

theorem sum_matrix (n m : Nat) (f : List Nat → ℝ) :
    ∑ o ∈ positions [n, m], f o = ∑ i ∈ Finset.range n, ∑ j ∈ Finset.range m, f [i, j] := by
  rw [sum_positions_cons]
  refine Finset.sum_congr rfl fun i _ => ?_
  rw [sum_positions_cons]
  refine Finset.sum_congr rfl fun j _ => ?_
  simp [positions, indices]

/-- element `idx` of the product -/
def mm (k : Nat) (a b : List Nat → ℝ) (idx : List Nat) : ℝ := ∑ l ∈ Finset.range k, a [idx.getD 0 0, l] * b [l, idx.getD 1 0]

theorem matmul_ok (x y : Tensor ℝ) (n k m : Nat) (hx : x.shape = [n, k]) (hy : y.shape = [k, m]) :
    matmul x y = .ok ⟨[n, m], mm k x.at_ y.at_⟩ := by
  unfold matmul
  rw [hx, hy]
  simp only [if_true]
  congr 2

/-- the derivatives of a product of matrices by the elements of the first and of the second -/
def mmJ (x y : List Nat → ℝ) (k : Nat) (o i : List Nat) : ℝ :=
  if k = 0 then if o.getD 0 0 = i.getD 0 0 then y [i.getD 1 0, o.getD 1 0] else 0
  else if o.getD 1 0 = i.getD 1 0 then x [o.getD 0 0, i.getD 0 0] else 0

theorem matmul_deriv {x y : ℝ → Tensor ℝ} {dx dy : List Nat → ℝ} (hx : Deriv x dx) (hy : Deriv y dy) (n k m : Nat)
    (hxs : (x 0).shape = [n, k]) (hys : (y 0).shape = [k, m]) :
    ∃ out : ℝ → Tensor ℝ, (∀ t, matmul (x t) (y t) = .ok (out t)) ∧ (out 0).shape = [n, m] ∧
      Deriv out fun o => ∑ i ∈ positions (x 0).shape, mmJ (x 0).at_ (y 0).at_ 0 o i * dx i
        + ∑ i ∈ positions (y 0).shape, mmJ (x 0).at_ (y 0).at_ 1 o i * dy i := by
  refine ⟨fun t => ⟨[n, m], mm k (x t).at_ (y t).at_⟩, ?_, rfl, fun _ => rfl, ?_⟩
  · intro t
    exact matmul_ok _ _ n k m (by rw [hx.1, hxs]) (by rw [hy.1, hys])
  · intro o ho
    have hl := ho.length
    obtain ⟨a, b, rfl⟩ := List.length_eq_two.mp (by simpa using hl)
    obtain ⟨ha, hb, -⟩ : a < n ∧ b < m ∧ True := ho
    have e1 : ∑ i ∈ positions (x 0).shape, mmJ (x 0).at_ (y 0).at_ 0 [a, b] i * dx i
        = ∑ l ∈ Finset.range k, (y 0).at_ [l, b] * dx [a, l] := by
      rw [hxs, sum_matrix, Finset.sum_eq_single a]
      · refine Finset.sum_congr rfl fun l _ => ?_
        simp [mmJ]
      · intro c _ hc
        refine Finset.sum_eq_zero fun l _ => ?_
        simp [mmJ, Ne.symm hc]
      · intro h
        exact absurd (Finset.mem_range.mpr ha) h
    have e2 : ∑ i ∈ positions (y 0).shape, mmJ (x 0).at_ (y 0).at_ 1 [a, b] i * dy i
        = ∑ l ∈ Finset.range k, (x 0).at_ [a, l] * dy [l, b] := by
      rw [hys, sum_matrix]
      refine Finset.sum_congr rfl fun l _ => ?_
      rw [Finset.sum_eq_single b]
      · simp [mmJ]
      · intro c _ hc
        simp [mmJ, Ne.symm hc]
      · intro h
        exact absurd (Finset.mem_range.mpr hb) h
    beta_reduce
    rw [e1, e2, ← Finset.sum_add_distrib]
    change HasDerivAt (fun t => ∑ l ∈ Finset.range k, (x t).at_ [a, l] * (y t).at_ [l, b]) _ 0
    refine HasDerivAt.fun_sum fun l hl => ?_
    rw [Finset.mem_range] at hl
    have h1 := hx.2 [a, l] (by rw [hxs]; exact ⟨ha, hl, trivial⟩)
    have h2 := hy.2 [l, b] (by rw [hys]; exact ⟨hl, hb, trivial⟩)
    exact (h1.mul h2).congr_deriv (by ring)

theorem back_matmul (x y : Tensor ℝ) (n k m : Nat) (hx : x.shape = [n, k]) (hy : y.shape = [k, m]) :
    Back [n, m] (gradMatMul x y) [x.shape, y.shape] (mmJ x.at_ y.at_) := by
  refine back_two fun v hv => ?_
  obtain ⟨yt, a1, a2, a3⟩ := transpose_ok y (by rw [hy]; simp)
  obtain ⟨xt, b1, b2, b3⟩ := transpose_ok x (by rw [hx]; simp)
  rw [hy] at a2
  rw [hx] at b2
  refine ⟨⟨[n, k], mm m v.at_ yt.at_⟩, ⟨[k, m], mm n xt.at_ v.at_⟩, ?_, ⟨hx.symm, ?_⟩, hy.symm, ?_⟩
  · unfold gradMatMul
    simp only [hx, hy, List.length_cons, List.length_nil, Nat.reduceAdd, Nat.lt_irrefl, if_false, pure, Except.pure, bind, Except.bind,
      a1, b1, matmul_ok v yt n m k hv a2, matmul_ok xt v k n m b2 hv]
    simp
  · intro i hi
    rw [hx] at hi
    have hl := hi.length
    obtain ⟨a, b, rfl⟩ := List.length_eq_two.mp (by simpa using hl)
    obtain ⟨ha, hb, -⟩ : a < n ∧ b < k ∧ True := hi
    change (∑ l ∈ Finset.range m, v.at_ [a, l] * yt.at_ [l, b]) = _
    symm
    rw [sum_matrix, Finset.sum_eq_single a]
    · refine Finset.sum_congr rfl fun l hl => ?_
      rw [Finset.mem_range] at hl
      have := a3 [l, b] (by rw [a2]; exact ⟨hl, hb, trivial⟩)
      simp [mmJ, this, swap]
    · intro c _ hc
      refine Finset.sum_eq_zero fun l _ => ?_
      simp [mmJ, hc]
    · intro h
      exact absurd (Finset.mem_range.mpr ha) h
  · intro i hi
    rw [hy] at hi
    have hl := hi.length
    obtain ⟨a, b, rfl⟩ := List.length_eq_two.mp (by simpa using hl)
    obtain ⟨ha, hb, -⟩ : a < k ∧ b < m ∧ True := hi
    change (∑ l ∈ Finset.range n, xt.at_ [a, l] * v.at_ [l, b]) = _
    rw [sum_matrix]
    refine Finset.sum_congr rfl fun l hl => ?_
    rw [Finset.mem_range] at hl
    have := b3 [a, l] (by rw [b2]; exact ⟨ha, hl, trivial⟩)
    rw [Finset.sum_eq_single b]
    · simp [mmJ, this, swap, mul_comm]
    · intro c _ hc
      simp [mmJ, hc]
    · intro h
      exact absurd (Finset.mem_range.mpr hb) h

end SyMPC.Grad
