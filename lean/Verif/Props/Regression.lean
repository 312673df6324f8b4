import Verif.Model.Regression
import Verif.Props.ShapeFixed
import Verif.Props.RstShapeFixed
import Mathlib.Algebra.BigOperators.Ring.Finset
import Mathlib.Algebra.BigOperators.Group.Finset.Sigma

/-!
# C92: training a linear model on secrets
-/

namespace SyMPC.Regression

open Tensor Shape
open FixedPointEncoder (Val)
open Program (Estimate given numOf)
open RShape (Piece run_piece method_piece CanAll supported RDraws RSecret reconstruct)

/-! ## Specification -/

/-- the outputs of the linear model with `d` weights for each output -/
def predict (d : Nat) (X W : Nat → Nat → ℚ) (i k : Nat) : ℚ := ∑ j ∈ Finset.range d, X i j * W j k

/-- the sum of the squared errors -/
def loss (n d m : Nat) (X Y W : Nat → Nat → ℚ) : ℚ := ∑ i ∈ Finset.range n, ∑ k ∈ Finset.range m, (predict d X W i k - Y i k) ^ 2

/-- the derivatives of the loss -/
def gradient (n d : Nat) (X Y W : Nat → Nat → ℚ) (j k : Nat) : ℚ := 2 * ∑ i ∈ Finset.range n, X i j * (predict d X W i k - Y i k)

/-- one step of gradient descent -/
def descend (lr : ℚ) (n d : Nat) (X Y W : Nat → Nat → ℚ) : Nat → Nat → ℚ := fun j k => W j k - lr * gradient n d X Y W j k

/-- the matrix in a tensor -/
def matrix (t : Tensor Val) : Nat → Nat → ℚ := fun i j => numOf (t.at_ [i, j])

/-- gradient descent over all batches -/
def trained (lr : ℚ) (d : Nat) (l : List Batch) (W : Nat → Nat → ℚ) : Nat → Nat → ℚ :=
  l.foldl (fun W e => descend lr e.n d (matrix e.x) (matrix e.y) W) W

/-- what the specification calls the gradient is the linear part of the loss -/
theorem gradient_spec (n d m : Nat) (X Y W H : Nat → Nat → ℚ) :
    loss n d m X Y (fun j k => W j k + H j k) = loss n d m X Y W + ∑ j ∈ Finset.range d, ∑ k ∈ Finset.range m, gradient n d X Y W j k * H j k
      + ∑ i ∈ Finset.range n, ∑ k ∈ Finset.range m, predict d X H i k ^ 2 := by
  have e1 : ∀ i k, predict d X (fun j k => W j k + H j k) i k = predict d X W i k + predict d X H i k := by
    intro i k
    unfold predict
    rw [← Finset.sum_add_distrib]
    exact Finset.sum_congr rfl fun j _ => by ring
  have e2 : ∑ j ∈ Finset.range d, ∑ k ∈ Finset.range m, gradient n d X Y W j k * H j k
      = ∑ i ∈ Finset.range n, ∑ k ∈ Finset.range m, 2 * (predict d X W i k - Y i k) * predict d X H i k := by
    have : ∀ j k, gradient n d X Y W j k * H j k = ∑ i ∈ Finset.range n, 2 * (predict d X W i k - Y i k) * (X i j * H j k) := by
      intro j k
      unfold gradient
      rw [Finset.mul_sum, Finset.sum_mul]
      exact Finset.sum_congr rfl fun i _ => by ring
    simp only [this]
    rw [Finset.sum_comm]
    rw [Finset.sum_congr rfl fun k _ => Finset.sum_comm]
    rw [Finset.sum_comm]
    refine Finset.sum_congr rfl fun i _ => Finset.sum_congr rfl fun k _ => ?_
    rw [show predict d X H i k = ∑ j ∈ Finset.range d, X i j * H j k from rfl, Finset.mul_sum]
  unfold loss
  rw [e2, ← Finset.sum_add_distrib, ← Finset.sum_add_distrib]
  refine Finset.sum_congr rfl fun i _ => ?_
  rw [← Finset.sum_add_distrib, ← Finset.sum_add_distrib]
  refine Finset.sum_congr rfl fun k _ => ?_
  rw [e1]
  ring

/-! ## Proof: the training loop in the clear -/

/-- what is known of a tensor: its position, shape and elements -/
abbrev Fact := Nat × List Nat × (List Nat → ℚ)

/-- the tensors are as known -/
def Knows (env : List (Tensor ℚ)) (l : List Fact) : Prop := ∀ e ∈ l, ∃ t, env[e.1]? = some t ∧ Piece e.2.1 e.2.2 t

/-- the parties can do the program, it runs, and afterwards `Q` -/
def Does (sec : Security) (prog : List (Step ℚ)) (env : List (Tensor ℚ)) (Q : List (Tensor ℚ) → Prop) : Prop :=
  CanAll sec prog env ∧ ∃ env', clear prog env = .ok env' ∧ Q env'

theorem Knows.push {env : List (Tensor ℚ)} {l : List Fact} (h : Knows env l) {r : Tensor ℚ} {s : List Nat} {f : List Nat → ℚ} (hr : Piece s f r) :
    Knows (env ++ [r]) ((env.length, s, f) :: l) := by
  intro e he
  rcases List.mem_cons.mp he with rfl | he
  · exact ⟨r, by simp, hr⟩
  · obtain ⟨t, h1, h2⟩ := h e he
    exact ⟨t, by rw [List.getElem?_append_left (List.getElem?_eq_some_iff.mp h1).1]; exact h1, h2⟩

theorem pyGet_some {env : List (Tensor ℚ)} {i : Nat} {t : Tensor ℚ} (h : env[i]? = some t) : pyGet env i = .ok t := by
  unfold pyGet
  rw [h]

section

variable {sec : Security} {env : List (Tensor ℚ)} {l : List Fact} {prog : List (Step ℚ)} {Q : List (Tensor ℚ) → Prop}

theorem does_step {st : Step ℚ} {z : List Nat} {f : List Nat → ℚ} (hk : Knows env l)
    (hfit : ∀ op i y v, st = .public op i y → env[i]? = some v → Fits op v y)
    (hsup : ∀ m i, st = .method m i → supported m) (hne : ∀ op i j, st = .both op i j → sec = .malicious → ∃ o, ValidIdx z o)
    (hs : ∃ r, st.clear env = .ok r ∧ Piece z f r)
    (next : ∀ env', env'.length = env.length + 1 → Knows env' ((env.length, z, f) :: l) → Does sec prog env' Q) :
    Does sec (st :: prog) env Q := by
  obtain ⟨r, h1, h2⟩ := hs
  obtain ⟨n1, env', n2, n3⟩ := next (env ++ [r]) (by simp) (hk.push h2)
  refine ⟨⟨⟨hfit, hsup, fun hm op i j u hu _ hc => ?_⟩, fun r' hr' => ?_⟩, env', ?_, n3⟩
  · rw [h1] at hc
    cases hc
    rw [h2.1]
    exact hne op i j hu hm
  · rw [h1] at hr'
    cases hr'
    exact n1
  · unfold clear
    rw [h1, ok_bind]
    exact n2

theorem Piece.congr {s : List Nat} {f g : List Nat → ℚ} {t : Tensor ℚ} (h : Piece s f t) (hfg : ∀ o, ValidIdx s o → f o = g o) : Piece s g t :=
  ⟨h.1, fun o ho => (h.2 o ho).trans (hfg o ho)⟩

theorem does_both {op : Shape.BinOp} {i j : Nat} {s s' z : List Nat} {f g h : List Nat → ℚ} (hk : Knows env l) (a : Nat) (hi : l[a]? = some (i, s, f))
    (a' : Nat) (hj : l[a']? = some (j, s', g)) (hz : op.shape s s' = .ok z)
    (hne : sec = .malicious → ∃ o, ValidIdx z o) (hh : ∀ o, ValidIdx z o → elem op s s' f g o = h o)
    (next : ∀ env', env'.length = env.length + 1 → Knows env' ((env.length, z, h) :: l) → Does sec prog env' Q) :
    Does sec (.both op i j :: prog) env Q := by
  obtain ⟨t, h1, h2⟩ := hk _ (List.mem_of_getElem? hi)
  dsimp only at h1 h2
  obtain ⟨t', i1, i2⟩ := hk _ (List.mem_of_getElem? hj)
  dsimp only at i1 i2
  obtain ⟨r, j1, j2⟩ := run_piece op h2 i2 hz
  refine does_step hk (fun _ _ _ _ h => by cases h) (fun _ _ h => by cases h) (fun _ _ _ _ => hne) ⟨r, ?_, Piece.congr j2 hh⟩ next
  simp only [Step.clear]
  rw [pyGet_some h1, ok_bind, pyGet_some i1, ok_bind, j1]

theorem does_public {i : Nat} {s z : List Nat} {f h : List Nat → ℚ} {y : Operand ℚ} (hk : Knows env l) (a : Nat) (hi : l[a]? = some (i, s, f))
    (hy : ∀ a, y = .number a → s ≠ []) (hz : Shape.BinOp.mul.shape s y.plain.shape = .ok z)
    (hh : ∀ o, ValidIdx z o → elem .mul s y.plain.shape f y.plain.at_ o = h o)
    (next : ∀ env', env'.length = env.length + 1 → Knows env' ((env.length, z, h) :: l) → Does sec prog env' Q) :
    Does sec (.public .mul i y :: prog) env Q := by
  obtain ⟨t, h1, h2⟩ := hk _ (List.mem_of_getElem? hi)
  dsimp only at h1 h2
  obtain ⟨r, j1, j2⟩ := run_piece .mul h2 (RShape.Piece.refl y.plain) hz
  refine does_step hk (fun op' i' y' v hst hv => ?_) (fun _ _ h => by cases h) (fun _ _ _ h => by cases h) ⟨r, ?_, Piece.congr j2 hh⟩ next
  · cases hst
    rw [h1] at hv
    cases hv
    cases y with
    | number a => exact ⟨by decide, by rw [h2.1]; exact hy a rfl⟩
    | tensor t => exact fun hop => by rcases hop with h | h <;> cases h
  · simp only [Step.clear]
    rw [pyGet_some h1, ok_bind, j1]

theorem does_method {m : Method} {i : Nat} {s z : List Nat} {src : List Nat → List (List Nat)} {f h : List Nat → ℚ} (hk : Knows env l)
    (a : Nat) (hi : l[a]? = some (i, s, f)) (hsup : supported m) (hz : m.plan s = .ok (z, src)) (hh : ∀ o, ValidIdx z o → ((src o).map f).sum = h o)
    (next : ∀ env', env'.length = env.length + 1 → Knows env' ((env.length, z, h) :: l) → Does sec prog env' Q) :
    Does sec (.method m i :: prog) env Q := by
  obtain ⟨t, h1, h2⟩ := hk _ (List.mem_of_getElem? hi)
  dsimp only at h1 h2
  obtain ⟨r, j1, j2⟩ := method_piece m hz h2
  refine does_step hk (fun _ _ _ _ h => by cases h) (fun _ _ h => by cases h; exact hsup) (fun _ _ _ h => by cases h) ⟨r, ?_, Piece.congr j2 hh⟩ next
  simp only [Step.clear]
  rw [pyGet_some h1, ok_bind, j1]

theorem does_nil (h : Q env) : Does sec [] env Q := ⟨trivial, env, rfl, h⟩

end

/-! ### Shapes and elements -/

theorem valid_two {a b : Nat} {o : List Nat} (h : ValidIdx [a, b] o) : ∃ i k, o = [i, k] ∧ i < a ∧ k < b := by
  match o, h with
  | [i, k], h => exact ⟨i, k, rfl, h.1, h.2.1⟩

theorem broadcast_self (s : List Nat) : broadcastShape s s = .ok s := by
  obtain ⟨r, h1, h2, -⟩ := Grad.zip_same (fun _ _ : Unit => ()) (⟨s, fun _ => ()⟩ : Tensor Unit) ⟨s, fun _ => ()⟩ rfl
  rw [zip_eq] at h1
  cases h : broadcastShape s s with
  | error e =>
    dsimp only at h1
    rw [h] at h1
    cases h1
  | ok z =>
    dsimp only at h1
    rw [h] at h1
    cases h1
    exact congrArg _ h2

theorem source_self {s o : List Nat} (h : ValidIdx s o) : sourceIdx s o = o := by
  obtain ⟨r, h1, h2, h3⟩ := Grad.zip_same (fun a _ : List Nat => a) (⟨s, fun o => o⟩ : Tensor (List Nat)) ⟨s, fun o => o⟩ rfl
  rw [zip_eq, show (⟨s, fun o => o⟩ : Tensor (List Nat)).shape = s from rfl, broadcast_self s] at h1
  cases h1
  exact h3 o h

theorem broadcast_nil (s : List Nat) : broadcastShape [] s = .ok s := by
  unfold broadcastShape
  rw [List.reverse_nil]
  show Except.ok s.reverse.reverse = _
  rw [List.reverse_reverse]

theorem broadcast_nil' (s : List Nat) : broadcastShape s [] = .ok s := by
  unfold broadcastShape
  rw [List.reverse_nil]
  have : ∀ x, broadcastRev x [] = .ok x := by
    intro x
    cases x <;> rfl
  rw [this]
  show Except.ok s.reverse.reverse = _
  rw [List.reverse_reverse]

/-- a matrix as the elements of a tensor -/
def at2 (F : Nat → Nat → ℚ) : List Nat → ℚ := fun o => F (o.getD 0 0) (o.getD 1 0)

theorem elem_mul_same (a b : Nat) (F G : Nat → Nat → ℚ) (o : List Nat) (ho : ValidIdx [a, b] o) :
    elem .mul [a, b] [a, b] (at2 F) (at2 G) o = at2 (fun i k => F i k * G i k) o := by
  show at2 F (sourceIdx _ o) * at2 G (sourceIdx _ o) = _
  rw [source_self ho]
  rfl

theorem elem_sub_same (a b : Nat) (F G : Nat → Nat → ℚ) (o : List Nat) (ho : ValidIdx [a, b] o) :
    elem .sub [a, b] [a, b] (at2 F) (at2 G) o = at2 (fun i k => F i k - G i k) o := by
  show at2 F (sourceIdx _ o) - at2 G (sourceIdx _ o) = _
  rw [source_self ho]
  rfl

theorem elem_mul_const (a b : Nat) (F : Nat → Nat → ℚ) (c : ℚ) (o : List Nat) (ho : ValidIdx [a, b] o) :
    elem .mul [a, b] [] (at2 F) (fun _ => c) o = at2 (fun i k => F i k * c) o := by
  show at2 F (sourceIdx _ o) * c = _
  rw [source_self ho]
  rfl

theorem elem_mul_ones (s : List Nat) (f : List Nat → ℚ) (c : ℚ) (o : List Nat) :
    elem .mul [] s f (fun _ => c) o = at2 (fun _ _ => f [] * c) o := rfl

theorem elem_matmul (a b c : Nat) (F G : Nat → Nat → ℚ) (o : List Nat) :
    elem .matmul [a, c] [c, b] (at2 F) (at2 G) o = at2 (fun i k => ∑ j ∈ Finset.range c, F i j * G j k) o := by
  show ((List.range c).map _).sum = ∑ j ∈ Finset.range c, _
  simp only [Finset.sum, Finset.range, Multiset.range, Multiset.map_coe, Multiset.sum_coe]
  rfl

theorem shape_same (op : Shape.BinOp) (hop : op = .sub ∨ op = .mul) (s : List Nat) : op.shape s s = .ok s := by
  rw [shape_eq]
  rcases hop with rfl | rfl <;> exact broadcast_self s

theorem shape_matmul (a b c : Nat) : Shape.BinOp.matmul.shape [a, c] [c, b] = .ok [a, b] := by
  rw [shape_eq]
  simp [matShape]

theorem sum_t (F : Nat → Nat → ℚ) (a b : Nat) (o : List Nat) (ho : ValidIdx [b, a] o) :
    (([o.reverse] : List (List Nat)).map (at2 F)).sum = at2 (fun i k => F k i) o := by
  obtain ⟨i, k, rfl, -, -⟩ := valid_two ho
  simp [at2]

theorem shape_const (s : List Nat) : Shape.BinOp.mul.shape s [] = .ok s := by
  rw [shape_eq]
  exact broadcast_nil' s

theorem shape_ones (s : List Nat) : Shape.BinOp.mul.shape [] s = .ok s := by
  rw [shape_eq]
  exact broadcast_nil s

theorem two_valid {a b : Nat} (ha : 0 < a) (hb : 0 < b) : ∃ o, ValidIdx [a, b] o := ⟨[0, 0], ha, hb, trivial⟩

/-- one round in the clear is one step of gradient descent -/
theorem does_round (n d m : Nat) (lr : Val) (w x y one b : Nat) (W X Y : Nat → Nat → ℚ) (rest : List Fact) {sec : Security}
    {env : List (Tensor ℚ)} {prog : List (Step ℚ)} {Q : List (Tensor ℚ) → Prop} (hb : env.length = b)
    (hk : Knows env ((w, [d, m], at2 W) :: (x, [n, d], at2 X) :: (y, [n, m], at2 Y) :: (one, [], fun _ => 1) :: rest))
    (hG : sec = .malicious → 0 < n ∧ 0 < d ∧ 0 < m)
    (hQ : ∀ env', env'.length = b + 20 → Knows env' ((b + 19, [d, m], at2 (descend (numOf lr) n d X Y W)) :: rest) → Does sec prog env' Q) :
    Does sec ((round n m lr w x y one b).map (Step.map numOf) ++ prog) env Q := by
  have hnm : sec = .malicious → ∃ o, ValidIdx [n, m] o := fun h => two_valid (hG h).1 (hG h).2.2
  have hnd : sec = .malicious → ∃ o, ValidIdx [n, d] o := fun h => two_valid (hG h).1 (hG h).2.1
  have hdm : sec = .malicious → ∃ o, ValidIdx [d, m] o := fun h => two_valid (hG h).2.1 (hG h).2.2
  show Does sec (_ :: _ :: _ :: _ :: _ :: _ :: _ :: _ :: _ :: _ :: _ :: _ :: _ :: _ :: _ :: _ :: _ :: _ :: _ :: _ :: prog) env Q
  refine does_both hk 1 rfl 0 rfl (shape_matmul _ _ _) hnm (fun o _ => elem_matmul _ _ _ _ _ o) fun e1 l1 k1 => ?_
  rw [hb] at l1 k1
  refine does_both k1 0 rfl 3 rfl (shape_same _ (.inl rfl) _) hnm (elem_sub_same _ _ _ _) fun e2 l2 k2 => ?_
  rw [l1] at l2 k2
  replace l2 : e2.length = b + 2 := l2
  refine does_both k2 0 rfl 0 rfl (shape_same _ (.inr rfl) _) hnm (elem_mul_same _ _ _ _) fun e3 l3 k3 => ?_
  rw [l2] at l3 k3
  replace l3 : e3.length = b + 3 := l3
  refine does_public k3 0 rfl (fun _ _ => by simp) (shape_const _) (elem_mul_const _ _ _ _) fun e4 l4 k4 => ?_
  rw [l3] at l4 k4
  replace l4 : e4.length = b + 4 := l4
  refine does_both k4 1 rfl 1 rfl (shape_same _ (.inr rfl) _) hnm (elem_mul_same _ _ _ _) fun e5 l5 k5 => ?_
  rw [l4] at l5 k5
  replace l5 : e5.length = b + 5 := l5
  refine does_method k5 1 rfl rfl rfl (fun _ _ => rfl) fun e6 l6 k6 => ?_
  rw [l5] at l6 k6
  replace l6 : e6.length = b + 6 := l6
  refine does_public k6 9 rfl (fun _ h => by cases h) (shape_ones _) (fun o _ => elem_mul_ones _ _ _ o) fun e7 l7 k7 => ?_
  rw [l6] at l7 k7
  replace l7 : e7.length = b + 7 := l7
  refine does_public k7 5 rfl (fun _ _ => by simp) (shape_const _) (elem_mul_const _ _ _ _) fun e8 l8 k8 => ?_
  rw [l7] at l8 k8
  replace l8 : e8.length = b + 8 := l8
  refine does_both k8 6 rfl 6 rfl (shape_same _ (.inr rfl) _) hnm (elem_mul_same _ _ _ _) fun e9 l9 k9 => ?_
  rw [l8] at l9 k9
  replace l9 : e9.length = b + 9 := l9
  refine does_public k9 1 rfl (fun _ _ => by simp) (shape_const _) (elem_mul_const _ _ _ _) fun e10 l10 k10 => ?_
  rw [l9] at l10 k10
  replace l10 : e10.length = b + 10 := l10
  refine does_both k10 0 rfl 3 rfl (shape_same _ (.inr rfl) _) hnm (elem_mul_same _ _ _ _) fun e11 l11 k11 => ?_
  rw [l10] at l11 k11
  replace l11 : e11.length = b + 11 := l11
  refine does_public k11 0 rfl (fun _ _ => by simp) (shape_const _) (elem_mul_const _ _ _ _) fun e12 l12 k12 => ?_
  rw [l11] at l12 k12
  replace l12 : e12.length = b + 12 := l12
  refine does_method k12 1 rfl rfl rfl (fun _ _ => List.sum_singleton) fun e13 l13 k13 => ?_
  rw [l12] at l13 k13
  replace l13 : e13.length = b + 13 := l13
  refine does_method k13 2 rfl rfl rfl (fun _ _ => List.sum_singleton) fun e14 l14 k14 => ?_
  rw [l13] at l14 k14
  replace l14 : e14.length = b + 14 := l14
  refine does_method k14 14 rfl rfl rfl (sum_t _ _ _) fun e15 l15 k15 => ?_
  rw [l14] at l15 k15
  replace l15 : e15.length = b + 15 := l15
  refine does_both k15 2 rfl 0 rfl (shape_matmul _ _ _) hnd (fun o _ => elem_matmul _ _ _ _ _ o) fun e16 l16 k16 => ?_
  rw [l15] at l16 k16
  replace l16 : e16.length = b + 16 := l16
  refine does_method k16 17 rfl rfl rfl (sum_t _ _ _) fun e17 l17 k17 => ?_
  rw [l16] at l17 k17
  replace l17 : e17.length = b + 17 := l17
  refine does_both k17 0 rfl 3 rfl (shape_matmul _ _ _) hdm (fun o _ => elem_matmul _ _ _ _ _ o) fun e18 l18 k18 => ?_
  rw [l17] at l18 k18
  replace l18 : e18.length = b + 18 := l18
  refine does_public k18 0 rfl (fun _ _ => by simp) (shape_const _) (elem_mul_const _ _ _ (numOf lr)) fun e19 l19 k19 => ?_
  rw [l18] at l19 k19
  replace l19 : e19.length = b + 19 := l19
  refine does_both k19 19 rfl 0 rfl (shape_same _ (.inl rfl) _) hdm (elem_sub_same _ _ _ _) fun e20 l20 k20 => ?_
  rw [l19] at l20 k20
  replace l20 : e20.length = b + 20 := l20
  refine hQ e20 l20 fun e he => ?_
  rcases List.mem_cons.mp he with rfl | he
  · obtain ⟨t, h1, h2⟩ := k20 _ List.mem_cons_self
    refine ⟨t, h1, Piece.congr h2 fun o _ => ?_⟩
    have : ∀ j k, descend (numOf lr) n d X Y W j k = W j k - (∑ i ∈ Finset.range n, X i j *
        ((∑ j' ∈ Finset.range d, X i j' * W j' k - Y i k) * ((1 : Int) : ℚ) * ((2 : Int) : ℚ) * (1 * ((1 : Nat) : ℚ)))) * numOf lr := by
      intro j k
      unfold descend gradient predict
      rw [Finset.mul_sum, Finset.mul_sum, Finset.sum_mul]
      congr 1
      exact Finset.sum_congr rfl fun i _ => by push_cast; ring
    exact (congrArg (fun F => at2 F o) (funext fun j => funext fun k => this j k)).symm
  · exact k20 e (by simp [he])

/-- what is known of the batches from the position `p` on -/
def batchFacts (d m : Nat) : List Batch → Nat → List Fact
  | [], _ => []
  | e :: l, p => (p, [e.n, d], at2 (matrix e.x)) :: (p + 1, [e.n, m], at2 (matrix e.y)) :: (p + 2, [], fun _ => 1) :: batchFacts d m l (p + 3)

theorem does_rounds (d m : Nat) (lr : Val) (sec : Security) : ∀ (l : List Batch) (w p b : Nat) (W : Nat → Nat → ℚ) (env : List (Tensor ℚ)),
    env.length = b → (sec = .malicious → 0 < d ∧ 0 < m ∧ ∀ e ∈ l, 0 < e.n) → Knows env ((w, [d, m], at2 W) :: batchFacts d m l p) →
    Does sec ((rounds m lr l w p b).map (Step.map numOf)) env fun env' =>
      Knows env' [(final l w b, [d, m], at2 (trained (numOf lr) d l W))]
  | [], w, p, b, W, env, hb, _, hk => does_nil hk
  | e :: l, w, p, b, W, env, hb, hG, hk => by
    unfold rounds
    rw [List.map_append]
    refine does_round e.n d m lr w p (p + 1) (p + 2) b W (matrix e.x) (matrix e.y) (batchFacts d m l (p + 3)) hb hk
      (fun h => ⟨(hG h).2.2 e List.mem_cons_self, (hG h).1, (hG h).2.1⟩) fun env' h1 h2 => ?_
    exact does_rounds d m lr sec l (b + 19) (p + 3) (b + 20) _ env' h1
      (fun h => ⟨(hG h).1, (hG h).2.1, fun e' he' => (hG h).2.2 e' (List.mem_cons_of_mem _ he')⟩) h2

/-- the batches have the shapes of a training set with `d` features and `m` outputs -/
def Formed (d m : Nat) (w : Tensor Val) (l : List Batch) : Prop := w.shape = [d, m] ∧ ∀ e ∈ l, e.x.shape = [e.n, d] ∧ e.y.shape = [e.n, m]

theorem piece_matrix {t : Tensor Val} {a b : Nat} (h : t.shape = [a, b]) : Piece [a, b] (at2 (matrix t)) (Grad.map numOf t) := by
  refine ⟨h, fun o ho => ?_⟩
  obtain ⟨i, k, rfl, -, -⟩ := valid_two ho
  rfl

theorem knows_batches (d m : Nat) : ∀ (l : List Batch) (pre : List (Tensor ℚ)), (∀ e ∈ l, e.x.shape = [e.n, d] ∧ e.y.shape = [e.n, m]) →
    Knows (pre ++ (l.flatMap fun e => [e.x, e.y, ⟨[], fun _ => .float 1⟩]).map (Grad.map numOf)) (batchFacts d m l pre.length)
  | [], pre, _ => fun e he => by cases he
  | e :: l, pre, h => by
    obtain ⟨hx, hy⟩ := h e List.mem_cons_self
    have ih := knows_batches d m l (pre ++ [Grad.map numOf e.x, Grad.map numOf e.y, Grad.map numOf ⟨[], fun _ => .float 1⟩])
      fun e' he' => h e' (List.mem_cons_of_mem _ he')
    rw [List.append_assoc] at ih
    intro f hf
    rcases List.mem_cons.mp hf with rfl | hf
    · exact ⟨Grad.map numOf e.x, by simp, piece_matrix hx⟩
    rcases List.mem_cons.mp hf with rfl | hf
    · exact ⟨Grad.map numOf e.y, by simp, piece_matrix hy⟩
    rcases List.mem_cons.mp hf with rfl | hf
    · exact ⟨Grad.map numOf ⟨[], fun _ => .float 1⟩, by simp, rfl, fun _ _ => rfl⟩
    refine ih f ?_
    simpa using hf

theorem length_inputs (w : Tensor Val) (l : List Batch) : (inputs w l).length = 1 + 3 * l.length := by
  unfold inputs
  induction l with
  | nil => rfl
  | cons e l ih =>
    simp only [List.flatMap_cons, List.length_cons, List.length_append, List.length_nil] at ih ⊢
    omega

theorem allFit_of_can {sec : Security} : ∀ {prog : List (Step ℚ)} {vs : List (Tensor ℚ)}, CanAll sec prog vs → AllFit prog vs
  | [], _, _ => trivial
  | _ :: _, _, h => ⟨h.1.1, fun r hr => allFit_of_can (h.2 r hr)⟩

/-- the training loop in the clear is gradient descent -/
theorem does_training (d m : Nat) (lr : Val) (w : Tensor Val) (l : List Batch) (h : Formed d m w l) (sec : Security)
    (hG : sec = .malicious → 0 < d ∧ 0 < m ∧ ∀ e ∈ l, 0 < e.n) :
    Does sec ((training m lr l).map (Step.map numOf)) ((inputs w l).map (Grad.map numOf)) fun env' =>
      Knows env' [(final l 0 (1 + 3 * l.length), [d, m], at2 (trained (numOf lr) d l (matrix w)))] := by
  refine does_rounds d m lr sec l 0 1 (1 + 3 * l.length) (matrix w) _ (by rw [List.length_map, length_inputs]) hG fun f hf => ?_
  rcases List.mem_cons.mp hf with rfl | hf
  · exact ⟨Grad.map numOf w, rfl, piece_matrix h.1⟩
  · exact knows_batches d m l [Grad.map numOf w] h.2 f hf

/-! ## The theorems -/

/-- Training on the secrets of `n` parties, `t` being the number of quanta by which a division by the scale may be off where `Good`.  The
loop runs and ends with weights of the shape that they had.  If the inputs and public operands are encoded without overflow, the products
before the division by the scale have room and the divisions are good, every weight that has room decodes to a number as near to that of
gradient descent as estimated. -/
def Descends {C : Type} (n : Nat) (c : Config) (t : ℚ) (cut : Cut C) (Good : C × Secret I64 → List Nat → Prop) (d m : Nat) (lr : Val)
    (w : Tensor Val) (l : List Batch) (draws : List (Nat → List Nat → I64)) (tape : List (Draws I64 × C)) : Prop :=
  ∃ rs log es us r e v,
    (fixedInputs c n ((inputs w l).zip draws) >>= fixed c cut ((training m lr l).zip tape)) = .ok (rs, log) ∧
    estimate c.encoder.scale t (training m lr l) ((inputs w l).map (Grad.map (given (c.encoder.scale : ℚ)))) = .ok (es, us) ∧
    rs[final l 0 (1 + 3 * l.length)]? = some r ∧ es[final l 0 (1 + 3 * l.length)]? = some e ∧
    r.shape = .size [d, m] ∧ sumShares r.shares = .ok v ∧ v.shape = [d, m] ∧
    ((∀ t ∈ inputs w l, Encodes c.encoder.scale t) → (∀ st ∈ training m lr l, st.Encodes c.encoder.scale) →
      (∀ t ∈ us, Narrow c.encoder.scale t) → (∀ x ∈ log, Throughout Good x) →
      ∀ j < d, ∀ k < m, (e.at_ [j, k]).Room c.encoder.scale →
        ∃ x, c.encoder.decode (.long (v.at_ [j, k])) = .ok x ∧ |x - trained (numOf lr) d l (matrix w) j k| ≤ (e.at_ [j, k]).err)

theorem descends {C : Type} {n : Nat} {c : Config} {t : ℚ} {cut : Cut C} {Good : C × Secret I64 → List Nat → Prop} {d m : Nat} {lr : Val}
    {w : Tensor Val} {l : List Batch} (h : Formed d m w l) {draws : List (Nat → List Nat → I64)} {tape : List (Draws I64 × C)}
    (hd : draws.length = (inputs w l).length) (ht : tape.length = (training m lr l).length)
    (acc : AllFit (((training m lr l).zip tape).map fun p => p.1.map numOf) (((inputs w l).zip draws).map fun p => Grad.map numOf p.1) →
      Accurate n c t cut Good ((inputs w l).zip draws) ((training m lr l).zip tape)) :
    Descends n c t cut Good d m lr w l draws tape := by
  have ei : ∀ {B : Type} (g : Tensor Val → B), (((inputs w l).zip draws).map fun p => g p.1) = (inputs w l).map g := by
    intro B g
    rw [show (fun p : Tensor Val × (Nat → List Nat → I64) => g p.1) = g ∘ Prod.fst from rfl, ← List.map_map, List.map_fst_zip hd.ge]
  have ep : ∀ {B : Type} (g : Step Val → B), (((training m lr l).zip tape).map fun p => g p.1) = (training m lr l).map g := by
    intro B g
    rw [show (fun p : Step Val × (Draws I64 × C) => g p.1) = g ∘ Prod.fst from rfl, ← List.map_map, List.map_fst_zip ht.ge]
  obtain ⟨hf, qs, hq, hk⟩ := does_training d m lr w l h .semiHonest fun h => by cases h
  have hacc := acc (by rw [ei, ep]; exact allFit_of_can hf)
  obtain ⟨rs, log, es, us, a1, a2, a3, a4, a5⟩ := hacc.2 qs (by rw [ei, ep]; exact hq)
  obtain ⟨q, q1, q2, q3⟩ := hk _ List.mem_cons_self
  dsimp only at q1 q2 q3
  have hlt := (List.getElem?_eq_some_iff.mp q1).1
  obtain ⟨b1, b2, v, b3, b4, b5⟩ := a5 _ _ q _ (List.getElem?_eq_getElem (a3 ▸ hlt)) q1 (List.getElem?_eq_getElem (a4 ▸ hlt))
  rw [ei, show ((training m lr l).zip tape).map Prod.fst = training m lr l from List.map_fst_zip ht.ge] at a2
  refine ⟨rs, log, es, us, _, _, v, a1, a2, List.getElem?_eq_getElem (a3 ▸ hlt), List.getElem?_eq_getElem (a4 ▸ hlt), by rw [b1, q2], b3,
    b4.trans q2, fun c1 c2 c3 c4 j hj k hk hroom => ?_⟩
  obtain ⟨x, x1, x2⟩ := b5 (fun p hp => c1 p.1 (List.of_mem_zip hp).1) (fun p hp => c2 p.1 (List.of_mem_zip hp).1) c3 c4 [j, k]
    (by rw [q2]; exact ⟨hj, hk, trivial⟩) hroom
  refine ⟨x, x1, ?_⟩
  rw [q3 [j, k] ⟨hj, hk, trivial⟩] at x2
  exact x2

/-- C92: training in two-party sessions, whatever is drawn: two quanta for each division, unless the shares of a product wrap. -/
theorem C92_two_parties (c : Config) (hb : 2 ≤ c.encoderBase ∨ c.encoderPrecision = 0) (h1 : 0 < c.encoder.scale) (h2 : c.encoder.scale < 2 ^ 63)
    (d m : Nat) (lr : Val) (w : Tensor Val) (l : List Batch) (h : Formed d m w l) (draws : List (Nat → List Nat → I64))
    (tape : List (Draws I64 × Unit)) (hd : draws.length = (inputs w l).length) (ht : tape.length = (training m lr l).length) :
    Descends 2 c 2 (cutTwo c) NoWrap d m lr w l draws tape :=
  descends h hd ht fun hf => C81_two_party_programs c hb h1 h2 _ _ hf

/-- C92: training in sessions of three or more parties in the ring `2^64` with a binary encoder of at most 24 bits, whatever is drawn: as
many quanta for each division as there are parties, unless one of the rare numbers excluded by `Drawn` was drawn for it. -/
theorem C92_many_parties (env : Env) (s : Session) (n : Nat) (hs : NProgram.Suits env s n)
    (d m : Nat) (lr : Val) (w : Tensor Val) (l : List Batch) (h : Formed d m w l) (draws : List (Nat → List Nat → I64))
    (tape : List (Draws I64 × WrapRandT (List Nat))) (hd : draws.length = (inputs w l).length) (ht : tape.length = (training m lr l).length) :
    Descends s.nrParties s.config s.nrParties (cutMany f32 env s) (NoRare s.nrParties) d m lr w l draws tape :=
  descends h hd ht fun hf => C81_many_party_programs env s n hs _ _ hf

/-- C92: training with replicated shares, whatever is drawn: two quanta for each division, unless the summands of a product wrap.  With
malicious security no batch may be empty (`C82_empty_malicious_refused`). -/
theorem C92_replicated (security : Security) (c : Config) (hb : 2 ≤ c.encoderBase ∨ c.encoderPrecision = 0) (h2 : c.encoder.scale < 2 ^ 63)
    (d m : Nat) (lr : Val) (w : Tensor Val) (l : List Batch) (h : Formed d m w l)
    (hG : security = .malicious → 0 < d ∧ 0 < m ∧ ∀ e ∈ l, 0 < e.n) (draws : List (Nat → List Nat → I64))
    (tape : List (RDraws I64 × (List Nat → I64))) (hd : draws.length = (inputs w l).length) (ht : tape.length = (training m lr l).length) :
    ∃ rs log es us r e v,
      (RShape.fixedInputs c ((inputs w l).zip draws) >>= RShape.fixed c security ((training m lr l).zip tape)) = .ok (rs, log) ∧
      estimate c.encoder.scale 2 (training m lr l) ((inputs w l).map (Grad.map (given (c.encoder.scale : ℚ)))) = .ok (es, us) ∧
      rs[final l 0 (1 + 3 * l.length)]? = some r ∧ es[final l 0 (1 + 3 * l.length)]? = some e ∧
      r.shape = .size [d, m] ∧ reconstruct security r = .ok v ∧ v.shape = [d, m] ∧
      ((∀ t ∈ inputs w l, Encodes c.encoder.scale t) → (∀ st ∈ training m lr l, st.Encodes c.encoder.scale) →
        (∀ t ∈ us, Narrow c.encoder.scale t) → (∀ z ∈ log, RShape.NoWrap z) →
        ∀ j < d, ∀ k < m, (e.at_ [j, k]).Room c.encoder.scale →
          ∃ x, c.encoder.decode (.long (v.at_ [j, k])) = .ok x ∧ |x - trained (numOf lr) d l (matrix w) j k| ≤ (e.at_ [j, k]).err) := by
  have ei : ∀ {B : Type} (g : Tensor Val → B), (((inputs w l).zip draws).map fun p => g p.1) = (inputs w l).map g := by
    intro B g
    rw [show (fun p : Tensor Val × (Nat → List Nat → I64) => g p.1) = g ∘ Prod.fst from rfl, ← List.map_map, List.map_fst_zip hd.ge]
  have ep : ∀ {B : Type} (g : Step Val → B), (((training m lr l).zip tape).map fun p => g p.1) = (training m lr l).map g := by
    intro B g
    rw [show (fun p : Step Val × (RDraws I64 × (List Nat → I64)) => g p.1) = g ∘ Prod.fst from rfl, ← List.map_map, List.map_fst_zip ht.ge]
  obtain ⟨hf, qs, hq, hk⟩ := does_training d m lr w l h security hG
  have hacc := RShape.C83_replicated_programs security c hb h2 ((inputs w l).zip draws) ((training m lr l).zip tape) (by rw [ei, ep]; exact hf)
  obtain ⟨rs, log, es, us, a1, a2, a3, a4, a5⟩ := hacc.2 qs (by rw [ei, ep]; exact hq)
  obtain ⟨q, q1, q2, q3⟩ := hk _ List.mem_cons_self
  dsimp only at q1 q2 q3
  have hlt := (List.getElem?_eq_some_iff.mp q1).1
  obtain ⟨b1, b2, v, b3, b4, b5⟩ := a5 _ _ q _ (List.getElem?_eq_getElem (a3 ▸ hlt)) q1 (List.getElem?_eq_getElem (a4 ▸ hlt))
  rw [ei, show ((training m lr l).zip tape).map Prod.fst = training m lr l from List.map_fst_zip ht.ge] at a2
  refine ⟨rs, log, es, us, _, _, v, a1, a2, List.getElem?_eq_getElem (a3 ▸ hlt), List.getElem?_eq_getElem (a4 ▸ hlt), by rw [b1, q2], b3,
    b4.trans q2, fun c1 c2 c3 c4 j hj k hk hroom => ?_⟩
  obtain ⟨x, x1, x2⟩ := b5 (fun p hp => c1 p.1 (List.of_mem_zip hp).1) (fun p hp => c2 p.1 (List.of_mem_zip hp).1) c3 c4 [j, k]
    (by rw [q2]; exact ⟨hj, hk, trivial⟩) hroom
  refine ⟨x, x1, ?_⟩
  rw [q3 [j, k] ⟨hj, hk, trivial⟩] at x2
  exact x2

/-! ### A concrete case: two batches of different lengths, two features, one output -/

/-- the weights at the beginning -/
def exWeights : Tensor Val := exTensor [2, 1] [.float (1 / 2), .int 0]

/-- the batches -/
def exBatches : List Batch :=
  [⟨1, exTensor [1, 2] [.float (1 / 4), .int 1], exTensor [1, 1] [.int 1]⟩,
    ⟨2, exTensor [2, 2] [.int 1, .float (1 / 2), .int (-1), .int 2], exTensor [2, 1] [.int 2, .float (3 / 10)]⟩]

/-- the draws of the example -/
def exDraws (l : List Batch) : List (Nat → List Nat → I64) := List.replicate (1 + 3 * l.length) fun _ i => BitVec.ofNat 64 (i.sum + 31415)

/-- the draws of the example during the training -/
def exTape (l : List Batch) : List (Draws I64 × Unit) := List.replicate (20 * l.length) (exFixedDraws, ())

example : Formed 2 1 exWeights exBatches := by
  refine ⟨rfl, fun e he => ?_⟩
  simp only [exBatches, List.mem_cons, List.not_mem_nil, or_false] at he
  rcases he with rfl | rfl <;> exact ⟨rfl, rfl⟩

example : (exDraws exBatches).length = (inputs exWeights exBatches).length ∧
    (exTape exBatches).length = (training 1 (.float (1 / 10)) exBatches).length := by
  decide +kernel

/-- gradient descent in the clear -/
example : (trained (1 / 10) 2 exBatches (matrix exWeights) 0 0, trained (1 / 10) 2 exBatches (matrix exWeights) 1 0) = (23 / 32, 163 / 320) := by
  decide +kernel

/-- one round: the errors are estimated below one in five thousand -/
example : ((estimate 65536 2 (training 1 (.float (1 / 10)) (exBatches.take 1)) ((inputs exWeights (exBatches.take 1)).map (Grad.map (given 65536)))).toOption.bind
    fun r => r.1[final (exBatches.take 1) 0 4]?.map fun t => (t.shape, (indices t.shape).all fun o => (t.at_ o).err < 1 / 5000)) = some ([2, 1], true) := by
  decide +kernel

/-- one round in the clear -/
example : (trained (1 / 10) 2 (exBatches.take 1) (matrix exWeights) 0 0, trained (1 / 10) 2 (exBatches.take 1) (matrix exWeights) 1 0) = (87 / 160, 7 / 40) := by
  decide +kernel

/-- the weights that two parties have after one round, in quanta: 35635 / 65536 is 0.54375, 11467 / 65536 is 0.17497 -/
example : ((fixedInputs {} 2 ((inputs exWeights (exBatches.take 1)).zip (exDraws (exBatches.take 1))) >>=
    fixed {} (cutTwo {}) ((training 1 (.float (1 / 10)) (exBatches.take 1)).zip (exTape (exBatches.take 1)))).toOption.bind fun r =>
      r.1[final (exBatches.take 1) 0 4]?.bind exLook) = some ([2, 1], [35635, 11467]) := by
  decide +kernel

/-- the inputs and operands can be encoded, the products have room, and their shares do not wrap -/
example : ((inputs exWeights (exBatches.take 1)).all fun t => (indices t.shape).all fun o =>
      decide ((|(given 65536 (t.at_ o)).num| + (given 65536 (t.at_ o)).err) * 65536 < 2 ^ 63)) ∧
    ((estimate 65536 2 (training 1 (.float (1 / 10)) (exBatches.take 1)) ((inputs exWeights (exBatches.take 1)).map (Grad.map (given 65536)))).toOption.map
      fun r => r.2.all fun t => (indices t.shape).all fun o => decide ((|(t.at_ o).num| + (t.at_ o).err) * 65536 * 65536 < 2 ^ 63)) = some true := by
  decide +kernel

example : ((fixedInputs {} 2 ((inputs exWeights (exBatches.take 1)).zip (exDraws (exBatches.take 1))) >>=
    fixed {} (cutTwo {}) ((training 1 (.float (1 / 10)) (exBatches.take 1)).zip (exTape (exBatches.take 1)))).toOption.map fun r => r.2.all fun p =>
      match p.2.shares with
      | [a, b] => (indices a.shape).all fun o => decide (-2 ^ 63 ≤ (a.at_ o).toInt + (b.at_ o).toInt ∧ (a.at_ o).toInt + (b.at_ o).toInt < 2 ^ 63)
      | _ => false) = some true := by
  decide +kernel

/-- the draws of the example with replicated shares -/
def exRTape (l : List Batch) : List (RDraws I64 × (List Nat → I64)) :=
  List.replicate (20 * l.length) (RShape.exFixedRDraws, fun i => BitVec.ofNat 64 (i.sum + 1234))

/-- replicated shares: 35636 / 65536 is 0.54376, 11469 / 65536 is 0.17500 -/
example : ((RShape.fixedInputs {} ((inputs exWeights (exBatches.take 1)).zip (exDraws (exBatches.take 1))) >>=
    RShape.fixed {} .semiHonest ((training 1 (.float (1 / 10)) (exBatches.take 1)).zip (exRTape (exBatches.take 1)))).toOption.bind fun r =>
      r.1[final (exBatches.take 1) 0 4]?.bind (RShape.exLookR .semiHonest)) = some ([2, 1], [35636, 11469]) := by
  decide +kernel

/-- no batch is empty -/
example : 0 < 2 ∧ 0 < 1 ∧ ∀ e ∈ exBatches, 0 < e.n := by decide +kernel

/-- a session of three parties -/
example : NProgram.Suits exEnv exSession 0 := NProgram.exSuits

end SyMPC.Regression
