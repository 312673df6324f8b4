import Verif.Model.LinearTraining
import Verif.Props.Regression

/-!
# C92: training a linear layer on secrets
-/

namespace SyMPC.LinearTraining

open Tensor Shape
open FixedPointEncoder (Val)
open Program (Estimate given numOf)
open RShape (Piece CanAll supported RDraws RSecret reconstruct)
open Regression (Batch Fact Knows Does at2 matrix does_both does_public does_method does_nil shape_same shape_matmul shape_const shape_ones
  elem_mul_same elem_sub_same elem_mul_const elem_mul_ones elem_matmul sum_t two_valid valid_two batchFacts knows_batches piece_matrix allFit_of_can)

/-! ## Specification -/

/-- the outputs of the layer for `d` features: the weight has a row for each output -/
def predict (d : Nat) (X : Nat → Nat → ℚ) (W : Nat → Nat → ℚ) (c : Nat → ℚ) (i k : Nat) : ℚ := ∑ j ∈ Finset.range d, X i j * W k j + c k

/-- the sum of the squared errors -/
def loss (n d m : Nat) (X Y W : Nat → Nat → ℚ) (c : Nat → ℚ) : ℚ :=
  ∑ i ∈ Finset.range n, ∑ k ∈ Finset.range m, (predict d X W c i k - Y i k) ^ 2

/-- the derivatives of the loss by the weight -/
def gradWeight (n d : Nat) (X Y W : Nat → Nat → ℚ) (c : Nat → ℚ) (k j : Nat) : ℚ := 2 * ∑ i ∈ Finset.range n, X i j * (predict d X W c i k - Y i k)

/-- the derivatives of the loss by the bias -/
def gradBias (n d : Nat) (X Y W : Nat → Nat → ℚ) (c : Nat → ℚ) (k : Nat) : ℚ := 2 * ∑ i ∈ Finset.range n, (predict d X W c i k - Y i k)

/-- one step of gradient descent -/
def descend (lr : ℚ) (n d : Nat) (X Y : Nat → Nat → ℚ) (θ : (Nat → Nat → ℚ) × (Nat → ℚ)) : (Nat → Nat → ℚ) × (Nat → ℚ) :=
  (fun k j => θ.1 k j - lr * gradWeight n d X Y θ.1 θ.2 k j, fun k => θ.2 k - lr * gradBias n d X Y θ.1 θ.2 k)

/-- the vector in a tensor -/
def vector (t : Tensor Val) : Nat → ℚ := fun k => numOf (t.at_ [k])

/-- gradient descent over all batches -/
def trained (lr : ℚ) (d : Nat) (l : List Batch) (θ : (Nat → Nat → ℚ) × (Nat → ℚ)) : (Nat → Nat → ℚ) × (Nat → ℚ) :=
  l.foldl (fun θ e => descend lr e.n d (matrix e.x) (matrix e.y) θ) θ

/-- what the specification calls the gradients is the linear part of the loss -/
theorem gradient_spec (n d m : Nat) (X Y W H : Nat → Nat → ℚ) (c h : Nat → ℚ) :
    loss n d m X Y (fun k j => W k j + H k j) (fun k => c k + h k) = loss n d m X Y W c
      + (∑ k ∈ Finset.range m, ∑ j ∈ Finset.range d, gradWeight n d X Y W c k j * H k j + ∑ k ∈ Finset.range m, gradBias n d X Y W c k * h k)
      + ∑ i ∈ Finset.range n, ∑ k ∈ Finset.range m, predict d X H h i k ^ 2 := by
  have e1 : ∀ i k, predict d X (fun k j => W k j + H k j) (fun k => c k + h k) i k = predict d X W c i k + predict d X H h i k := by
    intro i k
    unfold predict
    rw [show ∑ j ∈ Finset.range d, X i j * (W k j + H k j) = ∑ j ∈ Finset.range d, X i j * W k j + ∑ j ∈ Finset.range d, X i j * H k j from by
      rw [← Finset.sum_add_distrib]; exact Finset.sum_congr rfl fun j _ => by ring]
    ring
  have e2 : ∑ k ∈ Finset.range m, ∑ j ∈ Finset.range d, gradWeight n d X Y W c k j * H k j + ∑ k ∈ Finset.range m, gradBias n d X Y W c k * h k
      = ∑ i ∈ Finset.range n, ∑ k ∈ Finset.range m, 2 * (predict d X W c i k - Y i k) * predict d X H h i k := by
    rw [← Finset.sum_add_distrib, Finset.sum_comm (s := Finset.range n)]
    refine Finset.sum_congr rfl fun k _ => ?_
    unfold gradWeight gradBias
    have a : ∀ j, 2 * (∑ i ∈ Finset.range n, X i j * (predict d X W c i k - Y i k)) * H k j
        = ∑ i ∈ Finset.range n, 2 * (predict d X W c i k - Y i k) * (X i j * H k j) := by
      intro j
      rw [Finset.mul_sum, Finset.sum_mul]
      exact Finset.sum_congr rfl fun i _ => by ring
    simp only [a]
    rw [Finset.sum_comm, Finset.mul_sum, Finset.sum_mul, ← Finset.sum_add_distrib]
    refine Finset.sum_congr rfl fun i _ => ?_
    rw [show predict d X H h i k = ∑ j ∈ Finset.range d, X i j * H k j + h k from rfl, mul_add, Finset.mul_sum]
  unfold loss
  rw [e2, ← Finset.sum_add_distrib, ← Finset.sum_add_distrib]
  refine Finset.sum_congr rfl fun i _ => ?_
  rw [← Finset.sum_add_distrib, ← Finset.sum_add_distrib]
  refine Finset.sum_congr rfl fun k _ => ?_
  rw [e1]
  ring

/-! ## Proof: the training loop in the clear -/

/-- a vector as the elements of a tensor -/
def at1 (F : Nat → ℚ) : List Nat → ℚ := fun o => F (o.getD 0 0)

theorem valid_one {a : Nat} {o : List Nat} (h : ValidIdx [a] o) : ∃ i, o = [i] ∧ i < a := by
  match o, h with
  | [i], h => exact ⟨i, rfl, h.1⟩

theorem shape_rows (a b : Nat) : Shape.BinOp.add.shape [a, b] [b] = .ok [a, b] := by
  rw [shape_eq]
  show broadcastShape [a, b] [b] = _
  simp only [broadcastShape, broadcastRev, broadcastDim, List.reverse_cons, List.reverse_nil, List.nil_append, List.cons_append]
  simp only [if_true, ok_bind]
  rfl

theorem elem_add_rows (a b : Nat) (F : Nat → Nat → ℚ) (G : Nat → ℚ) (o : List Nat) (ho : ValidIdx [a, b] o) :
    elem .add [a, b] [b] (at2 F) (at1 G) o = at2 (fun i k => F i k + G k) o := by
  show at2 F (sourceIdx _ o) + at1 G (sourceIdx _ o) = _
  rw [Regression.source_self ho]
  obtain ⟨i, k, rfl, -, h⟩ := valid_two ho
  show F i k + G (if b = 1 then 0 else k) = F i k + G k
  split
  · rw [show k = 0 by omega]
  · rfl

theorem elem_sub_vec (a : Nat) (F G : Nat → ℚ) (o : List Nat) (ho : ValidIdx [a] o) :
    elem .sub [a] [a] (at1 F) (at1 G) o = at1 (fun k => F k - G k) o := by
  show at1 F (sourceIdx _ o) - at1 G (sourceIdx _ o) = _
  rw [Regression.source_self ho]
  rfl

theorem elem_mul_vec (a : Nat) (F : Nat → ℚ) (c : ℚ) (o : List Nat) (ho : ValidIdx [a] o) :
    elem .mul [a] [] (at1 F) (fun _ => c) o = at1 (fun k => F k * c) o := by
  show at1 F (sourceIdx _ o) * c = _
  rw [Regression.source_self ho]
  rfl

theorem sum_rows (F : Nat → Nat → ℚ) (a b : Nat) (o : List Nat) (ho : ValidIdx [b] o) :
    (((List.range a).map fun i => o.insertIdx 0 i).map (at2 F)).sum = at1 (fun k => ∑ i ∈ Finset.range a, F i k) o := by
  obtain ⟨k, rfl, -⟩ := valid_one ho
  rw [List.map_map]
  show _ = ∑ i ∈ Finset.range a, F i k
  simp only [Finset.sum, Finset.range, Multiset.range, Multiset.map_coe, Multiset.sum_coe]
  rfl

/-- one round in the clear is one step of gradient descent -/
theorem does_round (n d m : Nat) (lr : Val) (w c x y one b : Nat) (W X Y : Nat → Nat → ℚ) (C : Nat → ℚ) (rest : List Fact) {sec : Security}
    {env : List (Tensor ℚ)} {prog : List (Step ℚ)} {Q : List (Tensor ℚ) → Prop} (hb : env.length = b)
    (hk : Knows env ((w, [m, d], at2 W) :: (c, [m], at1 C) :: (x, [n, d], at2 X) :: (y, [n, m], at2 Y) :: (one, [], fun _ => 1) :: rest))
    (hG : sec = .malicious → 0 < n ∧ 0 < d ∧ 0 < m)
    (hQ : ∀ env', env'.length = b + 26 → Knows env' ((b + 23, [m, d], at2 (descend (numOf lr) n d X Y (W, C)).1) ::
      (b + 25, [m], at1 (descend (numOf lr) n d X Y (W, C)).2) :: rest) → Does sec prog env' Q) :
    Does sec ((round n m lr w c x y one b).map (Step.map numOf) ++ prog) env Q := by
  have hnm : sec = .malicious → ∃ o, ValidIdx [n, m] o := fun h => two_valid (hG h).1 (hG h).2.2
  have hnd : sec = .malicious → ∃ o, ValidIdx [n, d] o := fun h => two_valid (hG h).1 (hG h).2.1
  have hdm : sec = .malicious → ∃ o, ValidIdx [d, m] o := fun h => two_valid (hG h).2.1 (hG h).2.2
  have hmd : sec = .malicious → ∃ o, ValidIdx [m, d] o := fun h => two_valid (hG h).2.2 (hG h).2.1
  have hm : sec = .malicious → ∃ o, ValidIdx [m] o := fun h => ⟨[0], (hG h).2.2, trivial⟩
  show Does sec (_ :: _ :: _ :: _ :: _ :: _ :: _ :: _ :: _ :: _ :: _ :: _ :: _ :: _ :: _ :: _ :: _ :: _ :: _ :: _ :: _ :: _ :: _ :: _ :: _ :: _ :: prog) env Q
  refine does_method hk 0 rfl rfl rfl (sum_t _ _ _) fun e1 l1 k1 => ?_
  rw [hb] at l1 k1
  refine does_both k1 3 rfl 0 rfl (shape_matmul _ _ _) hnm (fun o _ => elem_matmul _ _ _ _ _ o) fun e2 l2 k2 => ?_
  rw [l1] at l2 k2
  replace l2 : e2.length = b + 2 := l2
  refine does_both k2 0 rfl 3 rfl (shape_rows _ _) hnm (elem_add_rows _ _ _ _) fun e3 l3 k3 => ?_
  rw [l2] at l3 k3
  replace l3 : e3.length = b + 3 := l3
  refine does_both k3 0 rfl 6 rfl (shape_same _ (.inl rfl) _) hnm (elem_sub_same _ _ _ _) fun e4 l4 k4 => ?_
  rw [l3] at l4 k4
  replace l4 : e4.length = b + 4 := l4
  refine does_both k4 0 rfl 0 rfl (shape_same _ (.inr rfl) _) hnm (elem_mul_same _ _ _ _) fun e5 l5 k5 => ?_
  rw [l4] at l5 k5
  replace l5 : e5.length = b + 5 := l5
  refine does_public k5 0 rfl (fun _ _ => by simp) (shape_const _) (elem_mul_const _ _ _ _) fun e6 l6 k6 => ?_
  rw [l5] at l6 k6
  replace l6 : e6.length = b + 6 := l6
  refine does_both k6 1 rfl 1 rfl (shape_same _ (.inr rfl) _) hnm (elem_mul_same _ _ _ _) fun e7 l7 k7 => ?_
  rw [l6] at l7 k7
  replace l7 : e7.length = b + 7 := l7
  refine does_method k7 1 rfl rfl rfl (fun _ _ => rfl) fun e8 l8 k8 => ?_
  rw [l7] at l8 k8
  replace l8 : e8.length = b + 8 := l8
  refine does_public k8 12 rfl (fun _ h => by cases h) (shape_ones _) (fun o _ => elem_mul_ones _ _ _ o) fun e9 l9 k9 => ?_
  rw [l8] at l9 k9
  replace l9 : e9.length = b + 9 := l9
  refine does_public k9 5 rfl (fun _ _ => by simp) (shape_const _) (elem_mul_const _ _ _ _) fun e10 l10 k10 => ?_
  rw [l9] at l10 k10
  replace l10 : e10.length = b + 10 := l10
  refine does_both k10 6 rfl 6 rfl (shape_same _ (.inr rfl) _) hnm (elem_mul_same _ _ _ _) fun e11 l11 k11 => ?_
  rw [l10] at l11 k11
  replace l11 : e11.length = b + 11 := l11
  refine does_public k11 1 rfl (fun _ _ => by simp) (shape_const _) (elem_mul_const _ _ _ _) fun e12 l12 k12 => ?_
  rw [l11] at l12 k12
  replace l12 : e12.length = b + 12 := l12
  refine does_both k12 0 rfl 3 rfl (shape_same _ (.inr rfl) _) hnm (elem_mul_same _ _ _ _) fun e13 l13 k13 => ?_
  rw [l12] at l13 k13
  replace l13 : e13.length = b + 13 := l13
  refine does_public k13 0 rfl (fun _ _ => by simp) (shape_const _) (elem_mul_const _ _ _ _) fun e14 l14 k14 => ?_
  rw [l13] at l14 k14
  replace l14 : e14.length = b + 14 := l14
  refine does_method k14 1 rfl rfl rfl (sum_rows _ n m) fun e15 l15 k15 => ?_
  rw [l14] at l15 k15
  replace l15 : e15.length = b + 15 := l15
  refine does_method k15 2 rfl rfl rfl (fun _ _ => List.sum_singleton) fun e16 l16 k16 => ?_
  rw [l15] at l16 k16
  replace l16 : e16.length = b + 16 := l16
  refine does_method k16 3 rfl rfl rfl (fun _ _ => List.sum_singleton) fun e17 l17 k17 => ?_
  rw [l16] at l17 k17
  replace l17 : e17.length = b + 17 := l17
  refine does_method k17 16 rfl rfl rfl (sum_t _ _ _) fun e18 l18 k18 => ?_
  rw [l17] at l18 k18
  replace l18 : e18.length = b + 18 := l18
  refine does_both k18 2 rfl 0 rfl (shape_matmul _ _ _) hnd (fun o _ => elem_matmul _ _ _ _ _ o) fun e19 l19 k19 => ?_
  rw [l18] at l19 k19
  replace l19 : e19.length = b + 19 := l19
  refine does_method k19 21 rfl rfl rfl (sum_t _ _ _) fun e20 l20 k20 => ?_
  rw [l19] at l20 k20
  replace l20 : e20.length = b + 20 := l20
  refine does_both k20 0 rfl 3 rfl (shape_matmul _ _ _) hdm (fun o _ => elem_matmul _ _ _ _ _ o) fun e21 l21 k21 => ?_
  rw [l20] at l21 k21
  replace l21 : e21.length = b + 21 := l21
  refine does_method k21 0 rfl rfl rfl (sum_t _ _ _) fun e22 l22 k22 => ?_
  rw [l21] at l22 k22
  replace l22 : e22.length = b + 22 := l22
  refine does_public k22 0 rfl (fun _ _ => by simp) (shape_const _) (elem_mul_const _ _ _ (numOf lr)) fun e23 l23 k23 => ?_
  rw [l22] at l23 k23
  replace l23 : e23.length = b + 23 := l23
  refine does_both k23 23 rfl 0 rfl (shape_same _ (.inl rfl) _) hmd (elem_sub_same _ _ _ _) fun e24 l24 k24 => ?_
  rw [l23] at l24 k24
  replace l24 : e24.length = b + 24 := l24
  refine does_public k24 9 rfl (fun _ _ => by simp) (shape_const _) (elem_mul_vec _ _ (numOf lr)) fun e25 l25 k25 => ?_
  rw [l24] at l25 k25
  replace l25 : e25.length = b + 25 := l25
  refine does_both k25 26 rfl 0 rfl (shape_same _ (.inl rfl) _) hm (elem_sub_vec _ _ _) fun e26 l26 k26 => ?_
  rw [l25] at l26 k26
  replace l26 : e26.length = b + 26 := l26
  have eW : ∀ k j, (descend (numOf lr) n d X Y (W, C)).1 k j = W k j - (∑ i ∈ Finset.range n, X i j *
      ((∑ j' ∈ Finset.range d, X i j' * W k j' + C k - Y i k) * ((1 : Int) : ℚ) * ((2 : Int) : ℚ) * (1 * ((1 : Nat) : ℚ)))) * numOf lr := by
    intro k j
    unfold descend gradWeight predict
    dsimp only
    rw [Finset.mul_sum, Finset.mul_sum, Finset.sum_mul]
    congr 1
    exact Finset.sum_congr rfl fun i _ => by push_cast; ring
  have eC : ∀ k, (descend (numOf lr) n d X Y (W, C)).2 k = C k - (∑ i ∈ Finset.range n,
      (∑ j' ∈ Finset.range d, X i j' * W k j' + C k - Y i k) * ((1 : Int) : ℚ) * ((2 : Int) : ℚ) * (1 * ((1 : Nat) : ℚ))) * numOf lr := by
    intro k
    unfold descend gradBias predict
    dsimp only
    rw [Finset.mul_sum, Finset.mul_sum, Finset.sum_mul]
    congr 1
    exact Finset.sum_congr rfl fun i _ => by push_cast; ring
  refine hQ e26 l26 fun e he => ?_
  rcases List.mem_cons.mp he with rfl | he
  · obtain ⟨t, h1, h2⟩ := k26 _ (List.mem_of_getElem? (show _[2]? = some (b + 23, [m, d], _) from rfl))
    exact ⟨t, h1, Regression.Piece.congr h2 fun o _ => (congrArg (fun F => at2 F o) (funext fun j => funext fun k => eW j k)).symm⟩
  rcases List.mem_cons.mp he with rfl | he
  · obtain ⟨t, h1, h2⟩ := k26 _ List.mem_cons_self
    exact ⟨t, h1, Regression.Piece.congr h2 fun o _ => (congrArg (fun F => at1 F o) (funext fun k => eC k)).symm⟩
  · exact k26 e (by simp [he])

theorem does_rounds (d m : Nat) (lr : Val) (sec : Security) : ∀ (l : List Batch) (w c p b : Nat) (θ : (Nat → Nat → ℚ) × (Nat → ℚ))
    (env : List (Tensor ℚ)), env.length = b → (sec = .malicious → 0 < d ∧ 0 < m ∧ ∀ e ∈ l, 0 < e.n) →
    Knows env ((w, [m, d], at2 θ.1) :: (c, [m], at1 θ.2) :: batchFacts d m l p) →
    Does sec ((rounds m lr l w c p b).map (Step.map numOf)) env fun env' =>
      Knows env' [((final l w c b).1, [m, d], at2 (trained (numOf lr) d l θ).1), ((final l w c b).2, [m], at1 (trained (numOf lr) d l θ).2)]
  | [], w, c, p, b, θ, env, hb, _, hk => does_nil hk
  | e :: l, w, c, p, b, θ, env, hb, hG, hk => by
    unfold rounds
    rw [List.map_append]
    refine does_round e.n d m lr w c p (p + 1) (p + 2) b θ.1 (matrix e.x) (matrix e.y) θ.2 (batchFacts d m l (p + 3)) hb hk
      (fun h => ⟨(hG h).2.2 e List.mem_cons_self, (hG h).1, (hG h).2.1⟩) fun env' h1 h2 => ?_
    exact does_rounds d m lr sec l (b + 23) (b + 25) (p + 3) (b + 26) _ env' h1
      (fun h => ⟨(hG h).1, (hG h).2.1, fun e' he' => (hG h).2.2 e' (List.mem_cons_of_mem _ he')⟩) h2

theorem length_inputs (w c : Tensor Val) (l : List Batch) : (inputs w c l).length = 2 + 3 * l.length := by
  have := Regression.length_inputs w l
  unfold Regression.inputs at this
  unfold inputs
  simp only [List.length_cons] at this ⊢
  omega

/-- the parameters and batches have the shapes of a layer with `d` features and `m` outputs -/
def Formed (d m : Nat) (w c : Tensor Val) (l : List Batch) : Prop :=
  w.shape = [m, d] ∧ c.shape = [m] ∧ ∀ e ∈ l, e.x.shape = [e.n, d] ∧ e.y.shape = [e.n, m]

/-- where the parameters are at the end, and what they should be -/
def goal (d m : Nat) (lr : Val) (w c : Tensor Val) (l : List Batch) : List Fact :=
  [((final l 0 1 (2 + 3 * l.length)).1, [m, d], at2 (trained (numOf lr) d l (matrix w, vector c)).1),
    ((final l 0 1 (2 + 3 * l.length)).2, [m], at1 (trained (numOf lr) d l (matrix w, vector c)).2)]

/-- the training loop in the clear is gradient descent -/
theorem does_training (d m : Nat) (lr : Val) (w c : Tensor Val) (l : List Batch) (h : Formed d m w c l) (sec : Security)
    (hG : sec = .malicious → 0 < d ∧ 0 < m ∧ ∀ e ∈ l, 0 < e.n) :
    Does sec ((training m lr l).map (Step.map numOf)) ((inputs w c l).map (Grad.map numOf)) fun env' => Knows env' (goal d m lr w c l) := by
  refine does_rounds d m lr sec l 0 1 2 (2 + 3 * l.length) (matrix w, vector c) _ (by rw [List.length_map, length_inputs]) hG fun f hf => ?_
  rcases List.mem_cons.mp hf with rfl | hf
  · exact ⟨Grad.map numOf w, rfl, piece_matrix h.1⟩
  rcases List.mem_cons.mp hf with rfl | hf
  · refine ⟨Grad.map numOf c, rfl, h.2.1, fun o ho => ?_⟩
    obtain ⟨k, rfl, -⟩ := valid_one ho
    rfl
  · exact knows_batches d m l [Grad.map numOf w, Grad.map numOf c] h.2.2 f hf

/-! ## The theorems -/

theorem map_zip {A B C D : Type} (g : A → C) (f : A × B → D) (k : C → D) (hf : ∀ p, f p = k (g p.1)) (x : List A) (y : List B)
    (h : y.length = x.length) : (x.zip y).map f = (x.map g).map k := by
  rw [show f = k ∘ g ∘ Prod.fst from funext hf, ← List.map_map, ← List.map_map, List.map_fst_zip h.ge]

/-- A program on the secrets of `n` parties, `t` being the number of quanta by which a division by the scale may be off where `Good`, runs
and every tensor that `facts` speak of has the shape and, if the inputs and public operands are encoded without overflow, the products
before the division by the scale have room and the divisions are good, every element of it that has room decodes to a number as near as
estimated to the one that `facts` say. -/
def Reaches {C : Type} (n : Nat) (c : Config) (t : ℚ) (cut : Cut C) (Good : C × Secret I64 → List Nat → Prop) (ins : List (Tensor Val))
    (prog : List (Step Val)) (draws : List (Nat → List Nat → I64)) (tape : List (Draws I64 × C)) (facts : List Fact) : Prop :=
  ∃ rs log es us, (fixedInputs c n (ins.zip draws) >>= fixed c cut (prog.zip tape)) = .ok (rs, log) ∧
    estimate c.encoder.scale t prog (ins.map (Grad.map (given (c.encoder.scale : ℚ)))) = .ok (es, us) ∧
    ∀ k s f, (k, s, f) ∈ facts → ∃ r e v, rs[k]? = some r ∧ es[k]? = some e ∧ r.shape = .size s ∧ sumShares r.shares = .ok v ∧ v.shape = s ∧
      ((∀ t ∈ ins, Encodes c.encoder.scale t) → (∀ st ∈ prog, st.Encodes c.encoder.scale) →
        (∀ t ∈ us, Narrow c.encoder.scale t) → (∀ x ∈ log, Throughout Good x) →
        ∀ o, ValidIdx s o → (e.at_ o).Room c.encoder.scale →
          ∃ x, c.encoder.decode (.long (v.at_ o)) = .ok x ∧ |x - f o| ≤ (e.at_ o).err)

theorem reaches {C : Type} {n : Nat} {c : Config} {t : ℚ} {cut : Cut C} {Good : C × Secret I64 → List Nat → Prop} {ins : List (Tensor Val)}
    {prog : List (Step Val)} {draws : List (Nat → List Nat → I64)} {tape : List (Draws I64 × C)} {facts : List Fact}
    (h : Does .semiHonest (prog.map (Step.map numOf)) (ins.map (Grad.map numOf)) fun env' => Knows env' facts)
    (hd : draws.length = ins.length) (ht : tape.length = prog.length)
    (acc : AllFit ((prog.zip tape).map fun p => p.1.map numOf) ((ins.zip draws).map fun p => Grad.map numOf p.1) →
      Accurate n c t cut Good (ins.zip draws) (prog.zip tape)) :
    Reaches n c t cut Good ins prog draws tape facts := by
  have ei : ∀ {B : Type} (g : Tensor Val → B), ((ins.zip draws).map fun p => g p.1) = ins.map g := by
    intro B g
    rw [map_zip id (fun p => g p.1) g (fun _ => rfl) _ _ hd, List.map_id]
  have ep : ∀ {B : Type} (g : Step Val → B), ((prog.zip tape).map fun p => g p.1) = prog.map g := by
    intro B g
    rw [map_zip id (fun p => g p.1) g (fun _ => rfl) _ _ ht, List.map_id]
  obtain ⟨hf, qs, hq, hk⟩ := h
  have hacc := acc (by rw [ei, ep]; exact allFit_of_can hf)
  obtain ⟨rs, log, es, us, a1, a2, a3, a4, a5⟩ := hacc.2 qs (by rw [ei, ep]; exact hq)
  rw [ei, show (prog.zip tape).map Prod.fst = prog from List.map_fst_zip ht.ge] at a2
  refine ⟨rs, log, es, us, a1, a2, fun k s f hm => ?_⟩
  obtain ⟨q, q1, q2, q3⟩ := hk _ hm
  dsimp only at q1 q2 q3
  have hlt := (List.getElem?_eq_some_iff.mp q1).1
  obtain ⟨b1, b2, v, b3, b4, b5⟩ := a5 _ _ q _ (List.getElem?_eq_getElem (a3 ▸ hlt)) q1 (List.getElem?_eq_getElem (a4 ▸ hlt))
  refine ⟨_, _, v, List.getElem?_eq_getElem (a3 ▸ hlt), List.getElem?_eq_getElem (a4 ▸ hlt), by rw [b1, q2], b3,
    b4.trans q2, fun c1 c2 c3 c4 o ho hroom => ?_⟩
  obtain ⟨x, x1, x2⟩ := b5 (fun p hp => c1 p.1 (List.of_mem_zip hp).1) (fun p hp => c2 p.1 (List.of_mem_zip hp).1) c3 c4 o (by rw [q2]; exact ho) hroom
  exact ⟨x, x1, by rw [q3 o ho] at x2; exact x2⟩

/-- C92: training a linear layer with a bias in two-party sessions, whatever is drawn: the weight and the bias are those of gradient
descent, up to two quanta for each division, unless the shares of a product wrap. -/
theorem C92_layer_two_parties (c : Config) (hb : 2 ≤ c.encoderBase ∨ c.encoderPrecision = 0) (h1 : 0 < c.encoder.scale)
    (h2 : c.encoder.scale < 2 ^ 63) (d m : Nat) (lr : Val) (w b : Tensor Val) (l : List Batch) (h : Formed d m w b l)
    (draws : List (Nat → List Nat → I64)) (tape : List (Draws I64 × Unit)) (hd : draws.length = (inputs w b l).length)
    (ht : tape.length = (training m lr l).length) :
    Reaches 2 c 2 (cutTwo c) NoWrap (inputs w b l) (training m lr l) draws tape (goal d m lr w b l) :=
  reaches (does_training d m lr w b l h .semiHonest fun h => by cases h) hd ht fun hf => C81_two_party_programs c hb h1 h2 _ _ hf

/-- C92: training a linear layer with a bias in sessions of three or more parties in the ring `2^64` with a binary encoder of at most 24
bits, whatever is drawn: as many quanta for each division as there are parties, unless one of the rare numbers excluded by `Drawn` was
drawn for it. -/
theorem C92_layer_many_parties (env : Env) (s : Session) (n : Nat) (hs : NProgram.Suits env s n) (d m : Nat) (lr : Val) (w b : Tensor Val)
    (l : List Batch) (h : Formed d m w b l) (draws : List (Nat → List Nat → I64)) (tape : List (Draws I64 × WrapRandT (List Nat)))
    (hd : draws.length = (inputs w b l).length) (ht : tape.length = (training m lr l).length) :
    Reaches s.nrParties s.config s.nrParties (cutMany f32 env s) (NoRare s.nrParties) (inputs w b l) (training m lr l) draws tape
      (goal d m lr w b l) :=
  reaches (does_training d m lr w b l h .semiHonest fun h => by cases h) hd ht fun hf => C81_many_party_programs env s n hs _ _ hf

/-- C92: training a linear layer with a bias on replicated shares, whatever is drawn: two quanta for each division, unless the summands of
a product wrap.  With malicious security no batch may be empty (`C82_empty_malicious_refused`). -/
theorem C92_layer_replicated (security : Security) (c : Config) (hb : 2 ≤ c.encoderBase ∨ c.encoderPrecision = 0)
    (h2 : c.encoder.scale < 2 ^ 63) (d m : Nat) (lr : Val) (w b : Tensor Val) (l : List Batch) (h : Formed d m w b l)
    (hG : security = .malicious → 0 < d ∧ 0 < m ∧ ∀ e ∈ l, 0 < e.n) (draws : List (Nat → List Nat → I64))
    (tape : List (RDraws I64 × (List Nat → I64))) (hd : draws.length = (inputs w b l).length) (ht : tape.length = (training m lr l).length) :
    ∃ rs log es us,
      (RShape.fixedInputs c ((inputs w b l).zip draws) >>= RShape.fixed c security ((training m lr l).zip tape)) = .ok (rs, log) ∧
      estimate c.encoder.scale 2 (training m lr l) ((inputs w b l).map (Grad.map (given (c.encoder.scale : ℚ)))) = .ok (es, us) ∧
      ∀ k s f, (k, s, f) ∈ goal d m lr w b l → ∃ r e v, rs[k]? = some r ∧ es[k]? = some e ∧ r.shape = .size s ∧
        reconstruct security r = .ok v ∧ v.shape = s ∧
        ((∀ t ∈ inputs w b l, Encodes c.encoder.scale t) → (∀ st ∈ training m lr l, st.Encodes c.encoder.scale) →
          (∀ t ∈ us, Narrow c.encoder.scale t) → (∀ z ∈ log, RShape.NoWrap z) →
          ∀ o, ValidIdx s o → (e.at_ o).Room c.encoder.scale →
            ∃ x, c.encoder.decode (.long (v.at_ o)) = .ok x ∧ |x - f o| ≤ (e.at_ o).err) := by
  have ei : ∀ {B : Type} (g : Tensor Val → B), (((inputs w b l).zip draws).map fun p => g p.1) = (inputs w b l).map g := by
    intro B g
    rw [map_zip id (fun p => g p.1) g (fun _ => rfl) _ _ hd, List.map_id]
  have ep : ∀ {B : Type} (g : Step Val → B), (((training m lr l).zip tape).map fun p => g p.1) = (training m lr l).map g := by
    intro B g
    rw [map_zip id (fun p => g p.1) g (fun _ => rfl) _ _ ht, List.map_id]
  obtain ⟨hf, qs, hq, hk⟩ := does_training d m lr w b l h security hG
  have hacc := RShape.C83_replicated_programs security c hb h2 ((inputs w b l).zip draws) ((training m lr l).zip tape) (by rw [ei, ep]; exact hf)
  obtain ⟨rs, log, es, us, a1, a2, a3, a4, a5⟩ := hacc.2 qs (by rw [ei, ep]; exact hq)
  rw [ei, show ((training m lr l).zip tape).map Prod.fst = training m lr l from List.map_fst_zip ht.ge] at a2
  refine ⟨rs, log, es, us, a1, a2, fun k s f hm => ?_⟩
  obtain ⟨q, q1, q2, q3⟩ := hk _ hm
  dsimp only at q1 q2 q3
  have hlt := (List.getElem?_eq_some_iff.mp q1).1
  obtain ⟨b1, b2, v, b3, b4, b5⟩ := a5 _ _ q _ (List.getElem?_eq_getElem (a3 ▸ hlt)) q1 (List.getElem?_eq_getElem (a4 ▸ hlt))
  refine ⟨_, _, v, List.getElem?_eq_getElem (a3 ▸ hlt), List.getElem?_eq_getElem (a4 ▸ hlt), by rw [b1, q2], b3,
    b4.trans q2, fun c1 c2 c3 c4 o ho hroom => ?_⟩
  obtain ⟨x, x1, x2⟩ := b5 (fun p hp => c1 p.1 (List.of_mem_zip hp).1) (fun p hp => c2 p.1 (List.of_mem_zip hp).1) c3 c4 o (by rw [q2]; exact ho) hroom
  exact ⟨x, x1, by rw [q3 o ho] at x2; exact x2⟩

/-! ### A concrete case: two batches of different lengths, two features, one output -/

/-- the weight at the beginning -/
def exWeight : Tensor Val := exTensor [1, 2] [.float (1 / 2), .int 0]

/-- the bias at the beginning -/
def exBias : Tensor Val := exTensor [1] [.float (1 / 4)]

/-- the batches -/
def exBatches : List Batch :=
  [⟨1, exTensor [1, 2] [.float (1 / 4), .int 1], exTensor [1, 1] [.int 1]⟩,
    ⟨2, exTensor [2, 2] [.int 1, .float (1 / 2), .int (-1), .int 2], exTensor [2, 1] [.int 2, .float (3 / 10)]⟩]

/-- the first batch -/
def exOne : List Batch := exBatches.take 1

/-- the draws of the example -/
def exDraws (l : List Batch) : List (Nat → List Nat → I64) := List.replicate (2 + 3 * l.length) fun _ i => BitVec.ofNat 64 (i.sum + 31415)

/-- the draws of the example during the training -/
def exTape (l : List Batch) : List (Draws I64 × Unit) := List.replicate (26 * l.length) (exFixedDraws, ())

example : Formed 2 1 exWeight exBias exBatches := by
  refine ⟨rfl, rfl, fun e he => ?_⟩
  simp only [exBatches, List.mem_cons, List.not_mem_nil, or_false] at he
  rcases he with rfl | rfl <;> exact ⟨rfl, rfl⟩

example : (exDraws exBatches).length = (inputs exWeight exBias exBatches).length ∧
    (exTape exBatches).length = (training 1 (.float (1 / 10)) exBatches).length ∧ 0 < 2 ∧ 0 < 1 ∧ ∀ e ∈ exBatches, 0 < e.n := by
  decide +kernel

/-- gradient descent in the clear, after one round and after two -/
example : (fun θ : (Nat → Nat → ℚ) × (Nat → ℚ) => (θ.1 0 0, θ.1 0 1, θ.2 0)) (trained (1 / 10) 2 exOne (matrix exWeight, vector exBias)) =
      (17 / 32, 1 / 8, 3 / 8) ∧
    (fun θ : (Nat → Nat → ℚ) × (Nat → ℚ) => (θ.1 0 0, θ.1 0 1, θ.2 0)) (trained (1 / 10) 2 exBatches (matrix exWeight, vector exBias)) =
      (557 / 800, 497 / 1600, 249 / 400) := by
  decide +kernel

/-- one round: the errors are estimated below one in five thousand -/
example : ((estimate 65536 2 (training 1 (.float (1 / 10)) exOne) ((inputs exWeight exBias exOne).map (Grad.map (given 65536)))).toOption.map
    fun r => [(final exOne 0 1 5).1, (final exOne 0 1 5).2].all fun k => r.1[k]?.all fun t => (indices t.shape).all fun o => (t.at_ o).err < 1 / 5000) =
      some true := by
  decide +kernel

/-- the weight and the bias that two parties have after one round, in quanta: 34816 / 65536 is 17 / 32, 8191 / 65536 is 0.12498, 24574 / 65536
is 0.37497 -/
example : ((fixedInputs {} 2 ((inputs exWeight exBias exOne).zip (exDraws exOne)) >>=
    fixed {} (cutTwo {}) ((training 1 (.float (1 / 10)) exOne).zip (exTape exOne))).toOption.map fun r =>
      (r.1[(final exOne 0 1 5).1]?.bind exLook, r.1[(final exOne 0 1 5).2]?.bind exLook)) =
    some (some ([1, 2], [34816, 8191]), some ([1], [24574])) := by
  decide +kernel

/-- the inputs and operands can be encoded, the products have room, and their shares do not wrap -/
example : ((inputs exWeight exBias exOne).all fun t => (indices t.shape).all fun o =>
      decide ((|(given 65536 (t.at_ o)).num| + (given 65536 (t.at_ o)).err) * 65536 < 2 ^ 63)) ∧
    ((estimate 65536 2 (training 1 (.float (1 / 10)) exOne) ((inputs exWeight exBias exOne).map (Grad.map (given 65536)))).toOption.map
      fun r => r.2.all fun t => (indices t.shape).all fun o => decide ((|(t.at_ o).num| + (t.at_ o).err) * 65536 * 65536 < 2 ^ 63)) = some true := by
  decide +kernel

example : ((fixedInputs {} 2 ((inputs exWeight exBias exOne).zip (exDraws exOne)) >>=
    fixed {} (cutTwo {}) ((training 1 (.float (1 / 10)) exOne).zip (exTape exOne))).toOption.map fun r => r.2.all fun p =>
      match p.2.shares with
      | [a, b] => (indices a.shape).all fun o => decide (-2 ^ 63 ≤ (a.at_ o).toInt + (b.at_ o).toInt ∧ (a.at_ o).toInt + (b.at_ o).toInt < 2 ^ 63)
      | _ => false) = some true := by
  decide +kernel

/-- a session of three parties -/
example : NProgram.Suits exEnv exSession 0 := NProgram.exSuits

end SyMPC.LinearTraining
