import Verif.Model.Algo
import Verif.Lemmas.Shape

/-!
# C41: the fibres along a dimension
-/

namespace SyMPC

open Tensor

theorem numel_append (a b : List Nat) : Grad.numel (a ++ b) = Grad.numel a * Grad.numel b := by
  induction a with
  | nil => simp [Grad.numel]
  | cons x a ih => simp only [List.cons_append, Grad.numel]; rw [ih, Nat.mul_assoc]

theorem flat_append (a b i k : List Nat) (h : i.length = a.length) :
    Grad.flat (a ++ b) (i ++ k) = Grad.flat a i * Grad.numel b + Grad.flat b k := by
  induction a generalizing i with
  | nil =>
    have : i = [] := by simpa using h
    subst this
    simp [Grad.flat]
  | cons x a ih =>
    cases i with
    | nil => simp at h
    | cons y i =>
      simp only [List.cons_append, Grad.flat]
      rw [ih i (by simpa using h), numel_append]
      ring

/-- C41: in a tensor of any shape, the fibres along a dimension are made of the positions that differ in this dimension only: with
`r` the number of the position that the other coordinates make up. -/
theorem C41_fibres (a b : List Nat) (d : Nat) (i k : List Nat) (j : Fin d) (hi : ValidIdx a i) (hk : ValidIdx b k) :
    ∃ r : Fin (Layout.middle (Grad.numel a) d (Grad.numel b)).rows,
      r.val = Grad.flat (a ++ b) (i ++ k) ∧
      ((Layout.middle (Grad.numel a) d (Grad.numel b)).pos r j).val = Grad.flat (a ++ d :: b) (i ++ j.val :: k) := by
  have h1 := Grad.numel_flat_lt a i hi
  have h2 := Grad.numel_flat_lt b k hk
  have hl : i.length = a.length := ((Shape.valid_iff a i).mp hi).length_eq.symm
  refine ⟨finProdFinEquiv (⟨_, h1⟩, ⟨_, h2⟩), ?_, ?_⟩
  · rw [flat_append a b i k hl]
    simp [finProdFinEquiv]
    ring
  · rw [flat_append a (d :: b) i _ hl]
    unfold Layout.middle
    dsimp only
    rw [Equiv.symm_apply_apply]
    simp [finProdFinEquiv, Grad.flat, Grad.numel]
    ring

/-- the last dimension of a tensor of shape `(2, 3)`: the element `(1, 2)` has number 5 -/
example : ValidIdx [2] [1] ∧ ValidIdx [] [] ∧ Grad.flat ([2] ++ 3 :: []) ([1] ++ 2 :: []) = 5 := by
  refine ⟨⟨by decide, trivial⟩, trivial, by decide⟩

end SyMPC
