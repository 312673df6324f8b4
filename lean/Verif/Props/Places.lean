import Verif.Model.Shape
import Verif.Model.Conv
import Verif.Model.Nn

/-!
# Numbers of dimensions, of places of a kernel and of windows (C66, C63, C55)
-/

namespace SyMPC

/-- C66: dimension `d` of a tensor with `n` dimensions is dimension `k`, counted from the front if `d` is not negative and from the end
otherwise (`-1` is the last one); other numbers are refused with `IndexError`. -/
theorem C66_dimension_numbers (n : Nat) (hn : 0 < n) (d : Int) :
    (∀ k, Shape.normDim n d = .ok k ↔ k < n ∧ (d = k ∨ d = k - n)) ∧
    (∀ e, Shape.normDim n d = .error e ↔ e = .indexError ∧ ¬ (-(n : Int) ≤ d ∧ d < n)) := by
  unfold Shape.normDim
  rw [max_eq_left (by omega)]
  dsimp only
  constructor
  · intro k
    split
    · rw [Except.ok.injEq]
      omega
    · split
      · rw [Except.ok.injEq]
        omega
      · simp only [reduceCtorEq, false_iff]
        omega
  · intro e
    split
    · simp only [reduceCtorEq, false_iff]
      omega
    · split
      · simp only [reduceCtorEq, false_iff]
        omega
      · rw [Except.error.injEq]
        constructor
        · rintro rfl
          exact ⟨rfl, by omega⟩
        · rintro ⟨rfl, -⟩
          rfl

/-- C63: a convolution along a dimension of length `n` is refused exactly if stride, dilation or kernel size is 0 or the kernel, with its gaps,
does not fit into the image with its border. -/
theorem C63_kernel_fits (n k s p d : Nat) :
    (∃ m, Conv.outDim n k s p d = .ok m) ↔ 0 < s ∧ 0 < d ∧ 0 < k ∧ d * (k - 1) < n + 2 * p := by
  unfold Conv.outDim
  split
  · simp only [reduceCtorEq, exists_false, false_iff]
    omega
  · simp only [Except.ok.injEq, exists_eq', true_iff]
    omega

/-- C55: the windows of a pooling along a dimension of length `n` are those that lie within the image with its border. -/
theorem C55_pool_windows (n k s p : Nat) (hs : 0 < s) (hk : k ≤ n + 2 * p) (i : Nat) : i < poolOut n k s p ↔ i * s + k ≤ n + 2 * p := by
  unfold poolOut
  rw [Nat.lt_succ_iff, Nat.le_div_iff_mul_le hs]
  omega

/-! ## Examples -/

/-- the last but one of three dimensions -/
example : Shape.normDim 3 (-2) = .ok 1 ∧ Shape.normDim 3 3 = .error .indexError := by decide

/-- a kernel that fits only with a border -/
example : Conv.outDim 2 3 1 1 1 = .ok 2 ∧ Conv.outDim 2 3 1 0 1 = .error .runtimeError := by decide

/-- the last column is not reached by a window -/
example : poolOut 6 3 2 0 = 2 ∧ poolOut 7 3 2 0 = 3 := by decide

end SyMPC
