import Mathlib.Algebra.BigOperators.Ring.Finset
import Mathlib.Algebra.BigOperators.Pi
import Mathlib.Tactic.Ring
import Verif.Spec.Conv
import Verif.Lemmas.Py

/-!
# Facts about the model of convolutions
-/

namespace SyMPC.Conv

theorem sumTo_eq {T : Type} [AddCommMonoid T] (n : Nat) (f : Nat → T) : sumTo n f = ∑ i : Fin n, f i := by
  unfold sumTo
  rw [Fin.sum_univ_def]
  congr 1
  rw [← List.map_coe_finRange_eq_range, List.map_map]
  rfl

/-! ## Additivity -/

section
variable {T : Type} [CommRing T]

theorem padded_add (h v p q : Nat) (x y : List Nat → T) (n c i j : Nat) :
    padded h v p q (x + y) n c i j = padded h v p q x n c i j + padded h v p q y n c i j := by
  unfold padded
  split <;> simp

theorem readOr_add (x y : List Nat → T) (n c : Nat) (i j : Option Nat) : readOr (x + y) n c i j = readOr x n c i j + readOr y n c i j := by
  unfold readOr
  split <;> simp

theorem at_add_left (op : ConvOp) (a : Args) (xs ws : List Nat) (x y w : List Nat → T) :
    op.at a xs ws (x + y) w = op.at a xs ws x w + op.at a xs ws y w := by
  funext idx
  cases op
  · simp only [ConvOp.at, convAt, Pi.add_apply]
    split
    · simp only [sumTo_eq, padded_add, add_mul, Finset.sum_add_distrib]
    · simp
  · simp only [ConvOp.at, convTAt, Pi.add_apply]
    split
    · simp only [sumTo_eq, readOr_add, add_mul, Finset.sum_add_distrib]
    · simp

theorem at_add_right (op : ConvOp) (a : Args) (xs ws : List Nat) (x v w : List Nat → T) :
    op.at a xs ws x (v + w) = op.at a xs ws x v + op.at a xs ws x w := by
  funext idx
  cases op
  · simp only [ConvOp.at, convAt, Pi.add_apply]
    split
    · simp only [sumTo_eq, mul_add, Finset.sum_add_distrib]
    · simp
  · simp only [ConvOp.at, convTAt, Pi.add_apply]
    split
    · simp only [sumTo_eq, mul_add, Finset.sum_add_distrib]
    · simp

end

/-- a convolution is additive in image and kernel -/
def convHom (k : ConvKey) (a : Args) : (List Nat → I64) →+ (List Nat → I64) →+ (List Nat → I64) :=
  AddMonoidHom.mk' (fun x => AddMonoidHom.mk' (fun w => convOp k a x w) fun v w => at_add_right k.1 a k.2.1 k.2.2 x v w) (by
    intro x y
    ext w : 1
    exact at_add_left k.1 a k.2.1 k.2.2 x y w)

theorem convHom_apply (k : ConvKey) (a : Args) (x w : List Nat → I64) : convHom k a x w = convOp k a x w := rfl

/-! ## The textbook -/

section
variable {T : Type} [CommRing T]

theorem padded_unbounded (h v p q : Nat) (x : List Nat → T) (n c i j : Nat) (i' j' : Int) (hi : i' = i - p) (hj : j' = j - q) :
    padded h v p q x n c i j = unbounded h v x n c i' j' := by
  unfold padded unbounded
  subst hi hj
  by_cases hc : p ≤ i ∧ i < p + h ∧ q ≤ j ∧ j < q + v
  · rw [if_pos hc, if_pos (by omega)]
    have e1 : i - p = ((i : Int) - p).toNat := by omega
    have e2 : j - q = ((j : Int) - q).toNat := by omega
    rw [e1, e2]
  · rw [if_neg hc, if_neg (by omega)]

theorem spreadFrom_eq (n s p d i k y : Nat) (hs : 0 < s) :
    spreadFrom n s p d i k = some y ↔ y < n ∧ (i : Int) = (y : Int) * s - p + k * d := by
  unfold spreadFrom
  have key : ∀ r : Nat, k * d ≤ i + p → r = i + p - k * d → ((r % s = 0 ∧ r / s = y) ↔ (i : Int) = (y : Int) * s - p + k * d) := by
    intro r hr hr'
    have hdiv := Nat.div_add_mod r s
    constructor
    · rintro ⟨h1, h2⟩
      rw [h1, h2, mul_comm] at hdiv
      zify at hdiv hr'
      rw [Nat.cast_sub hr] at hr'
      push_cast at hr'
      linarith
    · intro h
      have e : r = y * s := by
        zify
        rw [hr', Nat.cast_sub hr]
        push_cast
        linarith
      rw [e]
      exact ⟨Nat.mul_mod_left _ _, Nat.mul_div_cancel _ hs⟩
  split
  next hc =>
    rw [Option.some_inj]
    constructor
    · rintro rfl
      exact ⟨hc.2.2, (key _ hc.1 rfl).1 ⟨hc.2.1, rfl⟩⟩
    · rintro ⟨_, h⟩
      exact ((key _ hc.1 rfl).2 h).2
  next hc =>
    simp only [reduceCtorEq, false_iff, not_and]
    intro hy h
    apply hc
    have h1 : k * d ≤ i + p := by
      zify
      have : (0 : Int) ≤ (y : Int) * s := by positivity
      linarith
    have := (key _ h1 rfl).2 h
    exact ⟨h1, this.1, by rw [this.2]; exact hy⟩

theorem spreadFrom_lt {n s p d i k y : Nat} (h : spreadFrom n s p d i k = some y) : y < n := by
  unfold spreadFrom at h
  split at h
  next hc => cases h; exact hc.2.2
  next => cases h

/-- a sum over the pixels with at most one term -/
theorem readOr_sum (x : List Nat → T) (n c h v s1 s2 p1 p2 d1 d2 i j k1 k2 : Nat) (h1 : 0 < s1) (h2 : 0 < s2) (t : T) :
    readOr x n c (spreadFrom h s1 p1 d1 i k1) (spreadFrom v s2 p2 d2 j k2) * t
      = ∑ y : Fin h, ∑ z : Fin v, if (i : Int) = (y : Int) * s1 - p1 + k1 * d1 ∧ (j : Int) = (z : Int) * s2 - p2 + k2 * d2
          then x [n, c, y, z] * t else 0 := by
  have hy : ∀ y : Fin h, spreadFrom h s1 p1 d1 i k1 = some y.1 ↔ (i : Int) = (y : Int) * s1 - p1 + k1 * d1 := by
    intro y
    rw [spreadFrom_eq _ _ _ _ _ _ _ h1]
    exact ⟨fun h => h.2, fun h => ⟨y.2, h⟩⟩
  have hz : ∀ z : Fin v, spreadFrom v s2 p2 d2 j k2 = some z.1 ↔ (j : Int) = (z : Int) * s2 - p2 + k2 * d2 := by
    intro z
    rw [spreadFrom_eq _ _ _ _ _ _ _ h2]
    exact ⟨fun h => h.2, fun h => ⟨z.2, h⟩⟩
  simp only [← hy, ← hz]
  cases e1 : spreadFrom h s1 p1 d1 i k1 with
  | none => simp [readOr]
  | some y0 =>
    cases e2 : spreadFrom v s2 p2 d2 j k2 with
    | none => simp [readOr]
    | some z0 =>
      have hy0 := spreadFrom_lt e1
      have hz0 := spreadFrom_lt e2
      rw [Finset.sum_eq_single ⟨y0, hy0⟩, Finset.sum_eq_single ⟨z0, hz0⟩]
      · simp [readOr]
      · intro b _ hb
        rw [if_neg]
        rintro ⟨_, h⟩
        cases h
        exact hb rfl
      · simp
      · intro b _ hb
        apply Finset.sum_eq_zero
        intro z _
        rw [if_neg]
        rintro ⟨h, _⟩
        cases h
        exact hb rfl
      · simp

/-- the channels of the result for kernels `[o, ci, _, _]` -/
def channels : ConvOp → Nat → Nat → Nat → Nat
  | .conv2d, _, o, _ => o
  | .convTranspose2d, g, _, ci => ci * g

/-- how the sizes fit together -/
def Sized (a : Args) (c h v o ci kh kw i j : Nat) : ConvOp → Prop
  | .conv2d => outDim h kh a.stride.1 a.padding.1 a.dilation.1 = .ok i ∧ outDim v kw a.stride.2 a.padding.2 a.dilation.2 = .ok j ∧
      0 < a.groups ∧ a.groups ≤ o ∧ o % a.groups = 0 ∧ c = ci * a.groups
  | .convTranspose2d => outDimT h kh a.stride.1 a.padding.1 a.dilation.1 = .ok i ∧
      outDimT v kw a.stride.2 a.padding.2 a.dilation.2 = .ok j ∧ 0 < a.groups ∧ o = c ∧ c % a.groups = 0

/-- the shapes that torch accepts have four dimensions and positive strides -/
theorem shape_ok {op : ConvOp} {a : Args} {xs ws s : List Nat} (h : op.shape a xs ws = .ok s) :
    ∃ n c hh v o ci kh kw i j, xs = [n, c, hh, v] ∧ ws = [o, ci, kh, kw] ∧ s = [n, channels op a.groups o ci, i, j] ∧ 0 < a.stride.1 ∧
      0 < a.stride.2 ∧ Sized a c hh v o ci kh kw i j op := by
  have pos : ∀ {n k s p d m}, outDim n k s p d = .ok m → 0 < s := by
    intro n k s p d m h
    unfold outDim at h
    split at h
    · cases h
    next hc =>
      simp only [not_or] at hc
      omega
  have posT : ∀ {n k s p d m}, outDimT n k s p d = .ok m → 0 < s := by
    intro n k s p d m h
    unfold outDimT at h
    split at h
    · cases h
    next hc =>
      simp only [not_or] at hc
      omega
  cases op
  · simp only [ConvOp.shape] at h
    unfold convShape at h
    split at h
    next n c hh v o ci kh kw =>
      by_cases hc : a.groups = 0 ∨ o < a.groups ∨ o % a.groups ≠ 0 ∨ c ≠ ci * a.groups
      · rw [if_pos hc] at h
        cases h
      · rw [if_neg hc] at h
        cases e1 : outDim hh kh a.stride.1 a.padding.1 a.dilation.1 with
        | error e => rw [e1, error_bind] at h; cases h
        | ok i =>
          rw [e1, ok_bind] at h
          cases e2 : outDim v kw a.stride.2 a.padding.2 a.dilation.2 with
          | error e => rw [e2, error_bind] at h; cases h
          | ok j =>
            rw [e2, ok_bind] at h
            cases h
            refine ⟨n, c, hh, v, o, ci, kh, kw, i, j, rfl, rfl, rfl, pos e1, pos e2, e1, e2, ?_⟩
            simp only [not_or, not_not] at hc
            omega
    · cases h
  · simp only [ConvOp.shape] at h
    unfold convTShape at h
    split at h
    next n c hh v o ci kh kw =>
      by_cases hc : a.groups = 0 ∨ c ≠ o ∨ c % a.groups ≠ 0
      · rw [if_pos hc] at h
        cases h
      · rw [if_neg hc] at h
        cases e1 : outDimT hh kh a.stride.1 a.padding.1 a.dilation.1 with
        | error e => rw [e1, error_bind] at h; cases h
        | ok i =>
          rw [e1, ok_bind] at h
          cases e2 : outDimT v kw a.stride.2 a.padding.2 a.dilation.2 with
          | error e => rw [e2, error_bind] at h; cases h
          | ok j =>
            rw [e2, ok_bind] at h
            cases h
            refine ⟨n, c, hh, v, o, ci, kh, kw, i, j, rfl, rfl, rfl, posT e1, posT e2, e1, e2, ?_⟩
            simp only [not_or, not_not] at hc
            omega
    · cases h

/-- where torch accepts the shapes, the model of its result is the textbook's -/
theorem at_textbook (op : ConvOp) (a : Args) (xs ws s : List Nat) (h : op.shape a xs ws = .ok s) (x w : List Nat → T) (n m i j : Nat) :
    op.at a xs ws x w [n, m, i, j] = textbook op a xs ws x w n m i j := by
  obtain ⟨n', c, h', v, o, ci, kh, kw, i', j', rfl, rfl, rfl, h1, h2, -⟩ := shape_ok h
  cases op
  · simp only [ConvOp.at, convAt, textbook, crossCorrelation, sumTo_eq]
    apply Finset.sum_congr rfl; intro c' _
    apply Finset.sum_congr rfl; intro p _
    apply Finset.sum_congr rfl; intro q _
    rw [padded_unbounded]
    · push_cast; ring
    · push_cast; ring
  · simp only [ConvOp.at, convTAt, textbook, kernelCopies, sumTo_eq]
    apply Finset.sum_congr rfl; intro c' _
    simp only [readOr_sum _ _ _ _ _ _ _ _ _ _ _ _ _ _ _ h1 h2]
    rw [Finset.sum_congr rfl fun (p : Fin kh) _ => Finset.sum_comm, Finset.sum_comm]
    apply Finset.sum_congr rfl; intro y _
    rw [Finset.sum_congr rfl fun (p : Fin kh) _ => Finset.sum_comm, Finset.sum_comm]

end

/-- the shapes of a transposed convolution fit for the default arguments if they fit for some -/
theorem transposed_accepted (a : Args) (xs ws sh : List Nat) (h : ConvOp.convTranspose2d.shape a xs ws = .ok sh) :
    ∃ sh', ConvOp.convTranspose2d.shape .default xs ws = .ok sh' := by
  obtain ⟨n, c, hh, v, o, ci, kh, kw, i, j, rfl, rfl, -, -, -, h1, h2, -, h3, -⟩ := shape_ok h
  have key : ∀ {n k s p d m : Nat}, outDimT n k s p d = .ok m → outDimT n k 1 0 1 = .ok ((n - 1) * 1 + 1 * (k - 1) + 1 - 2 * 0) := by
    intro n k s p d m h
    unfold outDimT at h ⊢
    split at h
    · cases h
    next hc =>
      rw [if_neg (by omega)]
  have e : ConvOp.convTranspose2d.shape .default [n, c, hh, v] [o, ci, kh, kw] = (do
      let i ← outDimT hh kh 1 0 1
      let j ← outDimT v kw 1 0 1
      return [n, ci * 1, i, j]) := if_neg (show ¬ (1 = 0 ∨ c ≠ o ∨ c % 1 ≠ 0) by omega)
  rw [e, key h1, key h2]
  exact ⟨_, rfl⟩

end SyMPC.Conv
