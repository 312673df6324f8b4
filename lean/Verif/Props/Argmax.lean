import Verif.Spec.Algo
import Mathlib.Algebra.Order.BigOperators.Ring.Finset
import Mathlib.Algebra.Order.BigOperators.Group.Finset
import Mathlib.Tactic.Linarith
import Mathlib.Tactic.Positivity

/-!
# C41: argmax and max
-/

namespace SyMPC

variable {m : Type → Type} [Monad m] {X : Nat → Type} {F : Type} [Field F] [LinearOrder F] [IsStrictOrderedRing F] {n : Nat}

/-- The rolls of a fibre bring every other element to a position, and for a fibre of one element that element. -/
theorem rolled_surj (L : Layout n) (p q : Fin n) (h : L.row p = L.row q) (hpq : p ≠ q) :
    ∃ i : Fin (rowLength L.len - 1), L.rolled i p = q := by
  have hp := (L.col p).isLt
  have hq := (L.col q).isLt
  have hne : (L.col p).val ≠ (L.col q).val := by
    intro hc
    apply hpq
    rw [← L.pos_row_col p, ← L.pos_row_col q, h, Fin.ext hc]
  have hlen : 1 < L.len := by omega
  have hrl : rowLength L.len = L.len := if_pos hlen
  -- the shift is `col p - col q`
  have key : ∀ k : Nat, 0 < k → k < L.len → ((L.col p).val + (L.len - k)) % L.len = (L.col q).val →
      ∃ i : Fin (rowLength L.len - 1), L.rolled i p = q := by
    intro k k1 k2 hk
    refine ⟨⟨k - 1, by omega⟩, ?_⟩
    unfold Layout.rolled
    have : (k - 1 + 1) % L.len = k := by
      rw [show k - 1 + 1 = k by omega]
      exact Nat.mod_eq_of_lt k2
    simp only [this]
    rw [h, show (⟨((L.col p).val + (L.len - k)) % L.len, Nat.mod_lt _ (L.col p).pos⟩ : Fin L.len) = L.col q from Fin.ext hk]
    exact L.pos_row_col q
  rcases lt_or_gt_of_ne hne with hlt | hlt
  · apply key ((L.col p).val + L.len - (L.col q).val) (by omega) (by omega)
    rw [show (L.col p).val + (L.len - ((L.col p).val + L.len - (L.col q).val)) = (L.col q).val by omega]
    exact Nat.mod_eq_of_lt hq
  · apply key ((L.col p).val - (L.col q).val) (by omega) (by omega)
    rw [show (L.col p).val + (L.len - ((L.col p).val - (L.col q).val)) = (L.col q).val + L.len by omega]
    rw [Nat.add_mod_right]
    exact Nat.mod_eq_of_lt hq

theorem rolled_row (L : Layout n) (i : Nat) (p : Fin n) : L.row (L.rolled i p) = L.row p := L.row_pos _ _

/-- the other elements of its fibre that do not exceed element `p`, counted by the rolls that bring them there -/
def notAbove (L : Layout n) (v : Fin n → F) (p : Fin n) : Nat :=
  ((Finset.univ : Finset (Fin (rowLength L.len - 1))).filter fun i : Fin (rowLength L.len - 1) => v (L.rolled i p) ≤ v p).card

omit [Field F] [IsStrictOrderedRing F] in
theorem notAbove_full (L : Layout n) (v : Fin n → F) (p : Fin n) :
    rowLength L.len - 1 ≤ notAbove L v p ↔ ∀ q, L.row q = L.row p → v q ≤ v p := by
  unfold notAbove
  have hc : (Finset.univ : Finset (Fin (rowLength L.len - 1))).card = rowLength L.len - 1 := by simp
  constructor
  · intro h q hq
    by_cases hpq : p = q
    · rw [hpq]
    · obtain ⟨i, hi⟩ := rolled_surj L p q hq.symm hpq
      have : ((Finset.univ : Finset (Fin (rowLength L.len - 1))).filter fun i : Fin (rowLength L.len - 1) => v (L.rolled i p) ≤ v p) = Finset.univ :=
        Finset.eq_of_subset_of_card_le (Finset.filter_subset _ _) (by rw [hc]; exact h)
      have hm : i ∈ (Finset.univ : Finset (Fin (rowLength L.len - 1))).filter fun i : Fin (rowLength L.len - 1) => v (L.rolled i p) ≤ v p := by
        rw [this]; exact Finset.mem_univ _
      rw [Finset.mem_filter, hi] at hm
      exact hm.2
  · intro h
    rw [Finset.filter_true_of_mem, hc]
    intro i _
    exact h _ (rolled_row L i p)

omit [LinearOrder F] [IsStrictOrderedRing F] in
theorem sum_map_ite_card {k : Nat} (P : Fin k → Prop) [DecidablePred P] :
    ((List.finRange k).map fun i => if P i then (1 : F) else 0).sum = ((Finset.univ.filter P).card : F) := by
  rw [← List.ofFn_eq_map, List.sum_ofFn, Finset.sum_boole]

/-- the one-hot vector for any threshold `last` -/
theorem argmaxHot_count {O : SecretOps m X F} {S : Sure m} (A : Sound O S) (L : Layout n) (last : Nat) (x : X n) (ok : A.Ok x)
    (C : F) (hC : ∀ i, |A.val x i| ≤ C) (hB : 2 * C ≤ A.B) (hl : (rowLength L.len : F) ≤ A.B) (hla : (rowLength last : F) ≤ A.B)
    (hB0 : 0 ≤ A.B) :
    S.sure (argmaxHot O L last x) fun h => A.Ok h ∧
      ∀ p, A.val h p = if rowLength last - 1 ≤ notAbove L (A.val x) p then 1 else 0 := by
  unfold argmaxHot argmaxPairwise
  have hk : ((rowLength L.len - 1 : Nat) : F) ≤ A.B := by
    refine le_trans ?_ hl
    exact_mod_cast Nat.sub_le _ _
  have hka : ((rowLength last - 1 : Nat) : F) ≤ A.B := by
    refine le_trans ?_ hla
    exact_mod_cast Nat.sub_le _ _
  refine S.bind _ _ (fun d => A.Ok d ∧ ∀ q, A.val d q = A.val x (finProdFinEquiv.symm q).2
    - A.val x (L.rolled (finProdFinEquiv.symm q).1 (finProdFinEquiv.symm q).2)) _ ?_ ?_
  · refine S.bind _ _ _ _ (A.view _ x ok) ?_
    rintro a ⟨oka, ha⟩
    refine S.bind _ _ _ _ (A.view _ x ok) ?_
    rintro b ⟨okb, hb⟩
    refine S.mono _ _ _ (A.sub a b oka okb ?_) ?_
    · intro q
      rw [ha, hb]
      refine (abs_sub _ _).trans ?_
      have := hC (finProdFinEquiv.symm q).2
      have := hC (L.rolled (finProdFinEquiv.symm q).1 (finProdFinEquiv.symm q).2)
      linarith
    · rintro d ⟨okd, hd⟩
      exact ⟨okd, fun q => by rw [hd, ha, hb]⟩
  rintro d ⟨okd, hd⟩
  refine S.bind _ _ _ _ (A.geP d 0 okd ?_ (by simpa using hB0)) ?_
  · intro q
    rw [hd]
    refine (abs_sub _ _).trans ?_
    have := hC (finProdFinEquiv.symm q).2
    have := hC (L.rolled (finProdFinEquiv.symm q).1 (finProdFinEquiv.symm q).2)
    linarith
  rintro c ⟨okc, hc⟩
  have hcv : ∀ i p, A.val c (finProdFinEquiv (i, p)) = if A.val x (L.rolled i p) ≤ A.val x p then 1 else 0 := by
    intro i p
    rw [hc, hd]
    simp only [Equiv.symm_apply_apply, Int.cast_zero, ge_iff_le, sub_nonneg]
  have hsum : ∀ p, (((List.finRange (rowLength L.len - 1)).map fun i => finProdFinEquiv (i, p)).map (A.val c)).sum
      = (notAbove L (A.val x) p : F) := by
    intro p
    rw [List.map_map]
    simp only [Function.comp_def, hcv]
    exact sum_map_ite_card _
  have hle : ∀ p, (notAbove L (A.val x) p : F) ≤ A.B := by
    intro p
    refine le_trans ?_ hk
    have : notAbove L (A.val x) p ≤ rowLength L.len - 1 := (Finset.card_filter_le _ _).trans (by simp)
    exact_mod_cast this
  refine S.bind _ _ _ _ (A.sums _ c okc ?_) ?_
  · intro p
    have : (((List.finRange (rowLength L.len - 1)).map fun i => finProdFinEquiv (i, p)).map fun i => |A.val c i|).sum
        = (notAbove L (A.val x) p : F) := by
      rw [← hsum p, List.map_map, List.map_map]
      congr 1
      apply List.map_congr_left
      intro i _
      simp only [Function.comp_def, hcv]
      split <;> simp
    rw [this]
    exact hle p
  rintro s ⟨oks, hs⟩
  refine S.mono _ _ _ (A.geP s ((rowLength last - 1 : Nat) : Int) oks ?_ ?_) ?_
  · intro p
    rw [hs, hsum, abs_of_nonneg (Nat.cast_nonneg _)]
    exact hle p
  · rw [Int.cast_natCast, abs_of_nonneg (Nat.cast_nonneg _)]
    exact hka
  · rintro h ⟨okh, hh⟩
    refine ⟨okh, fun p => ?_⟩
    rw [hh, hs, hsum, Int.cast_natCast]
    simp only [ge_iff_le, Nat.cast_le]

/-- an element that is not exceeded in its fibre -/
def IsMax (L : Layout n) (v : Fin n → F) (p : Fin n) : Prop := ∀ q, L.row q = L.row p → v q ≤ v p

instance (L : Layout n) (v : Fin n → F) : DecidablePred (IsMax L v) := fun _ =>
  inferInstanceAs (Decidable (∀ _, _ → _))

theorem argmaxHot_spec {O : SecretOps m X F} {S : Sure m} (A : Sound O S) (L : Layout n) (x : X n) (ok : A.Ok x)
    (C : F) (hC : ∀ i, |A.val x i| ≤ C) (hB : 2 * C ≤ A.B) (hl : (rowLength L.len : F) ≤ A.B) (hB0 : 0 ≤ A.B) :
    S.sure (argmaxHot O L L.len x) fun h => A.Ok h ∧ ∀ p, A.val h p = if IsMax L (A.val x) p then 1 else 0 := by
  refine S.mono _ _ _ (argmaxHot_count A L L.len x ok C hC hB hl hl hB0) ?_
  rintro h ⟨okh, hh⟩
  refine ⟨okh, fun p => ?_⟩
  rw [hh]
  simp only [notAbove_full]
  rfl

/-! ## Sums with errors -/

theorem sum_error {α : Type} (l : List α) (a b : α → F) (δ : F) (h : ∀ i ∈ l, |a i - b i| ≤ δ) :
    |(l.map a).sum - (l.map b).sum| ≤ l.length * δ := by
  induction l with
  | nil => simp
  | cons i l ih =>
    have h1 := h i (by simp)
    have h2 := ih fun j hj => h j (by simp [hj])
    simp only [List.map_cons, List.sum_cons, List.length_cons, Nat.cast_add, Nat.cast_one, add_mul, one_mul]
    calc |a i + (l.map a).sum - (b i + (l.map b).sum)| = |(a i - b i) + ((l.map a).sum - (l.map b).sum)| := by congr 1; ring
      _ ≤ |a i - b i| + |(l.map a).sum - (l.map b).sum| := abs_add_le _ _
      _ ≤ l.length * δ + δ := by linarith

theorem sum_abs_le {α : Type} (l : List α) (a : α → F) (c : F) (h : ∀ i ∈ l, |a i| ≤ c) :
    (l.map fun i => |a i|).sum ≤ l.length * c := by
  induction l with
  | nil => simp
  | cons i l ih =>
    have h1 := h i (by simp)
    have h2 := ih fun j hj => h j (by simp [hj])
    simp only [List.map_cons, List.sum_cons, List.length_cons, Nat.cast_add, Nat.cast_one, add_mul, one_mul]
    linarith

omit [IsStrictOrderedRing F] in
/-- a sum over a fibre in which only one place counts -/
theorem sum_single (L : Layout n) (v : Fin n → F) (r : Fin L.rows) (t : Fin L.len)
    (ht : ∀ j, j ≠ t → v (L.pos r j) < v (L.pos r t)) (w : Fin n → F) :
    (((List.finRange L.len).map (L.pos r)).map fun p => if IsMax L v p then w p else 0).sum = w (L.pos r t) := by
  have hmax : ∀ j, IsMax L v (L.pos r j) ↔ j = t := by
    intro j
    constructor
    · intro h
      by_contra hj
      exact absurd (h (L.pos r t) (by rw [L.row_pos, L.row_pos])) (not_le.mpr (ht j hj))
    · rintro rfl q hq
      rw [L.row_pos] at hq
      rw [← L.pos_row_col q, hq]
      by_cases hc : L.col q = j
      · rw [hc]
      · exact (ht _ hc).le
  rw [List.map_map, ← List.ofFn_eq_map, List.sum_ofFn]
  simp only [Function.comp_def, hmax]
  rw [Finset.sum_ite_eq' Finset.univ t]
  simp

omit [IsStrictOrderedRing F] in
theorem rowLength_le (l : Nat) (B : F) (h1 : (2 : F) ≤ B) (h2 : (l : F) ≤ B) : (rowLength l : F) ≤ B := by
  unfold rowLength
  split
  · exact h2
  · exact_mod_cast h1

/-- sums over fibres of approximate values -/
theorem fibre_sums {O : SecretOps m X F} {S : Sure m} (A : Sound O S) (hδ1 : A.δ ≤ 1) (L : Layout n) (w : Fin n → F)
    (x : X n) (ok : A.Ok x) (hx : ∀ p, |A.val x p - w p| ≤ A.δ) (c : F) (hw : ∀ p, |w p| ≤ c) (hc : (L.len : F) * (c + 1) ≤ A.B) :
    S.sure (O.sums (fun r => (List.finRange L.len).map (L.pos r)) x) fun z => A.Ok z ∧
      ∀ r, |A.val z r - (((List.finRange L.len).map (L.pos r)).map w).sum| ≤ L.len * A.δ := by
  have hlen : ∀ r, ((List.finRange L.len).map (L.pos r)).length = L.len := by simp
  refine S.mono _ _ _ (A.sums _ x ok ?_) ?_
  · intro r
    refine (sum_abs_le _ _ (c + 1) ?_).trans (by rw [hlen]; exact hc)
    intro p _
    have h1 := hx p
    have h2 := hw p
    have := abs_sub_abs_le_abs_sub (A.val x p) (w p)
    linarith
  · rintro z ⟨okz, hz⟩
    refine ⟨okz, fun r => ?_⟩
    rw [hz]
    have := sum_error ((List.finRange L.len).map (L.pos r)) (A.val x) _ A.δ fun p _ => hx p
    rw [hlen] at this
    exact this

/-- `result * torch.Tensor([0, 1, ...])` -/
theorem times_index {O : SecretOps m X F} {S : Sure m} (A : Sound O S) (L : Layout n) (v : Fin n → F) (h : X n) (okh : A.Ok h)
    (hh : ∀ p, A.val h p = if IsMax L v p then 1 else 0) (hl : (L.len : F) ≤ A.B) :
    S.sure (O.mulT h fun p => (((L.col p).val : Int) : F)) fun z => A.Ok z ∧
      ∀ p, |A.val z p - if IsMax L v p then ((L.col p).val : F) else 0| ≤ A.δ := by
  have hprod : ∀ p, A.val h p * (((L.col p).val : Int) : F) = if IsMax L v p then ((L.col p).val : F) else 0 := by
    intro p
    rw [hh]
    split <;> simp
  refine S.mono _ _ _ (A.mulT h (fun p => ((L.col p).val : Int)) okh ?_) ?_
  · intro p
    rw [hprod]
    refine le_trans ?_ hl
    split
    · rw [abs_of_nonneg (Nat.cast_nonneg _)]
      exact_mod_cast (L.col p).isLt.le
    · simp
  · rintro z ⟨okz, hz⟩
    refine ⟨okz, fun p => ?_⟩
    rw [← hprod]
    exact hz p

theorem index_le (L : Layout n) (v : Fin n → F) (p : Fin n) : |(if IsMax L v p then ((L.col p).val : F) else 0)| ≤ L.len := by
  split
  · rw [abs_of_nonneg (Nat.cast_nonneg _)]
    exact_mod_cast (L.col p).isLt.le
  · simp

/-- `argmax_mpc * x` -/
theorem times_self {O : SecretOps m X F} {S : Sure m} (A : Sound O S) (L : Layout n) (x : X n) (ok : A.Ok x) (h : X n) (okh : A.Ok h)
    (hh : ∀ p, A.val h p = if IsMax L (A.val x) p then 1 else 0) (hB0 : 0 ≤ A.B) (hC : ∀ i, |A.val x i| ≤ A.B) :
    S.sure (O.mul h x) fun z => A.Ok z ∧ ∀ p, |A.val z p - if IsMax L (A.val x) p then A.val x p else 0| ≤ A.δ := by
  have hprod : ∀ p, A.val h p * A.val x p = if IsMax L (A.val x) p then A.val x p else 0 := by
    intro p
    rw [hh]
    split <;> simp
  refine S.mono _ _ _ (A.mul h x okh ok ?_) ?_
  · intro p
    rw [hprod]
    split
    · exact hC p
    · simpa using hB0
  · rintro z ⟨okz, hz⟩
    refine ⟨okz, fun p => ?_⟩
    rw [← hprod]
    exact hz p

theorem len_le (l : Nat) (B : F) (h : (l : F) * (l + 1) ≤ B) : (l : F) ≤ B := by
  have : (0 : F) ≤ l := Nat.cast_nonneg _
  nlinarith

/-! ## C41 -/

/-- C41, `x.argmax(dim)`: for fibres with a unique maximum at `top r`, the result is `top r` up to one rounding error per
element. -/
theorem C41_argmax_dim_partial {O : SecretOps m X F} {S : Sure m} (A : Sound O S) (hδ1 : A.δ ≤ 1) (L : Layout n) (x : X n)
    (ok : A.Ok x) (C : F) (hC : ∀ i, |A.val x i| ≤ C) (hB : 2 * C ≤ A.B) (h2 : 2 ≤ A.B) (hl : (L.len : F) * (L.len + 1) ≤ A.B)
    (top : Fin L.rows → Fin L.len) (htop : ∀ r j, j ≠ top r → A.val x (L.pos r j) < A.val x (L.pos r (top r))) :
    S.sure (argmaxDim O L x) fun z => A.Ok z ∧ ∀ r, |A.val z r - ((top r).val : F)| ≤ L.len * A.δ := by
  have hl0 := len_le _ _ hl
  unfold argmaxDim
  refine S.bind _ _ _ _ (argmaxHot_spec A L x ok C hC hB (rowLength_le _ _ h2 hl0) (by linarith)) ?_
  rintro h ⟨okh, hh⟩
  refine S.bind _ _ _ _ (times_index A L (A.val x) h okh hh hl0) ?_
  rintro c ⟨okc, hc⟩
  refine S.mono _ _ _ (fibre_sums A hδ1 L _ c okc hc (L.len : F) (index_le L _) hl) ?_
  rintro z ⟨okz, hz⟩
  refine ⟨okz, fun r => ?_⟩
  have := hz r
  rw [sum_single L (A.val x) r (top r) (htop r) fun p => ((L.col p).val : F), L.col_pos] at this
  exact this

/-- C41, `x.max(dim)`: maxima and their indices, for fibres with a unique maximum. -/
theorem C41_max_dim_partial {O : SecretOps m X F} {S : Sure m} (A : Sound O S) (hδ1 : A.δ ≤ 1) (L : Layout n) (x : X n)
    (ok : A.Ok x) (C : F) (hC0 : 0 ≤ C) (hC : ∀ i, |A.val x i| ≤ C) (hB : 2 * C ≤ A.B) (h2 : 2 ≤ A.B)
    (hl : (L.len : F) * (L.len + 1) ≤ A.B) (hlC : (L.len : F) * (C + 1) ≤ A.B)
    (top : Fin L.rows → Fin L.len) (htop : ∀ r j, j ≠ top r → A.val x (L.pos r j) < A.val x (L.pos r (top r))) :
    S.sure (maxDim O L x) fun z => A.Ok z.1 ∧ A.Ok z.2 ∧
      (∀ r, |A.val z.1 r - A.val x (L.pos r (top r))| ≤ L.len * A.δ) ∧ ∀ r, |A.val z.2 r - ((top r).val : F)| ≤ L.len * A.δ := by
  have hl0 := len_le _ _ hl
  unfold maxDim
  refine S.bind _ _ _ _ (argmaxHot_spec A L x ok C hC hB (rowLength_le _ _ h2 hl0) (by linarith)) ?_
  rintro h ⟨okh, hh⟩
  refine S.bind _ _ _ _ (times_self A L x ok h okh hh (by linarith) fun i => (hC i).trans (by linarith)) ?_
  rintro pr ⟨okp, hp⟩
  refine S.bind _ _ _ _ (times_index A L (A.val x) h okh hh hl0) ?_
  rintro c ⟨okc, hc⟩
  refine S.bind _ _ _ _ (fibre_sums A hδ1 L _ c okc hc (L.len : F) (index_le L _) hl) ?_
  rintro z2 ⟨ok2, hz2⟩
  refine S.bind _ _ _ _ (fibre_sums A hδ1 L _ pr okp hp C (fun p => by split; exact hC p; simpa using hC0) hlC) ?_
  rintro z1 ⟨ok1, hz1⟩
  refine S.pure _ _ ⟨ok1, ok2, fun r => ?_, fun r => ?_⟩
  · have := hz1 r
    rw [sum_single L (A.val x) r (top r) (htop r) (A.val x)] at this
    exact this
  · have := hz2 r
    rw [sum_single L (A.val x) r (top r) (htop r) fun p => ((L.col p).val : F), L.col_pos] at this
    exact this

/-- The sum of the indices of all maxima of a vector. -/
def tieSum (v : Fin n → F) : F := ∑ j, if ∀ i, v i ≤ v j then (j.val : F) else 0

omit [IsStrictOrderedRing F] in
theorem flat_sum (v w : Fin n → F) (r : Fin (Layout.flat n).rows) :
    (((List.finRange (Layout.flat n).len).map ((Layout.flat n).pos r)).map fun p => if IsMax (Layout.flat n) v p then w p else 0).sum
      = ∑ j, if ∀ i, v i ≤ v j then w j else 0 := by
  have e : (List.finRange (Layout.flat n).len).map ((Layout.flat n).pos r) = List.finRange n := List.map_id _
  rw [e, ← List.ofFn_eq_map, List.sum_ofFn]
  apply Finset.sum_congr rfl
  intro j _
  have : IsMax (Layout.flat n) v j ↔ ∀ i, v i ≤ v j := ⟨fun h i => h i rfl, fun h i _ => h i⟩
  simp only [this]

/-- `x.argmax()` of a vector, with ties: what is returned is the sum of the indices of all maxima; where it is too
large to be an index, the exception is raised. -/
theorem argmax_ties {O : SecretOps m X F} {S : Sure m} (A : Sound O S) (hδ1 : A.δ ≤ 1) (x : X n)
    (ok : A.Ok x) (C : F) (hC : ∀ i, |A.val x i| ≤ C) (hB : 2 * C ≤ A.B) (h2 : 2 ≤ A.B)
    (hl : (n : F) * (n + 1) ≤ A.B) (hlow : tieSum (A.val x) + n * A.δ < rowLength n) :
    S.sure (argmaxAll O n x) fun z => A.Ok z ∧ |A.val z 0 - tieSum (A.val x)| ≤ n * A.δ := by
  have hl0 := len_le _ _ hl
  have hrl := rowLength_le n A.B h2 hl0
  unfold argmaxAll
  refine S.bind _ _ _ _ (argmaxHot_spec A (Layout.flat n) x ok C hC hB hrl (by linarith)) ?_
  rintro h ⟨okh, hh⟩
  refine S.bind _ _ _ _ (times_index A (Layout.flat n) (A.val x) h okh hh hl0) ?_
  rintro c ⟨okc, hc⟩
  have hs : S.sure (O.sums (fun _ : Fin 1 => List.finRange n) c) fun z => A.Ok z ∧ |A.val z 0 - tieSum (A.val x)| ≤ n * A.δ := by
    have := fibre_sums A hδ1 (Layout.flat n) _ c okc hc (n : F) (index_le (Layout.flat n) _) hl
    have e : (fun r => (List.finRange (Layout.flat n).len).map ((Layout.flat n).pos r)) = fun _ : Fin 1 => List.finRange n := by
      funext r
      exact List.map_id _
    rw [e] at this
    refine S.mono _ _ _ this ?_
    rintro z ⟨okz, hz⟩
    refine ⟨okz, ?_⟩
    exact (congrArg (fun t => |A.val z 0 - t|) (flat_sum (A.val x) (fun p => (p.val : F)) (0 : Fin 1))).symm.trans_le (hz (0 : Fin 1))
  refine S.bind _ _ _ _ hs ?_
  rintro z ⟨okz, hz⟩
  have hlt : A.val z 0 < rowLength n := by
    have := (abs_le.mp hz).2
    linarith
  have hgt : -A.B ≤ A.val z 0 := by
    have h1 := (abs_le.mp hz).1
    have h3 : 0 ≤ tieSum (A.val x) := Finset.sum_nonneg fun j _ => by split; exact Nat.cast_nonneg _; exact le_rfl
    have h4 : (n : F) * A.δ ≤ n := mul_le_of_le_one_right (Nat.cast_nonneg _) hδ1
    linarith
  refine S.bind _ _ _ _ (A.geP z (rowLength n : Nat) okz ?_ ?_) ?_
  · intro i
    rw [Fin.eq_zero i, abs_le]
    exact ⟨hgt, by linarith⟩
  · rw [Int.cast_natCast, abs_of_nonneg (Nat.cast_nonneg _)]
    exact hrl
  rintro g ⟨okg, hg⟩
  refine S.bind _ _ _ _ (A.reconstruct g okg) ?_
  rintro w rfl
  have : A.val g 0 = 0 := by
    rw [hg, if_neg]
    rw [Int.cast_natCast]
    exact not_le.mpr hlt
  rw [if_neg (by simp [this])]
  exact S.pure _ _ ⟨okz, hz⟩

omit [IsStrictOrderedRing F] in
theorem tieSum_unique (v : Fin n → F) (t : Fin n) (ht : ∀ j, j ≠ t → v j < v t) : tieSum v = t.val := by
  unfold tieSum
  rw [Finset.sum_eq_single t]
  · rw [if_pos]
    intro i
    by_cases h : i = t
    · rw [h]
    · exact (ht i h).le
  · intro j _ hj
    rw [if_neg]
    intro h
    exact absurd (h t) (not_le.mpr (ht j hj))
  · simp

/-- C41, `x.argmax()` of a vector with a unique maximum: its index, up to one rounding error per element; no exception. -/
theorem C41_argmax_partial {O : SecretOps m X F} {S : Sure m} (A : Sound O S) (hδn : (n : F) * A.δ < 1) (x : X n)
    (ok : A.Ok x) (C : F) (hC : ∀ i, |A.val x i| ≤ C) (hB : 2 * C ≤ A.B) (h2 : 2 ≤ A.B)
    (hl : (n : F) * (n + 1) ≤ A.B) (t : Fin n) (ht : ∀ j, j ≠ t → A.val x j < A.val x t) :
    S.sure (argmaxAll O n x) fun z => A.Ok z ∧ |A.val z 0 - (t.val : F)| ≤ n * A.δ := by
  have hn : (1 : F) ≤ n := by exact_mod_cast t.pos
  have hts := tieSum_unique (A.val x) t ht
  have := argmax_ties A (by nlinarith) x ok C hC hB h2 hl (by
    rw [hts]
    have h1 : t.val + 1 ≤ rowLength n := by
      unfold rowLength
      have := t.isLt
      split <;> omega
    have h1' : (t.val : F) + 1 ≤ rowLength n := by exact_mod_cast h1
    linarith)
  rw [hts] at this
  exact this

/-- C41, `x.max()` of a vector: the maximum times the number of times it occurs.  So it is right exactly if the maximum is
unique (or zero). -/
theorem C41_max_counts {O : SecretOps m X F} {S : Sure m} (A : Sound O S) (hδ1 : A.δ ≤ 1) (x : X n)
    (ok : A.Ok x) (C : F) (hC : ∀ i, |A.val x i| ≤ C) (hB : 2 * C ≤ A.B) (h2 : 2 ≤ A.B)
    (hl : (n : F) ≤ A.B) (hlC : (n : F) * (C + 1) ≤ A.B) (t : Fin n) (ht : ∀ j, A.val x j ≤ A.val x t) :
    S.sure (maxAll O x) fun z => A.Ok z ∧
      |A.val z 0 - (Finset.univ.filter fun j => A.val x j = A.val x t).card * A.val x t| ≤ n * A.δ := by
  have hC0 : 0 ≤ C := (abs_nonneg _).trans (hC t)
  unfold maxAll
  refine S.bind _ _ _ _ (argmaxHot_spec A (Layout.flat n) x ok C hC hB (rowLength_le _ _ h2 hl) (by linarith)) ?_
  rintro h ⟨okh, hh⟩
  refine S.bind _ _ _ _ (times_self A (Layout.flat n) x ok h okh hh (by linarith) fun i => (hC i).trans (by linarith)) ?_
  rintro pr ⟨okp, hp⟩
  have := fibre_sums A hδ1 (Layout.flat n) _ pr okp hp C (fun p => by split; exact hC p; simpa using hC0) hlC
  have e : (fun r => (List.finRange (Layout.flat n).len).map ((Layout.flat n).pos r)) = fun _ : Fin 1 => List.finRange n := by
    funext r
    exact List.map_id _
  rw [e] at this
  refine S.mono _ _ _ this ?_
  rintro z ⟨okz, hz⟩
  refine ⟨okz, ?_⟩
  have := (congrArg (fun t => |A.val z 0 - t|) (flat_sum (A.val x) (A.val x) (0 : Fin 1))).symm.trans_le (hz (0 : Fin 1))
  have e2 : ∀ p, (∀ i, A.val x i ≤ A.val x p) ↔ A.val x p = A.val x t := fun p =>
    ⟨fun h => le_antisymm (ht p) (h t), fun h q => by rw [h]; exact ht q⟩
  have e3 : ∑ p, (if ∀ i, A.val x i ≤ A.val x p then A.val x p else 0)
      = ((Finset.univ.filter fun j => A.val x j = A.val x t).card : F) * A.val x t := by
    rw [← nsmul_eq_mul, ← Finset.sum_const, Finset.sum_filter]
    apply Finset.sum_congr rfl
    intro p _
    simp only [e2]
    split
    · rename_i h
      rw [h]
    · rfl
  rw [e3] at this
  exact this

/-- C41, `x.max()` of a vector with a unique maximum. -/
theorem C41_max_partial {O : SecretOps m X F} {S : Sure m} (A : Sound O S) (hδ1 : A.δ ≤ 1) (x : X n)
    (ok : A.Ok x) (C : F) (hC : ∀ i, |A.val x i| ≤ C) (hB : 2 * C ≤ A.B) (h2 : 2 ≤ A.B)
    (hl : (n : F) ≤ A.B) (hlC : (n : F) * (C + 1) ≤ A.B) (t : Fin n) (ht : ∀ j, j ≠ t → A.val x j < A.val x t) :
    S.sure (maxAll O x) fun z => A.Ok z ∧ |A.val z 0 - A.val x t| ≤ n * A.δ := by
  have := C41_max_counts A hδ1 x ok C hC hB h2 hl hlC t fun j => by
    by_cases h : j = t
    · rw [h]
    · exact (ht j h).le
  have e : (Finset.univ.filter fun j => A.val x j = A.val x t) = {t} := by
    ext j
    simp only [Finset.mem_filter, Finset.mem_univ, true_and, Finset.mem_singleton]
    constructor
    · intro h
      by_contra hj
      exact absurd h (ht j hj).ne
    · rintro rfl
      rfl
  simpa [e] using this

end SyMPC
