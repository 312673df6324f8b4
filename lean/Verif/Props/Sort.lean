import Verif.Spec.Algo
import Mathlib.Tactic.Linarith
import Mathlib.Tactic.Ring
import Mathlib.Tactic.NormNum
import Mathlib.Tactic.Positivity
import Mathlib.GroupTheory.Perm.Basic
import Mathlib.Logic.Equiv.Basic
import Mathlib.Algebra.BigOperators.Intervals

/-!
# C40: sort
-/

namespace SyMPC

variable {m : Type → Type} [Monad m] {X : Nat → Type} {F : Type} [Field F] [LinearOrder F] [IsStrictOrderedRing F]

/-- a loop over a list of indices, by an invariant indexed by the number of rounds done -/
theorem Sure.foldlM_range {α : Type} (S : Sure m) (f : α → Nat → m α) (P : Nat → α → Prop) (k : Nat) (a : α) (h0 : P 0 a)
    (hs : ∀ i b, i < k → P i b → S.sure (f b i) (P (i + 1))) : S.sure ((List.range k).foldlM f a) (P k) := by
  have key : ∀ (r s : Nat) (b : α), s + r = k → P s b → S.sure ((List.range' s r).foldlM f b) (P k) := by
    intro r
    induction r with
    | zero =>
      intro s b hk hb
      have : s = k := by omega
      subst this
      exact S.pure _ _ hb
    | succ r ih =>
      intro s b hk hb
      rw [List.range'_succ, List.foldlM_cons]
      exact S.bind _ _ _ _ (hs s b (by omega) hb) fun c hc => ih (s + 1) c (by omega) hc
  have := key k 0 a (by omega) h0
  rwa [← List.range_eq_range'] at this

/-- What the loop body does to the numbers: they are put in order, up to `ε`. -/
structure SwapStep (j : Nat) (ε : F) (v v' : Nat → F) : Prop where
  rest : ∀ i, i ≠ j → i ≠ j + 1 → v' i = v i
  low : |v' j - min (v j) (v (j + 1))| ≤ ε
  high : |v' (j + 1) - max (v j) (v (j + 1))| ≤ ε

/-- the numbers the secrets of a list stand for -/
def Stands {O : SecretOps m X F} {S : Sure m} (A : Sound O S) (l : List (X 1)) (v : Nat → F) : Prop :=
  ∀ i (h : i < l.length), A.Ok l[i] ∧ A.val l[i] 0 = v i

/-- the error of one comparison and exchange -/
def swapError (B δ : F) : F := B * δ + 2 * δ

theorem cswap_spec {O : SecretOps m X F} {S : Sure m} (A : Sound O S) (hδ : 0 ≤ A.δ) (hδ1 : A.δ ≤ 1) (C : F)
    (hC : 0 ≤ C) (hCB : 6 * (C + 1) ≤ A.B) (l : List (X 1)) (v : Nat → F) (hl : Stands A l v) (j : Nat)
    (hj : j + 1 < l.length) (ha : |v j| ≤ C) (hb : |v (j + 1)| ≤ C) :
    S.sure (cswap O l j) fun l' => l'.length = l.length ∧ ∃ v', Stands A l' v' ∧ SwapStep j (swapError C A.δ) v v' := by
  obtain ⟨oka, va⟩ := hl j (by omega)
  obtain ⟨okb, vb⟩ := hl (j + 1) hj
  unfold cswap
  rw [List.getElem?_eq_getElem (show j < l.length by omega), List.getElem?_eq_getElem hj]
  dsimp only
  generalize l[j] = a at *
  generalize l[j + 1] = b at *
  have fin1 : ∀ i : Fin 1, i = 0 := fun i => Subsingleton.elim _ _
  have B1 : (6 : F) ≤ A.B := by linarith
  rw [abs_le] at ha hb
  -- one of the two new elements
  have mix : ∀ (c nc p q : X 1), A.Ok c → A.Ok nc → A.Ok p → A.Ok q → (A.val c 0 = 0 ∨ A.val c 0 = 1) →
      |A.val nc 0 - (1 - A.val c 0)| ≤ A.δ → |A.val p 0| ≤ C → |A.val q 0| ≤ C → ∀ {β : Type} (k : X 1 → m β) (Q : β → Prop),
      (∀ z, A.Ok z → |A.val z 0 - (if A.val c 0 = 1 then A.val q 0 else A.val p 0)| ≤ swapError C A.δ → S.sure (k z) Q) →
      S.sure (do
        let u ← O.mul nc p
        let w ← O.mul c q
        let z ← O.add u w
        k z) Q := by
    intro c nc p q okc oknc okp okq hc hnc hp hq β k Q hk
    rw [abs_le] at hp hq hnc
    have hncp : |A.val nc 0 * A.val p 0| ≤ 2 * C := by
      rw [abs_mul]
      have h1 : |A.val nc 0| ≤ 2 := by
        rw [abs_le]
        rcases hc with h | h <;> rw [h] at hnc <;> constructor <;> linarith
      have h2 : |A.val p 0| ≤ C := abs_le.mpr hp
      have := abs_nonneg (A.val p 0)
      nlinarith
    have hcq : |A.val c 0 * A.val q 0| ≤ C := by
      rcases hc with h | h <;> rw [h]
      · simpa using hC
      · simpa using abs_le.mpr hq
    refine S.bind _ _ _ _ (A.mul nc p oknc okp fun i => ?_) fun u hu => ?_
    · rw [fin1 i]
      linarith
    refine S.bind _ _ _ _ (A.mul c q okc okq fun i => ?_) fun w hw => ?_
    · rw [fin1 i]
      linarith
    have hu0 := hu.2 0
    have hw0 := hw.2 0
    rw [abs_le] at hncp hcq hu0 hw0
    refine S.bind _ _ _ _ (A.add u w hu.1 hw.1 fun i => ?_) fun z hz => ?_
    · rw [fin1 i, abs_le]
      constructor <;> linarith
    refine hk z hz.1 ?_
    rw [hz.2 0]
    unfold swapError
    have hnp : |(A.val nc 0 - (1 - A.val c 0)) * A.val p 0| ≤ C * A.δ := by
      rw [abs_mul]
      have h1 := abs_le.mpr hnc
      have h2 : |A.val p 0| ≤ C := abs_le.mpr hp
      have := abs_nonneg (A.val p 0)
      have := abs_nonneg (A.val nc 0 - (1 - A.val c 0))
      nlinarith
    rw [abs_le] at hnp
    rcases hc with h | h
    · rw [if_neg (by rw [h]; norm_num), abs_le]
      rw [h] at hw0 hnp
      constructor <;> nlinarith
    · rw [if_pos h, abs_le]
      rw [h] at hw0 hnp
      constructor <;> nlinarith
  refine S.bind _ _ _ _ (A.gt a b oka okb (fun i => ?_) fun i => ?_) fun c hc => ?_
  · rw [fin1 i, va, abs_le]
    constructor <;> linarith
  · rw [fin1 i, vb, abs_le]
    constructor <;> linarith
  have hc0 := hc.2 0
  have hc01 : A.val c 0 = 0 ∨ A.val c 0 = 1 := by
    rw [hc0]
    split
    · exact Or.inr rfl
    · exact Or.inl rfl
  have hr : S.sure (O.rsubP (1 : F) c) fun z => A.Ok z ∧ ∀ i, |A.val z i - (1 - A.val c i)| ≤ A.δ := by
    have := A.rsubP 1 c hc.1 fun i => ?_
    · simpa using this
    · rw [fin1 i]
      rcases hc01 with h | h <;> rw [h] <;> simp <;> linarith
  refine S.bind _ _ _ _ hr fun nc hnc => ?_
  have hm1 : (if A.val c 0 = 1 then A.val b 0 else A.val a 0) = min (v j) (v (j + 1)) := by
    rw [hc0, va, vb]
    by_cases h : v j > v (j + 1)
    · rw [if_pos h, if_pos rfl, min_eq_right h.le]
    · rw [if_neg h, if_neg zero_ne_one, min_eq_left (not_lt.mp h)]
  have hm2 : (if A.val c 0 = 1 then A.val a 0 else A.val b 0) = max (v j) (v (j + 1)) := by
    rw [hc0, va, vb]
    by_cases h : v j > v (j + 1)
    · rw [if_pos h, if_pos rfl, max_eq_left h.le]
    · rw [if_neg h, if_neg zero_ne_one, max_eq_right (not_lt.mp h)]
  refine mix c nc a b hc.1 hnc.1 oka okb hc01 (hnc.2 0) (by rw [va]; exact abs_le.mpr ha) (by rw [vb]; exact abs_le.mpr hb) _ _
    fun a' oka' ha' => ?_
  refine mix c nc b a hc.1 hnc.1 okb oka hc01 (hnc.2 0) (by rw [vb]; exact abs_le.mpr hb) (by rw [va]; exact abs_le.mpr ha) _ _
    fun b' okb' hb' => ?_
  rw [hm1] at ha'
  rw [hm2] at hb'
  refine S.pure _ _ ⟨by simp, Function.update (Function.update v j (A.val a' 0)) (j + 1) (A.val b' 0), ?_, ?_, ?_, ?_⟩
  · intro i hi
    rw [List.getElem_set]
    by_cases h1 : j + 1 = i
    · subst h1
      simp [okb']
    · rw [if_neg h1, List.getElem_set, Function.update_of_ne (Ne.symm h1)]
      by_cases h2 : j = i
      · subst h2
        simp [oka']
      · rw [if_neg h2, Function.update_of_ne (Ne.symm h2)]
        exact hl i (by simpa using hi)
  · intro i h1 h2
    rw [Function.update_of_ne h2, Function.update_of_ne h1]
  · rw [Function.update_of_ne (by omega), Function.update_self]
    exact ha'
  · rw [Function.update_self]
    exact hb'

/-- What is known after `t` exchanges, when the numbers in positions `p` and above are in place, and number `j` is the
largest of the numbers up to `j`. -/
structure Bubbling (v0 : Nat → F) (n : Nat) (ε : F) (t p j : Nat) (v : Nat → F) : Prop where
  perm : ∃ σ : Equiv.Perm Nat, (∀ i, n ≤ i → σ i = i) ∧ ∀ i < n, |v i - v0 (σ i)| ≤ t * ε
  placed : ∀ k, p ≤ k → k < n → ∀ i < k, v i ≤ v k + (t + 1) * ε
  largest : ∀ i < j, v i ≤ v j + (t + 1) * ε

theorem Bubbling.step {v0 v v' : Nat → F} {n : Nat} {ε : F} {t p j : Nat} (hε : 0 ≤ ε) (h : Bubbling v0 n ε t p j v)
    (hj : j + 1 < p) (hp : p ≤ n) (hs : SwapStep j ε v v') : Bubbling v0 n ε (t + 1) p (j + 1) v' := by
  obtain ⟨σ, hσ, hv⟩ := h.perm
  obtain ⟨rest, low, high⟩ := hs
  rw [abs_le] at low high
  have ht : (0 : F) ≤ t * ε := mul_nonneg (Nat.cast_nonneg t) hε
  refine ⟨?_, ?_, ?_⟩
  · rcases le_total (v j) (v (j + 1)) with hle | hle
    · rw [min_eq_left hle] at low
      rw [max_eq_right hle] at high
      refine ⟨σ, hσ, fun i hi => ?_⟩
      have hvi := hv i hi
      rw [abs_le] at hvi ⊢
      push_cast
      by_cases h1 : i = j
      · subst h1
        constructor <;> linarith
      · by_cases h2 : i = j + 1
        · subst h2
          constructor <;> linarith
        · rw [rest i h1 h2]
          constructor <;> linarith
    · rw [min_eq_right hle] at low
      rw [max_eq_left hle] at high
      have hvj := hv j (by omega)
      have hvj1 := hv (j + 1) (by omega)
      rw [abs_le] at hvj hvj1
      refine ⟨(Equiv.swap j (j + 1)).trans σ, fun i hi => ?_, fun i hi => ?_⟩
      · rw [Equiv.trans_apply, Equiv.swap_apply_of_ne_of_ne (by omega) (by omega), hσ i hi]
      · rw [Equiv.trans_apply, abs_le]
        push_cast
        by_cases h1 : i = j
        · subst h1
          rw [Equiv.swap_apply_left]
          constructor <;> linarith
        · by_cases h2 : i = j + 1
          · subst h2
            rw [Equiv.swap_apply_right]
            constructor <;> linarith
          · have hvi := hv i hi
            rw [abs_le] at hvi
            rw [rest i h1 h2, Equiv.swap_apply_of_ne_of_ne h1 h2]
            constructor <;> linarith
  · intro k hk hkn i hi
    push_cast
    rw [rest k (by omega) (by omega)]
    have hj1 := h.placed k hk hkn j (by omega)
    have hj2 := h.placed k hk hkn (j + 1) (by omega)
    by_cases h1 : i = j
    · subst h1
      have := min_le_left (v i) (v (i + 1))
      linarith
    · by_cases h2 : i = j + 1
      · subst h2
        rcases max_cases (v j) (v (j + 1)) with ⟨e, _⟩ | ⟨e, _⟩ <;> rw [e] at high <;> linarith
      · rw [rest i h1 h2]
        have := h.placed k hk hkn i hi
        linarith
  · intro i hi
    push_cast
    have m1 := le_max_left (v j) (v (j + 1))
    by_cases h1 : i = j
    · subst h1
      have := min_le_left (v i) (v (i + 1))
      linarith
    · rw [rest i h1 (by omega)]
      have := h.largest i (by omega)
      linarith

/-- the number of exchanges in the first `p` passes -/
def exchanges (n p : Nat) : Nat := ∑ i ∈ Finset.range p, (n - i - 1)

theorem exchanges_all (n : Nat) : exchanges n (n - 1) * 2 = n * (n - 1) := by
  unfold exchanges
  cases n with
  | zero => rfl
  | succ k =>
    have : ∑ i ∈ Finset.range k, (k + 1 - i - 1) = ∑ i ∈ Finset.range k, (i + 1) := by
      rw [← Finset.sum_range_reflect]
      refine Finset.sum_congr rfl fun i hi => ?_
      have := Finset.mem_range.mp hi
      omega
    have h2 : ∑ i ∈ Finset.range (k + 1), i = ∑ i ∈ Finset.range k, (i + 1) := by
      rw [Finset.sum_range_succ']
      rfl
    rw [show k + 1 - 1 = k from rfl, this, ← h2, Finset.sum_range_id_mul_two]
    rfl

/-- C40: sorting `n` secrets.  The result is a permutation of the numbers, up to `ε` per exchange, in ascending
(descending) order, up to `ε` per exchange; `ε = C δ + 2 δ` if products are off by `δ` and the numbers are below `C`.
The caller's list is left in ascending order. -/
theorem C40_sort {O : SecretOps m X F} {S : Sure m} (A : Sound O S) (hδ : 0 ≤ A.δ) (hδ1 : A.δ ≤ 1) (l : List (X 1))
    (ok : ∀ x ∈ l, A.Ok x) (shapeOk : List Bool) (hsh : ∀ b ∈ shapeOk, b = true) (ascending : Bool) (C0 C ε T : F)
    (h0 : ∀ x ∈ l, |A.val x 0| ≤ C0) (hε : ε = swapError C A.δ) (hT : T = (l.length * (l.length - 1) / 2 : Nat)) (hC0 : 0 ≤ C)
    (hC : C0 + T * ε ≤ C) (hB : 6 * (C + 1) ≤ A.B) :
    S.sure (sort O l shapeOk ascending) fun r =>
      r.1.length = l.length ∧ r.1 = (if ascending then r.2 else r.2.reverse) ∧ (∀ x ∈ r.2, A.Ok x) ∧
      ∃ zs, zs.Perm (l.map fun x => A.val x 0) ∧ List.Forall₂ (fun y z => |y - z| ≤ T * ε) (r.2.map fun x => A.val x 0) zs ∧
        (r.2.map fun x => A.val x 0).Pairwise fun a b => a ≤ b + (T + 1) * ε := by
  have hε0 : 0 ≤ ε := by
    rw [hε]
    unfold swapError
    positivity
  set N := l.length with hN
  have hT' : T = (exchanges N (N - 1) : Nat) := by
    rw [hT, ← exchanges_all N, Nat.mul_div_cancel _ (by norm_num)]
  have mono : ∀ p q, p ≤ q → exchanges N p ≤ exchanges N q := fun p q h =>
    Finset.sum_le_sum_of_subset (Finset.range_subset_range.mpr h)
  have succ : ∀ p, exchanges N (p + 1) = exchanges N p + (N - p - 1) := fun p => Finset.sum_range_succ _ _
  let v0 : Nat → F := fun i => if h : i < l.length then A.val l[i] 0 else 0
  have hv0 : ∀ i (h : i < l.length), v0 i = A.val l[i] 0 := fun i h => dif_pos h
  have hlv0 : (l.map fun x => A.val x 0) = (List.range N).map v0 := by
    apply List.ext_getElem
    · simp [hN]
    · intro i h1 h2
      rw [List.getElem_map, List.getElem_map, List.getElem_range, hv0 i (by simpa using h1)]
  have small : ∀ (t p j : Nat) (v : Nat → F), Bubbling v0 N ε t p j v → t ≤ exchanges N (N - 1) → ∀ i < N, |v i| ≤ C := by
    intro t p j v hb ht i hi
    obtain ⟨σ, hσ, hv⟩ := hb.perm
    have hlt : σ i < N := by
      by_contra h
      have := hσ (σ i) (by omega)
      have := σ.injective this
      omega
    have h1 : |v0 (σ i)| ≤ C0 := by
      rw [hv0 _ hlt]
      exact h0 _ (List.getElem_mem _)
    have h2 := hv i hi
    have h3 : (t : F) * ε ≤ T * ε := by
      rw [hT']
      exact mul_le_mul_of_nonneg_right (by exact_mod_cast ht) hε0
    rw [abs_le] at h1 h2 ⊢
    constructor <;> linarith
  have main : S.sure (bubble O l) fun r => r.length = N ∧ ∃ v, Stands A r v ∧ Bubbling v0 N ε (exchanges N (N - 1)) (N - (N - 1)) 0 v := by
    unfold bubble
    refine S.foldlM_range _ (fun p r => r.length = N ∧ ∃ v, Stands A r v ∧ Bubbling v0 N ε (exchanges N p) (N - p) 0 v) _ l ?_ ?_
    · refine ⟨rfl, v0, fun i h => ⟨ok _ (List.getElem_mem h), (hv0 i h).symm⟩, ⟨1, fun _ _ => rfl, fun i _ => ?_⟩, fun k h1 h2 => by omega,
        fun i h => by omega⟩
      simp [exchanges]
    · rintro p r hp ⟨hr, v, hv1, hv2⟩
      have inner := S.foldlM_range (cswap O)
        (fun j r => r.length = N ∧ ∃ v, Stands A r v ∧ Bubbling v0 N ε (exchanges N p + j) (N - p) j v) (N - p - 1) r
        ⟨hr, v, hv1, hv2⟩ ?_
      · refine S.mono _ _ _ inner ?_
        rintro r' ⟨hr', v', hv1', hv2'⟩
        refine ⟨hr', v', hv1', ?_⟩
        rw [← succ] at hv2'
        refine ⟨hv2'.perm, fun k h1 h2 i hi => ?_, fun i h => by omega⟩
        by_cases hk : k = N - p - 1
        · subst hk
          exact hv2'.largest i hi
        · exact hv2'.placed k (by omega) h2 i hi
      · rintro j r' hj ⟨hr', v', hv1', hv2'⟩
        have hle : exchanges N p + j ≤ exchanges N (N - 1) := by
          have := mono (p + 1) (N - 1) (by omega)
          rw [succ] at this
          omega
        have hsm := small _ _ _ _ hv2' hle
        refine S.mono _ _ _ (cswap_spec A hδ hδ1 C hC0 hB r' v' hv1' j (by omega) (hsm j (by omega)) (hsm (j + 1) (by omega))) ?_
        rintro r'' ⟨hr'', v'', hv1'', hs⟩
        rw [← hε] at hs
        exact ⟨hr''.trans hr', v'', hv1'', hv2'.step hε0 (by omega) (by omega) hs⟩
  unfold sort
  have hall : (!shapeOk.all (· = true)) = false := by
    simpa using hsh
  rw [hall, if_neg (by simp)]
  refine S.bind _ _ _ _ main ?_
  rintro r ⟨hr, v, hv1, hv2⟩
  obtain ⟨σ, hσ, hv⟩ := hv2.perm
  have hrv : (r.map fun x => A.val x 0) = (List.range N).map v := by
    apply List.ext_getElem
    · simp [hr]
    · intro i h1 h2
      rw [List.getElem_map, List.getElem_map, List.getElem_range]
      exact (hv1 i (by simpa using h1)).2
  refine S.pure _ _ ⟨by cases ascending <;> simp [hr], rfl, fun x hx => ?_, (List.range N).map (v0 ∘ σ), ?_, ?_, ?_⟩
  · obtain ⟨i, hi, rfl⟩ := List.getElem_of_mem hx
    exact (hv1 i hi).1
  · rw [hlv0, ← List.map_map]
    refine List.Perm.map v0 ?_
    refine (List.perm_ext_iff_of_nodup (List.nodup_range.map σ.injective) List.nodup_range).mpr fun a => ?_
    simp only [List.mem_map, List.mem_range]
    constructor
    · rintro ⟨i, hi, rfl⟩
      by_contra h
      have := σ.injective (hσ (σ i) (by omega))
      omega
    · intro ha
      refine ⟨σ.symm a, ?_, σ.apply_symm_apply a⟩
      by_contra h
      have := hσ (σ.symm a) (by omega)
      rw [σ.apply_symm_apply] at this
      omega
  · rw [hrv, List.forall₂_map_left_iff, List.forall₂_map_right_iff, List.forall₂_same]
    intro i hi
    have := hv i (List.mem_range.mp hi)
    rw [hT']
    exact this
  · rw [hrv, List.pairwise_map]
    refine List.pairwise_lt_range.imp_of_mem ?_
    intro i j hi hj hij
    have := hv2.placed j (by omega) (List.mem_range.mp hj) i hij
    rw [hT']
    exact this

/-- C40, exact operators: the result is sorted and has the same numbers. -/
theorem C40_sort_exact {O : SecretOps m X F} {S : Sure m} (A : Sound O S) (hδ : A.δ = 0) (l : List (X 1))
    (ok : ∀ x ∈ l, A.Ok x) (shapeOk : List Bool) (hsh : ∀ b ∈ shapeOk, b = true) (ascending : Bool) (C : F) (hC : 0 ≤ C)
    (h0 : ∀ x ∈ l, |A.val x 0| ≤ C) (hB : 6 * (C + 1) ≤ A.B) :
    S.sure (sort O l shapeOk ascending) fun r =>
      (r.1.map fun x => A.val x 0).Perm (l.map fun x => A.val x 0) ∧
      (r.1.map fun x => A.val x 0).Pairwise (if ascending then (· ≤ ·) else (· ≥ ·)) ∧
      (r.2.map fun x => A.val x 0).Pairwise (· ≤ ·) := by
  have hε : swapError C A.δ = 0 := by rw [hδ]; simp [swapError]
  refine S.mono _ _ _ (C40_sort A hδ.ge (by rw [hδ]; exact zero_le_one) l ok shapeOk hsh ascending C C _ _ h0 rfl rfl hC
    (by rw [hε]; simp) hB) ?_
  rintro ⟨r1, r2⟩ ⟨-, h2, -, zs, h4, h5, h6⟩
  dsimp only at h2 h5 h6 ⊢
  rw [hε] at h5 h6
  simp only [mul_zero, add_zero, abs_nonpos_iff, sub_eq_zero] at h5 h6
  rw [List.forall₂_eq_eq_eq] at h5
  rw [← h5] at h4
  cases ascending with
  | true => exact ⟨by rw [h2]; exact h4, by rw [h2]; exact h6, h6⟩
  | false =>
    refine ⟨?_, ?_, h6⟩
    · rw [h2, if_neg (by simp), List.map_reverse]
      exact (List.reverse_perm _).trans h4
    · rw [h2, if_neg (by simp), if_neg (by simp), List.map_reverse, List.pairwise_reverse]
      exact h6

omit [LinearOrder F] [IsStrictOrderedRing F] in
/-- C40: a list with an item whose shape is not `[1]` is refused. -/
theorem C40_wrong_shape (O : SecretOps m X F) (l : List (X 1)) (shapeOk : List Bool) (h : false ∈ shapeOk) (ascending : Bool) :
    sort O l shapeOk ascending = O.raise .valueError := by
  unfold sort
  rw [if_pos]
  simpa using h

end SyMPC
