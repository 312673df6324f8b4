import Verif.Props.Rare
import Verif.Props.Spdz
import Mathlib.Data.Fintype.Pi
import Mathlib.Data.Fintype.BigOperators
import Mathlib.Algebra.Order.BigOperators.Group.Finset
import Mathlib.Algebra.BigOperators.Field

/-!
# C94: what is seen of near secrets is nearly the same

The tensors of the code are drawn from half of the ring (`torchRandom`), so that shares and opened values are not independent of the
secrets.  How much they tell depends on how far apart the secrets are.
-/

namespace SyMPC

open Finset

/-! ## Specification -/

open Classical in
/-- how often something happens if every number is drawn as the code does -/
noncomputable def chance {κ : Type} [Fintype κ] (P : (κ → I64) → Prop) : ℚ :=
  #{d : κ → I64 | (∀ k, torchRandom (d k)) ∧ P d} / #{d : κ → I64 | ∀ k, torchRandom (d k)}

/-- how far two tensors are apart, in quanta -/
def farApart {ι : Type} [Fintype ι] (x y : ι → I64) : ℕ := ∑ i, (y i - x i).toInt.natAbs

/-- the shares of all parties but `j` -/
def sharesBut {ι : Type} (env : Env) (secret : ι → I64) (n j : Nat) (d : Fin (n + 1) × ι → I64) : Nat → Option (ι → I64) := fun i =>
  if i = j then none else shareValues env secret (n + 2) (fun k i => d (k, i)) i

/-! ## Proof -/

theorem torchRandom_iff (r : I64) : torchRandom r ↔ r.toNat < 2 ^ 63 := by
  unfold torchRandom
  rw [BitVec.toInt_eq_toNat_cond]
  have := r.isLt
  split <;> omega

open Classical in
theorem card_half : #{r : I64 | torchRandom r} = 2 ^ 63 := by
  rw [← Finset.card_range (2 ^ 63)]
  refine Finset.card_bij (fun r _ => r.toNat) ?_ ?_ ?_
  · intro r hr
    simpa [torchRandom_iff] using hr
  · intro a _ b _ h
    exact BitVec.eq_of_toNat_eq h
  · intro m hm
    have hm : m < 2 ^ 63 := by simpa using hm
    refine ⟨BitVec.ofNat 64 m, ?_, ?_⟩
    · simp only [Finset.mem_filter, Finset.mem_univ, true_and, torchRandom_iff, BitVec.toNat_ofNat]
      omega
    · simp only [BitVec.toNat_ofNat]
      omega

open Classical in
/-- few of the drawn numbers leave the range when moved a little -/
theorem card_bad (δ : I64) : #{r : I64 | torchRandom r ∧ ¬ torchRandom (r + δ)} = δ.toInt.natAbs := by
  have key : ∀ a b : Nat, b ≤ 2 ^ 63 → (∀ r : I64, torchRandom r ∧ ¬ torchRandom (r + δ) ↔ a ≤ r.toNat ∧ r.toNat < b) →
      #{r : I64 | torchRandom r ∧ ¬ torchRandom (r + δ)} = b - a := by
    intro a b hb h
    rw [← Nat.card_Ico]
    refine Finset.card_bij (fun r _ => r.toNat) ?_ ?_ ?_
    · intro r hr
      have hr : torchRandom r ∧ ¬ torchRandom (r + δ) := by simpa using hr
      simpa using (h r).mp hr
    · intro x _ y _ hxy
      exact BitVec.eq_of_toNat_eq hxy
    · intro m hm
      have hm : a ≤ m ∧ m < b := by simpa using hm
      have hv : (BitVec.ofNat 64 m).toNat = m := by
        rw [BitVec.toNat_ofNat]
        omega
      refine ⟨BitVec.ofNat 64 m, ?_, hv⟩
      simp only [Finset.mem_filter, Finset.mem_univ, true_and]
      exact (h _).mpr (by rw [hv]; exact hm)
  have hi := BitVec.toInt_eq_toNat_cond δ
  have hlt := δ.isLt
  by_cases hs : δ.toNat < 2 ^ 63
  · refine (key (2 ^ 63 - δ.toNat) (2 ^ 63) le_rfl ?_).trans (by split at hi <;> omega)
    intro r
    simp only [torchRandom_iff, BitVec.toNat_add]
    omega
  · refine (key 0 (2 ^ 64 - δ.toNat) (by omega) ?_).trans (by split at hi <;> omega)
    intro r
    simp only [torchRandom_iff, BitVec.toNat_add]
    omega

section
variable {κ : Type} [Fintype κ]

open Classical in
theorem card_halves : #{d : κ → I64 | ∀ k, torchRandom (d k)} = (2 ^ 63) ^ Fintype.card κ := by
  have : ({d : κ → I64 | ∀ k, torchRandom (d k)} : Finset (κ → I64)) = Fintype.piFinset fun _ => {r : I64 | torchRandom r} := by
    ext d
    simp
  rw [this, Fintype.card_piFinset]
  simp only [card_half, Finset.prod_const, Finset.card_univ]

open Classical in
theorem card_bads (δ : κ → I64) (k : κ) :
    #{d : κ → I64 | (∀ k, torchRandom (d k)) ∧ ¬ torchRandom (d k + δ k)} * 2 ^ 63 ≤ (δ k).toInt.natAbs * (2 ^ 63) ^ Fintype.card κ := by
  have : ({d : κ → I64 | (∀ k, torchRandom (d k)) ∧ ¬ torchRandom (d k + δ k)} : Finset (κ → I64)) =
      Fintype.piFinset fun k' => if k' = k then ({r : I64 | torchRandom r ∧ ¬ torchRandom (r + δ k)} : Finset I64)
        else ({r : I64 | torchRandom r} : Finset I64) := by
    ext d
    simp only [Finset.mem_filter, Finset.mem_univ, true_and, Fintype.mem_piFinset]
    constructor
    · rintro ⟨h1, h2⟩ k'
      split
      · rename_i hk
        subst hk
        simpa using ⟨h1 _, h2⟩
      · simpa using h1 k'
    · intro h
      refine ⟨fun k' => ?_, ?_⟩
      · have := h k'
        split at this
        · exact (Finset.mem_filter.mp this).2.1
        · exact (Finset.mem_filter.mp this).2
      · have := h k
        rw [if_pos rfl] at this
        exact (Finset.mem_filter.mp this).2.2
  rw [this, Fintype.card_piFinset, ← Finset.mul_prod_erase _ _ (Finset.mem_univ k), if_pos rfl]
  have hrest : ∏ x ∈ Finset.univ.erase k, #(if x = k then ({r : I64 | torchRandom r ∧ ¬ torchRandom (r + δ k)} : Finset I64)
      else ({r : I64 | torchRandom r} : Finset I64)) = (2 ^ 63) ^ (Fintype.card κ - 1) := by
    rw [Finset.prod_congr rfl (g := fun _ => 2 ^ 63)]
    · rw [Finset.prod_const, Finset.card_erase_of_mem (Finset.mem_univ k), Finset.card_univ]
    · intro x hx
      rw [if_neg (Finset.ne_of_mem_erase hx), card_half]
  rw [hrest]
  have hpos : 0 < Fintype.card κ := Fintype.card_pos_iff.mpr ⟨k⟩
  calc _ = #{r : I64 | torchRandom r ∧ ¬ torchRandom (r + δ k)} * (2 ^ 63) ^ Fintype.card κ := by
        rw [mul_assoc, ← pow_succ, Nat.sub_add_cancel hpos]
    _ ≤ _ := Nat.mul_le_mul_right _ (card_bad _).le

theorem chance_le (δ : κ → I64) (P Q : (κ → I64) → Prop) (h : ∀ d, P d → Q fun k => d k + δ k) :
    chance P ≤ chance Q + (∑ k, (δ k).toInt.natAbs : ℕ) / 2 ^ 63 := by
  classical
  unfold chance
  have hN : (0 : ℚ) < (#{d : κ → I64 | ∀ k, torchRandom (d k)} : ℚ) := by
    rw [card_halves]
    positivity
  have hsub : ({d : κ → I64 | (∀ k, torchRandom (d k)) ∧ P d} : Finset (κ → I64)) ⊆
      ({d : κ → I64 | (∀ k, torchRandom (d k)) ∧ P d ∧ ∀ k, torchRandom (d k + δ k)} : Finset (κ → I64)) ∪
        Finset.univ.biUnion fun k => {d : κ → I64 | (∀ k, torchRandom (d k)) ∧ ¬ torchRandom (d k + δ k)} := by
    intro d hd
    simp only [Finset.mem_filter, Finset.mem_univ, true_and, Finset.mem_union, Finset.mem_biUnion] at hd ⊢
    by_cases hk : ∀ k, torchRandom (d k + δ k)
    · exact .inl ⟨hd.1, hd.2, hk⟩
    · obtain ⟨k, hk⟩ := not_forall.mp hk
      exact .inr ⟨k, hd.1, hk⟩
  have hinj : #{d : κ → I64 | (∀ k, torchRandom (d k)) ∧ P d ∧ ∀ k, torchRandom (d k + δ k)} ≤ #{d : κ → I64 | (∀ k, torchRandom (d k)) ∧ Q d} := by
    refine Finset.card_le_card_of_injOn (fun d k => d k + δ k) ?_ ?_
    · intro d hd
      simp only [Finset.coe_filter, Finset.mem_univ, true_and, Set.mem_ofPred_eq] at hd ⊢
      exact ⟨hd.2.2, h d hd.2.1⟩
    · intro a _ b _ hab
      funext k
      have := congrFun hab k
      simpa using this
  have h1 : #{d : κ → I64 | (∀ k, torchRandom (d k)) ∧ P d} ≤ #{d : κ → I64 | (∀ k, torchRandom (d k)) ∧ Q d} +
      ∑ k, #{d : κ → I64 | (∀ k, torchRandom (d k)) ∧ ¬ torchRandom (d k + δ k)} :=
    (Finset.card_le_card hsub).trans ((Finset.card_union_le _ _).trans (Nat.add_le_add hinj Finset.card_biUnion_le))
  have h2 : (∑ k, #{d : κ → I64 | (∀ k, torchRandom (d k)) ∧ ¬ torchRandom (d k + δ k)}) * 2 ^ 63 ≤
      (∑ k, (δ k).toInt.natAbs) * #{d : κ → I64 | ∀ k, torchRandom (d k)} := by
    rw [Finset.sum_mul, Finset.sum_mul, card_halves]
    exact Finset.sum_le_sum fun k _ => card_bads δ k
  rw [div_add_div _ _ hN.ne' (by positivity), div_le_div_iff₀ hN (by positivity)]
  have h1' : (#{d : κ → I64 | (∀ k, torchRandom (d k)) ∧ P d} : ℚ) ≤ #{d : κ → I64 | (∀ k, torchRandom (d k)) ∧ Q d} +
      (∑ k, #{d : κ → I64 | (∀ k, torchRandom (d k)) ∧ ¬ torchRandom (d k + δ k)} : ℕ) := by exact_mod_cast h1
  have h2' : ((∑ k, #{d : κ → I64 | (∀ k, torchRandom (d k)) ∧ ¬ torchRandom (d k + δ k)} : ℕ) : ℚ) * 2 ^ 63 ≤
      (∑ k, (δ k).toInt.natAbs : ℕ) * #{d : κ → I64 | ∀ k, torchRandom (d k)} := by exact_mod_cast h2
  generalize (#{d : κ → I64 | (∀ k, torchRandom (d k)) ∧ P d} : ℚ) = p at *
  generalize (#{d : κ → I64 | (∀ k, torchRandom (d k)) ∧ Q d} : ℚ) = q at *
  generalize ((∑ k, #{d : κ → I64 | (∀ k, torchRandom (d k)) ∧ ¬ torchRandom (d k + δ k)} : ℕ) : ℚ) = b at *
  generalize (#{d : κ → I64 | ∀ k, torchRandom (d k)} : ℚ) = N at *
  generalize ((∑ k, (δ k).toInt.natAbs : ℕ) : ℚ) = D at *
  nlinarith

end

open Classical in
theorem chance_unique {κ : Type} [Fintype κ] [Unique κ] (P : (κ → I64) → Prop) :
    chance P = #{r : I64 | torchRandom r ∧ P fun _ => r} / 2 ^ 63 := by
  have hc : #{d : κ → I64 | (∀ k, torchRandom (d k)) ∧ P d} = #{r : I64 | torchRandom r ∧ P fun _ => r} := by
    refine Finset.card_bij (fun d _ => d default) ?_ ?_ ?_
    · intro d hd
      have hc : (fun _ => d default) = d := by
        funext p
        rw [Subsingleton.elim p default]
      simp only [Finset.mem_filter, Finset.mem_univ, true_and] at hd ⊢
      exact ⟨hd.1 _, by rw [hc]; exact hd.2⟩
    · intro d _ e _ h
      funext p
      rw [Subsingleton.elim p default]
      exact h
    · intro r hr
      simp only [Finset.mem_filter, Finset.mem_univ, true_and] at hr
      exact ⟨fun _ => r, by simpa using hr, rfl⟩
  unfold chance
  rw [hc, card_halves, Fintype.card_unique, pow_one]
  push_cast
  rfl

theorem natAbs_neg (d : I64) : (-d).toInt.natAbs = d.toInt.natAbs := by
  by_cases h : d = BitVec.intMin 64
  · subst h
    decide
  · rw [BitVec.toInt_neg_of_ne_intMin h, Int.natAbs_neg]

theorem farApart_comm {ι : Type} [Fintype ι] (x y : ι → I64) : farApart x y = farApart y x := by
  refine Finset.sum_congr rfl fun i _ => ?_
  rw [show x i - y i = -(y i - x i) by ring, natAbs_neg]

/-- how the draws move when the secret does -/
def sharePad {ι : Type} (n j : Nat) (s s' : ι → I64) : Fin (n + 1) × ι → I64 := fun p => if j ≤ p.1.1 then s' p.2 - s p.2 else 0

theorem sharesBut_pad {ι : Type} (env : Env) (s s' : ι → I64) (n j : Nat) (hj : j < n + 2) (d : Fin (n + 1) × ι → I64) :
    sharesBut env s' n j (fun p => d p + sharePad n j s s' p) = sharesBut env s n j d := by
  funext i
  unfold sharesBut
  split
  · rfl
  rename_i hij
  by_cases hi : i < n + 2
  · rw [shareValues_eq env s n _ i hi, shareValues_eq env s' n _ i hi]
    congr 1
    dsimp only
    have pad : ∀ (k : Nat) (hk : k < n + 1) (x : ι), sharePad n j s s' (⟨k, hk⟩, x) = if j ≤ k then s' x - s x else 0 := fun _ _ _ => rfl
    unfold extendDraws
    rcases Nat.eq_zero_or_pos i with rfl | hpos
    · rw [if_pos rfl, if_pos rfl, dif_pos (by omega), dif_pos (by omega)]
      funext x
      dsimp only
      rw [pad, if_neg (by omega), add_zero]
    · have i0 : i ≠ 0 := by omega
      rw [if_neg i0, if_neg i0]
      by_cases hl : i < n + 1
      · rw [if_pos hl, if_pos hl, dif_pos hl, dif_pos hl, dif_pos (by omega), dif_pos (by omega)]
        funext x
        simp only [Pi.sub_apply, pad]
        rcases Nat.lt_or_gt_of_ne hij with g | g
        · rw [if_neg (by omega), if_neg (by omega)]; ring
        · rw [if_pos (by omega), if_pos (by omega)]; ring
      · rw [if_neg hl, if_neg hl, dif_pos (by omega), dif_pos (by omega)]
        funext x
        simp only [Pi.sub_apply, pad]
        rw [if_pos (by omega)]
        ring
  · have none : ∀ (t : ι → I64) (e : Fin (n + 1) → ι → I64), shareValues env t (n + 2) e i = none := by
      intro t e
      unfold shareValues
      rw [generateShares_eq env _ rfl n]
      simp [sharesOf]
      omega
    rw [none, none]

theorem sum_sharePad {ι : Type} [Fintype ι] (n j : Nat) (s s' : ι → I64) :
    ∑ p, (sharePad n j s s' p).toInt.natAbs = (n + 1 - j) * farApart s s' := by
  rw [Fintype.sum_prod_type]
  have : ∀ k : Fin (n + 1), ∑ i, (sharePad n j s s' (k, i)).toInt.natAbs = if j ≤ k.1 then farApart s s' else 0 := by
    intro k
    unfold sharePad farApart
    by_cases h : j ≤ k.1 <;> simp [h]
  simp only [this]
  rw [Fin.sum_univ_eq_sum_range (fun k => if j ≤ k then farApart s s' else 0) (n + 1), ← Finset.sum_filter, Finset.sum_const, smul_eq_mul]
  congr 1
  have : (Finset.range (n + 1)).filter (j ≤ ·) = Finset.Ico j (n + 1) := by
    ext k
    simp
    omega
  rw [this, Nat.card_Ico]

/-! ## The property -/

/-- **C94**: a tensor is shared among parties, with numbers drawn as the code does.  Whatever the parties other than `j` look for in their
shares, the chances to find it for two secrets differ by no more than the distance of the secrets in quanta, divided by `2^63`, for every
party from `j` on but the last. -/
theorem C94_sharing {ι : Type} [Fintype ι] (env : Env) (s s' : ι → I64) (n j : Nat) (hj : j < n + 2)
    (found : (Nat → Option (ι → I64)) → Prop) :
    |chance (fun d => found (sharesBut env s n j d)) - chance fun d => found (sharesBut env s' n j d)| ≤
      (n + 1 - j : ℕ) * farApart s s' / 2 ^ 63 := by
  have half : ∀ t t' : ι → I64, chance (fun d => found (sharesBut env t n j d)) ≤
      chance (fun d => found (sharesBut env t' n j d)) + (n + 1 - j : ℕ) * farApart t t' / 2 ^ 63 := by
    intro t t'
    have := chance_le (sharePad n j t t') (fun d => found (sharesBut env t n j d)) (fun d => found (sharesBut env t' n j d))
      (fun d hd => by rw [sharesBut_pad env t t' n j hj d]; exact hd)
    rw [sum_sharePad, Nat.cast_mul] at this
    exact this
  have h1 := half s s'
  have h2 := half s' s
  rw [farApart_comm s' s] at h2
  rw [abs_le]
  constructor <;> linarith

/-- **C94**: all parties but the last learn nothing at all from their shares, although numbers are drawn from half of the ring. -/
theorem C94_last_party {ι : Type} [Fintype ι] (env : Env) (s s' : ι → I64) (n : Nat) (found : (Nat → Option (ι → I64)) → Prop) :
    chance (fun d => found (sharesBut env s n (n + 1) d)) = chance fun d => found (sharesBut env s' n (n + 1) d) := by
  have := C94_sharing env s s' n (n + 1) (by omega) found
  simp only [Nat.sub_self, Nat.cast_zero, zero_mul, zero_div, abs_nonpos_iff] at this
  linarith

/-- **C94**: the bound is exact for two parties: there is something that the second party can look for whose chances differ by as much. -/
theorem C94_exact (env : Env) (s s' : I64) : ∃ found : (Nat → Option (Unit → I64)) → Prop,
    |chance (fun d => found (sharesBut env (fun _ => s) 0 0 d)) - chance fun d => found (sharesBut env (fun _ => s') 0 0 d)| =
      farApart (fun _ : Unit => s) (fun _ => s') / 2 ^ 63 := by
  classical
  have one : ∀ P : (Fin (0 + 1) × Unit → I64) → Prop, chance P = #{r : I64 | torchRandom r ∧ P fun _ => r} / 2 ^ 63 := fun P => by
    have := @chance_unique (Fin (0 + 1) × Unit) _ ⟨⟨(⟨0, by omega⟩, ())⟩, fun p => Prod.ext (Fin.ext (by omega)) rfl⟩ P
    convert this
  have e : ∀ t r : I64, sharesBut env (fun _ => t) 0 0 (fun _ : Fin (0 + 1) × Unit => r) 1 = some fun _ => t - r := by
    intro t r
    have := shareValues_eq env (fun _ : Unit => t) 0 (fun _ _ => r) 1 (by omega)
    unfold sharesBut
    rw [if_neg (by omega), this]
    simp [extendDraws]
    rfl
  refine ⟨fun v => ∃ r, torchRandom r ∧ v 1 = some fun _ => s - r, ?_⟩
  have inj : ∀ t r r' : I64, (fun _ : Unit => t - r) = (fun _ => s - r') ↔ r' = r + (s - t) := by
    intro t r r'
    constructor
    · intro h
      have := congrFun h ()
      rw [← sub_eq_zero] at this ⊢
      rw [← this]
      ring
    · rintro rfl
      funext
      ring
  simp only [one, e, Option.some.injEq, inj, exists_eq_right]
  have h1 : #{r : I64 | torchRandom r ∧ torchRandom (r + (s - s))} = 2 ^ 63 := by
    refine (congrArg Finset.card (Finset.filter_congr fun r _ => ?_)).trans card_half
    rw [sub_self, add_zero, and_self]
  have h2 : #{r : I64 | torchRandom r ∧ torchRandom (r + (s - s'))} + #{r : I64 | torchRandom r ∧ ¬ torchRandom (r + (s - s'))} = 2 ^ 63 := by
    have := Finset.card_filter_add_card_filter_not (s := ({r : I64 | torchRandom r} : Finset I64)) (fun r => torchRandom (r + (s - s')))
    rw [Finset.filter_filter, Finset.filter_filter] at this
    exact this.trans card_half
  rw [card_bad] at h2
  have h3 : farApart (fun _ : Unit => s) (fun _ => s') = (s - s').toInt.natAbs := by
    rw [farApart_comm]
    simp [farApart]
  have h2' : (#{r : I64 | torchRandom r ∧ torchRandom (r + (s - s'))} : ℚ) + (s - s').toInt.natAbs = 2 ^ 63 := by exact_mod_cast h2
  have h1' : (#{r : I64 | torchRandom r ∧ torchRandom (r + (s - s))} : ℚ) = 2 ^ 63 := by exact_mod_cast h1
  rw [h3, h1', ← sub_div, show (2 ^ 63 : ℚ) - #{r : I64 | torchRandom r ∧ torchRandom (r + (s - s'))} = (s - s').toInt.natAbs by linarith]
  exact abs_of_nonneg (div_nonneg (Nat.cast_nonneg _) (by norm_num))

/-- something is found in the opened values of a product whose masks are the drawn numbers -/
def FindsOpened {K Kw : Type} [DecidableEq K] {ι κ : K → Type} {C : K → Type} [∀ k, AddCommGroup (C k)] (env : Env)
    (op : (k : K) → Kw → (ι k → I64) →+ (κ k → I64) →+ C k) (trunc : (k : K) → Config → C k → C k)
    (rnd : (k : K) → Nat → TripleRand (ι k → I64) (κ k → I64) (C k)) (k : K) (kw : Kw) (x : MPCTensor (ι k → I64)) (y : MPCTensor (κ k → I64))
    (found : (ι k → I64) → (κ k → I64) → Prop) (m : ι k ⊕ κ k → I64) : Prop :=
  ∃ out w', mulMaster env (fun k kw a b => op k kw a b) trunc
      (Function.update rnd k fun j => { rnd k j with a := fun i => m (.inl i), b := fun i => m (.inr i) }) k kw World.empty x y = .ok (out, w') ∧
    found out.eps out.delta

/-- **C94**: the masks of a product are drawn as the code does.  Whatever one looks for in the values that are opened, the chances to find
it for two pairs of secrets differ by no more than the distances of the secrets in quanta, divided by `2^63`. -/
theorem C94_opened {K Kw : Type} [DecidableEq K] {ι κ : K → Type} {C : K → Type} [∀ k, AddCommGroup (C k)] (env : Env) (s : Session)
    (hs : s.Live env) (op : (k : K) → Kw → (ι k → I64) →+ (κ k → I64) →+ C k) (trunc : (k : K) → Config → C k → C k)
    (rnd : (k : K) → Nat → TripleRand (ι k → I64) (κ k → I64) (C k)) (k : K) [Fintype (ι k)] [Fintype (κ k)] (kw : Kw)
    (x x' : MPCTensor (ι k → I64)) (y y' : MPCTensor (κ k → I64)) (hx : x.WF env) (hx' : x'.WF env) (hy : y.WF env) (hy' : y'.WF env)
    (sx : x.session = s) (sx' : x'.session = s) (sy : y.session = s) (sy' : y'.session = s) (found : (ι k → I64) → (κ k → I64) → Prop) :
    |chance (FindsOpened env op trunc rnd k kw x y found) - chance (FindsOpened env op trunc rnd k kw x' y' found)| ≤
      (farApart x.value x'.value + farApart y.value y'.value : ℕ) / 2 ^ 63 := by
  have key : ∀ (x : MPCTensor (ι k → I64)) (y : MPCTensor (κ k → I64)), x.WF env → y.WF env → x.session = s → y.session = s →
      ∀ m, FindsOpened env op trunc rnd k kw x y found m ↔ found (fun i => x.value i - m (.inl i)) (fun i => y.value i - m (.inr i)) := by
    intro x y hx hy hxs hys m
    obtain ⟨out, w', q', kwOf', ts', i, zs, a', b', g1, g2, g3, g4, g5, g6, g7, g8, g9, g10, g16, g17, _⟩ :=
      mul_step env s hs op trunc (Function.update rnd k fun j => { rnd k j with a := fun i => m (.inl i), b := fun i => m (.inr i) }) World.empty
        (fun _ => []) (fun _ => kw)
        (fun k _ _ => ⟨0, ⟨0, none, {}, 0⟩, ⟨0, none, {}, 0⟩, ⟨0, none, {}, 0⟩⟩) (good_empty ..) k kw x y hx hy hxs hys
    rcases g8 with ⟨h, _⟩ | ⟨_, _, _, h1, h2⟩
    · simp at h
    · simp only [Function.update_self] at h1 h2
      rw [h1] at g16
      rw [h2] at g17
      constructor
      · rintro ⟨out', w'', e1, e2⟩
        rw [g1] at e1
        cases e1
        rw [g16, g17] at e2
        exact e2
      · intro h
        exact ⟨out, w', g1, by rw [g16, g17]; exact h⟩
  have half : ∀ (x x' : MPCTensor (ι k → I64)) (y y' : MPCTensor (κ k → I64)), x.WF env → x'.WF env → y.WF env → y'.WF env →
      x.session = s → x'.session = s → y.session = s → y'.session = s →
      chance (FindsOpened env op trunc rnd k kw x y found) ≤ chance (FindsOpened env op trunc rnd k kw x' y' found) +
        (farApart x.value x'.value + farApart y.value y'.value : ℕ) / 2 ^ 63 := by
    intro x x' y y' hx hx' hy hy' sx sx' sy sy'
    have := chance_le (Sum.elim (fun i => x'.value i - x.value i) fun i => y'.value i - y.value i)
      (FindsOpened env op trunc rnd k kw x y found) (FindsOpened env op trunc rnd k kw x' y' found) (fun d hd => by
        rw [key x' y' hx' hy' sx' sy']
        rw [key x y hx hy sx sy] at hd
        simp only [Sum.elim_inl, Sum.elim_inr]
        have e1 : (fun i => x'.value i - (d (.inl i) + (x'.value i - x.value i))) = fun i => x.value i - d (.inl i) := by
          funext i
          ring
        have e2 : (fun i => y'.value i - (d (.inr i) + (y'.value i - y.value i))) = fun i => y.value i - d (.inr i) := by
          funext i
          ring
        rw [e1, e2]
        exact hd)
    rw [Fintype.sum_sum_type] at this
    exact this
  have h1 := half x x' y y' hx hx' hy hy' sx sx' sy sy'
  have h2 := half x' x y' y hx' hx hy' hy sx' sx sy' sy
  rw [farApart_comm x'.value, farApart_comm y'.value] at h2
  rw [abs_le]
  constructor <;> linarith

/-! ## Examples -/

/-- with 16 bits after the point, 1 and 2 are 65536 quanta apart: the second of two parties can tell them apart in one of `2^47` runs at most -/
example (found : (Nat → Option (Unit → I64)) → Prop) :
    |chance (fun d => found (sharesBut exEnv (fun _ => 65536) 0 0 d)) - chance fun d => found (sharesBut exEnv (fun _ => 131072) 0 0 d)| ≤
      1 / 2 ^ 47 := by
  have h := C94_sharing exEnv (fun _ : Unit => (65536 : I64)) (fun _ => 131072) 0 0 (by omega) found
  have e : farApart (fun _ : Unit => (65536 : I64)) (fun _ => 131072) = 65536 := by decide
  rw [e] at h
  norm_num at h ⊢
  exact h

/-- the shares that are looked at: of 7, for three parties, without those of the second -/
example : (sharesBut exEnv (fun _ : Unit => (7 : I64)) 1 1 (fun p => if p.1 = 0 then 5 else 9) 0).map (· ()) = some 5 ∧
    (sharesBut exEnv (fun _ : Unit => (7 : I64)) 1 1 (fun p => if p.1 = 0 then 5 else 9) 1).map (· ()) = none ∧
    (sharesBut exEnv (fun _ : Unit => (7 : I64)) 1 1 (fun p => if p.1 = 0 then 5 else 9) 2).map (· ()) = some (-2) := by
  decide

/-- two pairs of secret tensors of one session, at distance 4 and 1 -/
example : exSession.Live exEnv ∧ (exSecret (fun _ : Fin 2 => (1 : I64)) (fun _ => 2) (fun _ => 3)).WF exEnv ∧
    farApart (exSecret (fun _ : Fin 2 => (1 : I64)) (fun _ => 2) (fun _ => 3)).value (exSecret (fun _ : Fin 2 => (1 : I64)) (fun _ => 2) (fun _ => 5)).value = 4 ∧
    farApart (exSecret (fun _ : Unit => (1 : I64)) (fun _ => 2) (fun _ => 3)).value (exSecret (fun _ : Unit => (1 : I64)) (fun _ => 1) (fun _ => 3)).value = 1 :=
  ⟨exLive, exSecret_wf .., by decide, by decide⟩

end SyMPC
