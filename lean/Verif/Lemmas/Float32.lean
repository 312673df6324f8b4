import Verif.Model.Float32
import Mathlib.Tactic.Linarith
import Mathlib.Tactic.Positivity
import Mathlib.Tactic.FieldSimp
import Mathlib.Tactic.Ring
import Mathlib.Algebra.Order.Field.Power
import Mathlib.Data.Nat.Log

/-! # Facts about `f32` -/

namespace SyMPC

theorem pow2_eq (e : Int) : pow2 e = (2 : ℚ) ^ e := by
  cases e with
  | ofNat n => simp [pow2]
  | negSucc n =>
    rw [pow2, Rat.mkRat_eq_div, zpow_negSucc]
    push_cast
    rw [one_div]

theorem log2Rat_spec (a : ℚ) (h : 0 < a) : (2 : ℚ) ^ log2Rat a ≤ a ∧ a < (2 : ℚ) ^ (log2Rat a + 1) := by
  have hnum : a.num.natAbs ≠ 0 := by
    have := Rat.num_pos.mpr h
    omega
  have h1 := Nat.log2_self_le hnum
  have h2 := Nat.lt_log2_self (n := a.num.natAbs)
  have h3 := Nat.log2_self_le a.den_nz
  have h4 := Nat.lt_log2_self (n := a.den)
  generalize hn : Nat.log2 a.num.natAbs = n at h1 h2
  generalize hd : Nat.log2 a.den = d at h3 h4
  have hq : a = (a.num.natAbs : ℚ) / a.den := by
    conv_lhs => rw [← Rat.num_div_den a]
    congr 1
    have : (a.num.natAbs : ℤ) = a.num := Int.natAbs_of_nonneg (Rat.num_nonneg.mpr h.le)
    rw [← Int.cast_natCast, this]
  have hdp : (0 : ℚ) < a.den := by exact_mod_cast a.den_pos
  have g1 : ((2 : ℚ) ^ n) ≤ a.num.natAbs := by exact_mod_cast h1
  have g2 : (a.num.natAbs : ℚ) < 2 ^ (n + 1) := by exact_mod_cast h2
  have g3 : ((2 : ℚ) ^ d) ≤ a.den := by exact_mod_cast h3
  have g4 : (a.den : ℚ) < 2 ^ (d + 1) := by exact_mod_cast h4
  have up : a < (2 : ℚ) ^ ((n : Int) - d + 1) := by
    rw [hq, div_lt_iff₀ hdp]
    calc (a.num.natAbs : ℚ) < 2 ^ (n + 1) := g2
      _ = 2 ^ ((n : Int) - d + 1) * 2 ^ d := by
        rw [← zpow_natCast, ← zpow_natCast, ← zpow_add₀ (by norm_num)]
        congr 1
        push_cast; ring
      _ ≤ _ := by gcongr
  have lo : (2 : ℚ) ^ ((n : Int) - d - 1) ≤ a := by
    rw [hq, le_div_iff₀ hdp]
    calc (2 : ℚ) ^ ((n : Int) - d - 1) * a.den ≤ 2 ^ ((n : Int) - d - 1) * 2 ^ (d + 1) := by gcongr
      _ = 2 ^ n := by
        rw [← zpow_natCast, ← zpow_natCast, ← zpow_add₀ (by norm_num)]
        congr 1
        push_cast; ring
      _ ≤ _ := g1
  unfold log2Rat
  rw [hn, hd]
  dsimp only
  rw [pow2_eq]
  split
  · rename_i hle
    exact ⟨hle, up⟩
  · rename_i hlt
    refine ⟨lo, ?_⟩
    rw [sub_add_cancel]
    exact not_le.mp hlt

theorem roundHalfEven_int (m : Int) : roundHalfEven (m : ℚ) = m := by
  unfold roundHalfEven
  simp [Rat.floor_intCast]

theorem f32_zero : f32 0 = 0 := rfl

/-- a number with at most 24 significant bits is not changed -/
theorem f32_exact (m e : Int) (h : |m| ≤ 2 ^ 24) : f32 (m * (2 : ℚ) ^ e) = m * (2 : ℚ) ^ e := by
  have key : ∀ (m e : Int), |m| < 2 ^ 24 → f32 (m * (2 : ℚ) ^ e) = m * (2 : ℚ) ^ e := by
    intro m e h
    unfold f32
    split
    · rename_i h0; rw [h0]
    rename_i h0
    dsimp only
    generalize hk : log2Rat |(m : ℚ) * 2 ^ e| = k
    have hpos : 0 < |(m : ℚ) * 2 ^ e| := abs_pos.mpr h0
    obtain ⟨hlo, _⟩ := log2Rat_spec _ hpos
    rw [hk] at hlo
    have habs : |(m : ℚ) * 2 ^ e| < 2 ^ (e + 24) := by
      rw [abs_mul, abs_of_pos (a := (2 : ℚ) ^ e) (by positivity), zpow_add₀ (by norm_num), mul_comm]
      have : |(m : ℚ)| < 2 ^ (24 : Int) := by
        have : ((|m| : Int) : ℚ) < ((2 ^ 24 : Int) : ℚ) := by exact_mod_cast h
        rw [Int.cast_abs] at this
        exact lt_of_lt_of_eq this (by norm_num)
      gcongr
    have hke : k < e + 24 := (zpow_lt_zpow_iff_right₀ (by norm_num : (1 : ℚ) < 2)).mp (lt_of_le_of_lt hlo habs)
    obtain ⟨j, hj⟩ : ∃ j : Nat, e = k - 23 + j := ⟨(e - (k - 23)).toNat, by omega⟩
    rw [pow2_eq]
    have hdiv : (m : ℚ) * 2 ^ e / 2 ^ (k - 23) = ((m * 2 ^ j : Int) : ℚ) := by
      rw [hj, zpow_add₀ (by norm_num), zpow_natCast]
      push_cast
      field_simp
    rw [hdiv, roundHalfEven_int, ← hdiv]
    field_simp
  rcases lt_or_eq_of_le h with h | h
  · exact key m e h
  · obtain ⟨m', hm, hm'⟩ : ∃ m' : Int, m = m' * 2 ∧ |m'| < 2 ^ 24 := by
      rcases abs_choice m with hc | hc <;> rw [hc] at h
      · exact ⟨2 ^ 23, by omega, by norm_num⟩
      · exact ⟨-2 ^ 23, by omega, by norm_num⟩
    have : (m : ℚ) * 2 ^ e = m' * 2 ^ (e + 1) := by
      rw [hm, zpow_add₀ (by norm_num)]
      push_cast
      ring
    rw [this, key m' (e + 1) hm']

theorem roundHalfEven_error (q : ℚ) : |(roundHalfEven q : ℚ) - q| ≤ 1 / 2 := by
  have h1 : (q.floor : ℚ) ≤ q := Int.floor_le q
  have h2 : q < q.floor + 1 := Int.lt_floor_add_one q
  unfold roundHalfEven
  dsimp only
  rw [abs_le]
  split
  · constructor <;> linarith
  · split
    · push_cast; constructor <;> linarith
    · split
      · constructor <;> linarith
      · push_cast; constructor <;> linarith

/-- relative error of a rounding -/
theorem f32_error (q : ℚ) : |f32 q - q| ≤ |q| / 2 ^ 24 := by
  unfold f32
  split
  · rename_i h; simp [h]
  rename_i h0
  dsimp only
  obtain ⟨hlo, _⟩ := log2Rat_spec |q| (abs_pos.mpr h0)
  generalize log2Rat |q| = k at hlo
  rw [pow2_eq]
  have hu : (0 : ℚ) < 2 ^ (k - 23) := by positivity
  have hr := roundHalfEven_error (q / 2 ^ (k - 23))
  have : (roundHalfEven (q / 2 ^ (k - 23)) : ℚ) * 2 ^ (k - 23) - q
      = (roundHalfEven (q / 2 ^ (k - 23)) - q / 2 ^ (k - 23)) * 2 ^ (k - 23) := by
    field_simp
  rw [this, abs_mul, abs_of_pos hu]
  calc _ ≤ 1 / 2 * (2 : ℚ) ^ (k - 23) := by gcongr
    _ = 2 ^ k / 2 ^ 24 := by
      rw [zpow_sub₀ (by norm_num)]
      norm_num
      ring
    _ ≤ _ := by gcongr

end SyMPC
