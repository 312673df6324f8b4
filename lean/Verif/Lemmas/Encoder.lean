import Verif.Model.Encoder
import Mathlib.Tactic.Linarith
import Mathlib.Tactic.FieldSimp
import Mathlib.Tactic.Ring
import Mathlib.Tactic.Positivity
import Mathlib.Tactic.LinearCombination

namespace SyMPC

theorem toInt_bounds (x : I64) : -(2 ^ 63 : Int) ≤ x.toInt ∧ x.toInt < 2 ^ 63 :=
  ⟨BitVec.le_toInt x, BitVec.toInt_lt⟩

theorem bmod64_eq {z : Int} (h1 : -(2 ^ 63 : Int) ≤ z) (h2 : z < 2 ^ 63) : z.bmod (2 ^ 64) = z := by
  apply Int.bmod_eq_of_le_mul_two <;> norm_num <;> omega

theorem toInt_ofInt64 {z : Int} (h1 : -(2 ^ 63 : Int) ≤ z) (h2 : z < 2 ^ 63) :
    (BitVec.ofInt 64 z).toInt = z := by
  rw [BitVec.toInt_ofInt]; exact bmod64_eq h1 h2

theorem toInt_ofNat64 {n : Nat} (h : n < 2 ^ 63) : (BitVec.ofNat 64 n).toInt = n := by
  rw [BitVec.toInt_ofNat']
  apply bmod64_eq
  · have : (0 : Int) ≤ n := Int.natCast_nonneg n
    have h2 : -(2 ^ 63 : Int) ≤ 0 := by norm_num
    omega
  · exact_mod_cast h

/-- truncation of a rational in terms of its sign -/
theorem truncRat_nonneg {q : ℚ} (h : 0 ≤ q) : FixedPointEncoder.truncRat q = ⌊q⌋ := by
  unfold FixedPointEncoder.truncRat
  rw [Int.tdiv_eq_ediv_of_nonneg (Rat.num_nonneg.mpr h), ← Rat.floor_intCast_div_natCast, Rat.num_div_den]

theorem truncRat_neg (q : ℚ) : FixedPointEncoder.truncRat (-q) = -FixedPointEncoder.truncRat q := by
  unfold FixedPointEncoder.truncRat
  simp [Int.neg_tdiv]

theorem truncRat_intCast (z : Int) : FixedPointEncoder.truncRat (z : ℚ) = z := by
  unfold FixedPointEncoder.truncRat
  simp

theorem truncRat_bounds (q : ℚ) :
    |(FixedPointEncoder.truncRat q : ℚ)| ≤ |q| ∧ |q - FixedPointEncoder.truncRat q| < 1 ∧
      0 ≤ q * FixedPointEncoder.truncRat q := by
  have key : ∀ q : ℚ, 0 ≤ q → |(FixedPointEncoder.truncRat q : ℚ)| ≤ |q| ∧
      |q - FixedPointEncoder.truncRat q| < 1 ∧ 0 ≤ q * FixedPointEncoder.truncRat q := by
    intro q h
    rw [truncRat_nonneg h]
    have h1 := Int.floor_le q
    have h2 := Int.lt_floor_add_one q
    have h3 : (0 : ℚ) ≤ (⌊q⌋ : ℚ) := by exact_mod_cast Int.floor_nonneg.mpr h
    refine ⟨?_, ?_, mul_nonneg h h3⟩
    · rw [abs_of_nonneg h, abs_of_nonneg h3]; exact h1
    · rw [abs_lt]; constructor <;> linarith
  rcases le_total 0 q with h | h
  · exact key q h
  · have := key (-q) (by linarith)
    rw [truncRat_neg] at this
    push_cast at this
    obtain ⟨a, b, c⟩ := this
    refine ⟨by simpa using a, ?_, by linarith⟩
    rw [← abs_neg]
    convert b using 2
    ring

theorem truncRat_mono {p q : ℚ} (h : p ≤ q) :
    FixedPointEncoder.truncRat p ≤ FixedPointEncoder.truncRat q := by
  have key : ∀ p q : ℚ, 0 ≤ p → p ≤ q →
      FixedPointEncoder.truncRat p ≤ FixedPointEncoder.truncRat q := by
    intro p q h0 h
    rw [truncRat_nonneg h0, truncRat_nonneg (h0.trans h)]
    exact Int.floor_le_floor h
  rcases le_total 0 p with h0 | h0
  · exact key p q h0 h
  · rcases le_total 0 q with h1 | h1
    · have h2 : FixedPointEncoder.truncRat p ≤ 0 := by
        have := key 0 (-p) le_rfl (by linarith)
        rw [truncRat_neg] at this
        have h3 : FixedPointEncoder.truncRat 0 = 0 := by simpa using truncRat_intCast 0
        omega
      have h3 : 0 ≤ FixedPointEncoder.truncRat q := by
        have := key 0 q le_rfl h1
        have h3 : FixedPointEncoder.truncRat 0 = 0 := by simpa using truncRat_intCast 0
        omega
      omega
    · have := key (-q) (-p) (by linarith) (by linarith)
      rw [truncRat_neg, truncRat_neg] at this
      omega

/-- the integer identity behind `decode`, for any rounding of the floats -/
theorem decodeCoreFl_eq (fl : ℚ → ℚ) (e : FixedPointEncoder) (t : I64) (hs : 0 < e.scale) (hs' : e.scale < 2 ^ 63)
    (hmin : e.scale ≠ 1 ∨ t.toInt ≠ -2 ^ 63) :
    ∃ D R : Int, e.decodeCoreFl fl t = fl (fl D + fl (fl R / fl e.scale)) ∧ D * e.scale + R = t.toInt ∧
      0 ≤ R ∧ R ≤ e.scale := by
  have hb := toInt_bounds t
  have hsZ : (BitVec.ofNat 64 e.scale).toInt = (e.scale : Int) := toInt_ofNat64 hs'
  have hs0 : (0 : Int) < e.scale := by exact_mod_cast hs
  have hs1 : (e.scale : Int) < 2 ^ 63 := by exact_mod_cast hs'
  have hmul := Int.mul_tdiv_add_tmod t.toInt e.scale
  have hdiv : (floordiv t (BitVec.ofNat 64 e.scale)).toInt = t.toInt.tdiv e.scale := by
    unfold floordiv
    rw [BitVec.toInt_sdiv_of_ne_or_ne, hsZ]
    right
    intro h
    have := congrArg BitVec.toInt h
    rw [hsZ] at this
    have h2 : (-1#64 : BitVec 64).toInt = -1 := by decide
    omega
  have hmod : (pymod t (BitVec.ofNat 64 e.scale)).toInt = t.toInt % e.scale := by
    unfold pymod
    rw [BitVec.toInt_smod, hsZ, Int.fmod_eq_emod_of_nonneg _ hs0.le]
  have hemod := Int.emod_nonneg t.toInt hs0.ne'
  have hemod' := Int.emod_lt_of_pos t.toInt hs0
  have hsQ : (e.scale : ℚ) ≠ 0 := by exact_mod_cast hs.ne'
  have heq := Int.mul_ediv_add_emod t.toInt e.scale
  unfold FixedPointEncoder.decodeCoreFl
  rcases lt_or_ge t.toInt 0 with hneg | hpos
  · -- negative
    have hcorr : isNeg t = 1 := by simp [isNeg, hneg]
    simp only [hcorr]
    -- bounds for the truncated quotient
    have htd : t.toInt.tdiv e.scale = -((-t.toInt) / e.scale) := by
      rw [← Int.tdiv_eq_ediv_of_nonneg (by omega : 0 ≤ -t.toInt), Int.neg_tdiv]; omega
    have hq0 : 0 ≤ (-t.toInt) / e.scale := Int.ediv_nonneg (by omega) hs0.le
    have hqb : (-t.toInt) / e.scale < 2 ^ 63 := by
      rcases hmin with h1 | h1
      · have : (2 : Int) ≤ e.scale := by omega
        have h3 : (-t.toInt) / e.scale ≤ (-t.toInt) / 2 := by
          rw [Int.le_ediv_iff_mul_le (by norm_num)]
          have h4 := Int.ediv_mul_le (-t.toInt) hs0.ne'
          nlinarith
        omega
      · have h3 : (-t.toInt) / e.scale ≤ -t.toInt := Int.ediv_le_self _ (by omega)
        omega
    have hdv : (floordiv t (BitVec.ofNat 64 e.scale) - 1).toInt = t.toInt.tdiv e.scale - 1 := by
      rw [BitVec.toInt_sub, hdiv]
      have : (1 : BitVec 64).toInt = 1 := by decide
      rw [this]
      apply bmod64_eq <;> omega
    rw [hdv]
    by_cases hz : t.toInt % e.scale = 0
    · have hr0 : pymod t (BitVec.ofNat 64 e.scale) = 0 := by
        apply BitVec.eq_of_toInt_eq; rw [hmod, hz]; decide
      simp only [hr0, isZero, if_true]
      have : (0 + 1 * BitVec.ofNat 64 e.scale * 1 : BitVec 64) = BitVec.ofNat 64 e.scale := by ring
      rw [this, hsZ]
      have h5 : t.toInt.tdiv e.scale * e.scale = t.toInt := by
        rw [Int.mul_comm]
        exact Int.mul_tdiv_cancel' (Int.dvd_of_emod_eq_zero hz)
      exact ⟨_, _, rfl, by linear_combination h5, by omega, le_refl _⟩
    · have hr0 : pymod t (BitVec.ofNat 64 e.scale) ≠ 0 := by
        intro h
        apply hz
        rw [← hmod, h]; decide
      simp only [isZero, hr0, if_false]
      have : (pymod t (BitVec.ofNat 64 e.scale) + 0 * BitVec.ofNat 64 e.scale * 1 : BitVec 64)
          = pymod t (BitVec.ofNat 64 e.scale) := by ring
      rw [this, hmod]
      have h7 : t.toInt.tdiv e.scale - 1 = t.toInt / e.scale := by
        rw [Int.tdiv_eq_ediv]
        have hnd : ¬ (e.scale : Int) ∣ t.toInt := fun h => hz (Int.emod_eq_zero_of_dvd h)
        simp [not_le.mpr hneg, hnd, Int.sign_eq_one_of_pos hs0]
      rw [h7]
      exact ⟨_, _, rfl, by linear_combination heq, by omega, by omega⟩
  · have hcorr : isNeg t = 0 := by simp [isNeg, not_lt.mpr hpos]
    simp only [hcorr]
    have : ∀ r : I64, (r + isZero r * BitVec.ofNat 64 e.scale * 0 : BitVec 64) = r := by intro r; ring
    rw [this]
    have : (floordiv t (BitVec.ofNat 64 e.scale) - 0) = floordiv t (BitVec.ofNat 64 e.scale) := by ring
    rw [this, hdiv, hmod, Int.tdiv_eq_ediv_of_nonneg hpos]
    exact ⟨_, _, rfl, by linear_combination heq, by omega, by omega⟩

/-- with exact arithmetic `decode` divides by the scale -/
theorem decodeCore_eq (e : FixedPointEncoder) (t : I64) (hs : 0 < e.scale) (hs' : e.scale < 2 ^ 63)
    (hmin : e.scale ≠ 1 ∨ t.toInt ≠ -2 ^ 63) :
    e.decodeCore t = (t.toInt : ℚ) / e.scale := by
  obtain ⟨D, R, h1, h2, _⟩ := decodeCoreFl_eq id e t hs hs' hmin
  have hsQ : (e.scale : ℚ) ≠ 0 := by exact_mod_cast hs.ne'
  unfold FixedPointEncoder.decodeCore
  rw [h1, ← h2]
  simp only [id]
  push_cast
  field_simp

end SyMPC
