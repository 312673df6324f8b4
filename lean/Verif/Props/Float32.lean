import Verif.Lemmas.Float32
import Verif.Lemmas.Encoder

/-!
# C02: decoding with torch's float32
-/

namespace SyMPC

open FixedPointEncoder

/-- C02 (partial): with the float32 arithmetic of torch, decoding in base 2 with at most 24 bits of precision is exact
for integers of at most 24 bits.  Missing: larger integers, see `C02_float32_inexact`. -/
theorem C02_float32_partial (p : Nat) (hp0 : p ≠ 0) (hp : p ≤ 24) (t : I64) (ht : |t.toInt| ≤ 2 ^ 24) :
    (FixedPointEncoder.new 2 p).decodeCoreFl f32 t = (t.toInt : ℚ) / (2 ^ p : Nat) := by
  have hpow : 2 ^ p ≤ 2 ^ 24 := Nat.pow_le_pow_right (by norm_num) hp
  have h1p : 1 < 2 ^ p := Nat.one_lt_two_pow hp0
  have hs : 0 < (FixedPointEncoder.new 2 p).scale := by simp [FixedPointEncoder.new]
  have hs' : (FixedPointEncoder.new 2 p).scale < 2 ^ 63 := lt_of_le_of_lt hpow (by norm_num)
  obtain ⟨D, R, h1, h2, h3, h4⟩ := decodeCoreFl_eq f32 (FixedPointEncoder.new 2 p) t hs hs' (Or.inl (by
    change 2 ^ p ≠ 1; omega))
  change D * ((2 ^ p : Nat) : Int) + R = _ at h2
  change R ≤ ((2 ^ p : Nat) : Int) at h4
  rw [h1]
  change f32 (f32 D + f32 (f32 R / f32 ((2 ^ p : Nat) : ℚ))) = _
  have hpZ : ((2 ^ p : Nat) : Int) ≤ 2 ^ 24 := by exact_mod_cast hpow
  have hpZ1 : (1 : Int) < ((2 ^ p : Nat) : Int) := by exact_mod_cast h1p
  have hD : |D| ≤ 2 ^ 24 := by
    rw [abs_le] at *
    constructor
    · by_contra hc
      nlinarith
    · by_contra hc
      nlinarith
  have hR : |R| ≤ 2 ^ 24 := by rw [abs_of_nonneg h3]; omega
  have e1 : f32 (D : ℚ) = D := by simpa using f32_exact D 0 hD
  have e2 : f32 (R : ℚ) = R := by simpa using f32_exact R 0 hR
  have e3 : f32 ((2 ^ p : Nat) : ℚ) = (2 ^ p : Nat) := by
    have := f32_exact 1 p (by norm_num)
    simpa using this
  have e4 : f32 ((R : ℚ) / (2 ^ p : Nat)) = (R : ℚ) / (2 ^ p : Nat) := by
    have := f32_exact R (-p) hR
    rw [zpow_neg, zpow_natCast, ← div_eq_mul_inv] at this
    simpa using this
  rw [e1, e2, e3, e4]
  have hq : ((2 ^ p : Nat) : ℚ) ≠ 0 := by positivity
  have e5 : (D : ℚ) + R / (2 ^ p : Nat) = (t.toInt : ℚ) / (2 ^ p : Nat) := by
    rw [← h2]
    push_cast
    field_simp
  rw [e5]
  have := f32_exact t.toInt (-p) ht
  rw [zpow_neg, zpow_natCast, ← div_eq_mul_inv] at this
  simpa using this

example : (FixedPointEncoder.new 2 16).decodeCoreFl f32 (BitVec.ofInt 64 (-98304)) = -3 / 2 := by decide +kernel

/-- C02 does not hold of the float32 code for larger integers: with the default encoder the integer `(2^24 + 1) * 2^16`
(the encoding of 16777217) decodes to 16777216, a whole unit away, and re-encoding does not give it back. -/
theorem C02_float32_inexact :
    (FixedPointEncoder.new 2 16).decodeCoreFl f32 (BitVec.ofInt 64 ((2 ^ 24 + 1) * 2 ^ 16)) = 2 ^ 24 ∧
    (FixedPointEncoder.new 2 16).encode (.float (2 ^ 24)) ≠ BitVec.ofInt 64 ((2 ^ 24 + 1) * 2 ^ 16) := by
  decide +kernel

/-- With more than 24 bits of precision float32 decoding also loses small negative numbers: `-1` decodes to 0. -/
theorem C02_float32_small_negative :
    (FixedPointEncoder.new 2 25).decodeCoreFl f32 (BitVec.ofInt 64 (-1)) = 0 := by
  decide +kernel

/-! ## the error of float32 for all values -/

/-- one rounding of a quantity that is already off by `d` -/
theorem f32_near {a v d : ℚ} (h : |a - v| ≤ d) : |f32 a - v| ≤ d + (|v| + d) / 2 ^ 24 := by
  have h1 := f32_error a
  have h2 : |a| ≤ |v| + d := by
    have := abs_add_le (a - v) v
    rw [sub_add_cancel] at this
    linarith
  have h3 : f32 a - v = (f32 a - a) + (a - v) := by ring
  rw [h3]
  have h4 : |a| / 2 ^ 24 ≤ (|v| + d) / 2 ^ 24 := div_le_div_of_nonneg_right h2 (by positivity)
  linarith [abs_add_le (f32 a - a) (a - v)]

/-- C02: with the float32 arithmetic of torch, decoding any int64 value is off by at most `2^-22` times its size plus 2, for every
base and precision with a scale below `2^63`. -/
theorem C02_float32_error (base precision : Nat) (hb : 2 ≤ base) (hp : precision ≠ 0) (hs : base ^ precision < 2 ^ 63) (t : I64) :
    |(FixedPointEncoder.new base precision).decodeCoreFl f32 t - (t.toInt : ℚ) / (base ^ precision : Nat)|
      ≤ (|(t.toInt : ℚ) / (base ^ precision : Nat)| + 2) / 2 ^ 22 := by
  have hs0 : 0 < base ^ precision := Nat.pow_pos (by omega)
  have hs1 : 1 < base ^ precision := Nat.one_lt_pow hp (by omega)
  obtain ⟨D, R, h1, h2, h3, h4⟩ := decodeCoreFl_eq f32 (FixedPointEncoder.new base precision) t hs0 hs
    (Or.inl (by change base ^ precision ≠ 1; omega))
  change D * ((base ^ precision : Nat) : Int) + R = _ at h2
  change R ≤ ((base ^ precision : Nat) : Int) at h4
  rw [h1]
  change |f32 (f32 D + f32 (f32 R / f32 ((base ^ precision : Nat) : ℚ))) - _| ≤ _
  generalize hS : base ^ precision = S at *
  have hSq : (0 : ℚ) < S := by exact_mod_cast hs0
  set v : ℚ := (t.toInt : ℚ) / S with hv
  set w : ℚ := (R : ℚ) / S with hw
  have hR0 : (0 : ℚ) ≤ R := by exact_mod_cast h3
  have hRS : (R : ℚ) ≤ S := by exact_mod_cast h4
  have hw0 : 0 ≤ w := div_nonneg hR0 hSq.le
  have hw1 : w ≤ 1 := (div_le_one hSq).mpr hRS
  have hDv : (D : ℚ) + w = v := by
    rw [hv, hw, ← h2]
    push_cast
    field_simp
  have hDabs : |(D : ℚ)| ≤ |v| + 1 := by
    have : (D : ℚ) = v - w := by linarith
    rw [this]
    have := abs_sub v w
    rw [abs_of_nonneg hw0] at this
    linarith
  -- the quotient
  have e1 := f32_error (R : ℚ)
  have e2 := f32_error (S : ℚ)
  rw [abs_of_nonneg hR0] at e1
  rw [abs_of_pos hSq] at e2
  obtain ⟨r1, r2⟩ := abs_le.mp e1
  obtain ⟨s1, s2⟩ := abs_le.mp e2
  have hSpos : 0 < f32 (S : ℚ) := by norm_num at s1; linarith
  have hq : |f32 (R : ℚ) / f32 (S : ℚ) - w| ≤ 3 / 2 ^ 24 := by
    have hRw : (R : ℚ) = w * S := by rw [hw]; field_simp
    have e : f32 (R : ℚ) / f32 (S : ℚ) - w = ((f32 (R : ℚ) - R) - w * (f32 (S : ℚ) - S)) / f32 (S : ℚ) := by
      field_simp
      rw [hRw]
      ring
    rw [e, abs_div, abs_of_pos hSpos, div_le_iff₀ hSpos]
    refine (abs_sub _ _).trans ?_
    rw [abs_mul, abs_of_nonneg hw0]
    have m1 : w * |f32 (S : ℚ) - S| ≤ 1 * |f32 (S : ℚ) - S| := mul_le_mul_of_nonneg_right hw1 (abs_nonneg _)
    norm_num at e1 e2 s1 ⊢
    linarith
  have hb1 := f32_near hq
  rw [abs_of_nonneg hw0] at hb1
  have hd := f32_error (D : ℚ)
  have hsum : |f32 (D : ℚ) + f32 (f32 (R : ℚ) / f32 (S : ℚ)) - v| ≤ (|v| + 1) / 2 ^ 24 + 41 / 10 / 2 ^ 24 := by
    have e : f32 (D : ℚ) + f32 (f32 (R : ℚ) / f32 (S : ℚ)) - v = (f32 (D : ℚ) - D) + (f32 (f32 (R : ℚ) / f32 (S : ℚ)) - w) := by
      rw [← hDv]; ring
    rw [e]
    refine (abs_add_le _ _).trans ?_
    norm_num at hb1 hd ⊢
    linarith
  refine (f32_near hsum).trans ?_
  have := abs_nonneg v
  norm_num
  linarith

example : |(FixedPointEncoder.new 2 16).decodeCoreFl f32 (BitVec.ofInt 64 ((2 ^ 24 + 1) * 2 ^ 16)) - (2 ^ 24 + 1)| ≤ 5 := by
  have h := C02_float32_error 2 16 (by norm_num) (by norm_num) (by norm_num) (BitVec.ofInt 64 ((2 ^ 24 + 1) * 2 ^ 16))
  have e : (BitVec.ofInt 64 ((2 ^ 24 + 1) * 2 ^ 16)).toInt = (2 ^ 24 + 1) * 2 ^ 16 := by decide
  rw [e] at h
  norm_num at h ⊢
  linarith

/-- C01: encoding a float with torch's float32 arithmetic and decoding it again is off by at most one quantum plus `2^-21` times its
size plus 2, for every base and precision, if the scaled value is below `2^62`. -/
theorem C01_float32_error (base precision : Nat) (hb : 2 ≤ base) (hp : precision ≠ 0) (hs : base ^ precision < 2 ^ 63) (v : ℚ)
    (hfit : |v * (base ^ precision : Nat)| ≤ 2 ^ 62) :
    |(FixedPointEncoder.new base precision).decodeCoreFl f32 ((FixedPointEncoder.new base precision).encodeFl f32 v) - v|
      ≤ 1 / (base ^ precision : Nat) + (|v| + 2) / 2 ^ 21 := by
  have hdec := C02_float32_error base precision hb hp hs ((FixedPointEncoder.new base precision).encodeFl f32 v)
  have hs1 : 1 < base ^ precision := Nat.one_lt_pow hp (by omega)
  have hE : (FixedPointEncoder.new base precision).encodeFl f32 v
      = BitVec.ofInt 64 (truncRat (f32 (f32 v * f32 ((base ^ precision : Nat) : ℚ)))) := rfl
  rw [hE] at hdec ⊢
  generalize (FixedPointEncoder.new base precision).decodeCoreFl f32
    (BitVec.ofInt 64 (truncRat (f32 (f32 v * f32 ((base ^ precision : Nat) : ℚ))))) = d at hdec ⊢
  generalize base ^ precision = S at *
  have hSq : (1 : ℚ) < S := by exact_mod_cast hs1
  have hS0 : (0 : ℚ) < S := by linarith
  -- the product
  have e1 := f32_error v
  have e2 := f32_error (S : ℚ)
  rw [abs_of_pos hS0] at e2
  set V := |v| with hV
  have hV0 : 0 ≤ V := abs_nonneg v
  have hp1 : |f32 v * f32 (S : ℚ) - v * S| ≤ 21 / 10 / 2 ^ 24 * (V * S) := by
    have e : f32 v * f32 (S : ℚ) - v * S = (f32 v - v) * S + v * (f32 (S : ℚ) - S) + (f32 v - v) * (f32 (S : ℚ) - S) := by ring
    rw [e]
    refine (abs_add_three _ _ _).trans ?_
    rw [abs_mul, abs_mul, abs_mul, abs_of_pos hS0, ← hV]
    have m1 : |f32 v - v| * S ≤ V / 2 ^ 24 * S := mul_le_mul_of_nonneg_right e1 hS0.le
    have m2 : V * |f32 (S : ℚ) - S| ≤ V * (S / 2 ^ 24) := mul_le_mul_of_nonneg_left e2 hV0
    have m3 : |f32 v - v| * |f32 (S : ℚ) - S| ≤ V / 2 ^ 24 * (S / 2 ^ 24) := mul_le_mul e1 e2 (abs_nonneg _) (by positivity)
    have m4 : 0 ≤ V * S := by positivity
    have m5 : V / 2 ^ 24 * (S / 2 ^ 24) = V * S / 2 ^ 48 := by ring
    have m6 : V / 2 ^ 24 * S = V * S / 2 ^ 24 := by ring
    have m7 : V * (S / 2 ^ 24) = V * S / 2 ^ 24 := by ring
    rw [m5] at m3
    rw [m6] at m1
    rw [m7] at m2
    norm_num at m1 m2 m3 ⊢
    linarith
  have hVS : |v * S| = V * S := by rw [abs_mul, abs_of_pos hS0]
  have hp2 := f32_near hp1
  rw [hVS] at hp2 hfit
  set P := f32 (f32 v * f32 (S : ℚ)) with hP
  have hVS0 : 0 ≤ V * S := by positivity
  have hp3 : |P - v * S| ≤ 32 / 10 / 2 ^ 24 * (V * S) := by
    norm_num at hp2 ⊢
    linarith
  -- the truncation
  obtain ⟨t1, t2, -⟩ := truncRat_bounds P
  have hPabs : |P| ≤ 2 ^ 62 + 2 ^ 50 := by
    have := abs_add_le (P - v * S) (v * S)
    rw [sub_add_cancel, hVS] at this
    norm_num at hp3 hfit ⊢
    linarith
  have hT : |truncRat P| < 2 ^ 63 := by
    have : |(truncRat P : ℚ)| < 2 ^ 63 := by
      norm_num at hPabs ⊢
      linarith
    exact_mod_cast this
  rw [abs_lt] at hT
  rw [toInt_ofInt64 hT.1.le hT.2] at hdec
  set T := truncRat P with hTd
  have hTv : |(T : ℚ) / S - v| ≤ 1 / S + 32 / 10 / 2 ^ 24 * V := by
    have e : (T : ℚ) / S - v = ((T - P) + (P - v * S)) / S := by field_simp; ring
    rw [e, abs_div, abs_of_pos hS0, div_le_iff₀ hS0]
    have h5 : (1 / (S : ℚ) + 32 / 10 / 2 ^ 24 * V) * S = 1 + 32 / 10 / 2 ^ 24 * (V * S) := by field_simp
    rw [h5]
    refine (abs_add_le _ _).trans ?_
    rw [abs_sub_comm] at t2
    linarith
  have hTabs : |(T : ℚ) / S| ≤ V + (1 / S + 32 / 10 / 2 ^ 24 * V) := by
    have := abs_add_le ((T : ℚ) / S - v) v
    rw [sub_add_cancel] at this
    linarith
  have h1S : 1 / (S : ℚ) ≤ 1 := by
    rw [div_le_one hS0]
    exact hSq.le
  have e : d - v = (d - (T : ℚ) / S) + ((T : ℚ) / S - v) := by ring
  rw [e]
  refine (abs_add_le _ _).trans ?_
  norm_num at hdec hTv hTabs ⊢
  rw [one_div] at h1S
  linarith

example : |(FixedPointEncoder.new 10 3).decodeCoreFl f32 ((FixedPointEncoder.new 10 3).encodeFl f32 (13 / 10)) - 13 / 10| ≤ 1 / 500 := by
  have h := C01_float32_error 10 3 (by norm_num) (by norm_num) (by norm_num) (13 / 10) (by norm_num [abs_of_pos])
  rw [abs_of_pos (show (0 : ℚ) < 13 / 10 by norm_num)] at h
  norm_num at h ⊢
  linarith

/-- With float32 the error really depends on the size of the number: 1000.7 is a hundred quanta of `10^-9` off. -/
example : 100 / 10 ^ 9 < |(FixedPointEncoder.new 10 9).decodeCoreFl f32 ((FixedPointEncoder.new 10 9).encodeFl f32 (10007 / 10)) - 10007 / 10| := by
  decide +kernel

end SyMPC
