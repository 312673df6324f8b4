import Verif.Lemmas.Encoder

/-!
# C01, C02: fixed-point encoding
-/

namespace SyMPC

open FixedPointEncoder

/-- An assignment to one of the encoder's properties. -/
inductive EncoderOp where
  | precision (p : Nat)
  | base (b : Nat)

/-- Run a sequence of assignments. -/
def EncoderOp.run (e : FixedPointEncoder) : List EncoderOp → FixedPointEncoder
  | [] => e
  | .precision p :: ops => EncoderOp.run (e.setPrecision p) ops
  | .base b :: ops => EncoderOp.run (e.setBase b) ops

/-- C01: whatever assignments were made, the scale is `base ** precision`. -/
theorem C01_scale_invariant (base precision : Nat) (ops : List EncoderOp) :
    let e := EncoderOp.run (.new base precision) ops
    e.scale = e.base ^ e.precision := by
  have : ∀ (ops : List EncoderOp) (e : FixedPointEncoder), e.scale = e.base ^ e.precision →
      (EncoderOp.run e ops).scale = (EncoderOp.run e ops).base ^ (EncoderOp.run e ops).precision := by
    intro ops
    induction ops with
    | nil => intro e h; exact h
    | cons op ops ih =>
      intro e h
      cases op with
      | precision p => exact ih _ rfl
      | base b => exact ih _ rfl
  exact this ops _ rfl

example : (EncoderOp.run (.new 2 16) [.base 10, .precision 3]).scale = 1000 := by decide

/-- C01: encode then decode: error below one quantum, toward zero, same sign; all for a value whose scaled size fits
the ring. -/
theorem C01_encode_decode_error (base precision : Nat) (hb : 1 ≤ base) (hs : base ^ precision < 2 ^ 63)
    (v : ℚ) (hfit : |v * (base ^ precision : Nat)| < 2 ^ 63) :
    ∃ d : ℚ, (FixedPointEncoder.new base precision).decode
        (.long ((FixedPointEncoder.new base precision).encode (.float v))) = .ok d ∧
      |v - d| < 1 / (base ^ precision : Nat) ∧ |d| ≤ |v| ∧ 0 ≤ v * d ∧
      (∀ k : Int, v = k / (base ^ precision : Nat) → d = v) := by
  have hs0 : 0 < base ^ precision := Nat.pow_pos hb
  obtain ⟨h1, h2, h3⟩ := truncRat_bounds (v * (base ^ precision : Nat))
  have habs : |(truncRat (v * (base ^ precision : Nat)) : ℚ)| < 2 ^ 63 := lt_of_le_of_lt h1 hfit
  have hlt : |truncRat (v * (base ^ precision : Nat))| < 2 ^ 63 := by exact_mod_cast habs
  rw [abs_lt] at hlt
  have henc : ((FixedPointEncoder.new base precision).encode (.float v)).toInt
      = truncRat (v * (base ^ precision : Nat)) := by
    unfold FixedPointEncoder.encode encodeInt
    exact toInt_ofInt64 hlt.1.le hlt.2
  have hsQ : (0 : ℚ) < (base ^ precision : Nat) := by exact_mod_cast hs0
  have hdec : (FixedPointEncoder.new base precision).decode
        (.long ((FixedPointEncoder.new base precision).encode (.float v)))
      = .ok ((truncRat (v * (base ^ precision : Nat)) : ℚ) / (base ^ precision : Nat)) := by
    unfold FixedPointEncoder.decode
    by_cases hp : precision = 0
    · simp only [FixedPointEncoder.new, hp] at henc ⊢
      simp only [henc]; simp
    · have h6 := decodeCore_eq (FixedPointEncoder.new base precision)
        ((FixedPointEncoder.new base precision).encode (.float v)) hs0 hs
        (Or.inr (by rw [henc]; omega))
      simp only [h6, henc]
      simp [FixedPointEncoder.new, hp]
  refine ⟨_, hdec, ?_, ?_, ?_, ?_⟩
  · have : v - (truncRat (v * (base ^ precision : Nat)) : ℚ) / (base ^ precision : Nat)
        = (v * (base ^ precision : Nat) - truncRat (v * (base ^ precision : Nat))) / (base ^ precision : Nat) := by
      field_simp
    rw [this, abs_div, abs_of_pos hsQ]
    exact (div_lt_div_iff_of_pos_right hsQ).mpr h2
  · rw [abs_div, abs_of_pos hsQ, div_le_iff₀ hsQ]
    rwa [abs_mul, abs_of_pos hsQ] at h1
  · have : v * ((truncRat (v * (base ^ precision : Nat)) : ℚ) / (base ^ precision : Nat))
        = (v * (base ^ precision : Nat) * truncRat (v * (base ^ precision : Nat))) /
          ((base ^ precision : Nat) * (base ^ precision : Nat)) := by
      field_simp
    rw [this]
    positivity
  · intro k hk
    have : v * (base ^ precision : Nat) = (k : ℚ) := by rw [hk]; field_simp
    rw [this, truncRat_intCast, hk]

example : |(-1.3 : ℚ) * (2 ^ 16 : Nat)| < 2 ^ 63 := by norm_num [abs_lt]

/-- C01: encoding is odd. -/
theorem C01_encode_odd (e : FixedPointEncoder) (v : ℚ) :
    e.encode (.float (-v)) = -e.encode (.float v) := by
  unfold FixedPointEncoder.encode encodeInt
  simp only [neg_mul, truncRat_neg, BitVec.ofInt_neg]

/-- C01: encoding is monotone on values that fit the ring. -/
theorem C01_encode_monotone (e : FixedPointEncoder) (v w : ℚ) (hvw : v ≤ w)
    (hv : |v * e.scale| < 2 ^ 63) (hw : |w * e.scale| < 2 ^ 63) :
    (e.encode (.float v)).toInt ≤ (e.encode (.float w)).toInt := by
  have fit : ∀ v : ℚ, |v * e.scale| < 2 ^ 63 →
      (e.encode (.float v)).toInt = truncRat (v * e.scale) := by
    intro v hv
    have h := lt_of_le_of_lt (truncRat_bounds (v * e.scale)).1 hv
    have hlt : |truncRat (v * e.scale)| < 2 ^ 63 := by exact_mod_cast h
    rw [abs_lt] at hlt
    exact toInt_ofInt64 hlt.1.le hlt.2
  rw [fit v hv, fit w hw]
  apply truncRat_mono
  have : (0 : ℚ) ≤ e.scale := by positivity
  nlinarith

example : ((FixedPointEncoder.new).encode (.float (-1.3))).toInt = -85196 ∧
    ((FixedPointEncoder.new).encode (.float 1.3)).toInt = 85196 := by decide +kernel

/-- C02: decoding is the exact quotient by the scale, for every int64 value, negative multiples of the scale and
`-2^63` included. -/
theorem C02_decode_exact (base precision : Nat) (hb : 2 ≤ base ∨ precision = 0)
    (hs : base ^ precision < 2 ^ 63) (t : I64) :
    (FixedPointEncoder.new base precision).decode (.long t)
      = .ok ((t.toInt : ℚ) / (base ^ precision : Nat)) := by
  unfold FixedPointEncoder.decode
  by_cases hp : precision = 0
  · simp [FixedPointEncoder.new, hp]
  · have hb2 : 2 ≤ base := by tauto
    have hs0 : 0 < base ^ precision := Nat.pow_pos (by omega)
    have hne : base ^ precision ≠ 1 := by
      have : 1 < base ^ precision := Nat.one_lt_pow hp (by omega)
      omega
    simp only [decodeCore_eq (FixedPointEncoder.new base precision) t hs0 hs (Or.inl hne)]
    simp [FixedPointEncoder.new, hp]

/-- C02: a Python int is decoded like the int64 tensor it is stored in. -/
theorem C02_decode_int (base precision : Nat) (hb : 2 ≤ base ∨ precision = 0)
    (hs : base ^ precision < 2 ^ 63) (z : Int) (h1 : -2 ^ 63 ≤ z) (h2 : z < 2 ^ 63) :
    (FixedPointEncoder.new base precision).decode (.int z)
      = .ok ((z : ℚ) / (base ^ precision : Nat)) := by
  have := C02_decode_exact base precision hb hs (BitVec.ofInt 64 z)
  rw [toInt_ofInt64 h1 h2] at this
  exact this

/-- C02: re-encoding a decoded ring element gives it back. -/
theorem C02_decode_encode (base precision : Nat) (hb : 2 ≤ base ∨ precision = 0)
    (hs : base ^ precision < 2 ^ 63) (t : I64) :
    ∃ d : ℚ, (FixedPointEncoder.new base precision).decode (.long t) = .ok d ∧
      (FixedPointEncoder.new base precision).encode (.float d) = t := by
  refine ⟨_, C02_decode_exact base precision hb hs t, ?_⟩
  have hs0 : 0 < base ^ precision := by
    rcases hb with h | h
    · exact Nat.pow_pos (by omega)
    · simp [h]
  have hsQ : ((base ^ precision : Nat) : ℚ) ≠ 0 := by exact_mod_cast hs0.ne'
  unfold FixedPointEncoder.encode encodeInt
  simp only [FixedPointEncoder.new]
  rw [div_mul_cancel₀ _ hsQ, truncRat_intCast, BitVec.ofInt_toInt]

/-- C02: floats are refused. -/
theorem C02_decode_float (e : FixedPointEncoder) (q : ℚ) : e.decode (.float q) = .error .valueError := rfl

example : (FixedPointEncoder.new 2 16).decode (.long (BitVec.ofInt 64 (-131072))) = .ok (-2) := by
  rw [C02_decode_exact 2 16 (by norm_num) (by norm_num)]
  have : (BitVec.ofInt 64 (-131072)).toInt = -131072 := by decide
  rw [this]; norm_num

/-- Outside C02's quantifier: with base 1 and a positive precision the value `-2^63` decodes to `+2^63`
(the correction overflows). -/
theorem C02_base_one_overflow :
    (FixedPointEncoder.new 1 1).decode (.long (BitVec.ofInt 64 (-2 ^ 63))) = .ok (2 ^ 63) := by
  decide +kernel

end SyMPC
