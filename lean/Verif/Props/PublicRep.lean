import Verif.Props.Falcon

/-!
# Public numbers in the rings of replicated shares (C13, C15)

Which element of the prime ring and of the bit ring a public number stands for in `x + v`, `x - v`, `x * v`
(`replicatedshare_tensor.py:287-296`).
-/

namespace SyMPC

open FixedPointEncoder (Val)
open MPCTensor

/-- the integer a public number stands for: the greatest one that is not above it -/
def Val.below : Val → Int
  | .float q => ⌊q⌋
  | .int z => z
  | .long t => t.toInt

/-- the element of the prime ring is the remainder of that integer -/
theorem encPrime_toNat (v : Val) : ((RST.encPrime v).toNat : Int) = Val.below v % 67 := by
  have key : ∀ z : Int, ((BitVec.ofInt 8 (z % 67)).toNat : Int) = z % 67 := by
    intro z
    have h1 := Int.emod_nonneg z (by norm_num : (67 : Int) ≠ 0)
    have h2 := Int.emod_lt_of_pos z (by norm_num : (0 : Int) < 67)
    rw [BitVec.toNat_ofInt]
    omega
  cases v with
  | int z => exact key z
  | long t => exact key t.toInt
  | float q =>
    have h0 : 0 ≤ q - 67 * (⌊q / 67⌋ : ℚ) := by
      have := Int.floor_le (q / 67)
      linarith
    have h1 : q - 67 * (⌊q / 67⌋ : ℚ) < 67 := by
      have := Int.lt_floor_add_one (q / 67)
      linarith
    have h2 : FixedPointEncoder.truncRat (q - 67 * ((q / 67).floor : ℚ)) = ⌊q⌋ % 67 := by
      have e : (q / 67).floor = ⌊q / 67⌋ := rfl
      rw [e, truncRat_nonneg h0]
      have e2 : q - 67 * (⌊q / 67⌋ : ℚ) = q - ((67 * ⌊q / 67⌋ : Int) : ℚ) := by push_cast; ring
      have e3 : ⌊q - 67 * (⌊q / 67⌋ : ℚ)⌋ = ⌊q⌋ - 67 * ⌊q / 67⌋ := by rw [e2, Int.floor_sub_intCast]
      have h3 : 0 ≤ ⌊q - 67 * (⌊q / 67⌋ : ℚ)⌋ := Int.floor_nonneg.mpr h0
      have h4 : ⌊q - 67 * (⌊q / 67⌋ : ℚ)⌋ < 67 := Int.floor_lt.mpr (by exact_mod_cast h1)
      rw [e3] at h3 h4 ⊢
      omega
    show ((BitVec.ofInt 8 (FixedPointEncoder.truncRat (q - 67 * ((q / 67).floor : ℚ)))).toNat : Int) = ⌊q⌋ % 67
    rw [h2]
    exact key _

theorem encPrime_pub (v : Val) : PubIs primeSem primeKit.size (fun _ => RST.encPrime v) ((Val.below v : Int) : ZMod 67) := by
  intro c _
  have h := encPrime_toNat v
  have h2 := Int.emod_lt_of_pos (Val.below v) (by norm_num : (0 : Int) < 67)
  refine ⟨show (RST.encPrime v).toNat < 67 by omega, ?_⟩
  show ((RST.encPrime v).toNat : ZMod 67) = _
  have : (((RST.encPrime v).toNat : Int) : ZMod 67) = ((Val.below v % 67 : Int) : ZMod 67) := by rw [h]
  have h3 : ((Val.below v % 67 : Int) : ZMod 67) = (Val.below v : Int) := ZMod.intCast_mod _ 67
  rw [h3] at this
  exact_mod_cast this

/-- **C13**, **C15** in the prime ring: `x + v`, `x - v` and `x * v` for a public number `v`, integer or not, open to what the integer
below `v` gives modulo 67. -/
theorem C13_prime_public_numbers {env : Env} {s : Session} (hs : s.Three env) {x : RMPC (BitVec 8)} {a : ZMod 67}
    (hx : x.Plain primeSem s 67 a) (v : Val) (r : BitVec 8) (hr : r.toNat < 67) :
    (∃ z e, RMPC.linPublic primeKit env .add x v = .ok z ∧ z.reconstruct primeOps = .ok e ∧ e.toNat < 67 ∧
      (e.toNat : ZMod 67) = a + (Val.below v : Int)) ∧
    (∃ z e, RMPC.linPublic primeKit env .sub x v = .ok z ∧ z.reconstruct primeOps = .ok e ∧ e.toNat < 67 ∧
      (e.toNat : ZMod 67) = a - (Val.below v : Int)) ∧
    (∃ z e, RMPC.mulPublic primeKit x v r = .ok z ∧ z.reconstruct primeOps = .ok e ∧ e.toNat < 67 ∧
      (e.toNat : ZMod 67) = a * (Val.below v : Int)) := by
  have hlin : ∀ op : LinOp, ∃ z e, RMPC.linPublic primeKit env op x v = .ok z ∧ z.reconstruct primeOps = .ok e ∧ e.toNat < 67 ∧
      (e.toNat : ZMod 67) = LinOp.den op a (Val.below v : Int) := by
    intro op
    obtain ⟨z, h1, h2⟩ := plain_linEnc (env := env) hs op hx (encPrime_pub v)
    obtain ⟨e, h3, h4, h5⟩ := plain_reconstruct hs h2
    exact ⟨z, e, h1, h3, h4, h5⟩
  refine ⟨hlin .add, hlin .sub, ?_⟩
  obtain ⟨z, h1, h2⟩ := plain_mulEnc (env := env) hs primeKitSem hx (encPrime_pub v) r hr
  obtain ⟨e, h3, h4, h5⟩ := plain_reconstruct hs h2
  exact ⟨z, e, h1, h3, h4, h5⟩

/-- 60 + (-3.5) is 56 in the prime ring: the integer below -3.5 is -4 -/
example : ((RMPC.linPublic primeKit exREnv .add (exRep 67 { encoderBase := 1, encoderPrecision := 0 } 60 0 0) (.float (-7 / 2))).toOption.map
    fun z => (z.reconstruct primeOps).toOption) = some (some 56) := by decide +kernel
example : Val.below (.float (-7 / 2)) = -4 := by
  show ⌊(-7 / 2 : ℚ)⌋ = -4
  norm_num

/-- the number itself -/
def Val.number : Val → ℚ
  | .float q => q
  | .int z => z
  | .long t => t.toInt

/-- a public number in the bit ring counts as a one unless it lies strictly between -1 and 1 -/
theorem encBin_iff (v : Val) : RST.encBin v = true ↔ 1 ≤ |Val.number v| := by
  have hint : ∀ z : Int, z ≠ 0 ↔ 1 ≤ |(z : ℚ)| := by
    intro z
    rw [← Int.cast_abs]
    constructor
    · intro h
      exact_mod_cast Int.one_le_abs h
    · rintro h rfl
      norm_num at h
  cases v with
  | float q =>
    show decide (FixedPointEncoder.truncRat q ≠ 0) = true ↔ 1 ≤ |q|
    rw [decide_eq_true_iff]
    unfold FixedPointEncoder.truncRat
    have hd : (0 : Int) < q.den := by exact_mod_cast q.den_pos
    have e : q = (q.num : ℚ) / (q.den : ℚ) := (Rat.num_div_den q).symm
    have hd' : (0 : ℚ) < (q.den : ℚ) := by exact_mod_cast q.den_pos
    have : (1 ≤ |q|) ↔ (q.den : Int) ≤ |q.num| := by
      conv_lhs => rw [e]
      rw [abs_div, abs_of_pos hd', le_div_iff₀ hd', one_mul]
      exact_mod_cast Iff.rfl
    rw [this]
    constructor
    · intro h
      by_contra hlt
      apply h
      rcases abs_cases q.num with ⟨h1, h2⟩ | ⟨h1, h2⟩
      · exact Int.tdiv_eq_zero_of_lt h2 (by omega)
      · have : Int.tdiv (-q.num) q.den = 0 := Int.tdiv_eq_zero_of_lt (by omega) (by omega)
        rw [Int.neg_tdiv] at this
        omega
    · intro h h0
      have := Int.mul_tdiv_add_tmod q.num q.den
      rw [h0] at this
      have h3 := Int.tmod_lt_of_pos q.num hd
      have h4 := Int.tmod_lt_of_pos (-q.num) hd
      rw [Int.neg_tmod] at h4
      rcases abs_cases q.num with ⟨h5, _⟩ | ⟨h5, _⟩ <;> rw [h5] at h <;> simp only [mul_zero, zero_add] at this <;> omega
  | int z =>
    show decide (z ≠ 0) = true ↔ 1 ≤ |(z : ℚ)|
    rw [decide_eq_true_iff]
    exact hint z
  | long t =>
    show decide (t ≠ 0) = true ↔ 1 ≤ |(t.toInt : ℚ)|
    rw [decide_eq_true_iff, ← hint]
    exact not_congr ⟨fun h => by rw [h]; rfl, fun h => BitVec.eq_of_toInt_eq (by simpa using h)⟩

theorem encBin_pub (v : Val) : PubIs binSem binKit.size (fun _ => RST.encBin v) (if RST.encBin v then 1 else 0) := by
  intro c _
  refine ⟨trivial, ?_⟩
  cases h : RST.encBin v <;> simp [binSem, binDen]

/-- **C13**, **C15** in the bit ring: `x + v` and `x - v` for a public number flip the bit unless `v` lies strictly between -1 and 1,
`x * v` keeps the bit or clears it accordingly. -/
theorem C13_bit_public_numbers {env : Env} {s : Session} (hs : s.Three env) {x : RMPC Bool} {a : Bool}
    (hx : x.Plain binSem s 2 (binSem.den a)) (v : Val) (r : Bool) :
    (∀ op, ∃ z, RMPC.linPublic binKit env op x v = .ok z ∧ z.reconstruct binOps = .ok (if 1 ≤ |Val.number v| then !a else a)) ∧
    (∃ z, RMPC.mulPublic binKit x v r = .ok z ∧ z.reconstruct binOps = .ok (if 1 ≤ |Val.number v| then a else false)) := by
  have hb := encBin_iff v
  constructor
  · intro op
    obtain ⟨z, h1, h2⟩ := plain_linEnc (env := env) hs op hx (encBin_pub v)
    obtain ⟨e, h3, h4, h5⟩ := plain_reconstruct hs h2
    refine ⟨z, h1, Eq.trans h3 (congrArg _ ?_)⟩
    apply binSem.inj _ _ trivial trivial
    rw [h5]
    by_cases hq : 1 ≤ |Val.number v|
    · rw [if_pos (hb.mpr hq), if_pos hq]
      cases op <;> cases a <;> decide
    · rw [if_neg (fun h => hq (hb.mp h)), if_neg hq]
      cases op <;> cases a <;> decide
  · obtain ⟨z, h1, h2⟩ := plain_mulEnc (env := env) hs binKitSem hx (encBin_pub v) r trivial
    obtain ⟨e, h3, h4, h5⟩ := plain_reconstruct hs h2
    refine ⟨z, h1, Eq.trans h3 (congrArg _ ?_)⟩
    apply binSem.inj _ _ trivial trivial
    rw [h5]
    by_cases hq : 1 ≤ |Val.number v|
    · rw [if_pos (hb.mpr hq), if_pos hq]
      cases a <;> decide
    · rw [if_neg (fun h => hq (hb.mp h)), if_neg hq]
      cases a <;> decide

/-- **C13** fails in the bit ring for even integers: `x + 2` flips the bit, whereas 2 is zero modulo 2. -/
theorem C13_bit_even_wrong {env : Env} {s : Session} (hs : s.Three env) {x : RMPC Bool} {a : Bool}
    (hx : x.Plain binSem s 2 (binSem.den a)) :
    ∃ z, RMPC.linPublic binKit env .add x (.int 2) = .ok z ∧ z.reconstruct binOps = .ok (!a) ∧
      binSem.den (!a) ≠ binSem.den a + ((2 : Int) : ZMod 2) := by
  obtain ⟨z, h1, h2⟩ := plain_linEnc (env := env) hs .add hx (encBin_pub (.int 2))
  obtain ⟨e, h3, h4, h5⟩ := plain_reconstruct hs h2
  refine ⟨z, h1, ?_, by cases a <;> decide⟩
  rw [h3]
  congr 1
  apply binSem.inj _ _ trivial trivial
  rw [h5]
  cases a <;> decide

example : ((RMPC.linPublic binKit exREnv .sub (exRep 2 { encoderBase := 1, encoderPrecision := 0 } true true true) (.float (-7 / 2))).toOption.map
    fun z => (z.reconstruct binOps).toOption) = some (some false) := by decide +kernel

end SyMPC
