import Verif.Model.Approx
import Verif.Spec.Exact
import Mathlib.RingTheory.Polynomial.Chebyshev
import Mathlib.Analysis.SpecialFunctions.Log.Deriv
import Mathlib.Analysis.Complex.ExponentialBounds
import Mathlib.Tactic.Ring
import Mathlib.Tactic.Linarith
import Mathlib.Tactic.FieldSimp
import Mathlib.Tactic.Positivity

/-!
# C51, C52, C53: approximations with exact operators
-/

namespace SyMPC

variable {F : Type} [Field F] [LinearOrder F] {n : Nat}

/-! ## powers -/

theorem powLoopS_exact (p : Nat) (r : Num (fun n => Fin n → F) F n) (b : Fin n → F) :
    powLoopS (exactOps F) p r b = .ok (if p = 0 then r else
      .sec fun i => (match r with | .pub c => c | .sec y => y i) * b i ^ p) := by
  induction p using Nat.strongRecOn generalizing r b with
  | ind p ih =>
    unfold powLoopS
    by_cases h : p = 0
    · simp [h, pure_eq_ok]
    · rw [dif_neg h]
      have hlt : p / 2 < p := Nat.div_lt_self (Nat.pos_of_ne_zero h) (by decide)
      by_cases ho : p % 2 = 1
      · have hr : powRound (exactOps F) p r b = .ok (.sec fun i => (match r with | .pub c => c | .sec y => y i) * b i) := by
          unfold powRound
          rw [if_pos ho]
          cases r
          · simp only [Num.mulSec, exactOps, ok_bind, pure_eq_ok]
            refine congrArg Except.ok (congrArg Num.sec (funext fun i => ?_))
            exact mul_comm _ _
          · rfl
        rw [hr, ok_bind]
        change powLoopS (exactOps F) (p / 2) _ (fun i => b i * b i) = _
        rw [ih _ hlt, if_neg h]
        congr 1
        have hp : p = 2 * (p / 2) + 1 := by omega
        split
        · rename_i h0
          congr 1
          funext i
          have : p = 1 := by omega
          rw [this, pow_one]
        · congr 1
          funext i
          conv_rhs => rw [hp]
          rw [pow_succ, pow_mul, ← pow_two]
          ring
      · have hr : powRound (exactOps F) p r b = .ok r := if_neg ho
        rw [hr, ok_bind]
        change powLoopS (exactOps F) (p / 2) _ (fun i => b i * b i) = _
        rw [ih _ hlt, if_neg h, if_neg (by omega)]
        congr 2
        funext i
        have hp : p = 2 * (p / 2) := by omega
        conv_rhs => rw [hp]
        rw [pow_mul, ← pow_two]

theorem powSec_exact (b : Fin n → F) (p : Nat) (hp : p ≠ 0) : powSec (exactOps F) b p = .ok fun i => b i ^ p := by
  unfold powSec powS
  rw [if_neg (by omega), Int.toNat_natCast, powLoopS_exact, if_neg hp, ok_bind]
  simp [pure_eq_ok]

/-! ## C52 -/

/-- The value that `exp` computes. -/
def expValue (k : Nat) (x : F) : F := (1 + x / 2 ^ k) ^ 2 ^ k

/-- C52: `exp` computes `(1 + x / 2^k)^(2^k)`. -/
theorem C52_exp (x : Fin n → F) (k : Nat) [CharZero F] : expS (exactOps F) x k = .ok fun i => expValue k (x i) := by
  unfold expS
  have h2 : (2 : Nat) ^ k ≠ 0 := by positivity
  have : (exactOps F).divP x (2 ^ k) = .ok fun i => x i / 2 ^ k := by
    simp [exactOps]
  rw [this, ok_bind]
  change powSec (exactOps F) (fun i => x i / 2 ^ k + 1) (2 ^ k) = _
  have := powSec_exact (fun i => x i / 2 ^ k + 1) (2 ^ k) h2
  push_cast at this
  rw [this]
  congr 1
  funext i
  unfold expValue
  rw [add_comm]

example : expS (exactOps ℚ) ![1, -2] 3 = .ok ![expValue 3 1, expValue 3 (-2)] := by
  rw [C52_exp]; congr 1; funext i; fin_cases i <;> rfl

/-- the size of the exponential's error, for `1 + y` -/
theorem one_sub_sq_mul_exp_le {y : ℝ} (h1 : -1 ≤ y) : (1 - y ^ 2) * Real.exp y ≤ 1 + y := by
  have h := Real.add_one_le_exp (-y)
  have h' : (1 - y) * Real.exp y ≤ 1 := by
    have := mul_le_mul_of_nonneg_right h (Real.exp_nonneg y)
    rw [← Real.exp_add] at this
    simp at this
    linarith
  nlinarith

/-- C52: with exact operators, `exp` is below the exponential, by a share of at most `x² / 2^k` of it, as long as
`|x| ≤ 2^k`. -/
theorem C52_exp_error (k : Nat) (x : ℝ) (hx : |x| ≤ 2 ^ k) :
    Real.exp x * (1 - x ^ 2 / 2 ^ k) ≤ expValue k x ∧ expValue k x ≤ Real.exp x := by
  have hN : (0 : ℝ) < 2 ^ k := by positivity
  obtain ⟨y, rfl⟩ : ∃ y, x = y * 2 ^ k := ⟨x / 2 ^ k, by field_simp⟩
  have hy : |y| ≤ 1 := by
    rw [abs_mul, abs_of_pos hN] at hx
    by_contra hc
    push Not at hc
    nlinarith
  obtain ⟨h1, h2⟩ := abs_le.mp hy
  have he : Real.exp (y * 2 ^ k) = Real.exp y ^ 2 ^ k := by
    rw [mul_comm, ← Real.exp_nat_mul]; push_cast; rfl
  have hv : expValue k (y * 2 ^ k) = (1 + y) ^ 2 ^ k := by
    unfold expValue; congr 2; field_simp
  rw [hv, he]
  refine ⟨?_, ?_⟩
  · have hb : 1 - (y * 2 ^ k) ^ 2 / 2 ^ k ≤ (1 - y ^ 2) ^ 2 ^ k := by
      have := one_add_mul_le_pow (a := -y ^ 2) (by nlinarith) (2 ^ k)
      push_cast at this
      have e : (y * 2 ^ k) ^ 2 / 2 ^ k = 2 ^ k * y ^ 2 := by field_simp
      rw [e]
      calc 1 - 2 ^ k * y ^ 2 = 1 + 2 ^ k * -y ^ 2 := by ring
        _ ≤ _ := this
        _ = _ := by ring
    calc Real.exp y ^ 2 ^ k * (1 - (y * 2 ^ k) ^ 2 / 2 ^ k) ≤ Real.exp y ^ 2 ^ k * (1 - y ^ 2) ^ 2 ^ k :=
          mul_le_mul_of_nonneg_left hb (by positivity)
      _ = ((1 - y ^ 2) * Real.exp y) ^ 2 ^ k := by rw [mul_pow, mul_comm]
      _ ≤ _ := pow_le_pow_left₀ (mul_nonneg (by nlinarith) (Real.exp_nonneg y)) (one_sub_sq_mul_exp_le h1) _
  · exact pow_le_pow_left₀ (by linarith) (by linarith [Real.add_one_le_exp y]) _

example : Real.exp 1 * (1 - 1 / 256) ≤ expValue 8 (1 : ℝ) := by
  have := (C52_exp_error 8 1 (by norm_num)).1
  norm_num at this ⊢
  exact this

/-! The logarithm -/

/-- The partial sum of the series of `- log (1 - h)` that a step uses. -/
def logSeries (h : F) : F := h + h ^ 2 / 2 + h ^ 3 / 3 + h ^ 4 / 4 + h ^ 5 / 5 + h ^ 6 / 6

/-- One step of the logarithm, with `E` for the exponential. -/
def logNext (E : F → F) (x y : F) : F := y - logSeries (1 - x * E (-y))

variable [IsStrictOrderedRing F]

theorem logStep_exact (x y : Fin n → F) (k : Nat) :
    logStep (exactOps F) x y k = .ok fun i => logNext (expValue k) (x i) (y i) := by
  unfold logStep
  change (expS (exactOps F) (fun i => y i * -1) k >>= _) = _
  rw [C52_exp, ok_bind]
  simp only [logPowers, exactOps, ok_bind, pure_eq_ok, OfNat.ofNat_ne_zero, if_false]
  congr 1
  funext i
  unfold logNext logSeries
  rw [mul_neg_one]
  push_cast
  ring

theorem logLoop_exact (x y : Fin n → F) (k j : Nat) :
    logLoop (exactOps F) x k j y = .ok fun i => (logNext (expValue k) (x i))^[j] (y i) := by
  induction j generalizing y with
  | zero => rfl
  | succ j ih =>
    unfold logLoop
    rw [logStep_exact, ok_bind, ih]
    rfl

/-- the start value of the logarithm -/
def logStart (E : F → F) (x : F) : F := x / 31 + 159 / 100 - 20 * E (-2 * x - 14 / 10)

/-- C52: `log` iterates the Householder step from the given start value. -/
theorem C52_log (x : Fin n → F) (iterations k : Nat) :
    logS (exactOps F) x iterations k
      = .ok fun i => (logNext (expValue k) (x i))^[iterations] (logStart (expValue k) (x i)) := by
  unfold logS
  have h : (exactOps F).divP x 31 = .ok fun i => x i / 31 := by simp [exactOps]
  rw [h, ok_bind]
  change (expS (exactOps F) (fun i => x i * -2 - 14 / 10) k >>= _) = _
  rw [C52_exp, ok_bind]
  change logLoop (exactOps F) x k iterations (fun i => x i / 31 + 159 / 100 - expValue k (x i * -2 - 14 / 10) * 20) = _
  rw [logLoop_exact]
  congr 1
  funext i
  unfold logStart
  rw [mul_comm (x i) (-2), mul_comm _ (20 : F)]

omit [IsStrictOrderedRing F] [LinearOrder F] in
/-- C52: the step stays where it is at a logarithm of `x` (with respect to the exponential used). -/
theorem C52_log_fixed (E : F → F) (x y : F) (h : x * E (-y) = 1) : logNext E x y = y := by
  simp [logNext, logSeries, h]

example : logNext (expValue 1) (4 : ℚ) 1 = 1 := C52_log_fixed _ _ _ (by norm_num [expValue])

/-- C52: one step brings any `y` whose exponential is within 100% of `x` close to the logarithm of `x`: the remaining error is of
order 7 in `h = 1 - x·E(-y)`, plus the error of the exponential. -/
theorem C52_log_step (k : Nat) (x y : ℝ) (hy : |y| ≤ 2 ^ k / 2) (hh : |1 - x * expValue k (-y)| < 1) :
    |logNext (expValue k) x y - Real.log x|
      ≤ |1 - x * expValue k (-y)| ^ 7 / (1 - |1 - x * expValue k (-y)|) + 4 / 3 * (y ^ 2 / 2 ^ k) := by
  have hN : (0 : ℝ) < 2 ^ k := by positivity
  set h := 1 - x * expValue k (-y) with hdef
  obtain ⟨z, rfl⟩ : ∃ z, y = z * 2 ^ k := ⟨y / 2 ^ k, by field_simp⟩
  have hz : |z| ≤ 1 / 2 := by
    rw [abs_mul, abs_of_pos hN] at hy
    by_contra hc
    push Not at hc
    nlinarith
  obtain ⟨z1, z2⟩ := abs_le.mp hz
  have hv : expValue k (-(z * 2 ^ k)) = (1 - z) ^ 2 ^ k := by
    unfold expValue; congr 1; field_simp; ring
  have hE : 0 < expValue k (-(z * 2 ^ k)) := by rw [hv]; exact pow_pos (by linarith) _
  have hx : 0 < x := by
    have h1 : h < 1 := (abs_lt.mp hh).2
    by_contra hc
    push Not at hc
    nlinarith
  have hser := Real.abs_log_sub_add_sum_range_le hh 6
  have hs : (∑ i ∈ Finset.range 6, h ^ (i + 1) / (i + 1 : ℝ)) = logSeries h := by
    simp [Finset.sum_range_succ, logSeries]
    norm_num
  rw [hs] at hser
  have hl : Real.log (1 - h) = Real.log x + 2 ^ k * Real.log (1 - z) := by
    rw [hdef, sub_sub_cancel, Real.log_mul hx.ne' hE.ne', hv, Real.log_pow]
    push_cast
    rfl
  have hup : Real.log (1 - z) ≤ -z := by
    have := Real.log_le_sub_one_of_pos (show (0 : ℝ) < 1 - z by linarith)
    linarith
  have hlo : -z - 4 / 3 * z ^ 2 ≤ Real.log (1 - z) := by
    have h1 := one_sub_sq_mul_exp_le (y := -z) (by linarith)
    have hpos : (0 : ℝ) < 1 - z ^ 2 := by nlinarith
    have h2 : Real.log ((1 - z ^ 2) * Real.exp (-z)) ≤ Real.log (1 - z) := by
      apply Real.log_le_log (mul_pos hpos (Real.exp_pos _))
      have : (-z) ^ 2 = z ^ 2 := by ring
      rw [this] at h1
      linarith
    rw [Real.log_mul hpos.ne' (Real.exp_pos _).ne', Real.log_exp] at h2
    have h3 := Real.one_sub_inv_le_log_of_pos hpos
    have h4 : 1 - 4 / 3 * z ^ 2 ≥ 1 - 4 / 3 * z ^ 2 := le_refl _
    have h5 : (1 - z ^ 2)⁻¹ ≤ 1 + 4 / 3 * z ^ 2 := by
      rw [inv_le_comm₀ hpos (by nlinarith), inv_eq_one_div, div_le_iff₀ (by nlinarith)]
      nlinarith [sq_nonneg z, mul_nonneg (sq_nonneg z) (show (0:ℝ) ≤ 1 / 4 - z ^ 2 by nlinarith)]
    linarith
  have key : logNext (expValue k) x (z * 2 ^ k) - Real.log x
      = -(logSeries h + Real.log (1 - h)) + (2 ^ k * (Real.log (1 - z) + z)) := by
    rw [hl]
    unfold logNext
    rw [← hdef]
    ring
  have hsq : (z * 2 ^ k) ^ 2 / 2 ^ k = 2 ^ k * z ^ 2 := by field_simp
  rw [key, hsq]
  refine (abs_add_le _ _).trans (add_le_add ?_ ?_)
  · rw [abs_neg]
    exact hser
  · rw [abs_mul, abs_of_pos hN]
    have : |Real.log (1 - z) + z| ≤ 4 / 3 * z ^ 2 := by
      rw [abs_le]; constructor <;> nlinarith [sq_nonneg z]
    nlinarith

example : |1 - (2 : ℝ) * expValue 8 (-1 / 2)| < 1 := by
  rw [abs_lt]; constructor <;> norm_num [expValue]

/-! ## C51 -/

/-- sign of a number, as a specification -/
def sgn (a : F) : F := if a > 0 then 1 else if a < 0 then -1 else 0

omit [IsStrictOrderedRing F] in
theorem signS_exact (x : Fin n → F) : signS (exactOps F) x = .ok fun i => sgn (x i) := by
  change Except.ok (fun i => (if x i > 0 then (1 : F) else 0) + (if x i < 0 then (1 : F) else 0) * -1) = _
  congr 1
  funext i
  unfold sgn
  rcases lt_trichotomy (x i) 0 with h | h | h
  · simp [h, h.not_gt]
  · simp [h]
  · simp [h, h.not_gt]

theorem sgn_mul_self (a : F) : sgn a * a = |a| := by
  unfold sgn
  rcases lt_trichotomy a 0 with h | h | h
  · simp [h, h.not_gt, abs_of_neg h]
  · simp [h]
  · simp [h, abs_of_pos h]

theorem sgn_neg (a : F) : sgn (-a) = -sgn a := by
  unfold sgn
  rcases lt_trichotomy a 0 with h | h | h
  · simp [h, h.not_gt]
  · simp [h]
  · simp [h, h.not_gt]

omit [IsStrictOrderedRing F] in
theorem sgn_zero : sgn (0 : F) = 0 := by simp [sgn]

theorem modulusS_exact (x : Fin n → F) : modulusS (exactOps F) x = .ok fun i => |x i| := by
  unfold modulusS
  rw [signS_exact, ok_bind]
  change Except.ok (fun i => sgn (x i) * x i) = _
  simp only [sgn_mul_self]

/-- The Newton iteration for the reciprocal of `a`. -/
def newtonNext (a r : F) : F := 2 * r - r * r * a

omit [IsStrictOrderedRing F] in
theorem newtonLoop_exact (a : Fin n → F) (k : Nat) (r : Fin n → F) :
    newtonLoop (exactOps F) a k r = .ok fun i => (newtonNext (a i))^[k] (r i) := by
  induction k generalizing r with
  | zero => rfl
  | succ k ih =>
    unfold newtonLoop
    change newtonLoop (exactOps F) a k (fun i => r i * 2 - r i * r i * a i) = _
    rw [ih]
    congr 1
    funext i
    rw [Function.iterate_succ_apply]
    unfold newtonNext
    rw [mul_comm (2 : F)]

omit [IsStrictOrderedRing F] [LinearOrder F] in
/-- every step squares the relative error -/
theorem newton_error (a r : F) (k : Nat) : 1 - a * (newtonNext a)^[k] r = (1 - a * r) ^ 2 ^ k := by
  induction k generalizing r with
  | zero => simp
  | succ k ih =>
    rw [Function.iterate_succ_apply, ih, pow_succ', pow_mul]
    congr 1
    unfold newtonNext
    ring

omit [IsStrictOrderedRing F] in
/-- C51: after `k` steps of the loop, the error `1 - a r` has become its `2^k`-th power. -/
theorem C51_newton (a r : Fin n → F) (k : Nat) :
    ∃ r', newtonLoop (exactOps F) a k r = .ok r' ∧ ∀ i, 1 - a i * r' i = (1 - a i * r i) ^ 2 ^ k :=
  ⟨_, newtonLoop_exact a k r, fun i => newton_error (a i) (r i) k⟩

/-- C51: for `0 < a r < 2`, the error after `k` steps is below 1 and does not grow. -/
theorem C51_newton_converges (a r : F) (h0 : 0 < a * r) (h2 : a * r < 2) (k : Nat) :
    |1 - a * (newtonNext a)^[k] r| ≤ |1 - a * r| ^ 2 ^ k ∧ |1 - a * r| < 1 := by
  rw [newton_error, abs_pow]
  exact ⟨le_refl _, abs_lt.mpr ⟨by linarith, by linarith⟩⟩

example : (0 : ℚ) < 3 * (1 / 2) ∧ (3 : ℚ) * (1 / 2) < 2 := by norm_num

/-- the start value of the Newton iteration -/
def newtonStart (a : F) : F := 3 * expValue 8 (1 / 2 - a) + 3 / 1000

theorem reciprocal_nr_exact (x : Fin n → F) (k : Nat) :
    reciprocalS (exactOps F) x .nr k = .ok fun i => (newtonNext |x i|)^[k] (newtonStart |x i|) * sgn (x i) := by
  unfold reciprocalS
  dsimp only
  rw [modulusS_exact, ok_bind]
  change (expS (exactOps F) (fun i => 1 / 2 - |x i|) 8 >>= _) = _
  rw [C52_exp, ok_bind]
  change (newtonLoop (exactOps F) (fun i => |x i|) k (fun i => expValue 8 (1 / 2 - |x i|) * 3 + 3 / 1000) >>= _) = _
  rw [newtonLoop_exact, ok_bind, signS_exact, ok_bind]
  change Except.ok _ = _
  congr 1
  funext i
  unfold newtonStart
  rw [mul_comm (3 : F)]

/-- C51: with exact operators, the error of `reciprocal` is a power of the error of its start value; the reciprocal of 0 is 0;
other methods than the known ones are refused. -/
theorem C51_reciprocal (x : Fin n → F) (k : Nat) :
    ∃ r, reciprocalS (exactOps F) x .nr k = .ok r ∧
      (∀ i, x i ≠ 0 → 1 - x i * r i = (1 - |x i| * newtonStart |x i|) ^ 2 ^ k) ∧ (∀ i, x i = 0 → r i = 0) ∧
      reciprocalS (exactOps F) x .other k = .error .valueError := by
  refine ⟨_, reciprocal_nr_exact x k, fun i h => ?_, fun i h => by simp [h, sgn_zero], rfl⟩
  rw [← newton_error]
  congr 1
  rw [← sgn_mul_self]
  ring

/-- how good the start value of the Newton iteration is -/
theorem newtonStart_bounds (a : ℝ) (h1 : 1 / 100 ≤ a) (h2 : a ≤ 500) : |1 - a * newtonStart a| ≤ 1 - 18 / 1000 := by
  have hE0 : 0 ≤ expValue 8 (1 / 2 - a) := by
    unfold expValue
    exact Even.pow_nonneg ⟨128, by norm_num⟩ _
  have mono : ∀ b : ℝ, a ≤ b → b ≤ 256 → expValue 8 (1 / 2 - b) ≤ expValue 8 (1 / 2 - a) := by
    intro b hb hb'
    unfold expValue
    refine pow_le_pow_left₀ ?_ ?_ _ <;> norm_num <;> linarith
  unfold newtonStart
  rw [abs_le]
  constructor
  · -- a * start ≤ 2 - 18/1000
    by_cases ha : a ≤ 256
    · have hexp : expValue 8 (1 / 2 - a) ≤ Real.exp (1 / 2 - a) := by
        refine (C52_exp_error 8 (1 / 2 - a) ?_).2
        rw [abs_le]; constructor <;> norm_num <;> linarith
      by_cases hb : a ≤ 50
      · -- a e^{1/2-a} ≤ e^{-1/2}
        have h := Real.add_one_le_exp (a - 1)
        have h3 : a * Real.exp (1 / 2 - a) ≤ Real.exp (-(1 / 2)) := by
          have : Real.exp (-(1 / 2)) = Real.exp (a - 1) * Real.exp (1 / 2 - a) := by
            rw [← Real.exp_add]; congr 1; ring
          rw [this]
          exact mul_le_mul_of_nonneg_right (by linarith) (Real.exp_nonneg _)
        have h4 : Real.exp (-(1 / 2)) ≤ 607 / 1000 := by
          have h5 : Real.exp (-(1 / 2)) * Real.exp (-(1 / 2)) = Real.exp (-1) := by
            rw [← Real.exp_add]; norm_num
          have h6 := Real.exp_neg_one_lt_d9
          have h7 := Real.exp_nonneg (-(1 / 2) : ℝ)
          by_contra hc
          push Not at hc
          nlinarith
        nlinarith
      · push Not at hb
        have h3 : Real.exp (1 / 2 - a) ≤ 1 / 1200 := by
          have h8 : (1 / 2 - a) ≤ -(49 : ℕ) * 1 := by push_cast; linarith
          have h9 : Real.exp (1 / 2 - a) ≤ Real.exp (-(49 : ℕ) * 1) := Real.exp_le_exp.mpr h8
          have h10 : Real.exp (-(49 : ℕ) * 1) = Real.exp (-1) ^ 49 := by
            rw [← Real.exp_nat_mul]; push_cast; norm_num
          rw [h10] at h9
          have h11 : Real.exp (-1) ≤ 1 / 2 := by linarith [Real.exp_neg_one_lt_d9]
          have h12 := pow_le_pow_left₀ (Real.exp_nonneg (-1)) h11 49
          have h13 : ((1 : ℝ) / 2) ^ 49 ≤ 1 / 1200 := by norm_num
          linarith
        have : a * expValue 8 (1 / 2 - a) ≤ 256 * (1 / 1200) := by
          apply mul_le_mul ha (by linarith) hE0 (by norm_num)
        nlinarith
    · push Not at ha
      have hE : expValue 8 (1 / 2 - a) ≤ (952 / 1000) ^ 256 := by
        unfold expValue
        have e : ∀ t : ℝ, t ^ 2 ^ 8 = |t| ^ 256 := by
          intro t
          rw [Even.pow_abs ⟨128, by norm_num⟩]
          norm_num
        rw [e]
        refine pow_le_pow_left₀ (abs_nonneg _) ?_ _
        rw [abs_le]; constructor <;> norm_num <;> linarith
      have : a * expValue 8 (1 / 2 - a) ≤ 500 * (952 / 1000) ^ 256 := by
        apply mul_le_mul h2 hE hE0 (by norm_num)
      have hn : (500 : ℝ) * (952 / 1000) ^ 256 ≤ 1 / 100 := by norm_num
      nlinarith
  · -- a * start ≥ 18/1000
    by_cases h3 : a ≤ 1
    · have h := mono 1 h3 (by norm_num)
      have hv : (6 : ℝ) / 10 ≤ expValue 8 (1 / 2 - 1) := by norm_num [expValue]
      nlinarith
    · push Not at h3
      by_cases h4 : a ≤ 3
      · have h := mono 3 h4 (by norm_num)
        have hv : (1 : ℝ) / 20 ≤ expValue 8 (1 / 2 - 3) := by norm_num [expValue]
        nlinarith
      · push Not at h4
        by_cases h5 : a ≤ 6
        · have h := mono 6 h5 (by norm_num)
          have hv : (1 : ℝ) / 500 ≤ expValue 8 (1 / 2 - 6) := by norm_num [expValue]
          nlinarith
        · push Not at h5
          nlinarith

/-- C51: for `1/100 ≤ |x| ≤ 500`, ten iterations with exact operators give the reciprocal up to a relative error of `10^-8`. -/
theorem C51_reciprocal_accuracy (x : Fin n → ℝ) :
    ∃ r, reciprocalS (exactOps ℝ) x .nr 10 = .ok r ∧ ∀ i, 1 / 100 ≤ |x i| → |x i| ≤ 500 → |1 - x i * r i| ≤ 1 / 10 ^ 8 := by
  obtain ⟨r, hr, he, -, -⟩ := C51_reciprocal x 10
  refine ⟨r, hr, fun i h1 h2 => ?_⟩
  have hx : x i ≠ 0 := by
    intro h
    rw [h, abs_zero] at h1
    norm_num at h1
  rw [he i hx, abs_pow]
  have := pow_le_pow_left₀ (abs_nonneg _) (newtonStart_bounds |x i| h1 h2) (2 ^ 10)
  refine this.trans ?_
  have h4 : ((1 : ℝ) - 18 / 1000) ^ 4 ≤ 93 / 100 := by norm_num
  have h5 := pow_le_pow_left₀ (by norm_num) h4 256
  rw [← pow_mul] at h5
  refine le_trans (le_of_eq ?_) (h5.trans ?_)
  · norm_num
  · norm_num

/-- C51: division by a secret is the product with the reciprocal: the relative error is at most `10^-8` for divisors between
`1/100` and 500 in absolute value, a divisor 0 gives 0 without an exception, and more than two parties are refused. -/
theorem C51_truediv (parties : Nat) (x y : Fin n → ℝ) :
    (2 < parties → truedivS (exactOps ℝ) parties x y = .error .valueError) ∧
    (parties ≤ 2 → ∃ q, truedivS (exactOps ℝ) parties x y = .ok q ∧
      (∀ i, 1 / 100 ≤ |y i| → |y i| ≤ 500 → |q i - x i / y i| ≤ |x i / y i| / 10 ^ 8) ∧ ∀ i, y i = 0 → q i = 0) := by
  refine ⟨fun h => by unfold truedivS; rw [if_pos h]; rfl, fun h => ?_⟩
  obtain ⟨r, hr, -, h0, -⟩ := C51_reciprocal y 10
  obtain ⟨r', hr', hacc⟩ := C51_reciprocal_accuracy y
  obtain rfl : r = r' := Except.ok.inj (hr.symm.trans hr')
  refine ⟨fun i => x i * r i, ?_, fun i h1 h2 => ?_, fun i hi => by simp [h0 i hi]⟩
  · unfold truedivS
    rw [if_neg (by omega), hr, ok_bind]
    rfl
  · have hy : y i ≠ 0 := by
      intro hc
      rw [hc, abs_zero] at h1
      norm_num at h1
    have e : x i * r i - x i / y i = -(x i / y i * (1 - y i * r i)) := by
      field_simp
      ring
    rw [e, abs_neg, abs_mul, div_eq_mul_one_div _ ((10 : ℝ) ^ 8)]
    exact mul_le_mul_of_nonneg_left (hacc i h1 h2) (abs_nonneg _)

example : ∃ q, truedivS (exactOps ℝ) 2 (fun _ : Fin 1 => 6) (fun _ => 4) = .ok q ∧ |q 0 - 3 / 2| ≤ 3 / 2 / 10 ^ 8 := by
  obtain ⟨q, hq, h, -⟩ := (C51_truediv 2 (fun _ : Fin 1 => 6) (fun _ => 4)).2 (le_refl _)
  have h' := h 0 (by norm_num) (by norm_num)
  refine ⟨q, hq, ?_⟩
  have e : (6 : ℝ) / 4 = 3 / 2 := by norm_num
  rw [e, abs_of_pos (show (0 : ℝ) < 3 / 2 by norm_num)] at h'
  exact h'

end SyMPC
