import Verif.Props.Approx

/-!
# C53: activations with exact operators
-/

namespace SyMPC

variable {F : Type} [Field F] [LinearOrder F] [IsStrictOrderedRing F] {n : Nat}

/-! ## hardtanh -/

omit [IsStrictOrderedRing F] in
theorem reluS_exact (x : Fin n → F) : reluS (exactOps F) x = .ok fun i => max (x i) 0 := by
  change Except.ok (fun i => x i * if x i ≥ 0 then (1 : F) else 0) = _
  congr 1
  funext i
  by_cases h : x i ≥ 0
  · rw [if_pos h, mul_one, max_eq_left h]
  · rw [if_neg h, mul_zero, max_eq_right (not_le.mp h).le]

/-- C53: `hardtanh` clamps to the interval. -/
theorem C53_hardtanh (x : Fin n → F) (lo hi : F) (h : lo ≤ hi) :
    hardtanhS (exactOps F) x lo hi = .ok fun i => max lo (min (x i) hi) := by
  unfold hardtanhS
  simp only [exact_subP, exact_sub, exact_addP, reluS_exact, ok_bind]
  congr 1
  funext i
  rcases le_total (x i) lo with h1 | h1
  · rw [max_eq_right (by linarith), max_eq_right (by linarith), min_eq_left (h1.trans h), max_eq_left h1]
    ring
  · rw [max_eq_left (by linarith)]
    rcases le_total (x i) hi with h2 | h2
    · rw [max_eq_right (by linarith), min_eq_left h2, max_eq_right h1]
      ring
    · rw [max_eq_left (by linarith), min_eq_right h2, max_eq_right h]
      ring

example : hardtanhS (exactOps ℚ) ![-3, 1 / 2, 7] (-1) 1 = .ok ![-1, 1 / 2, 1] := by
  rw [C53_hardtanh _ _ _ (by norm_num)]
  congr 1
  funext i
  fin_cases i <;> norm_num

/-! ## Chebyshev polynomials -/

open Polynomial.Chebyshev in
omit [LinearOrder F] [IsStrictOrderedRing F] in
/-- the recurrence over every second Chebyshev polynomial -/
theorem chebyshev_step (x : F) (k : ℤ) :
    (T F (k + 4)).eval x = (4 * x * x - 2) * (T F (k + 2)).eval x - (T F k).eval x := by
  have h4 : T F (k + 4) = 2 * Polynomial.X * T F (k + 3) - T F (k + 2) := by
    have := T_add_two F (k + 2)
    rwa [add_assoc, add_assoc] at this
  have h3 : T F (k + 3) = 2 * Polynomial.X * T F (k + 2) - T F (k + 1) := by
    have := T_add_two F (k + 1)
    rwa [add_assoc, add_assoc] at this
  have h2 : T F (k + 2) = 2 * Polynomial.X * T F (k + 1) - T F k := T_add_two F k
  have e4 := congrArg (Polynomial.eval x) h4
  have e3 := congrArg (Polynomial.eval x) h3
  have e2 := congrArg (Polynomial.eval x) h2
  simp only [Polynomial.eval_sub, Polynomial.eval_mul, Polynomial.eval_ofNat, Polynomial.eval_X] at e4 e3 e2
  have : 2 * x * (T F (k + 1)).eval x = (T F (k + 2)).eval x + (T F k).eval x := by rw [e2]; ring
  rw [e4, e3]
  linear_combination (-2 * x * x * 0 : F) * e2 - 2 * x * 0 * e3 - this

/-- the odd Chebyshev polynomial of degree `2 j + 1` at the entries of a vector -/
noncomputable def oddT (x : Fin n → F) (j : Nat) : Fin n → F :=
  fun i => (Polynomial.Chebyshev.T F ((2 * j + 1 : Nat) : ℤ)).eval (x i)

omit [IsStrictOrderedRing F] in
theorem chebyshevLoop_exact (x : Fin n → F) (k j : Nat) :
    chebyshevLoop (exactOps F) (fun i => 4 * x i * x i - 2) k (oddT x j) (oddT x (j + 1))
      = .ok ((List.range k).map fun t => oddT x (j + 2 + t)) := by
  induction k generalizing j with
  | zero => rfl
  | succ k ih =>
    unfold chebyshevLoop
    have hs : (fun i => (4 * x i * x i - 2) * oddT x (j + 1) i - oddT x j i) = oddT x (j + 2) := by
      funext i
      have := chebyshev_step (x i) ((2 * j + 1 : Nat) : ℤ)
      unfold oddT
      have e4 : (((2 * j + 1 : Nat) : ℤ) + 4) = ((2 * (j + 2) + 1 : Nat) : ℤ) := by push_cast; ring
      have e2 : (((2 * j + 1 : Nat) : ℤ) + 2) = ((2 * (j + 1) + 1 : Nat) : ℤ) := by push_cast; ring
      rw [e4, e2] at this
      exact this.symm
    change (chebyshevLoop (exactOps F) _ k (oddT x (j + 1))
      (fun i => (4 * x i * x i - 2) * oddT x (j + 1) i - oddT x j i) >>= _) = _
    rw [hs, ih, ok_bind, pure_eq_ok, List.range_succ_eq_map, List.map_cons, List.map_map]
    congr 2
    refine List.map_congr_left fun t _ => ?_
    congr 1
    omega

omit [IsStrictOrderedRing F] in
/-- C53: for even `terms` of at least 6, `_chebyshev_polynomials` returns the Chebyshev polynomials of the first kind of degrees
1, 3, ..., `terms - 1`; it raises a `ValueError` for other numbers. -/
theorem C53_chebyshev (x : Fin n → F) (terms : Nat) :
    chebyshevPolynomials (exactOps F) x terms =
      if terms % 2 = 0 ∧ 6 ≤ terms then .ok ((List.range (terms / 2)).map fun j => oddT x j) else .error .valueError := by
  unfold chebyshevPolynomials
  by_cases h : terms % 2 ≠ 0 ∨ terms < 6
  · rw [if_pos h, if_neg (by omega)]
    rfl
  · rw [if_neg h, if_pos (by omega)]
    have h0 : oddT x 0 = x := by
      funext i
      simp [oddT]
    have h1 : oddT x 1 = fun i => (4 * x i * x i - 2 - 1) * x i := by
      funext i
      have e3 := Polynomial.Chebyshev.T_add_two F 1
      have e2 := Polynomial.Chebyshev.T_add_two F 0
      norm_num at e3 e2
      unfold oddT
      norm_num [e3, e2]
      ring
    have hl := chebyshevLoop_exact x (terms / 2 - 2) 0
    rw [h0] at hl
    have h4 : (fun i => 4 * x i * x i - 2) = fun i => x i * 4 * x i - 2 := by funext i; rw [mul_comm 4]
    change (chebyshevLoop (exactOps F) (fun i => x i * 4 * x i - 2) (terms / 2 - 2) x
      (fun i => (x i * 4 * x i - 2 - 1) * x i) >>= _) = _
    have h1' : (fun i => (x i * 4 * x i - 2 - 1) * x i) = oddT x (0 + 1) := by
      rw [zero_add, h1]
      funext i
      rw [mul_comm (x i) 4]
    rw [h1', ← h4, hl, ok_bind, pure_eq_ok]
    congr 1
    obtain ⟨k, hk⟩ : ∃ k, terms / 2 = k + 2 := ⟨terms / 2 - 2, by omega⟩
    rw [hk, List.range_succ_eq_map, List.range_succ_eq_map]
    simp only [List.map_cons, List.map_map, h0, zero_add, Nat.add_sub_cancel]
    congr 2
    refine List.map_congr_left fun t _ => ?_
    congr 1
    simp only [Function.comp]
    omega

example : ∀ x : Fin 1 → ℚ, (chebyshevPolynomials (exactOps ℚ) x 10).toOption.map List.length = some 5 := by
  intro x
  rw [C53_chebyshev]
  simp [Except.toOption]

/-! ## sigmoid, tanh -/

/-- the reciprocal that `sigmoid` computes -/
def recipValue (k : Nat) (x : F) : F := (newtonNext |x|)^[k] (newtonStart |x|) * sgn x

/-- what `sigmoid` computes for `|x| = a`, before the sign is put back -/
def sigmoidHalf (a : F) : F := recipValue 10 (1 + expValue 8 (-a))

theorem sigmoidExp_exact (x : Fin n → F) :
    sigmoidExp (exactOps F) x = .ok fun i => (sigmoidHalf |x i| - 1 / 2) * sgn (x i) + 1 / 2 := by
  unfold sigmoidExp
  simp only [signS_exact, exact_mul, exact_mulP, exact_addP, exact_div2, C52_exp, exact_add, reciprocal_nr_exact,
    exact_sub, ok_bind]
  congr 1
  funext i
  have h : (x i * 0 + 1) * -1 * (x i * sgn (x i)) = -|x i| := by rw [← sgn_mul_self]; ring
  rw [h, mul_zero, zero_add]
  rfl

/-- C53: `sigmoid` by exponentials is symmetric: the values at `x` and `-x` add up to 1. -/
theorem C53_sigmoid_exp (x : Fin n → F) :
    ∃ s t, sigmoidExp (exactOps F) x = .ok s ∧ sigmoidExp (exactOps F) (fun i => -x i) = .ok t ∧ ∀ i, s i + t i = 1 := by
  refine ⟨_, _, sigmoidExp_exact x, sigmoidExp_exact _, fun i => ?_⟩
  simp only [abs_neg, sgn_neg]
  ring

/-- C53: `tanh` by `sigmoid` is odd. -/
theorem C53_tanh_odd (x : Fin n → F) :
    ∃ s t, tanhSigmoid (exactOps F) x = .ok s ∧ tanhSigmoid (exactOps F) (fun i => -x i) = .ok t ∧ ∀ i, t i = -s i := by
  have h : ∀ x : Fin n → F, tanhSigmoid (exactOps F) x
      = .ok fun i => ((sigmoidHalf |x i * 2| - 1 / 2) * sgn (x i * 2) + 1 / 2) * 2 - 1 := by
    intro x
    unfold tanhSigmoid
    change (sigmoidExp (exactOps F) (fun i => x i * 2) >>= _) = _
    rw [sigmoidExp_exact]
    rfl
  refine ⟨_, _, h x, h _, fun i => ?_⟩
  simp only [neg_mul, abs_neg, sgn_neg]
  ring

/-- the maclaurin polynomial -/
def maclaurinValue (x : F) : F :=
  1 / 2 + 191204779 / 10 ^ 9 * x - 458667307 / 10 ^ 11 * x ^ 3 + 420690803 / 10 ^ 13 * x ^ 5

omit [IsStrictOrderedRing F] in
theorem maclaurinLoop_exact (x : Fin n → F) (ws : List (Nat × F)) (hw : ∀ p ∈ ws, p.1 ≠ 0) (r : Fin n → F) :
    maclaurinLoop (exactOps F) x ws r = .ok fun i => r i + (ws.map fun p => x i ^ p.1 * p.2).sum := by
  induction ws generalizing r with
  | nil => simp [maclaurinLoop, pure_eq_ok]
  | cons p ws ih =>
    obtain ⟨d, w⟩ := p
    unfold maclaurinLoop
    rw [powSec_exact _ _ (hw (d, w) (by simp)), ok_bind]
    change maclaurinLoop (exactOps F) x ws (fun i => r i + x i ^ d * w) = _
    rw [ih fun p hp => hw p (List.mem_cons_of_mem _ hp)]
    congr 1
    funext i
    simp only [List.map_cons, List.sum_cons]
    ring

/-- C53: `sigmoid` by its Maclaurin polynomial evaluates the polynomial of the text; its values at `x` and `-x` add up to 1. -/
theorem C53_sigmoid_maclaurin (x : Fin n → F) :
    sigmoidMaclaurin (exactOps F) x = .ok (fun i => maclaurinValue (x i)) ∧
      ∀ a : F, maclaurinValue a + maclaurinValue (-a) = 1 := by
  constructor
  · unfold sigmoidMaclaurin
    change maclaurinLoop (exactOps F) x maclaurinWeights (fun i => (x i * 0 + 1) * (1 / 2)) = _
    rw [maclaurinLoop_exact x _ (by simp [maclaurinWeights])]
    congr 1
    funext i
    simp only [maclaurinWeights, maclaurinValue, List.map_cons, List.map_nil, List.sum_cons, List.sum_nil]
    ring
  · intro a
    unfold maclaurinValue
    ring

example : sigmoidMaclaurin (exactOps ℚ) (fun _ : Fin 1 => 0) = .ok (fun _ => 1 / 2) := by
  rw [(C53_sigmoid_maclaurin _).1]
  norm_num [maclaurinValue]

omit [IsStrictOrderedRing F] in
theorem linearCombination_exact (ps : List (Fin n → F)) (cs : List F) (acc : Fin n → F) :
    linearCombination (exactOps F) ps cs (.sec acc)
      = .ok (.sec fun i => acc i + (List.zipWith (fun p c => p i * c) ps cs).sum) := by
  induction ps generalizing cs acc with
  | nil => simp [linearCombination, pure_eq_ok]
  | cons p ps ih =>
    cases cs with
    | nil => simp [linearCombination, pure_eq_ok]
    | cons c cs =>
      unfold linearCombination
      change linearCombination (exactOps F) ps cs (.sec fun i => p i * c + acc i) = _
      rw [ih]
      congr 2
      funext i
      simp only [List.zipWith_cons_cons, List.sum_cons]
      ring

/-- the Chebyshev sum that `tanh` computes before clamping -/
noncomputable def tanhSum (coeffs : List F) (a : F) : F :=
  (List.zipWith (fun (j : Nat) c => (Polynomial.Chebyshev.T F ((2 * j + 1 : Nat) : ℤ)).eval a * c) (List.range 5) coeffs).sum

/-- C53: `tanh` by Chebyshev polynomials is the sum of the odd Chebyshev polynomials with the given coefficients, clamped to
`[-1, 1]`. -/
theorem C53_tanh_chebyshev (coeffs : List F) (hc : coeffs ≠ []) (x : Fin n → F) :
    tanhChebyshev (exactOps F) coeffs x = .ok fun i => max (-1) (min (tanhSum coeffs (x i)) 1) := by
  obtain ⟨c, cs, rfl⟩ := List.exists_cons_of_ne_nil hc
  unfold tanhChebyshev
  rw [C53_chebyshev, if_pos (by decide), ok_bind]
  have h5 : (List.range (10 / 2)).map (fun j => oddT x j) = oddT x 0 :: [oddT x 1, oddT x 2, oddT x 3, oddT x 4] := rfl
  rw [h5]
  unfold linearCombination
  change ((linearCombination (exactOps F) _ cs (.sec fun i => oddT x 0 i * c + 0)) >>= _) = _
  rw [linearCombination_exact, ok_bind]
  dsimp only
  rw [C53_hardtanh _ _ _ (by linarith)]
  congr 1
  funext i
  congr 2
  unfold tanhSum
  have hr : List.range 5 = [0, 1, 2, 3, 4] := rfl
  rw [hr, List.zipWith_cons_cons, List.sum_cons, add_zero]
  congr 1
  have : ∀ (js : List Nat) (cs : List F), List.zipWith (fun (p : Fin n → F) c => p i * c) (js.map (oddT x)) cs
      = List.zipWith (fun (j : Nat) c => (Polynomial.Chebyshev.T F ((2 * j + 1 : Nat) : ℤ)).eval (x i) * c) js cs := by
    intro js cs
    rw [List.zipWith_map_left]
    rfl
  exact congrArg List.sum (this [1, 2, 3, 4] cs)

omit [LinearOrder F] [IsStrictOrderedRing F] in
theorem tanhSum_neg (coeffs : List F) (a : F) : tanhSum coeffs (-a) = -tanhSum coeffs a := by
  unfold tanhSum
  generalize List.range 5 = js
  induction js generalizing coeffs with
  | nil => simp
  | cons j js ih =>
    cases coeffs with
    | nil => simp
    | cons c cs =>
      rw [List.zipWith_cons_cons, List.sum_cons, List.zipWith_cons_cons, List.sum_cons, ih]
      have : (Polynomial.Chebyshev.T F ((2 * j + 1 : Nat) : ℤ)).eval (-a)
          = -(Polynomial.Chebyshev.T F ((2 * j + 1 : Nat) : ℤ)).eval a := by
        rw [Polynomial.Chebyshev.T_eval_neg]
        have : ((2 * j + 1 : Nat) : ℤ).negOnePow = -1 := by
          rw [Int.negOnePow_odd _ ⟨j, by push_cast; ring⟩]
        rw [this]
        simp
      rw [this]
      ring

theorem clamp_neg (v : F) : max (-1) (min (-v) 1) = -max (-1) (min v 1) := by
  rcases le_total v (-1) with h1 | h1
  · rw [min_eq_right (by linarith), min_eq_left (by linarith), max_eq_right (by linarith), max_eq_left h1]; ring
  · rcases le_total v 1 with h2 | h2
    · rw [min_eq_left (by linarith), min_eq_left h2, max_eq_right (by linarith), max_eq_right h1]
    · rw [min_eq_left (by linarith), min_eq_right h2, max_eq_left (by linarith), max_eq_right (by linarith)]

/-- C53: `sigmoid` by Chebyshev polynomials is symmetric. -/
theorem C53_sigmoid_chebyshev (coeffs : List F) (hc : coeffs ≠ []) (x : Fin n → F) :
    ∃ s t, sigmoidChebyshev (exactOps F) coeffs x = .ok s ∧ sigmoidChebyshev (exactOps F) coeffs (fun i => -x i) = .ok t ∧
      ∀ i, s i + t i = 1 := by
  have hd : ∀ y : Fin n → F, (exactOps F).divP y 2 = .ok fun i => y i / 2 := fun y => by simp [exactOps]
  have h : ∀ x : Fin n → F, sigmoidChebyshev (exactOps F) coeffs x
      = .ok fun i => max (-1) (min (tanhSum coeffs (x i / 2)) 1) / 2 + 1 / 2 := by
    intro x
    unfold sigmoidChebyshev
    rw [hd, ok_bind, C53_tanh_chebyshev coeffs hc, ok_bind, hd, ok_bind]
    rfl
  refine ⟨_, _, h x, h _, fun i => ?_⟩
  have hn : -x i / 2 = -(x i / 2) := by ring
  simp only [hn, tanhSum_neg]
  generalize tanhSum coeffs (x i / 2) = v
  rw [clamp_neg]
  ring

/-- the sum in `sigmoid` by its rational Chebyshev variant -/
theorem aliterLoop_exact (w : Fin n → F) (q : Nat) (mus : List Nat) (poly : Fin n → F) :
    aliterLoop (exactOps F) w q mus poly = .ok fun i => poly i + (mus.map fun mu =>
      (factorialPy (mu + q) : F) / ((factorialPy mu * factorialPy q : Nat) : F) * ((1 - w i) / 2) ^ mu).sum := by
  induction mus generalizing poly with
  | nil => simp [aliterLoop, pure_eq_ok]
  | cons mu mus ih =>
    unfold aliterLoop
    simp only [exact_rsubP, exact_div2, ok_bind]
    unfold powS
    rw [if_neg (by omega), Int.toNat_natCast, powLoopS_exact, ok_bind]
    by_cases h : mu = 0
    · rw [if_pos h]
      simp only [Num.mulPub, pure_eq_ok, ok_bind, Num.addTo, exact_addP, ih]
      congr 1
      funext i
      simp only [h, List.map_cons, List.sum_cons, pow_zero]
      ring
    · rw [if_neg h]
      simp only [Num.mulPub, pure_eq_ok, ok_bind, Num.addTo, exact_add, exact_mulP, ih]
      congr 1
      funext i
      simp only [List.map_cons, List.sum_cons]
      ring

/-- the polynomial of the second Chebyshev variant of `sigmoid`, for `|x| / 8 = w`: the odd polynomial of degree 9 that rises from 0 to 1
between -1 and 1 with four derivatives zero at both ends -/
def aliterValue (w : F) : F := 1 / 2 + 315 / 256 * w - 105 / 64 * w ^ 3 + 189 / 128 * w ^ 5 - 45 / 64 * w ^ 7 + 35 / 256 * w ^ 9

theorem aliterValue_sum (w : F) : ((w + 1) / 2) ^ 5 * (((List.range 5).map fun mu =>
    (factorialPy (mu + 4) : F) / ((factorialPy mu * factorialPy 4 : Nat) : F) * ((1 - w) / 2) ^ mu).sum) = aliterValue w := by
  have hl : List.range 5 = [0, 1, 2, 3, 4] := rfl
  rw [hl]
  simp only [List.map_cons, List.map_nil, List.sum_cons, List.sum_nil, Nat.reduceAdd]
  rw [show factorialPy 0 = 1 from rfl, show factorialPy 1 = 1 from rfl, show factorialPy 2 = 2 from rfl, show factorialPy 3 = 6 from rfl,
    show factorialPy 4 = 24 from rfl, show factorialPy 5 = 120 from rfl, show factorialPy 6 = 720 from rfl, show factorialPy 7 = 5040 from rfl,
    show factorialPy 8 = 40320 from rfl]
  norm_num [aliterValue]
  ring

omit [LinearOrder F] [IsStrictOrderedRing F] in
theorem aliterValue_neg [CharZero F] (w : F) : aliterValue (-w) = 1 - aliterValue w := by
  unfold aliterValue
  ring

/-- C53: `sigmoid` by its second Chebyshev variant is the polynomial, so it is symmetric. -/
theorem C53_sigmoid_aliter (x : Fin n → F) :
    sigmoidAliter (exactOps F) x = .ok (fun i => aliterValue (x i / 8)) ∧
      ∀ i, aliterValue (-x i / 8) = 1 - aliterValue (x i / 8) := by
  refine ⟨?_, fun i => by rw [neg_div, aliterValue_neg]⟩
  unfold sigmoidAliter
  have hp : ∀ b : Fin n → F, powSec (exactOps F) b 5 = .ok fun i => b i ^ 5 := fun b => powSec_exact b 5 (by decide)
  simp only [signS_exact, exact_mul, exact_div8, exact_addP, exact_div2, hp, exact_mulP, aliterLoop_exact, exact_rsubP,
    exact_add, ok_bind]
  congr 1
  funext i
  have : x i * sgn (x i) = |x i| := by rw [mul_comm, sgn_mul_self]
  rw [this, mul_zero, zero_add, aliterValue_sum]
  rcases lt_trichotomy (x i) 0 with h | h | h
  · have hs : sgn (x i) = -1 := by simp [sgn, h, not_lt.mpr h.le]
    rw [hs, abs_of_neg h, neg_div, aliterValue_neg]
    ring
  · rw [h, abs_zero, zero_div]
    unfold aliterValue
    ring
  · have hs : sgn (x i) = 1 := by simp [sgn, h]
    rw [hs, abs_of_pos h]
    ring

/-- C53: for `|x| ≤ 8` the second Chebyshev variant stays between 0 and 1. -/
theorem C53_sigmoid_aliter_range (x : Fin n → F) (hx : ∀ i, |x i| ≤ 8) :
    ∃ s, sigmoidAliter (exactOps F) x = .ok s ∧ ∀ i, 0 ≤ s i ∧ s i ≤ 1 := by
  refine ⟨_, (C53_sigmoid_aliter x).1, fun i => ?_⟩
  have nonneg : ∀ w : F, -1 ≤ w → w ≤ 1 → 0 ≤ aliterValue w := by
    intro w h1 h2
    have : aliterValue w = ((w + 1) / 2) ^ 5 * (1 + 5 * ((1 - w) / 2) + 15 * ((1 - w) / 2) ^ 2 + 35 * ((1 - w) / 2) ^ 3 + 70 * ((1 - w) / 2) ^ 4) := by
      unfold aliterValue
      ring
    rw [this]
    have e1 : 0 ≤ (w + 1) / 2 := by linarith
    have e2 : 0 ≤ (1 - w) / 2 := by linarith
    positivity
  have hb := abs_le.mp (hx i)
  refine ⟨nonneg _ (by linarith) (by linarith), ?_⟩
  have := nonneg (-x i / 8) (by linarith) (by linarith)
  rw [neg_div, aliterValue_neg] at this
  linarith

/-- C53 (the code violates the claim for large `x`): the second Chebyshev variant does not clip, and grows beyond all bounds: at 16 it is
more than 17. -/
theorem C53_sigmoid_aliter_unbounded :
    sigmoidAliter (exactOps ℚ) (fun _ : Fin 1 => 16) = .ok (fun _ => 2187 / 128) ∧
    ∀ v : ℚ, 16 ≤ v → v ≤ aliterValue (v / 8) := by
  refine ⟨?_, ?_⟩
  · rw [(C53_sigmoid_aliter _).1]
    congr 1
    funext i
    unfold aliterValue
    norm_num
  · intro v hv
    obtain ⟨u, rfl⟩ : ∃ u, v = 16 + 8 * u := ⟨(v - 16) / 8, by ring⟩
    have hu : 0 ≤ u := by linarith
    have : aliterValue ((16 + 8 * u) / 8) = 16 + 8 * u + (139 / 128 + 23467 / 256 * u + 8505 / 32 * u ^ 2 + 25515 / 64 * u ^ 3 + 23625 / 64 * u ^ 4
        + 27909 / 128 * u ^ 5 + 2625 / 32 * u ^ 6 + 1215 / 64 * u ^ 7 + 315 / 128 * u ^ 8 + 35 / 256 * u ^ 9) := by
      unfold aliterValue
      ring
    rw [this]
    have : 0 ≤ 139 / 128 + 23467 / 256 * u + 8505 / 32 * u ^ 2 + 25515 / 64 * u ^ 3 + 23625 / 64 * u ^ 4
        + 27909 / 128 * u ^ 5 + 2625 / 32 * u ^ 6 + 1215 / 64 * u ^ 7 + 315 / 128 * u ^ 8 + 35 / 256 * u ^ 9 := by positivity
    linarith

/-! The error of the sigmoid -/

/-- C53: with exact operators, `sigmoid` by exponentials is within `0.0022` of the sigmoid function for `|x| ≤ 256`. -/
theorem C53_sigmoid_accuracy (x : Fin n → ℝ) (hx : ∀ i, |x i| ≤ 256) :
    ∃ s, sigmoidExp (exactOps ℝ) x = .ok s ∧ ∀ i, |s i - 1 / (1 + Real.exp (-x i))| ≤ 22 / 10000 := by
  refine ⟨_, sigmoidExp_exact x, fun i => ?_⟩
  generalize hxi : x i = v
  have hv : |v| ≤ 256 := hxi ▸ hx i
  have key : ∀ a : ℝ, 0 ≤ a → a ≤ 256 → |sigmoidHalf a - 1 / (1 + Real.exp (-a))| ≤ 22 / 10000 := by
    intro a ha0 ha
    have hE := C52_exp_error 8 (-a) (by rw [abs_neg, abs_of_nonneg ha0]; norm_num; exact ha)
    have hE0 : 0 ≤ expValue 8 (-a) := by
      unfold expValue
      exact Even.pow_nonneg ⟨128, by norm_num⟩ _
    have hx0 := Real.exp_pos (-a)
    have hx1 : Real.exp (-a) ≤ 1 := Real.exp_le_one_iff.mpr (by linarith)
    have hE1 : expValue 8 (-a) ≤ 1 := hE.2.trans hx1
    -- a² e^-a ≤ 0.5416
    have hsq : a ^ 2 * Real.exp (-a) ≤ 5416 / 10000 := by
      have h1 := Real.add_one_le_exp (a / 2 - 1)
      have h2 : a / 2 * Real.exp (-(a / 2)) ≤ Real.exp (-1) := by
        have : Real.exp (-1) = Real.exp (a / 2 - 1) * Real.exp (-(a / 2)) := by rw [← Real.exp_add]; congr 1; ring
        rw [this]
        exact mul_le_mul_of_nonneg_right (by linarith) (Real.exp_nonneg _)
      have h3 : Real.exp (-a) = Real.exp (-(a / 2)) * Real.exp (-(a / 2)) := by rw [← Real.exp_add]; congr 1; ring
      have h4 := Real.exp_neg_one_lt_d9
      have h5 : a / 2 * Real.exp (-(a / 2)) ≤ 3679 / 10000 := by linarith
      have h6 : 0 ≤ a / 2 * Real.exp (-(a / 2)) := by positivity
      rw [h3]
      nlinarith
    have hdiff : Real.exp (-a) - expValue 8 (-a) ≤ 212 / 100000 := by
      have := hE.1
      have e : (-a) ^ 2 = a ^ 2 := by ring
      rw [e] at this
      norm_num at this
      nlinarith
    -- the reciprocal
    set d := 1 + expValue 8 (-a) with hd
    have hd1 : 1 ≤ d := by linarith
    have hd2 : d ≤ 2 := by linarith
    have hr : |1 - d * recipValue 10 d| ≤ 1 / 10 ^ 8 := by
      obtain ⟨r, hr, hacc⟩ := C51_reciprocal_accuracy (fun _ : Fin 1 => d)
      rw [reciprocal_nr_exact] at hr
      have hr' := congrFun (Except.ok.inj hr) 0
      have := hacc 0 (by rw [abs_of_pos (by linarith)]; linarith) (by rw [abs_of_pos (by linarith)]; linarith)
      rw [← hr'] at this
      exact this
    have hrd : |recipValue 10 d - 1 / d| ≤ 1 / 10 ^ 8 := by
      have hd0 : 0 < d := by linarith
      have e : recipValue 10 d - 1 / d = -(1 - d * recipValue 10 d) / d := by field_simp; ring
      rw [e, abs_div, abs_neg, abs_of_pos hd0, div_le_iff₀ hd0]
      nlinarith [abs_nonneg (1 - d * recipValue 10 d)]
    have hfr : |1 / d - 1 / (1 + Real.exp (-a))| ≤ 212 / 100000 := by
      have hd0 : 0 < d := by linarith
      have hq0 : 0 < 1 + Real.exp (-a) := by linarith
      have e : 1 / d - 1 / (1 + Real.exp (-a)) = (Real.exp (-a) - expValue 8 (-a)) / (d * (1 + Real.exp (-a))) := by
        rw [hd] at hd0 ⊢
        field_simp
        ring
      rw [e, abs_div, abs_of_nonneg (by linarith [hE.2]), abs_of_pos (mul_pos hd0 hq0), div_le_iff₀ (mul_pos hd0 hq0)]
      have : 1 ≤ d * (1 + Real.exp (-a)) := by nlinarith
      nlinarith
    have hs : sigmoidHalf a = recipValue 10 d := rfl
    rw [hs]
    have := abs_sub_le (recipValue 10 d) (1 / d) (1 / (1 + Real.exp (-a)))
    norm_num at this hrd hfr ⊢
    linarith
  rcases lt_trichotomy v 0 with h | h | h
  · have hk := key |v| (abs_nonneg v) hv
    have hs : sgn v = -1 := by simp [sgn, h, h.not_gt]
    have hsym : 1 / (1 + Real.exp (-v)) = 1 - 1 / (1 + Real.exp v) := by
      have hp := Real.exp_pos v
      rw [Real.exp_neg]
      field_simp
      ring
    rw [hs, hsym]
    rw [abs_of_neg h, neg_neg] at hk
    rw [abs_of_neg h]
    have e : (sigmoidHalf (-v) - 1 / 2) * -1 + 1 / 2 - (1 - 1 / (1 + Real.exp v))
        = -(sigmoidHalf (-v) - 1 / (1 + Real.exp v)) := by ring
    rw [e, abs_neg]
    exact hk
  · subst h
    rw [sgn_zero]
    norm_num
  · have hk := key v h.le (by rwa [abs_of_pos h] at hv)
    have hs : sgn v = 1 := by simp [sgn, h]
    rw [hs, abs_of_pos h, mul_one, sub_add_cancel]
    exact hk

/-- C53: for every method, `sigmoid(x) + sigmoid(-x)` is 1 (for the series if its constants are those of an odd function around
1/2); a method of another name is refused. -/
theorem C53_sigmoid_methods (coeffs : List F) (hc : coeffs ≠ []) (x : Fin n → F) (method : SigmoidMethod) :
    (method = .other → sigmoidS (exactOps F) coeffs x method = .error .valueError) ∧
    (method ≠ .other → ∃ s t, sigmoidS (exactOps F) coeffs x method = .ok s ∧
      sigmoidS (exactOps F) coeffs (fun i => -x i) method = .ok t ∧ ∀ i, s i + t i = 1) := by
  refine ⟨fun h => by subst h; rfl, fun h => ?_⟩
  cases method with
  | exp => exact C53_sigmoid_exp x
  | maclaurin => exact ⟨_, _, (C53_sigmoid_maclaurin x).1, (C53_sigmoid_maclaurin fun i => -x i).1, fun i => (C53_sigmoid_maclaurin x).2 _⟩
  | chebyshev => exact C53_sigmoid_chebyshev coeffs hc x
  | chebyshevAliter =>
    exact ⟨_, _, (C53_sigmoid_aliter x).1, (C53_sigmoid_aliter fun i => -x i).1, fun i => by rw [(C53_sigmoid_aliter x).2]; ring⟩
  | other => exact absurd rfl h

example : sigmoidS (exactOps ℚ) [1] (fun _ : Fin 1 => 10) .maclaurin
    = .ok (fun _ => 1 / 2 + 191204779 / 10 ^ 8 - 458667307 / 10 ^ 8 + 420690803 / 10 ^ 8) := by
  change sigmoidMaclaurin _ _ = _
  rw [(C53_sigmoid_maclaurin _).1]
  norm_num [maclaurinValue]

/-- C53: `tanh` has two methods, both odd functions, and raises `ValueError` for another name. -/
theorem C53_tanh_methods (coeffs : List F) (hc : coeffs ≠ []) (x : Fin n → F) (method : TanhMethod) :
    (method = .other → tanhS (exactOps F) coeffs x method = .error .valueError) ∧
    (method ≠ .other → ∃ s t, tanhS (exactOps F) coeffs x method = .ok s ∧
      tanhS (exactOps F) coeffs (fun i => -x i) method = .ok t ∧ ∀ i, t i = -s i) := by
  refine ⟨fun h => by subst h; rfl, fun h => ?_⟩
  cases method with
  | sigmoid => exact C53_tanh_odd x
  | chebyshev =>
    refine ⟨_, _, C53_tanh_chebyshev coeffs hc x, C53_tanh_chebyshev coeffs hc _, fun i => ?_⟩
    simp only [tanhSum_neg, clamp_neg]
  | other => exact absurd rfl h

example : tanhS (exactOps ℚ) [1] ![1 / 2, 3] .chebyshev = .ok ![1 / 2, 1] := by
  change tanhChebyshev _ _ _ = _
  rw [C53_tanh_chebyshev _ (by simp)]
  congr 1
  funext i
  have h : List.range 5 = [0, 1, 2, 3, 4] := rfl
  fin_cases i <;> norm_num [tanhSum, h]

end SyMPC
