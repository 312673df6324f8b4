import Verif.Props.RobustRecip
import Verif.Props.Activations

/-!
# Exponential, division, sigmoid and tanh with rounding errors

Over operators that are as exact as those of a session with 16 binary places (`Fine`).  The numbers are rational, the functions real.
-/

namespace SyMPC

variable {m : Type → Type} [Monad m] {X : Nat → Type} {n : Nat} {O : SecretOps m X ℚ} {S : Sure m}

/-- `exp` of numbers between -512 and 0 that are off by a little: see the tables -/
theorem exp_neg_table (A : Sound O S) (H : Fine A) (x : X n) (ok : A.Ok x) (t : Fin n → ℚ) (η b : ℚ) (ss : List Nat)
    (hx : ∀ i, |A.val x i - t i| ≤ η) (hη : η / 256 + 1 / 2 ^ 15 ≤ b) (hb0 : 0 ≤ b) (ht : ∀ i, -512 ≤ t i ∧ t i ≤ 0)
    (hb : b ≤ (ss.getD 0 0 : ℚ) / 10 ^ 8)
    (hs : ∀ j < 8, (2 * 10 ^ 8 + ss.getD j 0) * ss.getD j 0 * 2 ^ 15 + 10 ^ 16 ≤ ss.getD (j + 1) 0 * (10 ^ 8 * 2 ^ 15))
    (hs2 : ∀ j < 9, ss.getD j 0 ≤ 10 ^ 8) :
    S.sure (expS O x 8) fun z => A.Ok z ∧ ∀ i, |A.val z i - expValue 8 (t i)| ≤ (ss.getD 8 0 : ℚ) / 10 ^ 8 + 1 / 2 ^ 15 := by
  have hps : ∀ j ≤ 8, ([100000000, 100000000, 100000000, 100000000, 100000000, 100000000, 100000000, 100000000, 100000000] : List Nat).getD j 0
      = 10 ^ 8 := by decide
  have tab := squareError_table 1 b zero_le_one hb0
    [100000000, 100000000, 100000000, 100000000, 100000000, 100000000, 100000000, 100000000, 100000000] ss (by norm_num) hb (by
      intro j hj
      rw [hps j (by omega), hps (j + 1) (by omega)]
      exact ⟨by norm_num, hs j hj⟩)
  refine S.mono _ _ _ (exp_fine A (1 / 2 ^ 15) H.δ1 x ok 8 t (fun _ => 1) η b hx (fun i => ?_) ?_ (fun j hj i => ?_) ?_ ?_) ?_
  · obtain ⟨h1, h2⟩ := ht i
    rw [abs_le]
    norm_num
    constructor <;> linarith
  · have := H.δd1
    norm_num at hη this ⊢
    linarith
  · obtain ⟨-, h2, h3⟩ := tab j hj
    have h4 : (ss.getD j 0 : ℚ) ≤ 10 ^ 8 := by exact_mod_cast hs2 j (by omega)
    have h5 : (ss.getD j 0 : ℚ) / 10 ^ 8 ≤ 1 := by rw [div_le_one (by norm_num)]; exact h4
    have := H.B1
    rw [one_pow]
    nlinarith
  · linarith [H.B1]
  · norm_num
    linarith [H.B1]
  · rintro z ⟨hz, ez⟩
    refine ⟨hz, fun i => (ez i).trans ?_⟩
    linarith [(tab 8 le_rfl).2.2]

theorem exp_neg_near (A : Sound O S) (H : Fine A) (x : X n) (ok : A.Ok x) (t : Fin n → ℚ) (hx : ∀ i, |A.val x i - t i| ≤ 1 / 128)
    (ht : ∀ i, -512 ≤ t i ∧ t i ≤ 0) :
    S.sure (expS O x 8) fun z => A.Ok z ∧ ∀ i, |A.val z i - expValue 8 (t i)| ≤ 24 / 1000 := by
  refine S.mono _ _ _ (exp_neg_table A H x ok t (1 / 128) (2 / 2 ^ 15)
    [6104, 15261, 33577, 70218, 143538, 290334, 584563, 1175595, 2368062] hx (by norm_num) (by norm_num) ht (by norm_num) (by decide +kernel)
    (by decide)) ?_
  rintro z ⟨hz, ez⟩
  exact ⟨hz, fun i => (ez i).trans (by norm_num)⟩

theorem expValue_cast (k : Nat) (t : ℚ) : ((expValue k t : ℚ) : ℝ) = expValue k (t : ℝ) := by
  unfold expValue
  push_cast
  rfl

/-- how close the limit approximation is to the exponential of negative numbers -/
theorem exp_close (a : ℝ) (ha0 : 0 ≤ a) (ha : a ≤ 256) :
    0 ≤ expValue 8 (-a) ∧ expValue 8 (-a) ≤ Real.exp (-a) ∧ Real.exp (-a) - expValue 8 (-a) ≤ 212 / 100000 := by
  have hE := C52_exp_error 8 (-a) (by rw [abs_neg, abs_of_nonneg ha0]; norm_num; exact ha)
  have hE0 : 0 ≤ expValue 8 (-a) := by
    unfold expValue
    exact Even.pow_nonneg ⟨128, by norm_num⟩ _
  refine ⟨hE0, hE.2, ?_⟩
  have hsq : a ^ 2 * Real.exp (-a) ≤ 5416 / 10000 := by
    have h1 := Real.add_one_le_exp (a / 2 - 1)
    have h2 : a / 2 * Real.exp (-(a / 2)) ≤ Real.exp (-1) := by
      have : Real.exp (-1) = Real.exp (a / 2 - 1) * Real.exp (-(a / 2)) := by rw [← Real.exp_add]; congr 1; ring
      rw [this]
      exact mul_le_mul_of_nonneg_right (by linarith) (Real.exp_nonneg _)
    have h3 : Real.exp (-a) = Real.exp (-(a / 2)) * Real.exp (-(a / 2)) := by rw [← Real.exp_add]; congr 1; ring
    have h4 := Real.exp_neg_one_lt_d9
    have h5 : a / 2 * Real.exp (-(a / 2)) ≤ 3679 / 10000 := by linarith
    have h6 : 0 ≤ a / 2 * Real.exp (-(a / 2)) := by positivity
    rw [h3]
    nlinarith
  have := hE.1
  have e : (-a) ^ 2 = a ^ 2 := by ring
  rw [e] at this
  norm_num at this
  nlinarith

/-- **C52, the exponential with rounding errors.**  For numbers between -256 and 0, `exp` is within 0.018 of the exponential function. -/
theorem C52_exp_accuracy_sound (A : Sound O S) (H : Fine A) (x : X n) (ok : A.Ok x) (h1 : ∀ i, -256 ≤ A.val x i) (h2 : ∀ i, A.val x i ≤ 0) :
    S.sure (expS O x 8) fun z => A.Ok z ∧ ∀ i, |(A.val z i : ℝ) - Real.exp (A.val x i)| ≤ 18 / 1000 := by
  refine S.mono _ _ _ (exp_neg_table A H x ok (A.val x) 0 (1 / 2 ^ 15)
    [3052, 9156, 21365, 45787, 94647, 192436, 388295, 781150, 1571454] (by simp) (by norm_num) (by norm_num)
    (fun i => ⟨by linarith [h1 i], h2 i⟩) (by norm_num) (by decide +kernel) (by decide)) ?_
  rintro z ⟨hz, ez⟩
  refine ⟨hz, fun i => ?_⟩
  have h3 : |A.val z i - expValue 8 (A.val x i)| ≤ 1575 / 100000 := (ez i).trans (by norm_num)
  have h4 : |(A.val z i : ℝ) - expValue 8 (A.val x i : ℝ)| ≤ 1575 / 100000 := by
    rw [← expValue_cast]
    have : ((|A.val z i - expValue 8 (A.val x i)| : ℚ) : ℝ) ≤ ((1575 / 100000 : ℚ) : ℝ) := by exact_mod_cast h3
    push_cast at this
    exact this
  have h5 : ((A.val x i : ℚ) : ℝ) ≤ 0 := by exact_mod_cast h2 i
  have h6 : (-256 : ℝ) ≤ ((A.val x i : ℚ) : ℝ) := by exact_mod_cast h1 i
  obtain ⟨-, h7, h8⟩ := exp_close (-(A.val x i : ℝ)) (by linarith) (by linarith)
  rw [neg_neg] at h7 h8
  rw [abs_le] at h4 ⊢
  constructor <;> linarith [h4.1, h4.2]

/-- **C51, division by a secret with rounding errors.**  For divisors with modulus between 0.1 and 10 and dividends up to 90, `x / y` is
within half a percent and one rounding error of the quotient. -/
theorem C51_truediv_sound (A : Sound O S) (H : Fine A) (parties : Nat) (hp : parties ≤ 2) (x y : X n) (okx : A.Ok x) (oky : A.Ok y)
    (hx : ∀ i, |A.val x i| ≤ 90) (h1 : ∀ i, 1 / 10 ≤ |A.val y i|) (h2 : ∀ i, |A.val y i| ≤ 10) :
    S.sure (truedivS O parties x y) fun z => A.Ok z ∧ ∀ i, |A.val z i - A.val x i / A.val y i| ≤ |A.val x i / A.val y i| / 200 + A.δ := by
  unfold truedivS
  rw [if_neg (by omega)]
  refine S.bind _ _ _ _ (C51_reciprocal_sound A H y oky h1 h2) ?_
  rintro r ⟨hr, er⟩
  have hy : ∀ i, 0 < |A.val y i| := fun i => lt_of_lt_of_le (by norm_num) (h1 i)
  refine S.mono _ _ _ (A.mul x r okx hr (fun i => ?_)) ?_
  · have h3 : |A.val y i * A.val r i| ≤ 201 / 200 := by
      have h4 := abs_le.mp (er i)
      rw [abs_le]
      constructor <;> linarith [h4.1, h4.2]
    rw [abs_mul] at h3
    have h5 : |A.val r i| ≤ 1005 / 100 := by nlinarith [h1 i, abs_nonneg (A.val r i)]
    rw [abs_mul]
    have := mul_le_mul (hx i) h5 (abs_nonneg _) (by norm_num)
    linarith [H.B1]
  · rintro z ⟨hz, ez⟩
    refine ⟨hz, fun i => ?_⟩
    have hy0 : A.val y i ≠ 0 := abs_pos.mp (hy i)
    have e : A.val z i - A.val x i / A.val y i = (A.val z i - A.val x i * A.val r i) - A.val x i / A.val y i * (1 - A.val y i * A.val r i) := by
      field_simp
      ring
    rw [e]
    refine (abs_sub _ _).trans ?_
    rw [abs_mul]
    have := mul_le_mul_of_nonneg_left (er i) (abs_nonneg (A.val x i / A.val y i))
    linarith [ez i]

/-! ## sigmoid and tanh -/

theorem sgn_abs_le (v : ℚ) : |sgn v| ≤ 1 := by
  unfold sgn
  split
  · simp
  · split <;> simp

/-- the sigmoid of a number from that of its modulus -/
theorem sigmoid_sign (v : ℚ) :
    (1 / (1 + Real.exp (-((|v| : ℚ) : ℝ))) - 1 / 2) * ((sgn v : ℚ) : ℝ) + 1 / 2 = 1 / (1 + Real.exp (-(v : ℝ))) := by
  rcases lt_trichotomy v 0 with h | h | h
  · have hs : sgn v = -1 := by simp [sgn, h, h.not_gt]
    rw [hs, abs_of_neg h]
    push_cast
    rw [neg_neg, Real.exp_neg]
    have := Real.exp_pos (v : ℝ)
    field_simp
    ring
  · subst h
    simp [sgn]
    norm_num
  · have hs : sgn v = 1 := by simp [sgn, h]
    rw [hs, abs_of_pos h]
    push_cast
    ring

/-- **C53, the sigmoid with rounding errors.**  For numbers of modulus up to 64, `sigmoid` with its default method is within 0.034 of the
sigmoid function. -/
theorem C53_sigmoid_sound (A : Sound O S) (H : Fine A) (x : X n) (ok : A.Ok x) (hx : ∀ i, |A.val x i| ≤ 64) :
    S.sure (sigmoidExp O x) fun z => A.Ok z ∧ ∀ i, |(A.val z i : ℝ) - 1 / (1 + Real.exp (-(A.val x i : ℝ)))| ≤ 34 / 1000 := by
  have d0 := H.δ0
  have d1 := H.δ1
  have e0 := H.δd0
  have e1 := H.δd1
  have hB := H.B1
  norm_num at d1 e1
  unfold sigmoidExp
  refine S.bind _ _ _ _ (sign_sound A x ok (fun i => by linarith [hx i]) (by linarith) (by linarith)) ?_
  rintro s ⟨hs, es⟩
  have es' : ∀ i, |A.val s i - sgn (A.val x i)| ≤ 1 / 32768 := fun i => (es i).trans d1
  have hs2 : ∀ i, |A.val s i| ≤ 2 := by
    intro i
    have h3 := abs_add_le (A.val s i - sgn (A.val x i)) (sgn (A.val x i))
    rw [sub_add_cancel] at h3
    linarith [es i, sgn_abs_le (A.val x i)]
  refine S.bind _ _ _ _ (A.mul x s ok hs (fun i => by
    rw [abs_mul]
    have := mul_le_mul (hx i) (hs2 i) (abs_nonneg _) (by norm_num)
    linarith)) ?_
  rintro a ⟨ha, ea⟩
  have ea' : ∀ i, |A.val a i - (|A.val x i|)| ≤ 65 / 32768 := by
    intro i
    have e : A.val a i - (|A.val x i|) = (A.val a i - A.val x i * A.val s i) + A.val x i * (A.val s i - sgn (A.val x i)) := by
      rw [← sgn_mul_self]; ring
    rw [e]
    refine (abs_add_le _ _).trans ?_
    rw [abs_mul]
    have := mul_le_mul (hx i) (es' i) (abs_nonneg _) (by norm_num)
    linarith [ea i]
  have hm := A.mulP x 0 ok (fun i => by simp; linarith)
  push_cast at hm
  refine S.bind _ _ _ _ hm ?_
  rintro o0 ⟨ho0, eo0⟩
  have eo0' : ∀ i, |A.val o0 i| ≤ 1 / 32768 := by
    intro i
    have := eo0 i
    rw [mul_zero, sub_zero] at this
    linarith
  have hm := A.addP o0 1 ho0 (fun i => by
    have := abs_le.mp (eo0' i)
    push_cast
    rw [abs_le]
    constructor <;> linarith [this.1, this.2])
  push_cast at hm
  refine S.bind _ _ _ _ hm ?_
  rintro o ⟨ho, eo⟩
  have eo' : ∀ i, |A.val o i - 1| ≤ 1 / 32768 := by
    intro i
    rw [eo i, add_sub_cancel_right]
    exact eo0' i
  refine S.bind _ _ _ _ (A.divP o 2 ho (by norm_num) (by push_cast; linarith)) ?_
  rintro half ⟨hh, eh⟩
  have eh' : ∀ i, |A.val half i - 1 / 2| ≤ 2 / 32768 := by
    intro i
    have h3 := abs_le.mp (eh i)
    have h4 := abs_le.mp (eo' i)
    push_cast at h3
    rw [abs_le]
    constructor <;> linarith [h3.1, h3.2, h4.1, h4.2]
  have hm := A.mulP o (-1) ho (fun i => by
    have h4 := abs_le.mp (eo' i)
    push_cast
    rw [abs_le]
    constructor <;> linarith [h4.1, h4.2])
  push_cast at hm
  refine S.bind _ _ _ _ hm ?_
  rintro t0 ⟨ht0, et0⟩
  have et0' : ∀ i, |A.val t0 i + 1| ≤ 2 / 32768 := by
    intro i
    have h3 := abs_le.mp (et0 i)
    have h4 := abs_le.mp (eo' i)
    rw [abs_le]
    constructor <;> linarith [h3.1, h3.2, h4.1, h4.2]
  have prod : ∀ i, |A.val t0 i * A.val a i + (|A.val x i|)| ≤ 194 / 32768 := by
    intro i
    have e : A.val t0 i * A.val a i + (|A.val x i|) = (A.val t0 i + 1) * A.val a i - (A.val a i - (|A.val x i|)) := by ring
    rw [e]
    refine (abs_sub _ _).trans ?_
    rw [abs_mul]
    have h3 : |A.val a i| ≤ 645 / 10 := by
      have := abs_le.mp (ea' i)
      have h5 := abs_nonneg (A.val x i)
      have := hx i
      rw [abs_le]
      constructor <;> linarith
    have := mul_le_mul (et0' i) h3 (abs_nonneg _) (by norm_num)
    linarith [ea' i]
  refine S.bind _ _ _ _ (A.mul t0 a ht0 ha (fun i => by
    have h3 := abs_le.mp (prod i)
    have h4 := hx i
    have h5 := abs_nonneg (A.val x i)
    rw [abs_le]
    constructor <;> linarith [h3.1, h3.2])) ?_
  rintro t ⟨ht, et⟩
  refine S.bind _ _ _ _ (exp_neg_near A H t ht
    (fun i => -(|A.val x i|)) (fun i => by
      have h3 := abs_le.mp (prod i)
      have h4 := abs_le.mp (et i)
      rw [abs_le]
      constructor <;> linarith [h3.1, h3.2, h4.1, h4.2]) (fun i => ⟨by linarith [hx i], by linarith [abs_nonneg (A.val x i)]⟩)) ?_
  rintro e ⟨he, ee⟩
  have hE : ∀ i, 0 ≤ expValue 8 (-(|A.val x i|)) ∧ expValue 8 (-(|A.val x i|)) ≤ 1 := by
    intro i
    have h3 := abs_nonneg (A.val x i)
    have h4 := hx i
    rw [expValue_eight]
    exact ⟨pow_nonneg (by linarith) _, pow_le_one₀ (by linarith) (by linarith)⟩
  refine S.bind _ _ _ _ (A.add o e ho he (fun i => by
    have h3 := abs_le.mp (eo' i)
    have h4 := abs_le.mp (ee i)
    obtain ⟨h5, h6⟩ := hE i
    rw [abs_le]
    constructor <;> linarith [h3.1, h3.2, h4.1, h4.2])) ?_
  rintro d ⟨hd, ed⟩
  have ed' : ∀ i, |A.val d i - (1 + expValue 8 (-(|A.val x i|)))| ≤ 2404 / 100000 := by
    intro i
    have h3 := abs_le.mp (eo' i)
    have h4 := abs_le.mp (ee i)
    rw [ed i, abs_le]
    constructor <;> linarith [h3.1, h3.2, h4.1, h4.2]
  have dpos : ∀ i, 97 / 100 ≤ A.val d i ∧ A.val d i ≤ 3 := by
    intro i
    have h4 := abs_le.mp (ed' i)
    obtain ⟨h5, h6⟩ := hE i
    constructor <;> linarith [h4.1, h4.2]
  refine S.bind _ _ _ _ (C51_reciprocal_sound A H d hd
    (fun i => by rw [abs_of_pos (by linarith [(dpos i).1])]; linarith [(dpos i).1])
    (fun i => by rw [abs_of_pos (by linarith [(dpos i).1])]; linarith [(dpos i).2])) ?_
  rintro r ⟨hr, er⟩
  have hr1 : ∀ i, |A.val r i| ≤ 104 / 100 := by
    intro i
    have h4 := abs_le.mp (er i)
    obtain ⟨h5, h6⟩ := dpos i
    rw [abs_le]
    constructor <;> nlinarith [h4.1, h4.2]
  have erho : ∀ i, |A.val r i - 1 / (1 + expValue 8 (-(|A.val x i|)))| ≤ 301 / 10000 := by
    intro i
    obtain ⟨h5, h6⟩ := hE i
    have h3 := er i
    have h4 := ed' i
    have h7 := hr1 i
    generalize expValue 8 (-(|A.val x i|)) = E at *
    have hp : 0 < 1 + E := by linarith
    have e2 : A.val r i - 1 / (1 + E) = (-(1 - A.val d i * A.val r i) - (A.val d i - (1 + E)) * A.val r i) / (1 + E) := by
      field_simp
      ring
    have h8 : |(A.val d i - (1 + E)) * A.val r i| ≤ 2404 / 100000 * (104 / 100) := by
      rw [abs_mul]
      exact mul_le_mul h4 h7 (abs_nonneg _) (by norm_num)
    rw [e2, abs_div, abs_of_pos hp, div_le_iff₀ hp]
    refine (abs_sub _ _).trans ?_
    rw [abs_neg]
    nlinarith
  refine S.bind _ _ _ _ (A.sub r half hr hh (fun i => by
    have h3 := abs_le.mp (hr1 i)
    have h4 := abs_le.mp (eh' i)
    rw [abs_le]
    constructor <;> linarith [h3.1, h3.2, h4.1, h4.2])) ?_
  rintro r1 ⟨hr1k, er1⟩
  have hr1' : ∀ i, |A.val r1 i| ≤ 2 := by
    intro i
    have h3 := abs_le.mp (hr1 i)
    have h4 := abs_le.mp (eh' i)
    rw [er1 i, abs_le]
    constructor <;> linarith [h3.1, h3.2, h4.1, h4.2]
  refine S.bind _ _ _ _ (A.mul r1 s hr1k hs (fun i => by
    rw [abs_mul]
    have := mul_le_mul (hr1' i) (hs2 i) (abs_nonneg _) (by norm_num)
    linarith)) ?_
  rintro r2 ⟨hr2, er2⟩
  have er2' : ∀ i, |A.val r2 i - A.val r1 i * sgn (A.val x i)| ≤ 3 / 32768 := by
    intro i
    have e2 : A.val r2 i - A.val r1 i * sgn (A.val x i)
        = (A.val r2 i - A.val r1 i * A.val s i) + A.val r1 i * (A.val s i - sgn (A.val x i)) := by ring
    rw [e2]
    refine (abs_add_le _ _).trans ?_
    rw [abs_mul]
    have := mul_le_mul (hr1' i) (es' i) (abs_nonneg _) (by norm_num)
    linarith [er2 i]
  have hr2' : ∀ i, |A.val r2 i| ≤ 3 := by
    intro i
    have h3 := abs_add_le (A.val r2 i - A.val r1 i * sgn (A.val x i)) (A.val r1 i * sgn (A.val x i))
    rw [sub_add_cancel, abs_mul] at h3
    have := mul_le_mul (hr1' i) (sgn_abs_le (A.val x i)) (abs_nonneg _) (by norm_num)
    linarith [er2' i]
  refine S.mono _ _ _ (A.add r2 half hr2 hh (fun i => by
    have h3 := abs_le.mp (hr2' i)
    have h4 := abs_le.mp (eh' i)
    rw [abs_le]
    constructor <;> linarith [h3.1, h3.2, h4.1, h4.2])) ?_
  rintro z ⟨hz, ez⟩
  refine ⟨hz, fun i => ?_⟩
  have hq : |A.val z i - ((1 / (1 + expValue 8 (-(|A.val x i|))) - 1 / 2) * sgn (A.val x i) + 1 / 2)| ≤ 305 / 10000 := by
    have e2 : A.val z i - ((1 / (1 + expValue 8 (-(|A.val x i|))) - 1 / 2) * sgn (A.val x i) + 1 / 2)
        = (A.val r2 i - A.val r1 i * sgn (A.val x i)) + (A.val half i - 1 / 2)
          + (A.val r i - 1 / (1 + expValue 8 (-(|A.val x i|))) - (A.val half i - 1 / 2)) * sgn (A.val x i) := by
      rw [ez i, er1 i]; ring
    rw [e2]
    refine (abs_add_le _ _).trans ((add_le_add (abs_add_le _ _) le_rfl).trans ?_)
    rw [abs_mul]
    have h3 := abs_sub (A.val r i - 1 / (1 + expValue 8 (-(|A.val x i|)))) (A.val half i - 1 / 2)
    have h4 := mul_le_mul h3 (sgn_abs_le (A.val x i)) (abs_nonneg _) (by positivity)
    linarith [er2' i, eh' i, erho i]
  have hq' : |(A.val z i : ℝ) - ((1 / (1 + expValue 8 (-((|A.val x i| : ℚ) : ℝ))) - 1 / 2) * ((sgn (A.val x i) : ℚ) : ℝ) + 1 / 2)|
      ≤ 305 / 10000 := by
    have : ((|A.val z i - ((1 / (1 + expValue 8 (-(|A.val x i|))) - 1 / 2) * sgn (A.val x i) + 1 / 2)| : ℚ) : ℝ) ≤ ((305 / 10000 : ℚ) : ℝ) := by
      exact_mod_cast hq
    rw [Rat.cast_abs, Rat.cast_sub, Rat.cast_add, Rat.cast_mul, Rat.cast_sub, Rat.cast_div, Rat.cast_add, expValue_cast, Rat.cast_neg] at this
    push_cast at this ⊢
    exact this
  have hx0 : (0 : ℝ) ≤ ((|A.val x i| : ℚ) : ℝ) := by exact_mod_cast abs_nonneg (A.val x i)
  have hx1 : ((|A.val x i| : ℚ) : ℝ) ≤ 256 := by
    have : |A.val x i| ≤ 256 := (hx i).trans (by norm_num)
    exact_mod_cast this
  obtain ⟨c0, c1, c2⟩ := exp_close _ hx0 hx1
  have hsg : |((sgn (A.val x i) : ℚ) : ℝ)| ≤ 1 := by exact_mod_cast sgn_abs_le (A.val x i)
  rw [← sigmoid_sign]
  generalize ((sgn (A.val x i) : ℚ) : ℝ) = g at *
  generalize expValue 8 (-((|A.val x i| : ℚ) : ℝ)) = E at *
  generalize Real.exp (-((|A.val x i| : ℚ) : ℝ)) = E' at *
  have hfr : |1 / (1 + E) - 1 / (1 + E')| ≤ 212 / 100000 := by
    have hd0 : 0 < 1 + E := by linarith
    have hq0 : 0 < 1 + E' := by linarith
    have e2 : 1 / (1 + E) - 1 / (1 + E') = (E' - E) / ((1 + E) * (1 + E')) := by
      field_simp
      ring
    rw [e2, abs_div, abs_of_nonneg (by linarith), abs_of_pos (mul_pos hd0 hq0), div_le_iff₀ (mul_pos hd0 hq0)]
    have : 1 ≤ (1 + E) * (1 + E') := by nlinarith
    nlinarith
  have e3 : (A.val z i : ℝ) - ((1 / (1 + E') - 1 / 2) * g + 1 / 2)
      = ((A.val z i : ℝ) - ((1 / (1 + E) - 1 / 2) * g + 1 / 2)) + (1 / (1 + E) - 1 / (1 + E')) * g := by ring
  rw [e3]
  refine (abs_add_le _ _).trans ?_
  rw [abs_mul]
  have := mul_le_mul hfr hsg (abs_nonneg _) (by norm_num)
  linarith

/-- the sigmoid function changes no faster than its argument -/
theorem sigmoid_lipschitz (a b : ℝ) : |1 / (1 + Real.exp (-a)) - 1 / (1 + Real.exp (-b))| ≤ |a - b| := by
  have key : ∀ a b : ℝ, a ≤ b → |1 / (1 + Real.exp (-a)) - 1 / (1 + Real.exp (-b))| ≤ |a - b| := by
    intro a b h
    have ha := Real.exp_pos (-a)
    have hb := Real.exp_pos (-b)
    have hm : Real.exp (-b) ≤ Real.exp (-a) := Real.exp_le_exp.mpr (by linarith)
    have h1 := Real.add_one_le_exp (a - b)
    have h2 : Real.exp (-b) = Real.exp (-a) * Real.exp (a - b) := by rw [← Real.exp_add]; congr 1; ring
    have e : 1 / (1 + Real.exp (-a)) - 1 / (1 + Real.exp (-b))
        = -((Real.exp (-a) - Real.exp (-b)) / ((1 + Real.exp (-a)) * (1 + Real.exp (-b)))) := by
      field_simp
      ring
    rw [e, abs_neg, abs_of_nonneg (by apply div_nonneg; linarith; positivity), abs_of_nonpos (by linarith), div_le_iff₀ (by positivity)]
    have h3 : Real.exp (-a) - Real.exp (-b) ≤ Real.exp (-a) * (b - a) := by
      rw [h2]
      nlinarith
    have h4 : Real.exp (-a) * (b - a) ≤ (b - a) * ((1 + Real.exp (-a)) * (1 + Real.exp (-b))) := by
      have : Real.exp (-a) ≤ (1 + Real.exp (-a)) * (1 + Real.exp (-b)) := by nlinarith
      nlinarith
    linarith
  rcases le_total a b with h | h
  · exact key a b h
  · rw [abs_sub_comm, abs_sub_comm a b]
    exact key b a h

theorem tanh_sigmoid (v : ℝ) : Real.tanh v = 2 * (1 / (1 + Real.exp (-(2 * v)))) - 1 := by
  rw [Real.tanh_eq_sinh_div_cosh, Real.sinh_eq, Real.cosh_eq]
  have h : Real.exp (-(2 * v)) = Real.exp (-v) * Real.exp (-v) := by rw [← Real.exp_add]; congr 1; ring
  have h2 : Real.exp (-v) = 1 / Real.exp v := by rw [Real.exp_neg, one_div]
  have hp := Real.exp_pos v
  rw [h, h2]
  field_simp
  ring

/-- **C53, tanh with rounding errors.**  For numbers of modulus up to 31, `tanh` with its default method is within 0.07 of the hyperbolic
tangent. -/
theorem C53_tanh_sound (A : Sound O S) (H : Fine A) (x : X n) (ok : A.Ok x) (hx : ∀ i, |A.val x i| ≤ 31) :
    S.sure (tanhSigmoid O x) fun z => A.Ok z ∧ ∀ i, |(A.val z i : ℝ) - Real.tanh (A.val x i)| ≤ 7 / 100 := by
  have d0 := H.δ0
  have d1 := H.δ1
  have hB := H.B1
  norm_num at d1
  unfold tanhSigmoid
  have hm := A.mulP x 2 ok (fun i => by
    rw [abs_mul]
    norm_num
    linarith [hx i])
  push_cast at hm
  refine S.bind _ _ _ _ hm ?_
  rintro t ⟨ht, et⟩
  refine S.bind _ _ _ _ (C53_sigmoid_sound A H t ht (fun i => by
    have h3 := abs_le.mp (et i)
    have h4 := abs_le.mp (hx i)
    rw [abs_le]
    constructor <;> linarith [h3.1, h3.2, h4.1, h4.2])) ?_
  rintro s ⟨hs, es⟩
  have es' : ∀ i, |(A.val s i : ℝ) - 1 / (1 + Real.exp (-(2 * (A.val x i : ℝ))))| ≤ 341 / 10000 := by
    intro i
    have h3 := sigmoid_lipschitz (A.val t i) (2 * (A.val x i : ℝ))
    have h4 : |(A.val t i : ℝ) - 2 * (A.val x i : ℝ)| ≤ 1 / 32768 := by
      have h5 : |A.val t i - 2 * A.val x i| ≤ 1 / 32768 := by rw [mul_comm]; exact (et i).trans d1
      have : ((|A.val t i - 2 * A.val x i| : ℚ) : ℝ) ≤ ((1 / 32768 : ℚ) : ℝ) := by exact_mod_cast h5
      push_cast at this
      exact this
    have h5 := abs_sub_le (A.val s i : ℝ) (1 / (1 + Real.exp (-(A.val t i : ℝ)))) (1 / (1 + Real.exp (-(2 * (A.val x i : ℝ)))))
    have := es i
    norm_num at h4 ⊢
    norm_num at h5 h3 this
    linarith
  have hs2 : ∀ i, |A.val s i| ≤ 2 := by
    intro i
    have hp := Real.exp_pos (-(2 * (A.val x i : ℝ)))
    have h6 : 0 ≤ 1 / (1 + Real.exp (-(2 * (A.val x i : ℝ)))) := by positivity
    have h7 : 1 / (1 + Real.exp (-(2 * (A.val x i : ℝ)))) ≤ 1 := by rw [div_le_one (by linarith)]; linarith
    have h8 := abs_le.mp (es' i)
    have : |(A.val s i : ℝ)| ≤ 2 := by rw [abs_le]; constructor <;> linarith [h8.1, h8.2]
    exact_mod_cast this
  have hm := A.mulP s 2 hs (fun i => by
    rw [abs_mul]
    norm_num
    linarith [hs2 i])
  push_cast at hm
  refine S.bind _ _ _ _ hm ?_
  rintro u ⟨hu, eu⟩
  have hm := A.subP u 1 hu (fun i => by
    have h3 := abs_le.mp (eu i)
    have h4 := abs_le.mp (hs2 i)
    push_cast
    rw [abs_le]
    constructor <;> linarith [h3.1, h3.2, h4.1, h4.2])
  push_cast at hm
  refine S.mono _ _ _ hm ?_
  rintro z ⟨hz, ez⟩
  refine ⟨hz, fun i => ?_⟩
  rw [tanh_sigmoid]
  have h3 : |(A.val u i : ℝ) - A.val s i * 2| ≤ 1 / 32768 := by
    have : ((|A.val u i - A.val s i * 2| : ℚ) : ℝ) ≤ ((1 / 32768 : ℚ) : ℝ) := by exact_mod_cast (eu i).trans d1
    push_cast at this
    exact this
  have h4 := abs_le.mp (es' i)
  have h5 := abs_le.mp h3
  rw [ez i]
  push_cast
  rw [abs_le]
  constructor <;> linarith [h4.1, h4.2, h5.1, h5.2]

end SyMPC
