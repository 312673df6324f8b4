import Verif.Props.Robust

/-!
# The reciprocal with rounding errors

For operators that are about as exact as those of a session with 16 binary places.
-/

namespace SyMPC

variable {m : Type → Type} [Monad m] {X : Nat → Type} {n : Nat} {O : SecretOps m X ℚ} {S : Sure m}

/-- The operators of a session with 16 binary places or a few more: errors of one or two quanta. -/
structure Fine (A : Sound O S) : Prop where
  δ0 : 0 ≤ A.δ
  δ1 : A.δ ≤ 1 / 2 ^ 15
  δd0 : 0 ≤ A.δd
  δd1 : A.δd ≤ 1 / 2 ^ 15
  δc0 : 0 ≤ A.δc
  δc1 : A.δc ≤ 1 / 2 ^ 16
  B1 : 1000 ≤ A.B

/-- the bound on the error of the base of the exponential: see `reciprocal_start` -/
def baseError : ℚ := 1 / 2 ^ 15 + (1 / 2 ^ 15 + 1 / 2 ^ 16) / 256

theorem bernoulli_mul (N : Nat) (e v w : ℚ) (he : 0 ≤ 1 + e) (hv : 0 ≤ v) (hw : (1 + e) * v ≤ w) : (1 + N * e) * v ^ N ≤ w ^ N :=
  calc (1 + N * e) * v ^ N ≤ (1 + e) ^ N * v ^ N :=
        mul_le_mul_of_nonneg_right (one_add_mul_le_pow (by linarith) N) (pow_nonneg hv N)
    _ = ((1 + e) * v) ^ N := (mul_pow _ _ _).symm
    _ ≤ w ^ N := pow_le_pow_left₀ (mul_nonneg he hv) hw N

theorem expValue_eight (t : ℚ) : expValue 8 t = (1 + t / 256) ^ (256 : Nat) := by
  unfold expValue
  norm_num

/-- `a (1 + (1/2 - a)/256)^256` is at most `0.6068` -/
theorem start_upper (a : ℚ) (h0 : 0 ≤ a) (h1 : a ≤ 256) : a * expValue 8 (1 / 2 - a) ≤ 60675 / 100000 := by
  have h := bernoulli_mul 256 ((a - 1) / 256) (1 + (1 / 2 - a) / 256) (1046529 / 1048576) (by linarith) (by linarith)
    (by nlinarith [sq_nonneg (a - 3 / 4)])
  have e : 1 + ((256 : Nat) : ℚ) * ((a - 1) / 256) = a := by push_cast; ring
  rw [e, ← expValue_eight] at h
  exact h.trans (by norm_num)

theorem start_upper2 (a : ℚ) (h0 : 2 ≤ a) (h1 : a ≤ 256) : a * expValue 8 (1 / 2 - a) ≤ 4446 / 10000 := by
  have h := bernoulli_mul 256 ((a - 2) / 512) (1 + (1 / 2 - a) / 256) (509 / 512) (by linarith) (by linarith)
    (by nlinarith)
  have e : 1 + ((256 : Nat) : ℚ) * ((a - 2) / 512) = a / 2 := by push_cast; ring
  rw [e, ← expValue_eight] at h
  have h2 : (509 / 512 : ℚ) ^ (256 : Nat) ≤ 2223 / 10000 := by norm_num
  linarith

theorem expValue_mono (k : Nat) {s t : ℚ} (h : s ≤ t) (hs : -2 ^ k ≤ s) : expValue k s ≤ expValue k t := by
  unfold expValue
  have hp : (0 : ℚ) < 2 ^ k := by positivity
  refine pow_le_pow_left₀ ?_ ?_ _
  · have : -1 ≤ s / 2 ^ k := by rw [le_div_iff₀ hp]; linarith
    linarith
  · gcongr

/-- A table of upper bounds in units of `10^-8`: `ps` for the powers of `c`, `ss` for the errors of the squarings. -/
theorem squareError_table (c b : ℚ) (hc0 : 0 ≤ c) (hb0 : 0 ≤ b) (ps ss : List Nat) (h0 : c ≤ (ps.getD 0 0 : ℚ) / 10 ^ 8) (h1 : b ≤ (ss.getD 0 0 : ℚ) / 10 ^ 8)
    (h : ∀ j < 8, ps.getD j 0 ^ 2 ≤ ps.getD (j + 1) 0 * 10 ^ 8 ∧
      (2 * ps.getD j 0 + ss.getD j 0) * ss.getD j 0 * 2 ^ 15 + 10 ^ 16 ≤ ss.getD (j + 1) 0 * (10 ^ 8 * 2 ^ 15)) :
    ∀ j ≤ 8, c ^ 2 ^ j ≤ (ps.getD j 0 : ℚ) / 10 ^ 8 ∧ 0 ≤ squareError (1 / 2 ^ 15) c b j ∧
      squareError (1 / 2 ^ 15) c b j ≤ (ss.getD j 0 : ℚ) / 10 ^ 8 := by
  intro j
  induction j with
  | zero =>
    intro _
    exact ⟨by simpa using h0, hb0, h1⟩
  | succ j ih =>
    intro hj
    obtain ⟨i1, i2, i3⟩ := ih (by omega)
    obtain ⟨g1, g2⟩ := h j (by omega)
    have g1' : (ps.getD j 0 : ℚ) ^ 2 ≤ (ps.getD (j + 1) 0 : ℚ) * 10 ^ 8 := by exact_mod_cast g1
    have g2' : (2 * (ps.getD j 0 : ℚ) + ss.getD j 0) * ss.getD j 0 * 2 ^ 15 + 10 ^ 16 ≤ ss.getD (j + 1) 0 * (10 ^ 8 * 2 ^ 15) := by
      exact_mod_cast g2
    have hcp : 0 ≤ c ^ 2 ^ j := pow_nonneg hc0 _
    generalize (ps.getD j 0 : ℚ) = p at *
    generalize (ss.getD j 0 : ℚ) = s at *
    generalize (ps.getD (j + 1) 0 : ℚ) = p' at *
    generalize (ss.getD (j + 1) 0 : ℚ) = s' at *
    simp only [squareError]
    generalize squareError (1 / 2 ^ 15) c b j = t at *
    have e : c ^ 2 ^ (j + 1) = (c ^ 2 ^ j) ^ 2 := by rw [← pow_mul, pow_succ]
    refine ⟨?_, by positivity, ?_⟩
    · rw [e]
      refine (pow_le_pow_left₀ hcp i1 2).trans ?_
      norm_num at g1' ⊢
      rw [div_pow]
      norm_num
      linarith
    · have h5 : (2 * c ^ 2 ^ j + t) * t ≤ (2 * (p / 10 ^ 8) + s / 10 ^ 8) * (s / 10 ^ 8) :=
        mul_le_mul (by linarith) i3 i2 (by linarith)
      refine (add_le_add h5 le_rfl).trans ?_
      have e2 : (2 * (p / 10 ^ 8) + s / 10 ^ 8) * (s / 10 ^ 8) + 1 / 2 ^ 15
          = ((2 * p + s) * s * 2 ^ 15 + 10 ^ 16) / (10 ^ 16 * 2 ^ 15) := by field_simp
      rw [e2, div_le_div_iff₀ (by norm_num) (by norm_num)]
      norm_num at g2' ⊢
      linarith

/-- one piece of the range of the divisor -/
theorem start_piece (lo hi up err low : ℚ) (ps ss : List Nat) (hlo : 0 < lo) (hhi : hi ≤ 20) (hlh : lo ≤ 20)
    (h0 : 1 + (1 / 2 - lo) / 256 ≤ (ps.getD 0 0 : ℚ) / 10 ^ 8) (h1 : 3070 ≤ ss.getD 0 0)
    (h : ∀ j < 8, ps.getD j 0 ^ 2 ≤ ps.getD (j + 1) 0 * 10 ^ 8 ∧
      (2 * ps.getD j 0 + ss.getD j 0) * ss.getD j 0 * 2 ^ 15 + 10 ^ 16 ≤ ss.getD (j + 1) 0 * (10 ^ 8 * 2 ^ 15))
    (hsq : ∀ j < 9, (ps.getD j 0 + ss.getD j 0) ^ 2 ≤ 4 * 10 ^ 16)
    (herr : 3 * ((ss.getD 8 0 : ℚ) / 10 ^ 8) + 4 / 2 ^ 15 + 1 / 2 ^ 16 ≤ err) (herr0 : 0 ≤ err)
    (hup : ∀ a : ℚ, lo ≤ a → a ≤ hi → 3 * (a * expValue 8 (1 / 2 - a)) ≤ up)
    (hlow : low ≤ 3 * expValue 8 (1 / 2 - hi) + 3 / 1000 - err) (hlow0 : 0 ≤ low)
    (h3 : up + hi * (3 / 1000 + err) ≤ 1967 / 1000) (h4 : 20 / 1000 ≤ lo * low) (a : ℚ) (ha : lo ≤ a) (ha' : a ≤ hi) :
    ∃ c, |1 + (1 / 2 - a) / 2 ^ 8| ≤ c ∧ (∀ j ≤ 8, (c ^ 2 ^ j + squareError (1 / 2 ^ 15) c baseError j) ^ 2 ≤ 4) ∧
      ∀ r : ℚ, |r - newtonStart a| ≤ 3 * squareError (1 / 2 ^ 15) c baseError 8 + 4 / 2 ^ 15 + 1 / 2 ^ 16 → |1 - a * r| ≤ 98 / 100 := by
  have hc0 : 0 ≤ 1 + (1 / 2 - lo) / 256 := by linarith
  have tab := squareError_table (1 + (1 / 2 - lo) / 256) baseError hc0 (by norm_num [baseError]) ps ss h0 (by
    have h1' : (3070 : ℚ) ≤ (ss.getD 0 0 : ℚ) := by exact_mod_cast h1
    rw [le_div_iff₀ (by norm_num)]
    refine le_trans ?_ h1'
    norm_num [baseError]) h
  refine ⟨1 + (1 / 2 - lo) / 256, ?_, fun j hj => ?_, fun r hr => ?_⟩
  · rw [abs_of_nonneg (by norm_num; linarith)]
    norm_num
    linarith
  · obtain ⟨t1, t2, t3⟩ := tab j hj
    have g : ((ps.getD j 0 : ℚ) + ss.getD j 0) ^ 2 ≤ 4 * 10 ^ 16 := by exact_mod_cast hsq j (by omega)
    have hcp : 0 ≤ (1 + (1 / 2 - lo) / 256) ^ 2 ^ j := pow_nonneg hc0 _
    refine (pow_le_pow_left₀ (by linarith) (add_le_add t1 t3) 2).trans ?_
    rw [← add_div, div_pow, div_le_iff₀ (by norm_num)]
    norm_num at g ⊢
    linarith
  · have hr' := abs_le.mp (hr.trans ((add_le_add (add_le_add (mul_le_mul_of_nonneg_left (tab 8 le_rfl).2.2 (by norm_num)) le_rfl) le_rfl).trans herr))
    unfold newtonStart at hr'
    have hm : expValue 8 (1 / 2 - hi) ≤ expValue 8 (1 / 2 - a) := expValue_mono 8 (by linarith) (by norm_num; linarith)
    have hu := hup a ha ha'
    have ha0 : 0 < a := lt_of_lt_of_le hlo ha
    have hl : low ≤ r := by linarith [hr'.1]
    have h5 : lo * low ≤ a * r := mul_le_mul ha hl hlow0 ha0.le
    have h6 : a * r ≤ a * (3 * expValue 8 (1 / 2 - a) + 3 / 1000 + err) := mul_le_mul_of_nonneg_left (by linarith [hr'.2]) ha0.le
    have h7 : a * (3 / 1000 + err) ≤ hi * (3 / 1000 + err) := mul_le_mul_of_nonneg_right ha' (by linarith)
    have e : a * (3 * expValue 8 (1 / 2 - a) + 3 / 1000 + err) = 3 * (a * expValue 8 (1 / 2 - a)) + a * (3 / 1000 + err) := by ring
    rw [abs_le]
    constructor <;> linarith

/-- The start of the Newton iteration, for a divisor between `0.0999` and `10.001`: whatever the rounding errors of the exponential, the
product with the divisor is between 0 and 2. -/
theorem reciprocal_start (a : ℚ) (h1 : 999 / 10000 ≤ a) (h2 : a ≤ 10001 / 1000) :
    ∃ c, |1 + (1 / 2 - a) / 2 ^ 8| ≤ c ∧ (∀ j ≤ 8, (c ^ 2 ^ j + squareError (1 / 2 ^ 15) c baseError j) ^ 2 ≤ 4) ∧
      ∀ r : ℚ, |r - newtonStart a| ≤ 3 * squareError (1 / 2 ^ 15) c baseError 8 + 4 / 2 ^ 15 + 1 / 2 ^ 16 → |1 - a * r| ≤ 98 / 100 := by
  have v : ∀ lo : ℚ, 2 ≤ lo → ∀ hi ≤ 20, ∀ a : ℚ, lo ≤ a → a ≤ hi → 3 * (a * expValue 8 (1 / 2 - a)) ≤ 1334 / 1000 := by
    intro lo hlo hi hhi a h3 h4
    have := start_upper2 a (by linarith) (by linarith)
    linarith
  rcases le_total a 2 with g0 | g0
  · exact start_piece (999 / 10000) 2 (18203 / 10000) (7033 / 100000) (59 / 100)
      [100156290, 100312825, 100626629, 101257185, 102530176, 105124370, 110511332, 122127546, 149151375]
      [3070, 9202, 21515, 46357, 96953, 201958, 428074, 951025, 2335024] (by norm_num) (by norm_num) (by norm_num)
      (by norm_num) (by decide) (by decide +kernel) (by decide +kernel) (by norm_num) (by norm_num) (fun a h3 h4 => by have := start_upper a (by linarith) (by linarith); linarith)
      (by rw [expValue_eight]; norm_num) (by norm_num) (by norm_num) (by norm_num) a h1 g0
  rcases le_total a 4 with g1 | g1
  · exact start_piece 2 4 (1334 / 1000) (11 / 1000) (8 / 100)
      [99414063, 98831560, 97676773, 95407520, 91025949, 82857234, 68653213, 47132637, 22214855]
      [3070, 9156, 21151, 44376, 87748, 162876, 273227, 378957, 361713] (by norm_num) (by norm_num) (by norm_num)
      (by norm_num) (by decide) (by decide +kernel) (by decide +kernel) (by norm_num) (by norm_num) (v 2 (by norm_num) 4 (by norm_num))
      (by rw [expValue_eight]; norm_num) (by norm_num) (by norm_num) (by norm_num) a g0 g1
  rcases le_total a (11 / 2) with g2 | g2
  · exact start_piece 4 (11 / 2) (1334 / 1000) (18 / 10000) (2 / 100)
      [98632813, 97284319, 94642388, 89571817, 80231105, 64370303, 41435360, 17168891, 2947709]
      [3070, 9108, 20774, 42379, 78989, 129862, 170406, 144559, 52900] (by norm_num) (by norm_num) (by norm_num)
      (by norm_num) (by decide) (by decide +kernel) (by decide +kernel) (by norm_num) (by norm_num) (v 4 (by norm_num) (11 / 2) (by norm_num))
      (by rw [expValue_eight]; norm_num) (by norm_num) (by norm_num) (by norm_num) a g1 g2
  rcases le_total a 7 with g3 | g3
  · exact start_piece (11 / 2) 7 (1334 / 1000) (6 / 10000) (6 / 1000)
      [98046875, 96131897, 92413417, 85402397, 72935695, 53196157, 28298312, 8007945, 641272]
      [3070, 9072, 20495, 40937, 72991, 109579, 119756, 70974, 14470] (by norm_num) (by norm_num) (by norm_num)
      (by norm_num) (by decide) (by decide +kernel) (by decide +kernel) (by norm_num) (by norm_num) (v (11 / 2) (by norm_num) 7 (by norm_num))
      (by rw [expValue_eight]; norm_num) (by norm_num) (by norm_num) (by norm_num) a g2 g3
  · exact start_piece 7 (10001 / 1000) (1334 / 1000) (31 / 100000) (287 / 100000)
      [97460938, 94986345, 90224058, 81403807, 66265798, 43911560, 19282252, 3718053, 138240]
      [3070, 9036, 20219, 39541, 67444, 92482, 84358, 35656, 5716] (by norm_num) (by norm_num) (by norm_num)
      (by norm_num) (by decide) (by decide +kernel) (by decide +kernel) (by norm_num) (by norm_num) (v 7 (by norm_num) (10001 / 1000) (by norm_num))
      (by rw [expValue_eight]; norm_num) (by norm_num) (by norm_num) (by norm_num) a g3 h2


/-- ten rounds of the Newton iteration -/
theorem newton_rounds : (fun e : ℚ => e ^ 2 + 3664 / 1000000)^[10] (98 / 100) ≤ 37 / 10000 := by
  have step : ∀ (k : Nat) (a b d : ℚ), 0 ≤ a → a ≤ b → (fun e : ℚ => e ^ 2 + 3664 / 1000000)^[k] b ≤ d →
      (fun e : ℚ => e ^ 2 + 3664 / 1000000)^[k] a ≤ d := by
    intro k
    induction k with
    | zero => intro a b d _ h1 h2; exact h1.trans h2
    | succ k ih =>
      intro a b d h0 h1 h2
      rw [Function.iterate_succ_apply] at h2 ⊢
      refine ih _ _ _ (by positivity) ?_ h2
      have := pow_le_pow_left₀ h0 h1 2
      linarith
  have go : ∀ (k : Nat) (a b d : ℚ), a ^ 2 + 3664 / 1000000 ≤ b → (fun e : ℚ => e ^ 2 + 3664 / 1000000)^[k] b ≤ d →
      (fun e : ℚ => e ^ 2 + 3664 / 1000000)^[k + 1] a ≤ d := by
    intro k a b d h1 h2
    rw [Function.iterate_succ_apply]
    exact step k _ _ _ (by positivity) h1 h2
  refine go 9 _ (96407 / 100000) _ (by norm_num) ?_
  refine go 8 _ (93310 / 100000) _ (by norm_num) ?_
  refine go 7 _ (87435 / 100000) _ (by norm_num) ?_
  refine go 6 _ (76816 / 100000) _ (by norm_num) ?_
  refine go 5 _ (59374 / 100000) _ (by norm_num) ?_
  refine go 4 _ (35620 / 100000) _ (by norm_num) ?_
  refine go 3 _ (13055 / 100000) _ (by norm_num) ?_
  refine go 2 _ (2071 / 100000) _ (by norm_num) ?_
  refine go 1 _ (410 / 100000) _ (by norm_num) ?_
  refine go 0 _ (369 / 100000) _ (by norm_num) ?_
  norm_num

/-- **C51, reciprocals with rounding errors.**  `reciprocal` with its default method, for numbers of either sign with modulus between 0.1 and
10, over operators as exact as those of a session with 16 binary places: the product of the number and its reciprocal is within 0.005 of
1, that is a relative error of half a percent. -/
theorem C51_reciprocal_sound (A : Sound O S) (H : Fine A) (x : X n) (ok : A.Ok x) (h1 : ∀ i, 1 / 10 ≤ |A.val x i|)
    (h2 : ∀ i, |A.val x i| ≤ 10) :
    S.sure (reciprocalS O x .nr 10) fun z => A.Ok z ∧ ∀ i, |1 - A.val x i * A.val z i| ≤ 1 / 200 := by
  obtain ⟨d0, d1, e0, e1, c0, c1, hB⟩ := H
  norm_num at d1 e1 c1
  unfold reciprocalS
  refine S.bind _ _ _ _ (modulus_sound A x ok 10 h2 (by linarith) (by linarith) (by linarith)) ?_
  rintro a ⟨ha, ea⟩
  have ab : ∀ i, |A.val a i - (|A.val x i|)| ≤ (|A.val x i| + 1) / 32768 := by
    intro i
    refine (ea i).trans ?_
    have h3 := abs_nonneg (A.val x i)
    rw [div_eq_mul_one_div]
    exact mul_le_mul_of_nonneg_left d1 (by linarith)
  have al : ∀ i, 999 / 10000 ≤ A.val a i := by
    intro i
    have h3 := abs_le.mp (ab i)
    have h4 := h1 i
    linarith [h3.1]
  have ah : ∀ i, A.val a i ≤ 10001 / 1000 := by
    intro i
    have h3 := abs_le.mp (ab i)
    have h4 := h2 i
    linarith [h3.2]
  refine S.bind _ _ _ _ (A.rsubF (1 / 2) a ha (fun i => by
    have : |1 / 2 - A.val a i| ≤ 10 := by rw [abs_le]; constructor <;> linarith [al i, ah i]
    linarith)) ?_
  rintro t ⟨ht, et⟩
  choose c hc hsq hr using fun i => reciprocal_start (A.val a i) (al i) (ah i)
  refine S.bind _ _ _ _ (exp_fine A (1 / 2 ^ 15) (by norm_num; exact d1) t ht 8 (fun i => 1 / 2 - A.val a i) c (A.δc + A.δ) baseError et hc
    (by unfold baseError; norm_num; linarith) (fun j hj i => (hsq i j hj).trans (by linarith)) (by linarith) (by norm_num; linarith)) ?_
  rintro u ⟨hu, eu⟩
  have hE : ∀ i, |expValue 8 (1 / 2 - A.val a i)| ≤ c i ^ 2 ^ 8 := by
    intro i
    unfold expValue
    rw [abs_pow]
    exact pow_le_pow_left₀ (abs_nonneg _) (hc i) _
  have u3 : ∀ i, |A.val u i| ≤ 3 := by
    intro i
    have h4 := hsq i 8 le_rfl
    have h3 := hE i
    have h5 := eu i
    have h6 := abs_add_le (A.val u i - expValue 8 (1 / 2 - A.val a i)) (expValue 8 (1 / 2 - A.val a i))
    rw [sub_add_cancel] at h6
    generalize c i ^ 2 ^ 8 = p at *
    generalize squareError (1 / 2 ^ 15) (c i) baseError 8 = q at *
    have h7 : p + q ≤ 2 := by nlinarith
    norm_num at h5
    linarith
  have hm := A.mulP u 3 hu (fun i => by
    rw [abs_mul]
    norm_num
    linarith [u3 i])
  push_cast at hm
  refine S.bind _ _ _ _ hm ?_
  rintro v ⟨hv, ev⟩
  refine S.bind _ _ _ _ (A.addF v (3 / 1000) hv (fun i => by
    have h3 := abs_le.mp (ev i)
    have h4 := abs_le.mp (u3 i)
    have : |A.val v i + 3 / 1000| ≤ 20 := by rw [abs_le]; constructor <;> linarith [h3.1, h3.2, h4.1, h4.2]
    linarith)) ?_
  rintro r0 ⟨hr0, er0⟩
  have start : ∀ i, |1 - A.val a i * A.val r0 i| ≤ 98 / 100 := by
    intro i
    refine hr i _ ?_
    have h3 := abs_le.mp (er0 i)
    have h4 := abs_le.mp (ev i)
    have h5 := abs_le.mp (eu i)
    unfold newtonStart
    generalize squareError (1 / 2 ^ 15) (c i) baseError 8 = q at *
    norm_num at h5 ⊢
    rw [abs_le]
    constructor <;> linarith [h3.1, h3.2, h4.1, h4.2, h5.1, h5.2]
  refine S.bind _ _ _ _ (newton_sound A d0 (by linarith) a ha (999 / 10000) (10001 / 1000) (3664 / 1000000) (by norm_num) (by norm_num) al ah
    (by linarith) (le_trans (by norm_num) hB) 10 r0 (98 / 100) hr0 (by norm_num) (by norm_num) start) ?_
  rintro r ⟨hrk, er'⟩
  have er : ∀ i, |1 - A.val a i * A.val r i| ≤ 37 / 10000 := fun i => (er' i).trans newton_rounds
  have har : ∀ i, A.val a i * |A.val r i| ≤ 10037 / 10000 := by
    intro i
    have h3 := abs_le.mp (er i)
    have hpos : 0 < A.val a i := lt_of_lt_of_le (by norm_num) (al i)
    have e3 : A.val a i * |A.val r i| = |A.val a i * A.val r i| := by rw [abs_mul, abs_of_pos hpos]
    rw [e3, abs_le]
    constructor <;> linarith [h3.1, h3.2]
  have hr1 : ∀ i, |A.val r i| ≤ 101 / 10 := by
    intro i
    nlinarith [har i, al i, abs_nonneg (A.val r i)]
  have hxr : ∀ i, |A.val x i| * |A.val r i| ≤ 101 / 100 := by
    intro i
    have h3 := abs_le.mp (ab i)
    have h4 : |A.val x i| ≤ A.val a i * (10001 / 10000) + 4 / 100000 := by linarith [h3.1, al i]
    have h5 := mul_le_mul_of_nonneg_right h4 (abs_nonneg (A.val r i))
    linarith [har i, hr1 i]
  refine S.bind _ _ _ _ (sign_sound A x ok (fun i => by linarith [h2 i]) (by linarith) (by linarith)) ?_
  rintro s ⟨hs, es⟩
  have hsg : ∀ i, |sgn (A.val x i)| ≤ 1 := by
    intro i
    unfold sgn
    split
    · simp
    · split <;> simp
  have hs2 : ∀ i, |A.val s i| ≤ 2 := by
    intro i
    have h3 := abs_add_le (A.val s i - sgn (A.val x i)) (sgn (A.val x i))
    rw [sub_add_cancel] at h3
    linarith [es i, hsg i]
  refine S.mono _ _ _ (A.mul r s hrk hs (fun i => by
    rw [abs_mul]
    have := mul_le_mul (hr1 i) (hs2 i) (abs_nonneg _) (by norm_num)
    linarith)) ?_
  rintro z ⟨hz, ez⟩
  refine ⟨hz, fun i => ?_⟩
  have e : 1 - A.val x i * A.val z i = (1 - A.val a i * A.val r i) + (A.val a i - (|A.val x i|)) * A.val r i
      - A.val x i * (A.val z i - A.val r i * A.val s i) - A.val x i * A.val r i * (A.val s i - sgn (A.val x i)) := by
    rw [← sgn_mul_self]; ring
  have t1 : |(A.val a i - (|A.val x i|)) * A.val r i| ≤ 1111 / 100 / 32768 := by
    rw [abs_mul]
    have h3 := mul_le_mul_of_nonneg_right (ab i) (abs_nonneg (A.val r i))
    have h4 := hxr i
    have h5 := hr1 i
    have e2 : (|A.val x i| + 1) / 32768 * |A.val r i| = (|A.val x i| * |A.val r i| + |A.val r i|) / 32768 := by ring
    rw [e2] at h3
    refine h3.trans ?_
    linarith
  have t2 : |A.val x i * (A.val z i - A.val r i * A.val s i)| ≤ 10 * (1 / 32768) := by
    rw [abs_mul]
    exact mul_le_mul (h2 i) ((ez i).trans d1) (abs_nonneg _) (by norm_num)
  have t3 : |A.val x i * A.val r i * (A.val s i - sgn (A.val x i))| ≤ 101 / 100 * (1 / 32768) := by
    rw [abs_mul, abs_mul]
    exact mul_le_mul (hxr i) ((es i).trans d1) (abs_nonneg _) (by norm_num)
  have t0 := er i
  rw [e]
  rw [abs_le] at *
  constructor <;> linarith [t0.1, t0.2, t1.1, t1.2, t2.1, t2.2, t3.1, t3.2]

end SyMPC
