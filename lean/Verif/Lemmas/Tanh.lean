import Mathlib.Analysis.SpecialFunctions.Trigonometric.DerivHyp
import Mathlib.Analysis.Calculus.MeanValue

/-!
# A polynomial close to `tanh`

`q` is a polynomial of degree 9 that nearly satisfies the differential equation of `tanh`; so it is close to `tanh` between -1 and 1.
-/

namespace SyMPC.Chebyshev

/-- the defect of `q` in `y' = 1 - y^2`, as a polynomial in `t = x^2` -/
noncomputable def residual (t : ℝ) : ℝ :=
  (4999691 / 5000000 - 3 * (1661279 / 5000000) * t + 5 * (1277761 / 10000000) * t ^ 2 - 7 * (413779 / 10000000) * t ^ 3
    + 9 * (75131 / 10000000) * t ^ 4) - 1
    + t * (4999691 / 5000000 - 1661279 / 5000000 * t + 1277761 / 10000000 * t ^ 2 - 413779 / 10000000 * t ^ 3
      + 75131 / 10000000 * t ^ 4) ^ 2

theorem residual_le_0 (u : ℝ) (h0 : 0 ≤ u) (h1 : u ≤ 1) : 0 ≤ 8 / 10 ^ 5 - residual (0 / 4 + u / 4) := by
  have h : 0 ≤ 1 - u := by linarith
  have e : 8 / 10 ^ 5 - residual (0 / 4 + u / 4) =
      709 / 5000000 * u ^ 0 * (1 - u) ^ 9 + 49894904519 / 100000000000000 * u ^ 1 * (1 - u) ^ 8 + 97233887093 / 200000000000000 * u ^ 2 * (1 - u) ^ 7 + 60743716251 / 400000000000000 * u ^ 3 * (1 - u) ^ 6 + 466692474269 / 400000000000000 * u ^ 4 * (1 - u) ^ 5 + 353750507680551 / 102400000000000000 * u ^ 5 * (1 - u) ^ 4 + 861403121433237 / 204800000000000000 * u ^ 6 * (1 - u) ^ 3 + 4298549931160057 / 1638400000000000000 * u ^ 7 * (1 - u) ^ 2 + 2743135009003093 / 3276800000000000000 * u ^ 8 * (1 - u) ^ 1 + 2854195030322559 / 26214400000000000000 * u ^ 9 * (1 - u) ^ 0 := by
    unfold residual
    ring
  rw [e]
  positivity

theorem residual_le_1 (u : ℝ) (h0 : 0 ≤ u) (h1 : u ≤ 1) : 0 ≤ 8 / 10 ^ 5 - residual (1 / 4 + u / 4) := by
  have h : 0 ≤ 1 - u := by linarith
  have e : 8 / 10 ^ 5 - residual (1 / 4 + u / 4) =
      2854195030322559 / 26214400000000000000 * u ^ 0 * (1 - u) ^ 9 + 14715215236890659 / 13107200000000000000 * u ^ 1 * (1 - u) ^ 8 + 1005153141504793 / 204800000000000000 * u ^ 2 * (1 - u) ^ 7 + 4887276208537293 / 409600000000000000 * u ^ 3 * (1 - u) ^ 6 + 14604917243346227 / 819200000000000000 * u ^ 4 * (1 - u) ^ 5 + 6977633472674331 / 409600000000000000 * u ^ 5 * (1 - u) ^ 4 + 21386350396459 / 2048000000000000 * u ^ 6 * (1 - u) ^ 3 + 50859153609009 / 12800000000000000 * u ^ 7 * (1 - u) ^ 2 + 17518268542279 / 20480000000000000 * u ^ 8 * (1 - u) ^ 1 + 163719955591 / 2048000000000000 * u ^ 9 * (1 - u) ^ 0 := by
    unfold residual
    ring
  rw [e]
  positivity

theorem residual_le_2 (u : ℝ) (h0 : 0 ≤ u) (h1 : u ≤ 1) : 0 ≤ 8 / 10 ^ 5 - residual (2 / 4 + u / 4) := by
  have h : 0 ≤ 1 - u := by linarith
  have e : 8 / 10 ^ 5 - residual (2 / 4 + u / 4) =
      163719955591 / 2048000000000000 * u ^ 0 * (1 - u) ^ 9 + 11951323464101 / 20480000000000000 * u ^ 1 * (1 - u) ^ 8 + 23024428218119 / 12800000000000000 * u ^ 2 * (1 - u) ^ 7 + 158833904283709 / 51200000000000000 * u ^ 3 * (1 - u) ^ 6 + 1407997377660283 / 409600000000000000 * u ^ 4 * (1 - u) ^ 5 + 2300489051631273 / 819200000000000000 * u ^ 5 * (1 - u) ^ 4 + 156543565008549 / 81920000000000000 * u ^ 6 * (1 - u) ^ 3 + 53126069686213 / 51200000000000000 * u ^ 7 * (1 - u) ^ 2 + 4701711108965027 / 13107200000000000000 * u ^ 8 * (1 - u) ^ 1 + 1421983609679117 / 26214400000000000000 * u ^ 9 * (1 - u) ^ 0 := by
    unfold residual
    ring
  rw [e]
  positivity

theorem residual_le_3 (u : ℝ) (h0 : 0 ≤ u) (h1 : u ≤ 1) : 0 ≤ 8 / 10 ^ 5 - residual (3 / 4 + u / 4) := by
  have h : 0 ≤ 1 - u := by linarith
  have e : 8 / 10 ^ 5 - residual (3 / 4 + u / 4) =
      1421983609679117 / 26214400000000000000 * u ^ 0 * (1 - u) ^ 9 + 4048070689073513 / 6553600000000000000 * u ^ 1 * (1 - u) ^ 8 + 1018892899828163 / 327680000000000000 * u ^ 2 * (1 - u) ^ 7 + 728448200013249 / 81920000000000000 * u ^ 3 * (1 - u) ^ 6 + 160671940845491 / 10240000000000000 * u ^ 4 * (1 - u) ^ 5 + 223714158470529 / 12800000000000000 * u ^ 5 * (1 - u) ^ 4 + 77143977250191 / 6400000000000000 * u ^ 6 * (1 - u) ^ 3 + 7638051256717 / 1600000000000000 * u ^ 7 * (1 - u) ^ 2 + 353775642059 / 400000000000000 * u ^ 8 * (1 - u) ^ 1 + 3113612031 / 100000000000000 * u ^ 9 * (1 - u) ^ 0 := by
    unfold residual
    ring
  rw [e]
  positivity

theorem residual_ge_0 (u : ℝ) (h0 : 0 ≤ u) (h1 : u ≤ 1) : 0 ≤ 8 / 10 ^ 5 + residual (0 / 4 + u / 4) := by
  have h : 0 ≤ 1 - u := by linarith
  have e : 8 / 10 ^ 5 + residual (0 / 4 + u / 4) =
      91 / 5000000 * u ^ 0 * (1 - u) ^ 9 + 94105095481 / 100000000000000 * u ^ 1 * (1 - u) ^ 8 + 1054766112907 / 200000000000000 * u ^ 2 * (1 - u) ^ 7 + 5315256283749 / 400000000000000 * u ^ 3 * (1 - u) ^ 6 + 7597307525731 / 400000000000000 * u ^ 4 * (1 - u) ^ 5 + 1710633492319449 / 102400000000000000 * u ^ 5 * (1 - u) ^ 4 + 1891108878566763 / 204800000000000000 * u ^ 6 * (1 - u) ^ 3 + 5138634068839943 / 1638400000000000000 * u ^ 7 * (1 - u) ^ 2 + 1975456990996907 / 3276800000000000000 * u ^ 8 * (1 - u) ^ 1 + 1340108969677441 / 26214400000000000000 * u ^ 9 * (1 - u) ^ 0 := by
    unfold residual
    ring
  rw [e]
  positivity

theorem residual_ge_1 (u : ℝ) (h0 : 0 ≤ u) (h1 : u ≤ 1) : 0 ≤ 8 / 10 ^ 5 + residual (1 / 4 + u / 4) := by
  have h : 0 ≤ 1 - u := by linarith
  have e : 8 / 10 ^ 5 + residual (1 / 4 + u / 4) =
      1340108969677441 / 26214400000000000000 * u ^ 0 * (1 - u) ^ 9 + 4159152763109341 / 13107200000000000000 * u ^ 1 * (1 - u) ^ 8 + 174494858495207 / 204800000000000000 * u ^ 2 * (1 - u) ^ 7 + 617747791462707 / 409600000000000000 * u ^ 3 * (1 - u) ^ 6 + 1910154756653773 / 819200000000000000 * u ^ 4 * (1 - u) ^ 5 + 1279902527325669 / 409600000000000000 * u ^ 5 * (1 - u) ^ 4 + 6138769603541 / 2048000000000000 * u ^ 6 * (1 - u) ^ 3 + 22868846390991 / 12800000000000000 * u ^ 7 * (1 - u) ^ 2 + 11972931457721 / 20480000000000000 * u ^ 8 * (1 - u) ^ 1 + 163960044409 / 2048000000000000 * u ^ 9 * (1 - u) ^ 0 := by
    unfold residual
    ring
  rw [e]
  positivity

theorem residual_ge_2 (u : ℝ) (h0 : 0 ≤ u) (h1 : u ≤ 1) : 0 ≤ 8 / 10 ^ 5 + residual (2 / 4 + u / 4) := by
  have h : 0 ≤ 1 - u := by linarith
  have e : 8 / 10 ^ 5 + residual (2 / 4 + u / 4) =
      163960044409 / 2048000000000000 * u ^ 0 * (1 - u) ^ 9 + 17539876535899 / 20480000000000000 * u ^ 1 * (1 - u) ^ 8 + 50703571781881 / 12800000000000000 * u ^ 2 * (1 - u) ^ 7 + 529294095716291 / 51200000000000000 * u ^ 3 * (1 - u) ^ 6 + 6849538622339717 / 409600000000000000 * u ^ 4 * (1 - u) ^ 5 + 14214582948368727 / 819200000000000000 * u ^ 5 * (1 - u) ^ 4 + 944461234991451 / 81920000000000000 * u ^ 6 * (1 - u) ^ 3 + 241785930313787 / 51200000000000000 * u ^ 7 * (1 - u) ^ 2 + 14172656891034973 / 13107200000000000000 * u ^ 8 * (1 - u) ^ 1 + 2772320390320883 / 26214400000000000000 * u ^ 9 * (1 - u) ^ 0 := by
    unfold residual
    ring
  rw [e]
  positivity

theorem residual_ge_3 (u : ℝ) (h0 : 0 ≤ u) (h1 : u ≤ 1) : 0 ≤ 8 / 10 ^ 5 + residual (3 / 4 + u / 4) := by
  have h : 0 ≤ 1 - u := by linarith
  have e : 8 / 10 ^ 5 + residual (3 / 4 + u / 4) =
      2772320390320883 / 26214400000000000000 * u ^ 0 * (1 - u) ^ 9 + 5389113310926487 / 6553600000000000000 * u ^ 1 * (1 - u) ^ 8 + 868543900171837 / 327680000000000000 * u ^ 2 * (1 - u) ^ 7 + 372556599986751 / 81920000000000000 * u ^ 3 * (1 - u) ^ 6 + 45766459154509 / 10240000000000000 * u ^ 4 * (1 - u) ^ 5 + 34333841529471 / 12800000000000000 * u ^ 5 * (1 - u) ^ 4 + 8872022749809 / 6400000000000000 * u ^ 6 * (1 - u) ^ 3 + 1577948743283 / 1600000000000000 * u ^ 7 * (1 - u) ^ 2 + 222224357941 / 400000000000000 * u ^ 8 * (1 - u) ^ 1 + 12886387969 / 100000000000000 * u ^ 9 * (1 - u) ^ 0 := by
    unfold residual
    ring
  rw [e]
  positivity

theorem residual_bound (t : ℝ) (h0 : 0 ≤ t) (h1 : t ≤ 1) : |residual t| ≤ 8 / 10 ^ 5 := by
  have key : ∀ i : ℝ, t = i / 4 + (4 * t - i) / 4 := fun i => by ring
  rw [abs_le]
  rcases le_total t (1 / 4) with a | a
  · have e1 := residual_le_0 (4 * t - 0) (by linarith) (by linarith)
    have e2 := residual_ge_0 (4 * t - 0) (by linarith) (by linarith)
    rw [← key] at e1 e2
    constructor <;> linarith
  · rcases le_total t (2 / 4) with b | b
    · have e1 := residual_le_1 (4 * t - 1) (by linarith) (by linarith)
      have e2 := residual_ge_1 (4 * t - 1) (by linarith) (by linarith)
      rw [← key] at e1 e2
      constructor <;> linarith
    · rcases le_total t (3 / 4) with c | c
      · have e1 := residual_le_2 (4 * t - 2) (by linarith) (by linarith)
        have e2 := residual_ge_2 (4 * t - 2) (by linarith) (by linarith)
        rw [← key] at e1 e2
        constructor <;> linarith
      · have e1 := residual_le_3 (4 * t - 3) (by linarith) (by linarith)
        have e2 := residual_ge_3 (4 * t - 3) (by linarith) (by linarith)
        rw [← key] at e1 e2
        constructor <;> linarith

/-- a polynomial close to `tanh` -/
noncomputable def q (x : ℝ) : ℝ :=
  4999691 / 5000000 * x - 1661279 / 5000000 * x ^ 3 + 1277761 / 10000000 * x ^ 5 - 413779 / 10000000 * x ^ 7
    + 75131 / 10000000 * x ^ 9

theorem q_deriv (x : ℝ) : HasDerivAt q (residual (x ^ 2) + (1 - q x ^ 2)) x := by
  have h : HasDerivAt q (4999691 / 5000000 * 1 - 1661279 / 5000000 * (3 * x ^ 2) + 1277761 / 10000000 * (5 * x ^ 4)
      - 413779 / 10000000 * (7 * x ^ 6) + 75131 / 10000000 * (9 * x ^ 8)) x := by
    refine ((((((hasDerivAt_id x).const_mul _).sub ?_).add ?_).sub ?_).add ?_)
    · exact (hasDerivAt_pow 3 x).const_mul _
    · exact (hasDerivAt_pow 5 x).const_mul _
    · exact (hasDerivAt_pow 7 x).const_mul _
    · exact (hasDerivAt_pow 9 x).const_mul _
  convert h using 1
  unfold residual q
  ring

theorem tanh_deriv (x : ℝ) : HasDerivAt Real.tanh (1 - Real.tanh x ^ 2) x := by
  have hc : Real.cosh x ≠ 0 := (Real.cosh_pos x).ne'
  have h := (Real.hasDerivAt_sinh x).div (Real.hasDerivAt_cosh x) hc
  have e : Real.tanh = fun y => Real.sinh y / Real.cosh y := by
    funext y
    exact Real.tanh_eq_sinh_div_cosh y
  have e2 : 1 - Real.tanh x ^ 2 = (Real.cosh x * Real.cosh x - Real.sinh x * Real.sinh x) / Real.cosh x ^ 2 := by
    rw [Real.tanh_eq_sinh_div_cosh]
    field_simp
  rw [e2, e]
  exact h

theorem tanh_nonneg {x : ℝ} (h : 0 ≤ x) : 0 ≤ Real.tanh x := by
  rw [Real.tanh_eq_sinh_div_cosh]
  exact div_nonneg (Real.sinh_nonneg_iff.mpr h) (Real.cosh_pos x).le

theorem q_nonneg {x : ℝ} (h0 : 0 ≤ x) (h1 : x ≤ 1) : 0 ≤ q x := by
  have e : q x = x * ((4999691 / 5000000 - 1661279 / 5000000 * x ^ 2) + x ^ 4 * (1277761 / 10000000 - 413779 / 10000000 * x ^ 2)
    + 75131 / 10000000 * x ^ 8) := by
    unfold q
    ring
  have h2 : x ^ 2 ≤ 1 := pow_le_one₀ h0 h1
  have a : 0 ≤ 4999691 / 5000000 - 1661279 / 5000000 * x ^ 2 := by linarith
  have b : 0 ≤ 1277761 / 10000000 - 413779 / 10000000 * x ^ 2 := by linarith
  rw [e]
  positivity

theorem q_close_pos {x : ℝ} (h0 : 0 ≤ x) (h1 : x ≤ 1) : |q x - Real.tanh x| ≤ 81 / 10 ^ 6 * x := by
  have hcont : Continuous fun y => q y - Real.tanh y :=
    continuous_iff_continuousAt.mpr fun y => ((q_deriv y).sub (tanh_deriv y)).continuousAt
  have hB : ∀ y : ℝ, HasDerivAt (fun y => 81 / 10 ^ 6 * y) (81 / 10 ^ 6 : ℝ) y := fun y => by
    simpa using (hasDerivAt_id y).const_mul (81 / 10 ^ 6 : ℝ)
  have hr : ∀ y ∈ Set.Ico (0 : ℝ) 1, |residual (y ^ 2)| ≤ 8 / 10 ^ 5 := fun y hy =>
    residual_bound _ (sq_nonneg y) (pow_le_one₀ hy.1 hy.2.le)
  rw [abs_le]
  constructor
  · have := image_le_of_deriv_right_lt_deriv_boundary (f := fun y => -(q y - Real.tanh y))
      (f' := fun y => -(residual (y ^ 2) + (1 - q y ^ 2) - (1 - Real.tanh y ^ 2))) (a := 0) (b := 1)
      (B := fun y => 81 / 10 ^ 6 * y) (B' := fun _ => 81 / 10 ^ 6) hcont.neg.continuousOn
      (fun y _ => ((q_deriv y).sub (tanh_deriv y)).neg.hasDerivWithinAt) (by simp [q]) hB
      (fun y hy he => by
        have h1 := (abs_le.mp (hr y hy)).1
        have hq := q_nonneg hy.1 hy.2.le
        have ht := tanh_nonneg hy.1
        have h2 : 0 ≤ (q y + Real.tanh y) * -(q y - Real.tanh y) := mul_nonneg (by linarith) (by
          have := hy.1
          rw [he]
          positivity)
        have : -(residual (y ^ 2) + (1 - q y ^ 2) - (1 - Real.tanh y ^ 2))
            = -residual (y ^ 2) - (q y + Real.tanh y) * -(q y - Real.tanh y) := by ring
        rw [this]
        linarith) (x := x) ⟨h0, h1⟩
    linarith
  · exact image_le_of_deriv_right_lt_deriv_boundary (f := fun y => q y - Real.tanh y)
      (f' := fun y => residual (y ^ 2) + (1 - q y ^ 2) - (1 - Real.tanh y ^ 2)) (a := 0) (b := 1)
      (B := fun y => 81 / 10 ^ 6 * y) (B' := fun _ => 81 / 10 ^ 6) hcont.continuousOn
      (fun y _ => ((q_deriv y).sub (tanh_deriv y)).hasDerivWithinAt) (by simp [q]) hB
      (fun y hy he => by
        have h1 := (abs_le.mp (hr y hy)).2
        have hq := q_nonneg hy.1 hy.2.le
        have ht := tanh_nonneg hy.1
        have h2 : 0 ≤ (q y + Real.tanh y) * (q y - Real.tanh y) := mul_nonneg (by linarith) (by
          have := hy.1
          rw [he]
          positivity)
        have : residual (y ^ 2) + (1 - q y ^ 2) - (1 - Real.tanh y ^ 2)
            = residual (y ^ 2) - (q y + Real.tanh y) * (q y - Real.tanh y) := by ring
        rw [this]
        linarith) (x := x) ⟨h0, h1⟩

theorem q_close {x : ℝ} (h : |x| ≤ 1) : |q x - Real.tanh x| ≤ 81 / 10 ^ 6 := by
  have hb := abs_le.mp h
  rcases le_total 0 x with h0 | h0
  · exact (q_close_pos h0 hb.2).trans (by linarith)
  · have := q_close_pos (x := -x) (by linarith) (by linarith)
    have hq : q (-x) = -q x := by unfold q; ring
    rw [hq, Real.tanh_neg, ← abs_neg] at this
    have e : -(-q x - -Real.tanh x) = q x - Real.tanh x := by ring
    rw [e] at this
    exact this.trans (by linarith)

end SyMPC.Chebyshev
