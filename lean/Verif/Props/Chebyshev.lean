import Verif.Props.Activations
import Verif.Model.Chebyshev
import Verif.Lemmas.Tanh
import Verif.Lemmas.Grad
import Verif.Lemmas.Shape
import Mathlib.Analysis.SpecialFunctions.Trigonometric.Chebyshev.ChebyshevGauss
import Mathlib.Analysis.SpecialFunctions.Trigonometric.Chebyshev.RootsExtrema
import Mathlib.LinearAlgebra.Matrix.NonsingularInverse

/-!
# C77: `tanh` by Chebyshev polynomials: its coefficients, its accuracy, and the dimensions of its result
-/

namespace SyMPC.Chebyshev

open Polynomial.Chebyshev Finset

/-- the angle of the node of number `k` -/
noncomputable def angle (n k : Nat) : ℝ := ((k : ℝ) + 1 / 2) * Real.pi / n

theorem sum_cos {n : Nat} (hn : n ≠ 0) {k : ℤ} (hk : ¬(2 * n : ℤ) ∣ k) : ∑ l ∈ range n, Real.cos (k * angle n l) = 0 := by
  have h := sumZeroes_T_of_not_dvd hk
  unfold sumZeroes at h
  have hp : Real.pi / n ≠ 0 := div_ne_zero Real.pi_ne_zero (by exact_mod_cast hn)
  have h2 := (mul_eq_zero.mp h).resolve_left hp
  rw [← h2]
  refine sum_congr rfl fun l _ => ?_
  rw [T_real_cos]
  congr 2
  unfold angle
  field_simp

/-- the cosines at the nodes are orthogonal -/
theorem orthogonal {n i j : Nat} (hi : i < n) (hj : j < n) :
    ∑ k ∈ range n, Real.cos (i * angle n k) * Real.cos (j * angle n k)
      = if i = j then (if j = 0 then (n : ℝ) else n / 2) else 0 := by
  have hn : n ≠ 0 := by omega
  have e : ∀ k, Real.cos (i * angle n k) * Real.cos (j * angle n k)
      = (Real.cos (((i + j : ℤ) : ℝ) * angle n k) + Real.cos (((i - j : ℤ) : ℝ) * angle n k)) / 2 := by
    intro k
    push_cast
    rw [add_mul, sub_mul, Real.cos_add, Real.cos_sub]
    ring
  rw [sum_congr rfl fun k _ => e k, ← sum_div, sum_add_distrib]
  by_cases h : i = j
  · subst h
    rw [if_pos rfl]
    by_cases h0 : i = 0
    · subst h0
      simp
    · rw [if_neg h0, sum_cos hn (k := (i + i : ℤ)) (by
        intro hd
        have := Int.le_of_dvd (by omega) hd
        omega)]
      simp
  · rw [if_neg h, sum_cos hn (k := (i + j : ℤ)) (by
        intro hd
        have := Int.le_of_dvd (by omega) hd
        omega), sum_cos hn (k := (i - j : ℤ)) (by
        intro hd
        have := Int.eq_zero_of_abs_lt_dvd hd (by rw [abs_lt]; omega)
        omega)]
    simp

theorem series_eq (f : ℝ → ℝ) (w : ℝ) (n : Nat) : chebyshevSeries f w n = (List.range n).map fun (j : Nat) =>
    2 / n * ∑ k ∈ range n, f (w * Real.cos (angle n k)) * Real.cos (j * angle n k) := by
  unfold chebyshevSeries
  refine List.map_congr_left fun j _ => ?_
  congr 1
  rw [List.map_map, List.zipWith_map_left, List.zipWith_self, ← List.sum_toFinset _ List.nodup_range, List.toFinset_range]
  refine sum_congr rfl fun k _ => ?_
  simp only [Function.comp, angle]
  congr 2
  ring

/-- C77: `chebyshev_series` finds the coefficients of every combination of the first `terms` Chebyshev polynomials exactly, the first one
doubled. -/
theorem C77_coefficients (n : Nat) (w : ℝ) (hw : w ≠ 0) (d : Nat → ℝ) :
    chebyshevSeries (fun x => ∑ i ∈ range n, d i * (T ℝ i).eval (x / w)) w n
      = (List.range n).map fun j => if j = 0 then 2 * d 0 else d j := by
  rw [series_eq]
  refine List.map_congr_left fun j hj => ?_
  have hj : j < n := List.mem_range.mp hj
  have hn : (n : ℝ) ≠ 0 := by
    have : n ≠ 0 := by omega
    exact_mod_cast this
  have e : ∀ k, (∑ i ∈ range n, d i * (T ℝ i).eval (w * Real.cos (angle n k) / w)) * Real.cos (j * angle n k)
      = ∑ i ∈ range n, d i * (Real.cos (i * angle n k) * Real.cos (j * angle n k)) := by
    intro k
    rw [sum_mul]
    refine sum_congr rfl fun i _ => ?_
    rw [mul_div_cancel_left₀ _ hw, T_real_cos, mul_assoc]
    norm_cast
  rw [sum_congr rfl fun k _ => e k, sum_comm, sum_congr rfl fun i hi => by rw [← mul_sum, orthogonal (mem_range.mp hi) hj]]
  rw [sum_eq_single_of_mem j (mem_range.mpr hj) fun i _ hi => by rw [if_neg hi, mul_zero], if_pos rfl]
  by_cases h0 : j = 0
  · subst h0
    rw [if_pos rfl, if_pos rfl]
    field_simp
  · rw [if_neg h0, if_neg h0]
    field_simp

example : chebyshevSeries (fun x => ∑ i ∈ range 3, ![5, 7, -2] (Fin.ofNat 3 i) * (T ℝ i).eval (x / 4)) 4 3 = [10, 7, -2] := by
  rw [C77_coefficients 3 4 (by norm_num) fun i => ![5, 7, -2] (Fin.ofNat 3 i)]
  norm_num [List.range_succ, Fin.ofNat]

/-- C77: the Chebyshev sum with the coefficients of `chebyshev_series`, with half of the first one, agrees with the function at the
nodes. -/
theorem C77_interpolates (f : ℝ → ℝ) (w : ℝ) {n k : Nat} (hk : k < n) :
    (chebyshevSeries f w n).length = n ∧
    ∑ j ∈ range n, (chebyshevSeries f w n).getD j 0 * (T ℝ j).eval (Real.cos (((k : ℝ) + 1 / 2) * Real.pi / n))
      - (chebyshevSeries f w n).getD 0 0 / 2 = f (w * Real.cos (((k : ℝ) + 1 / 2) * Real.pi / n)) := by
  have hn : (n : ℝ) ≠ 0 := by
    have : n ≠ 0 := by omega
    exact_mod_cast this
  have get : ∀ j, j < n → (chebyshevSeries f w n).getD j 0
      = 2 / n * ∑ l ∈ range n, f (w * Real.cos (angle n l)) * Real.cos (j * angle n l) := by
    intro j hj
    rw [series_eq, List.getD_eq_getElem?_getD, List.getElem?_map, List.getElem?_range hj]
    rfl
  refine ⟨by rw [series_eq]; simp, ?_⟩
  -- the rows of the matrix of cosines are orthogonal as well
  let A : Matrix (Fin n) (Fin n) ℝ := fun j l => Real.cos (j * angle n l)
  let B : Matrix (Fin n) (Fin n) ℝ := fun l j => (if (j : Nat) = 0 then (1 : ℝ) / n else 2 / n) * Real.cos (j * angle n l)
  have hAB : A * B = 1 := by
    ext i j
    rw [Matrix.mul_apply]
    have e : ∀ l : Fin n, A i l * B l j = (if (j : Nat) = 0 then (1 : ℝ) / n else 2 / n)
        * (Real.cos (i * angle n l) * Real.cos (j * angle n l)) := fun l => by
      simp only [A, B]
      ring
    rw [sum_congr rfl fun l _ => e l, ← mul_sum,
      Fin.sum_univ_eq_sum_range (fun l => Real.cos (i * angle n l) * Real.cos (j * angle n l)) n, orthogonal i.2 j.2, Matrix.one_apply]
    by_cases h : i = j
    · subst h
      rw [if_pos rfl, if_pos rfl]
      split <;> field_simp
    · rw [if_neg h, if_neg fun hv => h (Fin.ext hv), mul_zero]
  have hBA : B * A = 1 := mul_eq_one_comm.mp hAB
  have row : ∀ l : Fin n, ∑ j : Fin n, B ⟨k, hk⟩ j * A j l = if (⟨k, hk⟩ : Fin n) = l then 1 else 0 := by
    intro l
    have := congrFun (congrFun hBA ⟨k, hk⟩) l
    rwa [Matrix.mul_apply, Matrix.one_apply] at this
  have lhs : ∑ j ∈ range n, (chebyshevSeries f w n).getD j 0 * (T ℝ j).eval (Real.cos (((k : ℝ) + 1 / 2) * Real.pi / n))
      - (chebyshevSeries f w n).getD 0 0 / 2
      = ∑ j : Fin n, ∑ l : Fin n, f (w * Real.cos (angle n l)) * (B ⟨k, hk⟩ j * A j l) := by
    have c0 : (chebyshevSeries f w n).getD 0 0 / 2 = ∑ j ∈ range n, if j = 0 then (chebyshevSeries f w n).getD 0 0 / 2 else 0 := by
      rw [sum_ite_eq' (range n) 0, if_pos (mem_range.mpr (by omega))]
    rw [c0, ← sum_sub_distrib, ← Fin.sum_univ_eq_sum_range (fun j => (chebyshevSeries f w n).getD j 0 *
      (T ℝ j).eval (Real.cos (((k : ℝ) + 1 / 2) * Real.pi / n)) - if j = 0 then (chebyshevSeries f w n).getD 0 0 / 2 else 0) n]
    refine sum_congr rfl fun j _ => ?_
    have hT : (T ℝ ((j : Nat) : ℤ)).eval (Real.cos (((k : ℝ) + 1 / 2) * Real.pi / n)) = Real.cos (j * angle n k) := by
      rw [T_real_cos]
      norm_cast
    have hs : ∑ l : Fin n, f (w * Real.cos (angle n l)) * (B ⟨k, hk⟩ j * A j l)
        = (if (j : Nat) = 0 then (1 : ℝ) / n else 2 / n) * Real.cos (j * angle n k) *
          ∑ l ∈ range n, f (w * Real.cos (angle n l)) * Real.cos (j * angle n l) := by
      rw [mul_sum, ← Fin.sum_univ_eq_sum_range (fun l => (if (j : Nat) = 0 then (1 : ℝ) / n else 2 / n) * Real.cos (j * angle n k) *
        (f (w * Real.cos (angle n l)) * Real.cos (j * angle n l))) n]
      refine sum_congr rfl fun l _ => ?_
      simp only [A, B]
      ring
    rw [hT, hs, get j j.2]
    by_cases h0 : (j : Nat) = 0
    · rw [if_pos h0, if_pos h0, get 0 (by omega), h0]
      simp
      ring
    · rw [if_neg h0, if_neg h0]
      ring
  rw [lhs, sum_comm, sum_congr rfl fun l _ => by rw [← mul_sum, row l]]
  simp [angle]

example : ∃ k : Nat, k < 10 := ⟨3, by norm_num⟩

/-! ## Accuracy -/

/-- the coefficient of number `j` of `tanh` -/
noncomputable def coeff (f : ℝ → ℝ) (j : Nat) : ℝ := 2 / 10 * ∑ k ∈ range 10, f (Real.cos (angle 10 k)) * Real.cos (j * angle 10 k)

theorem tanhCoeffs_eq : tanhCoeffs = [coeff Real.tanh 1, coeff Real.tanh 3, coeff Real.tanh 5, coeff Real.tanh 7, coeff Real.tanh 9] := by
  unfold tanhCoeffs
  rw [series_eq]
  have h : List.range 10 = [0, 1, 2, 3, 4, 5, 6, 7, 8, 9] := rfl
  rw [h]
  simp only [List.map_cons, List.map_nil, everySecond, one_mul, coeff]
  norm_num

theorem evals (x : ℝ) : (T ℝ 1).eval x = x ∧ (T ℝ 3).eval x = 4 * x ^ 3 - 3 * x ∧
    (T ℝ 5).eval x = 16 * x ^ 5 - 20 * x ^ 3 + 5 * x ∧ (T ℝ 7).eval x = 64 * x ^ 7 - 112 * x ^ 5 + 56 * x ^ 3 - 7 * x ∧
    (T ℝ 9).eval x = 256 * x ^ 9 - 576 * x ^ 7 + 432 * x ^ 5 - 120 * x ^ 3 + 9 * x := by
  have h1 : (T ℝ 1).eval x = x := by simp
  have hm : (T ℝ (-1)).eval x = x := by simp
  have h3 := chebyshev_step (F := ℝ) x (-1)
  have h5 := chebyshev_step (F := ℝ) x 1
  have h7 := chebyshev_step (F := ℝ) x 3
  have h9 := chebyshev_step (F := ℝ) x 5
  norm_num only at h3 h5 h7 h9
  rw [hm, h1] at h3
  rw [h1, h3] at h5
  rw [h3, h5] at h7
  rw [h5, h7] at h9
  refine ⟨h1, ?_, ?_, ?_, ?_⟩
  · rw [h3]; ring
  · rw [h5]; ring
  · rw [h7]; ring
  · rw [h9]; ring

/-- the coefficients of `q` -/
noncomputable def qCoeff (j : Nat) : ℝ :=
  if j = 1 then 4999691 / 5000000 - 1661279 / 5000000 * (3 / 4) + 1277761 / 10000000 * (10 / 16) - 413779 / 10000000 * (35 / 64)
    + 75131 / 10000000 * (126 / 256)
  else if j = 3 then -(1661279 / 5000000 * (1 / 4)) + 1277761 / 10000000 * (5 / 16) - 413779 / 10000000 * (21 / 64)
    + 75131 / 10000000 * (84 / 256)
  else if j = 5 then 1277761 / 10000000 * (1 / 16) - 413779 / 10000000 * (7 / 64) + 75131 / 10000000 * (36 / 256)
  else if j = 7 then -(413779 / 10000000 * (1 / 64)) + 75131 / 10000000 * (9 / 256)
  else if j = 9 then 75131 / 10000000 * (1 / 256)
  else 0

theorem q_sum (x : ℝ) : ∑ i ∈ range 10, qCoeff i * (T ℝ i).eval x = q x := by
  obtain ⟨h1, h3, h5, h7, h9⟩ := evals x
  simp only [sum_range_succ, range_zero, sum_empty]
  simp only [qCoeff]
  norm_num [h1, h3, h5, h7, h9]
  unfold q
  ring

theorem coeff_q {j : Nat} (hj : j < 10) (h0 : j ≠ 0) : coeff q j = qCoeff j := by
  have h := C77_coefficients 10 1 one_ne_zero qCoeff
  have e : (fun x => ∑ i ∈ range 10, qCoeff i * (T ℝ i).eval (x / 1)) = q := by
    funext x
    rw [div_one, q_sum]
  rw [e, series_eq] at h
  have := congrArg (fun l => l[j]?) h
  simp only [List.getElem?_map, List.getElem?_range hj, Option.map_some, Option.some.injEq, if_neg h0, one_mul] at this
  rw [← this]
  norm_num [coeff]

theorem coeff_close (j : Nat) : |coeff Real.tanh j - coeff q j| ≤ 162 / 10 ^ 6 := by
  have e : coeff Real.tanh j - coeff q j
      = 2 / 10 * ∑ k ∈ range 10, (Real.tanh (Real.cos (angle 10 k)) - q (Real.cos (angle 10 k))) * Real.cos (j * angle 10 k) := by
    unfold coeff
    rw [← mul_sub, ← sum_sub_distrib]
    congr 1
    exact sum_congr rfl fun k _ => by ring
  rw [e, abs_mul]
  have hs : |∑ k ∈ range 10, (Real.tanh (Real.cos (angle 10 k)) - q (Real.cos (angle 10 k))) * Real.cos (j * angle 10 k)|
      ≤ ∑ k ∈ range 10, (81 / 10 ^ 6 : ℝ) := by
    refine (abs_sum_le_sum_abs _ _).trans (sum_le_sum fun k _ => ?_)
    rw [abs_mul, abs_sub_comm]
    calc _ ≤ 81 / 10 ^ 6 * (1 : ℝ) := mul_le_mul (q_close (Real.abs_cos_le_one _)) (Real.abs_cos_le_one _) (abs_nonneg _) (by norm_num)
      _ = _ := mul_one _
  rw [sum_const, card_range] at hs
  norm_num at hs ⊢
  linarith

theorem tanhSum_close {a : ℝ} (ha : |a| ≤ 1) : |tanhSum tanhCoeffs a - Real.tanh a| ≤ 1 / 1000 := by
  obtain ⟨h1, h3, h5, h7, h9⟩ := evals a
  have hr : List.range 5 = [0, 1, 2, 3, 4] := rfl
  have e : tanhSum tanhCoeffs a = (T ℝ 1).eval a * coeff Real.tanh 1 + ((T ℝ 3).eval a * coeff Real.tanh 3 + ((T ℝ 5).eval a *
      coeff Real.tanh 5 + ((T ℝ 7).eval a * coeff Real.tanh 7 + (T ℝ 9).eval a * coeff Real.tanh 9))) := by
    unfold tanhSum
    rw [tanhCoeffs_eq, hr]
    simp only [List.zipWith_cons_cons, List.sum_cons, List.zipWith_nil_left, List.sum_nil]
    norm_num
  have eq : q a = (T ℝ 1).eval a * coeff q 1 + ((T ℝ 3).eval a * coeff q 3 + ((T ℝ 5).eval a *
      coeff q 5 + ((T ℝ 7).eval a * coeff q 7 + (T ℝ 9).eval a * coeff q 9))) := by
    rw [coeff_q (by norm_num) (by norm_num), coeff_q (by norm_num) (by norm_num), coeff_q (by norm_num) (by norm_num),
      coeff_q (by norm_num) (by norm_num), coeff_q (by norm_num) (by norm_num), h1, h3, h5, h7, h9]
    unfold q qCoeff
    norm_num
    ring
  have term : ∀ m : Nat, |(T ℝ m).eval a * coeff Real.tanh m - (T ℝ m).eval a * coeff q m| ≤ 162 / 10 ^ 6 := by
    intro m
    rw [← mul_sub, abs_mul]
    calc _ ≤ 1 * (162 / 10 ^ 6 : ℝ) := mul_le_mul (abs_eval_T_real_le_one _ ha) (coeff_close m) (abs_nonneg _) zero_le_one
      _ = _ := one_mul _
  have t1 := abs_le.mp (term 1)
  have t3 := abs_le.mp (term 3)
  have t5 := abs_le.mp (term 5)
  have t7 := abs_le.mp (term 7)
  have t9 := abs_le.mp (term 9)
  have tq := abs_le.mp (q_close ha)
  rw [eq] at tq
  rw [e, abs_le]
  norm_num only [Nat.cast_ofNat, Nat.cast_one] at *
  constructor <;> linarith

theorem tanh_abs_le_one (a : ℝ) : -1 ≤ Real.tanh a ∧ Real.tanh a ≤ 1 := by
  have hc := Real.cosh_pos a
  rw [Real.tanh_eq_sinh_div_cosh, le_div_iff₀ hc, div_le_iff₀ hc, Real.sinh_eq, Real.cosh_eq]
  have := Real.exp_pos a
  have := Real.exp_pos (-a)
  constructor <;> linarith

/-- C77: for inputs between -1 and 1, `tanh` with `method="chebyshev"` is within 0.001 of the hyperbolic tangent (exact operators);
for all inputs it is between -1 and 1. -/
theorem C77_tanh_accuracy {n : Nat} (x : Fin n → ℝ) :
    ∃ z, tanhChebyshev (exactOps ℝ) tanhCoeffs x = .ok z ∧ ∀ i, -1 ≤ z i ∧ z i ≤ 1 ∧ (|x i| ≤ 1 → |z i - Real.tanh (x i)| ≤ 1 / 1000) := by
  refine ⟨_, C53_tanh_chebyshev tanhCoeffs (by rw [tanhCoeffs_eq]; simp) x, fun i => ⟨le_max_left .., ?_, fun hx => ?_⟩⟩
  · exact max_le (by norm_num) (min_le_right ..)
  · have h := abs_le.mp (tanhSum_close hx)
    have ht := tanh_abs_le_one (x i)
    rw [abs_le]
    constructor
    · rcases le_total (tanhSum tanhCoeffs (x i)) 1 with h1 | h1
      · rw [min_eq_left h1]
        have := le_max_right (-1) (tanhSum tanhCoeffs (x i))
        linarith
      · rw [min_eq_right h1]
        have := le_max_right (-1 : ℝ) 1
        linarith
    · have : max (-1) (min (tanhSum tanhCoeffs (x i)) 1) ≤ Real.tanh (x i) + 1 / 1000 :=
        max_le (by linarith) ((min_le_left ..).trans (by linarith))
      linarith

/-- C77: for inputs between -2 and 2, `sigmoid` with `method="chebyshev"` is within 0.0005 of the logistic function. -/
theorem C77_sigmoid_accuracy {n : Nat} (x : Fin n → ℝ) (hx : ∀ i, |x i| ≤ 2) :
    ∃ z, sigmoidChebyshev (exactOps ℝ) tanhCoeffs x = .ok z ∧ ∀ i, |z i - 1 / (1 + Real.exp (-x i))| ≤ 1 / 2000 := by
  have hd : ∀ y : Fin n → ℝ, (exactOps ℝ).divP y 2 = .ok fun i => y i / 2 := fun y => by simp [exactOps]
  obtain ⟨t, h1, h2⟩ := C77_tanh_accuracy fun i => x i / 2
  refine ⟨fun i => t i / 2 + 1 / 2, ?_, fun i => ?_⟩
  · unfold sigmoidChebyshev
    rw [hd, ok_bind, h1, ok_bind, hd, ok_bind]
    rfl
  · have h := (h2 i).2.2 (by rw [abs_div, abs_two]; linarith [hx i])
    have e : 1 / (1 + Real.exp (-x i)) = Real.tanh (x i / 2) / 2 + 1 / 2 := by
      rw [Real.tanh_eq_sinh_div_cosh, Real.sinh_eq, Real.cosh_eq]
      have hx2 : Real.exp (-x i) = Real.exp (-(x i / 2)) / Real.exp (x i / 2) := by
        rw [← Real.exp_sub]
        congr 1
        ring
      rw [hx2]
      have := Real.exp_pos (x i / 2)
      have := Real.exp_pos (-(x i / 2))
      field_simp
      ring
    rw [e]
    rw [abs_le] at h ⊢
    constructor <;> linarith

example : ∀ i, |(![-2, 0, 3 / 2] : Fin 3 → ℝ) i| ≤ 2 := by
  intro i
  fin_cases i <;> norm_num [abs_le]

/-! ## Dimensions -/

open Tensor Shape

/-- a tensor of shape `s` whose elements are the Chebyshev polynomial of degree `2 j + 1` at the elements of `x` -/
def IsT (x : Tensor ℝ) (j : Nat) (p : Tensor ℝ) : Prop :=
  p.shape = x.shape ∧ ∀ o, ValidIdx x.shape o → p.at_ o = (T ℝ ((2 * j + 1 : Nat) : ℤ)).eval (x.at_ o)

theorem polyLoop_spec (x y : Tensor ℝ) (hy : y.shape = x.shape ∧ ∀ o, ValidIdx x.shape o → y.at_ o = 4 * x.at_ o * x.at_ o - 2) (k j : Nat)
    (p0 p1 : Tensor ℝ) (h0 : IsT x j p0) (h1 : IsT x (j + 1) p1) :
    ∃ l, polyLoop y k p0 p1 = .ok l ∧ l.length = k ∧ ∀ t, ∀ p ∈ l[t]?, IsT x (j + 2 + t) p := by
  induction k generalizing j p0 p1 with
  | zero => exact ⟨[], rfl, rfl, by simp⟩
  | succ k ih =>
    obtain ⟨a, ha, ha1, ha2⟩ := Grad.zip_same (· * ·) y p1 (by rw [h1.1, hy.1])
    obtain ⟨b, hb, hb1, hb2⟩ := Grad.zip_same (· - ·) a p0 (by rw [h0.1, ha1, hy.1])
    have hbT : IsT x (j + 2) b := by
      refine ⟨by rw [hb1, ha1, hy.1], fun o ho => ?_⟩
      have ho' : ValidIdx y.shape o := by rw [hy.1]; exact ho
      rw [hb2 o (by rw [ha1]; exact ho'), ha2 o ho', hy.2 o ho, h0.2 o ho, h1.2 o ho]
      have := chebyshev_step (x.at_ o) ((2 * j + 1 : Nat) : ℤ)
      have e4 : (((2 * j + 1 : Nat) : ℤ) + 4) = ((2 * (j + 2) + 1 : Nat) : ℤ) := by push_cast; ring
      have e2 : (((2 * j + 1 : Nat) : ℤ) + 2) = ((2 * (j + 1) + 1 : Nat) : ℤ) := by push_cast; ring
      rw [e4, e2] at this
      exact this.symm
    obtain ⟨l, hl, hl1, hl2⟩ := ih (j + 1) p1 b h1 hbT
    refine ⟨b :: l, ?_, by rw [List.length_cons, hl1], fun t p hp => ?_⟩
    · unfold polyLoop
      rw [ha, ok_bind, hb, ok_bind, hl, ok_bind]
      rfl
    · cases t with
      | zero =>
        obtain rfl : b = p := by simpa using hp
        exact hbT
      | succ t =>
        have := hl2 t p (by simpa using hp)
        rwa [show j + 1 + 2 + t = j + 2 + (t + 1) by omega] at this

theorem polynomials_spec (x : Tensor ℝ) : ∃ p, polynomials x 10 = .ok p ∧ p.shape = 5 :: x.shape ∧
    ∀ j < 5, ∀ o, ValidIdx x.shape o → p.at_ (j :: o) = (T ℝ ((2 * j + 1 : Nat) : ℤ)).eval (x.at_ o) := by
  obtain ⟨a, ha, ha1, ha2⟩ := Grad.zip_same (· * ·) (⟨x.shape, fun i => 4 * x.at_ i⟩ : Tensor ℝ) x rfl
  have hy : a.shape = x.shape ∧ ∀ o, ValidIdx x.shape o → a.at_ o - 2 = 4 * x.at_ o * x.at_ o - 2 :=
    ⟨ha1, fun o ho => by rw [ha2 o ho]⟩
  obtain ⟨b, hb, hb1, hb2⟩ := Grad.zip_same (· * ·) (⟨a.shape, fun i => a.at_ i - 2 - 1⟩ : Tensor ℝ) x ha1.symm
  have h0 : IsT x 0 x := ⟨rfl, fun o _ => by simp⟩
  have h1 : IsT x 1 b := by
    refine ⟨hb1.trans ha1, fun o ho => ?_⟩
    rw [hb2 o (ha1 ▸ ho)]
    dsimp only
    rw [hy.2 o ho]
    have := (evals (x.at_ o)).2.1
    norm_num at this ⊢
    rw [this]
    ring
  obtain ⟨l, hl, hl1, hl2⟩ := polyLoop_spec x ⟨a.shape, fun i => a.at_ i - 2⟩ hy (10 / 2 - 2) 0 x b h0 h1
  have hall : ∀ t, ∀ p ∈ (x :: b :: l)[t]?, IsT x t p := by
    intro t p hp
    match t with
    | 0 =>
      obtain rfl : x = p := by simpa using hp
      exact h0
    | 1 =>
      obtain rfl : b = p := by simpa using hp
      exact h1
    | t + 2 =>
      have := hl2 t p (by simpa using hp)
      rwa [show 0 + 2 + t = t + 2 by omega] at this
  have hs : (x :: b :: l).all (fun u => u.shape = x.shape) = true := by
    rw [List.all_eq_true]
    intro u hu
    obtain ⟨t, ht⟩ := List.mem_iff_getElem?.mp hu
    exact decide_eq_true (hall t u ht).1
  have hlen : (x :: b :: l).length = 5 := by rw [List.length_cons, List.length_cons, hl1]
  unfold polynomials
  rw [if_neg (by decide)]
  dsimp only
  rw [ha, ok_bind, hb, ok_bind, hl, ok_bind]
  unfold stack
  dsimp only
  rw [if_neg (by simp), if_pos hs]
  refine ⟨_, rfl, by rw [hlen]; rfl, fun j hj o ho => ?_⟩
  dsimp only
  obtain ⟨u, hu⟩ : ∃ u, (x :: b :: l)[j]? = some u := ⟨_, List.getElem?_eq_getElem (by omega)⟩
  rw [show (j :: o).getD 0 0 = j from rfl, hu]
  exact (hall j u hu).2 o ho

theorem relu_clamp (v : ℝ) : relu (v - -1) - relu (v - 1) + -1 = max (-1) (min v 1) := by
  unfold relu
  rcases le_total v (-1) with h1 | h1
  · rcases h1.eq_or_lt with rfl | h1
    · norm_num
    · rw [if_neg (by linarith), if_neg (by linarith), min_eq_left (by linarith), max_eq_left h1.le]
      ring
  · rw [if_pos (by linarith)]
    rcases lt_or_ge v 1 with h2 | h2
    · rw [if_neg (by linarith), min_eq_left h2.le, max_eq_right h1]
      ring
    · rw [if_pos (by linarith), min_eq_right h2, max_eq_right (by norm_num)]
      ring

theorem tanhTensor_eq (x : Tensor ℝ) : ∃ z, tanhTensor x = .ok z ∧ z.shape = x.shape.reverse ∧
    ∀ o, ValidIdx x.shape o → z.at_ o.reverse = max (-1) (min (tanhSum tanhCoeffs (x.at_ o)) 1) := by
  obtain ⟨p, hp, hp1, hp2⟩ := polynomials_spec x
  have hc : tanhCoeffs.length = 5 := by rw [tanhCoeffs_eq]; rfl
  unfold tanhTensor
  rw [hp, ok_bind]
  have hn : normDim (p.shape.length + 1) (-1) = .ok p.shape.length := by
    unfold normDim
    dsimp only
    rw [if_neg (by omega), if_pos ⟨by omega, by omega⟩]
    congr 1
    omega
  have h1 : (Method.unsqueeze (-1)).run p = .ok ⟨p.shape ++ [1], fun o => p.at_ (o.eraseIdx p.shape.length)⟩ := by
    unfold Method.run Method.plan
    dsimp only
    rw [hn, ok_bind]
    simp [pure_eq_ok, ok_bind]
  rw [h1, ok_bind]
  have h2 : Method.T.run (⟨p.shape ++ [1], fun o => p.at_ (o.eraseIdx p.shape.length)⟩ : Tensor ℝ)
      = .ok ⟨1 :: p.shape.reverse, fun o => p.at_ (o.reverse.eraseIdx p.shape.length)⟩ := by
    unfold Method.run Method.plan
    simp [pure_eq_ok, ok_bind]
  rw [h2, ok_bind]
  have h3 : squeezeDim 0 (⟨1 :: p.shape.reverse, fun o => p.at_ (o.reverse.eraseIdx p.shape.length)⟩ : Tensor ℝ)
      = .ok ⟨p.shape.reverse, fun o => p.at_ ((0 :: o).reverse.eraseIdx p.shape.length)⟩ := by
    simp [squeezeDim]
  rw [h3, ok_bind]
  have h4 : matmulVec (⟨p.shape.reverse, fun o => p.at_ ((0 :: o).reverse.eraseIdx p.shape.length)⟩ : Tensor ℝ) tanhCoeffs
      = .ok ⟨x.shape.reverse, fun i => ((List.range 5).map fun l =>
          p.at_ ((0 :: (i ++ [l])).reverse.eraseIdx p.shape.length) * tanhCoeffs.getD l 0).sum⟩ := by
    unfold matmulVec
    dsimp only
    rw [if_pos (by rw [hp1, hc]; simp), hp1]
    simp [hc]
  rw [h4, ok_bind]
  refine ⟨_, rfl, rfl, fun o ho => ?_⟩
  have hol : o.length = x.shape.length := ((valid_iff _ _).mp ho).length_eq.symm
  have hidx : ∀ l, (0 :: (o.reverse ++ [l])).reverse.eraseIdx p.shape.length = l :: o := by
    intro l
    have : p.shape.length = (l :: o).length := by rw [hp1, List.length_cons, List.length_cons, hol]
    rw [List.reverse_cons, List.reverse_append, List.reverse_reverse, List.reverse_singleton, this]
    change ((l :: o) ++ [0]).eraseIdx _ = _
    rw [List.eraseIdx_append_of_length_le le_rfl]
    simp
  unfold hardtanh
  dsimp only
  rw [relu_clamp]
  congr 2
  have hr : List.range 5 = [0, 1, 2, 3, 4] := rfl
  unfold tanhSum
  simp only [hidx]
  rw [hr, tanhCoeffs_eq]
  simp only [List.map_cons, List.map_nil, List.zipWith_cons_cons, List.zipWith_nil_left]
  rw [hp2 0 (by decide) o ho, hp2 1 (by decide) o ho, hp2 2 (by decide) o ho, hp2 3 (by decide) o ho, hp2 4 (by decide) o ho]
  rfl

theorem clamp_close {v t e : ℝ} (ht : -1 ≤ t ∧ t ≤ 1) (he : 0 ≤ e) (h : |v - t| ≤ e) : |max (-1) (min v 1) - t| ≤ e := by
  have h := abs_le.mp h
  rw [abs_le]
  constructor
  · have h1 : min v 1 ≤ max (-1) (min v 1) := le_max_right ..
    have h2 : t - e ≤ min v 1 := le_min (by linarith) (by linarith)
    linarith
  · have : max (-1) (min v 1) ≤ t + e := max_le (by linarith) ((min_le_left ..).trans (by linarith))
    linarith

/-- C77: `tanh` with `method="chebyshev"` of a number or of a vector has its shape, and each element between -1 and 1 is mapped to its
hyperbolic tangent, up to 0.001.  Missing: tensors with more dimensions, for which this is false (`C77_transposed`). -/
theorem C77_tensor_partial (x : Tensor ℝ) (hd : x.shape.length ≤ 1) : ∃ z, tanhTensor x = .ok z ∧ z.shape = x.shape ∧
    ∀ o, ValidIdx x.shape o → |x.at_ o| ≤ 1 → |z.at_ o - Real.tanh (x.at_ o)| ≤ 1 / 1000 := by
  obtain ⟨z, h1, h2, h3⟩ := tanhTensor_eq x
  have rev : ∀ l : List Nat, l.length ≤ 1 → l.reverse = l := by
    intro l hl
    match l with
    | [] => rfl
    | [a] => rfl
    | _ :: _ :: _ => simp at hl
  refine ⟨z, h1, by rw [h2, rev _ hd], fun o ho hx => ?_⟩
  have hol : o.length = x.shape.length := ((valid_iff _ _).mp ho).length_eq.symm
  have := h3 o ho
  rw [rev o (by omega)] at this
  rw [this]
  exact clamp_close (tanh_abs_le_one _) (by norm_num) (tanhSum_close hx)

example : (⟨[3], fun o => (o.getD 0 0 : ℝ) / 4⟩ : Tensor ℝ).shape.length ≤ 1 := by decide

/-- C77 (the code violates the claim for more dimensions): the dimensions of the result are those of the argument in reverse order, and
the element at a position is the one of the reversed position.  So a matrix is transposed: its shape changes unless it is square, and
with an element 1 above the diagonal of a 2 x 2 matrix of zeros, the result has about 0 there and about `tanh 1` below. -/
theorem C77_transposed :
    (∀ x : Tensor ℝ, ∃ z, tanhTensor x = .ok z ∧ z.shape = x.shape.reverse ∧
      ∀ o, ValidIdx x.shape o → |x.at_ o| ≤ 1 → |z.at_ o.reverse - Real.tanh (x.at_ o)| ≤ 1 / 1000) ∧
    (∀ f, ∃ z, tanhTensor ⟨[2, 3], f⟩ = .ok z ∧ z.shape = [3, 2]) ∧
    ∃ z, tanhTensor ⟨[2, 2], fun o => if o = [0, 1] then 1 else 0⟩ = .ok z ∧ |z.at_ [0, 1]| ≤ 1 / 1000 ∧
      |z.at_ [1, 0] - Real.tanh 1| ≤ 1 / 1000 := by
  have key : ∀ x : Tensor ℝ, ∃ z, tanhTensor x = .ok z ∧ z.shape = x.shape.reverse ∧
      ∀ o, ValidIdx x.shape o → |x.at_ o| ≤ 1 → |z.at_ o.reverse - Real.tanh (x.at_ o)| ≤ 1 / 1000 := by
    intro x
    obtain ⟨z, h1, h2, h3⟩ := tanhTensor_eq x
    refine ⟨z, h1, h2, fun o ho hx => ?_⟩
    rw [h3 o ho]
    exact clamp_close (tanh_abs_le_one _) (by norm_num) (tanhSum_close hx)
  refine ⟨key, fun f => ?_, ?_⟩
  · obtain ⟨z, h1, h2, -⟩ := key ⟨[2, 3], f⟩
    exact ⟨z, h1, h2⟩
  · obtain ⟨z, h1, -, h3⟩ := key ⟨[2, 2], fun o => if o = [0, 1] then 1 else 0⟩
    refine ⟨z, h1, ?_, ?_⟩
    · have := h3 [1, 0] (by simp [ValidIdx]) (by norm_num)
      norm_num at this ⊢
      exact this
    · have := h3 [0, 1] (by simp [ValidIdx]) (by norm_num)
      norm_num at this ⊢
      exact this

end SyMPC.Chebyshev
