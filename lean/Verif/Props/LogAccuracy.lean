import Verif.Lemmas.LogRange
import Verif.Props.Softmax

/-!
# C52, C51, C62: how good the logarithm, the reciprocal by the logarithm and log_softmax are
-/

namespace SyMPC

open LogRange

variable {n : Nat}

/-- C52: for `1/100 ≤ x ≤ 100` the logarithm with its default parameters is off by at most `1/20`, and it is an inverse of the
exponential of the library up to one percent: `x·exp(-log x)` is within `1/100` of 1. -/
theorem C52_log_accuracy (x : Fin n → ℝ) :
    ∃ y, logS (exactOps ℝ) x 2 8 = .ok y ∧ ∀ i, 1 / 100 ≤ x i → x i ≤ 100 →
      |y i - Real.log (x i)| ≤ 1 / 20 ∧ |1 - x i * expValue 8 (-(y i))| ≤ 1 / 100 :=
  ⟨_, C52_log x 2 8, fun i h1 h2 => second_step (x i) _ (first_step (x i) h1 h2)⟩

example : ∃ y, logS (exactOps ℝ) (fun _ : Fin 1 => 30) 2 8 = .ok y ∧ |y 0 - Real.log 30| ≤ 1 / 20 := by
  obtain ⟨y, h, hy⟩ := C52_log_accuracy (fun _ : Fin 1 => 30)
  exact ⟨y, h, (hy 0 (by norm_num) (by norm_num)).1⟩

section
variable {F : Type} [Field F] [LinearOrder F] [IsStrictOrderedRing F]

/-- C51: with exact operators the method "log" computes `sign(x)·exp(-log |x|)` with the logarithm and the exponential of the
library, whatever the number of iterations asked for. -/
theorem C51_reciprocal_log (x : Fin n → F) (k : Nat) :
    reciprocalS (exactOps F) x .log k = .ok fun i =>
      expValue 8 (-((logNext (expValue 8) |x i|)^[2] (logStart (expValue 8) |x i|))) * sgn (x i) := by
  unfold reciprocalS
  dsimp only
  rw [modulusS_exact, ok_bind, C52_log, ok_bind]
  change (expS (exactOps F) (fun i => (logNext (expValue 8) |x i|)^[2] (logStart (expValue 8) |x i|) * -1) 8 >>= _) = _
  rw [C52_exp, ok_bind, signS_exact, ok_bind]
  change Except.ok _ = _
  congr 1
  funext i
  dsimp only
  rw [mul_neg_one]

end

/-- C51: for `1/100 ≤ |x| ≤ 100` the method "log" is off by at most one percent; the reciprocal of 0 is 0 without an exception. -/
theorem C51_reciprocal_log_accuracy (x : Fin n → ℝ) (k : Nat) :
    ∃ r, reciprocalS (exactOps ℝ) x .log k = .ok r ∧
      (∀ i, 1 / 100 ≤ |x i| → |x i| ≤ 100 → |r i - 1 / x i| ≤ |1 / x i| / 100) ∧ ∀ i, x i = 0 → r i = 0 := by
  refine ⟨_, C51_reciprocal_log x k, fun i h1 h2 => ?_, fun i h => by simp [h, sgn_zero]⟩
  have hx : x i ≠ 0 := by
    intro h
    rw [h, abs_zero] at h1
    norm_num at h1
  have h := (second_step |x i| _ (first_step |x i| h1 h2)).2
  change |1 - |x i| * expValue 8 (-((logNext (expValue 8) |x i|)^[2] (logStart (expValue 8) |x i|)))| ≤ 1 / 100 at h
  set e := expValue 8 (-((logNext (expValue 8) |x i|)^[2] (logStart (expValue 8) |x i|)))
  have key : e * sgn (x i) - 1 / x i = -(1 / x i * (1 - |x i| * e)) := by
    rw [← sgn_mul_self]
    field_simp
    ring
  rw [key, abs_neg, abs_mul, div_eq_mul_one_div _ (100 : ℝ)]
  exact mul_le_mul_of_nonneg_left h (abs_nonneg _)

example : ∃ r, reciprocalS (exactOps ℝ) (fun _ : Fin 1 => -4) .log 10 = .ok r ∧ |r 0 + 1 / 4| ≤ 1 / 400 := by
  obtain ⟨r, hr, h, -⟩ := C51_reciprocal_log_accuracy (fun _ : Fin 1 => -4) 10
  have h' := h 0 (by norm_num [abs_of_neg]) (by norm_num [abs_of_neg])
  refine ⟨r, hr, ?_⟩
  have e : |(1 : ℝ) / -4| / 100 = 1 / 400 := by rw [abs_of_neg] <;> norm_num
  have e' : r 0 - 1 / -4 = r 0 + 1 / 4 := by norm_num
  rw [e, e'] at h'
  exact h'

/-! ## log_softmax -/

/-- the exponential of the library is at most `1/400` below the exponential for `-256 ≤ t ≤ 0` -/
theorem exp_gap (t : ℝ) (h0 : t ≤ 0) (h256 : -256 ≤ t) : expValue 8 t ≤ Real.exp t ∧ Real.exp t ≤ expValue 8 t + 1 / 400 := by
  obtain ⟨h1, h2⟩ := C52_exp_error 8 t (by rw [abs_le]; constructor <;> norm_num <;> linarith)
  refine ⟨h2, ?_⟩
  have e1 := Real.add_one_le_exp (-t / 2 - 1)
  have e2 : Real.exp (-t / 2 - 1) * Real.exp (-t / 2 - 1) * Real.exp t = Real.exp (-2) := by
    rw [← Real.exp_add, ← Real.exp_add]
    congr 1
    ring
  have e3 : Real.exp (-2) ≤ 136 / 1000 := by
    have h5 : Real.exp (-2) = Real.exp (-1) * Real.exp (-1) := by rw [← Real.exp_add]; norm_num
    have h6 := Real.exp_neg_one_lt_d9
    have h7 := Real.exp_nonneg (-1)
    rw [h5]
    nlinarith
  have e4 : (-t / 2) * (-t / 2) * Real.exp t ≤ Real.exp (-2) := by
    rw [← e2]
    refine mul_le_mul_of_nonneg_right (mul_le_mul ?_ ?_ (by linarith) (Real.exp_nonneg _)) (Real.exp_nonneg _) <;> linarith
  norm_num at h1
  nlinarith

/-- C62: for fibres of at most 100 elements with one maximum each and all elements within 256 of it, every value of `log_softmax` is
the logarithm of the softmax up to `1/20`, plus `1/400` for every further element of the fibre.  Longer fibres are left out, and
inputs with ties, where the claim is false. -/
theorem C62_log_softmax_accuracy_partial (L : Layout n) (zeros : Py (Fin n → ℝ)) (hz : zeros = .ok fun _ => 0) (x : Fin n → ℝ)
    (hl : L.len ≤ 100) (top : Fin L.rows → Fin L.len) (htop : ∀ r j, j ≠ top r → x (L.pos r j) < x (L.pos r (top r)))
    (h256 : ∀ r j, x (L.pos r (top r)) - x (L.pos r j) ≤ 256) :
    ∃ s, logSoftmaxS (exactOps ℝ) L zeros x = .ok s ∧
      ∀ i, |s i - Real.log (Real.exp (x i) / ∑ j, Real.exp (x (L.pos (L.row i) j)))| ≤ 1 / 20 + (L.len - 1) / 400 := by
  obtain ⟨s, hs, hd, hone, hmany⟩ := C62_log_softmax_partial L zeros hz x top htop
  refine ⟨s, hs, fun i => ?_⟩
  obtain ⟨c, hc⟩ : ∃ c, L.pos (L.row i) c = i := ⟨_, L.pos_row_col i⟩
  set r := L.row i with hr
  set M := x (L.pos r (top r)) with hM
  have hle : ∀ j, x (L.pos r j) ≤ M := by
    intro j
    by_cases h : j = top r
    · rw [hM, h]
    · exact (htop r j h).le
  set D := ∑ j, expValue 8 (x (L.pos r j) - M) with hD
  set S := ∑ j, Real.exp (x (L.pos r j) - M) with hS
  have hterm : ∀ j, expValue 8 (x (L.pos r j) - M) ≤ Real.exp (x (L.pos r j) - M) ∧
      Real.exp (x (L.pos r j) - M) ≤ expValue 8 (x (L.pos r j) - M) + 1 / 400 :=
    fun j => exp_gap _ (by linarith [hle j]) (by linarith [h256 r j])
  have htopterm : expValue 8 (x (L.pos r (top r)) - M) = 1 := by rw [← hM]; simp [expValue]
  have hD1 : 1 ≤ D := by
    have := Finset.single_le_sum (f := fun j => expValue 8 (x (L.pos r j) - M)) (fun j _ => exp_nonneg _) (Finset.mem_univ (top r))
    rwa [htopterm] at this
  have hDS : D ≤ S := Finset.sum_le_sum fun j _ => (hterm j).1
  have hSD : S ≤ D + (L.len - 1) / 400 := by
    have h1 : S - Real.exp (x (L.pos r (top r)) - M) ≤ D - expValue 8 (x (L.pos r (top r)) - M) + (L.len - 1) / 400 := by
      have e1 := Finset.add_sum_erase Finset.univ (fun j => Real.exp (x (L.pos r j) - M)) (Finset.mem_univ (top r))
      have e2 := Finset.add_sum_erase Finset.univ (fun j => expValue 8 (x (L.pos r j) - M)) (Finset.mem_univ (top r))
      have e3 : ∑ j ∈ Finset.univ.erase (top r), Real.exp (x (L.pos r j) - M)
          ≤ ∑ j ∈ Finset.univ.erase (top r), (expValue 8 (x (L.pos r j) - M) + 1 / 400) :=
        Finset.sum_le_sum fun j _ => (hterm j).2
      rw [Finset.sum_add_distrib, Finset.sum_const, Finset.card_erase_of_mem (Finset.mem_univ _), Finset.card_univ,
        Fintype.card_fin, nsmul_eq_mul, Nat.cast_sub (show 1 ≤ L.len from (top r).pos)] at e3
      simp only [← hS, ← hD] at e1 e2
      push_cast at e3
      linarith
    have h2 : Real.exp (x (L.pos r (top r)) - M) = 1 := by rw [← hM]; simp
    rw [htopterm, h2] at h1
    linarith
  have hlen : (L.len : ℝ) ≤ 100 := by exact_mod_cast hl
  have hlen1 : (1 : ℝ) ≤ L.len := by exact_mod_cast (top r).pos
  have hD100 : D ≤ 100 := by
    have : D ≤ ∑ _j : Fin L.len, (1 : ℝ) := Finset.sum_le_sum fun j _ =>
      (hterm j).1.trans (Real.exp_le_one_iff.mpr (by linarith [hle j]))
    rw [Finset.sum_const, Finset.card_univ, Fintype.card_fin, nsmul_eq_mul, mul_one] at this
    linarith
  -- the specification
  have hspec : Real.log (Real.exp (x i) / ∑ j, Real.exp (x (L.pos r j))) = x i - M - Real.log S := by
    have e : ∑ j, Real.exp (x (L.pos r j)) = Real.exp M * S := by
      rw [hS, Finset.mul_sum]
      refine Finset.sum_congr rfl fun j _ => ?_
      rw [← Real.exp_add]
      congr 1
      ring
    have hSpos : 0 < S := by linarith
    rw [e, Real.log_div (Real.exp_pos _).ne' (by positivity), Real.log_mul (Real.exp_pos _).ne' hSpos.ne', Real.log_exp,
      Real.log_exp]
    ring
  rw [hspec]
  have hlogDS : 0 ≤ Real.log S - Real.log D ∧ Real.log S - Real.log D ≤ (L.len - 1) / 400 := by
    have hDpos : 0 < D := by linarith
    refine ⟨sub_nonneg.mpr (Real.log_le_log hDpos hDS), ?_⟩
    rw [← Real.log_div (by linarith) hDpos.ne']
    refine (Real.log_le_sub_one_of_pos (div_pos (by linarith) hDpos)).trans ?_
    have : S / D ≤ 1 + (L.len - 1) / 400 := by
      rw [div_le_iff₀ hDpos]
      have h0 : 0 ≤ ((L.len : ℝ) - 1) / 400 := by linarith
      nlinarith
    linarith
  by_cases h1 : L.len = 1
  · have hD' : D = 1 ∧ S = 1 := by
      have h2 : (L.len : ℝ) = 1 := by exact_mod_cast h1
      have hS1 : S = 1 := by
        have he : ∀ j, Real.exp (x (L.pos r j) - M) = 1 := by
          intro j
          have : j = top r := by
            apply Fin.ext
            have := j.isLt
            have := (top r).isLt
            omega
          rw [this, ← hM, sub_self, Real.exp_zero]
        rw [hS, Finset.sum_congr rfl fun j _ => he j, Finset.sum_const, Finset.card_univ, Fintype.card_fin, nsmul_eq_mul, mul_one, h2]
      exact ⟨le_antisymm (by linarith) hD1, hS1⟩
    have hxi : x i = M := by
      rw [← hc, hM]
      congr 2
      apply Fin.ext
      have := c.isLt
      have := (top r).isLt
      omega
    rw [hone h1 i, hxi, hD'.2, Real.log_one]
    norm_num
    linarith
  · have hs1 : s i = x i - M - logValue D := by
      have h2 := hd r c (top r)
      rw [hc, hmany h1 r] at h2
      rw [← hM, ← hD] at h2
      linarith
    have hlog : |logValue D - Real.log D| ≤ 1 / 20 :=
      (second_step D _ (first_step D (by linarith) hD100)).1
    rw [hs1]
    have e : x i - M - logValue D - (x i - M - Real.log S) = -(logValue D - Real.log D) + (Real.log S - Real.log D) := by ring
    rw [e]
    refine (abs_add_le _ _).trans (add_le_add (by rw [abs_neg]; exact hlog) ?_)
    rw [abs_of_nonneg hlogDS.1]
    exact hlogDS.2

example : ∃ s, logSoftmaxS (exactOps ℝ) (Layout.flat 2) (.ok fun _ => 0) ![3, 5] = .ok s ∧
    |s 0 - Real.log (Real.exp 3 / (Real.exp 3 + Real.exp 5))| ≤ 1 / 20 + 1 / 400 := by
  obtain ⟨s, hs, h⟩ := C62_log_softmax_accuracy_partial (Layout.flat 2) (.ok fun _ => 0) rfl ![3, 5] (by decide) (fun _ => (1 : Fin 2))
    (fun r j hj => by
      have : j = (0 : Fin 2) := by
        have h2 : ∀ j : Fin 2, j ≠ 1 → j = 0 := by decide
        exact h2 j hj
      subst this
      change (3 : ℝ) < 5
      norm_num)
    (fun r j => by
      change (5 : ℝ) - ![3, 5] (j : Fin 2) ≤ 256
      change Fin 2 at j
      fin_cases j <;> norm_num)
  refine ⟨s, hs, ?_⟩
  have h0 := h (0 : Fin 2)
  have e : ∑ j, Real.exp ((![3, 5] : Fin 2 → ℝ) ((Layout.flat 2).pos ((Layout.flat 2).row (0 : Fin 2)) j)) = Real.exp 3 + Real.exp 5 := by
    change ∑ j : Fin 2, Real.exp ((![3, 5] : Fin 2 → ℝ) j) = _
    rw [Fin.sum_univ_two]
    rfl
  rw [e] at h0
  have e2 : (((Layout.flat 2).len : ℕ) : ℝ) - 1 = 1 := by
    change ((2 : ℕ) : ℝ) - 1 = 1
    norm_num
  rw [e2] at h0
  exact h0

end SyMPC
