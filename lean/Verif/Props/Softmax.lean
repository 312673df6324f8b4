import Verif.Props.Activations
import Verif.Props.Argmax

/-!
# C62: softmax with exact operators
-/

namespace SyMPC

variable {F : Type} [Field F] [LinearOrder F] [IsStrictOrderedRing F] {n : Nat}

/-- With exact operators, the maximum along a dimension is right if it is attained once in every fibre. -/
theorem maxDim_exact (L : Layout n) (x : Fin n → F) (top : Fin L.rows → Fin L.len)
    (htop : ∀ r j, j ≠ top r → x (L.pos r j) < x (L.pos r (top r))) :
    ∃ idx, maxDim (exactOps F) L x = .ok (fun r => x (L.pos r (top r)), idx) := by
  set C : F := ∑ i, |x i|
  have hC0 : 0 ≤ C := Finset.sum_nonneg fun i _ => abs_nonneg _
  have hC : ∀ i, |x i| ≤ C := fun i => Finset.single_le_sum (f := fun i => |x i|) (fun i _ => abs_nonneg _) (Finset.mem_univ i)
  have hl0 : (0 : F) ≤ L.len := Nat.cast_nonneg _
  have p1 : (0 : F) ≤ (L.len : F) * (L.len + 1) := by positivity
  have p2 : (0 : F) ≤ (L.len : F) * (C + 1) := by positivity
  obtain ⟨z, hz, -, -, h1, -⟩ := C41_max_dim_partial
    (exactSound (2 * C + 2 + (L.len : F) * (L.len + 1) + (L.len : F) * (C + 1))) zero_le_one L x trivial C hC0 hC
    (by change 2 * C ≤ 2 * C + 2 + (L.len : F) * (L.len + 1) + (L.len : F) * (C + 1); linarith)
    (by change (2 : F) ≤ 2 * C + 2 + (L.len : F) * (L.len + 1) + (L.len : F) * (C + 1); linarith)
    (by change (L.len : F) * (L.len + 1) ≤ 2 * C + 2 + (L.len : F) * (L.len + 1) + (L.len : F) * (C + 1); linarith)
    (by change (L.len : F) * (C + 1) ≤ 2 * C + 2 + (L.len : F) * (L.len + 1) + (L.len : F) * (C + 1); linarith) top htop
  obtain ⟨mx, idx⟩ := z
  refine ⟨idx, hz.trans ?_⟩
  congr 2
  funext r
  have h := h1 r
  have e : (L.len : F) * (exactSound (2 * C + 2 + (L.len : F) * (L.len + 1) + (L.len : F) * (C + 1))).δ = 0 := mul_zero _
  rw [e] at h
  exact sub_eq_zero.mp (abs_eq_zero.mp (le_antisymm h (abs_nonneg _)))

/-- what `softmax` computes once the maximum `M` of every fibre is known -/
theorem softmaxS_of_max (L : Layout n) (zeros : Py (Fin n → F)) (x : Fin n → F) (hl : L.len ≠ 1)
    (M : Fin L.rows → F) (idx : Fin L.rows → F) (hM : maxDim (exactOps F) L x = .ok (M, idx)) :
    softmaxS (exactOps F) L zeros x = .ok fun i => expValue 8 (x i - M (L.row i)) *
      recipValue 10 (∑ j, expValue 8 (x (L.pos (L.row i) j) - M (L.row i))) := by
  unfold softmaxS logitsS
  rw [if_neg hl, hM]
  simp only [ok_bind, exact_view, exact_sub, C52_exp]
  change ((reciprocalS (exactOps F) (fun r => (((List.finRange L.len).map (L.pos r)).map fun i =>
    expValue 8 (x i - M (L.row i))).sum) .nr 10) >>= _) = _
  rw [reciprocal_nr_exact, ok_bind]
  simp only [exact_mul]
  congr 1
  funext i
  have e : (((List.finRange L.len).map (L.pos (L.row i))).map fun i => expValue 8 (x i - M (L.row i))).sum
      = ∑ j, expValue 8 (x (L.pos (L.row i) j) - M (L.row i)) := by
    rw [List.map_map, ← List.sum_ofFn, List.ofFn_eq_map]
    refine congrArg List.sum (List.map_congr_left fun j _ => ?_)
    simp only [Function.comp, L.row_pos]
  rw [e]
  rfl

/-- the denominator of `softmax`, and its reciprocal -/
theorem softmax_denominator {len : Nat} (v : Fin len → ℝ) (top : Fin len) (hl : len ≤ 500)
    (h0 : ∀ j, v j ≤ v top) (h512 : ∀ j, v top - v j ≤ 512) :
    0 ≤ recipValue 10 (∑ j, expValue 8 (v j - v top)) ∧
      |(∑ j, expValue 8 (v j - v top)) * recipValue 10 (∑ j, expValue 8 (v j - v top)) - 1| ≤ 1 / 10 ^ 8 := by
  have hnn : ∀ t : ℝ, 0 ≤ expValue 8 t := fun t => by
    unfold expValue
    exact Even.pow_nonneg ⟨128, by norm_num⟩ _
  have hle : ∀ j, expValue 8 (v j - v top) ≤ 1 := by
    intro j
    unfold expValue
    rw [← Even.pow_abs ⟨128, by norm_num⟩]
    refine pow_le_one₀ (abs_nonneg _) ?_
    have := h0 j
    have := h512 j
    rw [abs_le]
    constructor <;> norm_num <;> linarith
  have hD1 : 1 ≤ ∑ j, expValue 8 (v j - v top) := by
    have := Finset.single_le_sum (f := fun j => expValue 8 (v j - v top)) (fun j _ => hnn _) (Finset.mem_univ top)
    simpa [expValue] using this
  have hD2 : ∑ j, expValue 8 (v j - v top) ≤ 500 := by
    have : ∑ j, expValue 8 (v j - v top) ≤ ∑ _j : Fin len, (1 : ℝ) := Finset.sum_le_sum fun j _ => hle j
    rw [Finset.sum_const, Finset.card_univ, Fintype.card_fin, nsmul_eq_mul, mul_one] at this
    have : (len : ℝ) ≤ 500 := by exact_mod_cast hl
    linarith
  generalize (∑ j, expValue 8 (v j - v top)) = D at hD1 hD2
  obtain ⟨r, hr, hacc⟩ := C51_reciprocal_accuracy (fun _ : Fin 1 => D)
  rw [reciprocal_nr_exact] at hr
  have hr' : recipValue 10 D = r 0 := congrFun (Except.ok.inj hr) 0
  have h := hacc 0 (by rw [abs_of_pos (by linarith)]; linarith) (by rw [abs_of_pos (by linarith)]; linarith)
  rw [hr']
  rw [abs_sub_comm] at h
  refine ⟨?_, h⟩
  by_contra hc
  push Not at hc
  have h1 := (abs_le.mp h).1
  norm_num at h1
  nlinarith

/-- C62: for fibres of up to 500 elements with one maximum each and all elements within 512 of it, the values of `softmax` are not
negative, add up to 1 along every fibre (up to `10^-8`), and have the proportions of the exponentials of the elements.  A single
element gives 1. -/
theorem C62_softmax_partial (L : Layout n) (zeros : Py (Fin n → ℝ)) (hz : zeros = .ok fun _ => 0) (x : Fin n → ℝ)
    (hl : L.len ≤ 500) (top : Fin L.rows → Fin L.len)
    (htop : ∀ r j, j ≠ top r → x (L.pos r j) < x (L.pos r (top r)))
    (h512 : ∀ r j, x (L.pos r (top r)) - x (L.pos r j) ≤ 512) :
    ∃ s, softmaxS (exactOps ℝ) L zeros x = .ok s ∧ (∀ i, 0 ≤ s i) ∧ (∀ r, |∑ j, s (L.pos r j) - 1| ≤ 1 / 10 ^ 8) ∧
      ∀ r j j', s (L.pos r j) * expValue 8 (x (L.pos r j') - x (L.pos r (top r)))
        = s (L.pos r j') * expValue 8 (x (L.pos r j) - x (L.pos r (top r))) := by
  have hnn : ∀ t : ℝ, 0 ≤ expValue 8 t := fun t => by
    unfold expValue
    exact Even.pow_nonneg ⟨128, by norm_num⟩ _
  by_cases h1 : L.len = 1
  · refine ⟨fun _ => 1, ?_, fun i => zero_le_one, fun r => ?_, fun r j j' => ?_⟩
    · unfold softmaxS
      rw [if_pos h1, hz]
      simp only [ok_bind, exact_addP, zero_add]
    · simp [h1]
    · have : j = j' := by
        apply Fin.ext
        have := j.isLt
        have := j'.isLt
        omega
      rw [this]
  · obtain ⟨idx, hM⟩ := maxDim_exact L x top htop
    have hle : ∀ r j, x (L.pos r j) ≤ x (L.pos r (top r)) := by
      intro r j
      by_cases h : j = top r
      · rw [h]
      · exact (htop r j h).le
    have hden := fun r => softmax_denominator (fun j => x (L.pos r j)) (top r) hl (hle r) (h512 r)
    refine ⟨_, softmaxS_of_max L zeros x h1 _ idx hM, fun i => mul_nonneg (hnn _) (hden (L.row i)).1, fun r => ?_,
      fun r j j' => ?_⟩
    · simp only [L.row_pos]
      rw [← Finset.sum_mul]
      exact (hden r).2
    · simp only [L.row_pos]
      ring

example : ∃ s, softmaxS (exactOps ℝ) (Layout.flat 2) (.ok fun _ => 0) ![3, 5] = .ok s ∧ |s 0 + s 1 - 1| ≤ 1 / 10 ^ 8 := by
  obtain ⟨s, hs, -, hsum, -⟩ := C62_softmax_partial (Layout.flat 2) (.ok fun _ => 0) rfl ![3, 5] (by decide) (fun _ => (1 : Fin 2))
    (fun r j hj => by
      have : j = (0 : Fin 2) := by
        have h2 : ∀ j : Fin 2, j ≠ 1 → j = 0 := by decide
        exact h2 j hj
      subst this
      change (3 : ℝ) < 5
      norm_num)
    (fun r j => by
      change (5 : ℝ) - ![3, 5] (j : Fin 2) ≤ 512
      change Fin 2 at j
      fin_cases j <;> norm_num)
  refine ⟨s, hs, ?_⟩
  have := hsum (0 : Fin 1)
  change |(∑ j : Fin 2, s j) - 1| ≤ _ at this
  rwa [Fin.sum_univ_two] at this

/-- C62: if the maximum is attained twice, `softmax` is wrong even with exact operators: the values at `(100, 100)` add up to less
than `1/100`. -/
theorem C62_softmax_ties_wrong (zeros : Py (Fin 2 → ℚ)) :
    ∃ s, softmaxS (exactOps ℚ) (Layout.flat 2) zeros ![100, 100] = .ok s ∧ s 0 + s 1 < 1 / 100 := by
  have hM : maxDim (exactOps ℚ) (Layout.flat 2) ![100, 100] = .ok (fun _ => 200, fun _ => 1) := by
    decide +kernel
  refine ⟨_, softmaxS_of_max (Layout.flat 2) zeros _ (by decide) _ _ hM, ?_⟩
  have hs : ∀ i : Fin 2, (∑ j, expValue 8 (![(100 : ℚ), 100] ((Layout.flat 2).pos ((Layout.flat 2).row i) j) - 200))
      = 2 * expValue 8 (-100) := by
    intro i
    change ∑ j : Fin 2, expValue 8 (![(100 : ℚ), 100] j - 200) = _
    rw [Fin.sum_univ_two]
    norm_num
    ring
  have hv : ∀ i : Fin 2, ![(100 : ℚ), 100] i - 200 = -100 := by
    intro i
    fin_cases i <;> norm_num
  have hE : expValue 8 (-100 : ℚ) ≤ 1 / 10 ^ 50 := by norm_num [expValue]
  have hE0 : (0 : ℚ) < expValue 8 (-100) := by norm_num [expValue]
  rw [hs 0, hs 1, hv 0, hv 1]
  generalize expValue 8 (-100 : ℚ) = e at hE hE0
  have hx0 : newtonStart (2 * e) ≤ 6 := by
    unfold newtonStart
    have h : expValue 8 (1 / 2 - 2 * e) ≤ expValue 8 (1 / 2) := by
      unfold expValue
      refine pow_le_pow_left₀ ?_ ?_ _ <;> norm_num <;> linarith
    have h2 : expValue 8 (1 / 2 : ℚ) ≤ 17 / 10 := by norm_num [expValue]
    linarith
  have hx1 : 0 ≤ newtonStart (2 * e) := by
    unfold newtonStart
    have : 0 ≤ expValue 8 (1 / 2 - 2 * e) := by
      unfold expValue
      exact Even.pow_nonneg ⟨128, by norm_num⟩ _
    linarith
  have hr : 1 - 2 * e * recipValue 10 (2 * e) = (1 - 2 * e * newtonStart (2 * e)) ^ 2 ^ 10 := by
    have h := newton_error (2 * e) (newtonStart (2 * e)) 10
    rw [← h]
    unfold recipValue
    rw [abs_of_pos (by linarith)]
    have : sgn (2 * e) = 1 := by simp [sgn, hE0]
    rw [this, mul_one]
  have ht : 2 * e * newtonStart (2 * e) ≤ 2 * (1 / 10 ^ 50) * 6 :=
    mul_le_mul (by linarith) hx0 hx1 (by norm_num)
  have hb := one_add_mul_le_pow (a := -(2 * e * newtonStart (2 * e))) (by norm_num at ht ⊢; linarith) (2 ^ 10)
  rw [← sub_eq_add_neg, ← hr] at hb
  have : e * recipValue 10 (2 * e) + e * recipValue 10 (2 * e) = 2 * e * recipValue 10 (2 * e) := by ring
  rw [this]
  norm_num at hb ht ⊢
  linarith

/-! ## log_softmax -/

/-- the approximation of the logarithm with 2 steps and 8 iterations of the exponential -/
def logValue (x : F) : F := (logNext (expValue 8) x)^[2] (logStart (expValue 8) x)

/-- what `log_softmax` computes once the maximum `M` of every fibre is known -/
theorem logSoftmaxS_of_max (L : Layout n) (zeros : Py (Fin n → F)) (x : Fin n → F) (hl : L.len ≠ 1)
    (M : Fin L.rows → F) (idx : Fin L.rows → F) (hM : maxDim (exactOps F) L x = .ok (M, idx)) :
    logSoftmaxS (exactOps F) L zeros x = .ok fun i => x i - M (L.row i) -
      logValue (∑ j, expValue 8 (x (L.pos (L.row i) j) - M (L.row i))) := by
  unfold logSoftmaxS logitsS
  rw [if_neg hl, hM]
  simp only [ok_bind, exact_view, exact_sub, C52_exp]
  change ((logS (exactOps F) (fun r => (((List.finRange L.len).map (L.pos r)).map fun i =>
    expValue 8 (x i - M (L.row i))).sum) 2 8) >>= _) = _
  rw [C52_log, ok_bind]
  congr 1
  funext i
  beta_reduce
  have e : (((List.finRange L.len).map (L.pos (L.row i))).map fun i => expValue 8 (x i - M (L.row i))).sum
      = ∑ j, expValue 8 (x (L.pos (L.row i) j) - M (L.row i)) := by
    rw [List.map_map, ← List.sum_ofFn, List.ofFn_eq_map]
    refine congrArg List.sum (List.map_congr_left fun j _ => ?_)
    simp only [Function.comp, L.row_pos]
  rw [e]
  rfl

/-- C62: for fibres with one maximum each, `log_softmax` is the element minus the maximum minus the approximated logarithm of the
sum of the exponentials: the differences along a fibre are exactly those of the input.  A single element gives 0.  How
close the approximated logarithm of the sum is to the logarithm: `C62_log_softmax_accuracy_partial`. -/
theorem C62_log_softmax_partial (L : Layout n) (zeros : Py (Fin n → ℝ)) (hz : zeros = .ok fun _ => 0) (x : Fin n → ℝ)
    (top : Fin L.rows → Fin L.len) (htop : ∀ r j, j ≠ top r → x (L.pos r j) < x (L.pos r (top r))) :
    ∃ s, logSoftmaxS (exactOps ℝ) L zeros x = .ok s ∧
      (∀ r j j', s (L.pos r j) - s (L.pos r j') = x (L.pos r j) - x (L.pos r j')) ∧
      (L.len = 1 → ∀ i, s i = 0) ∧
      (L.len ≠ 1 → ∀ r, s (L.pos r (top r)) = -logValue (∑ j, expValue 8 (x (L.pos r j) - x (L.pos r (top r))))) := by
  by_cases h1 : L.len = 1
  · refine ⟨fun _ => 0, ?_, fun r j j' => ?_, fun _ _ => rfl, fun h => absurd h1 h⟩
    · unfold logSoftmaxS
      rw [if_pos h1, hz]
    · have : j = j' := by
        apply Fin.ext
        have := j.isLt
        have := j'.isLt
        omega
      rw [this, sub_self, sub_self]
  · obtain ⟨idx, hM⟩ := maxDim_exact L x top htop
    refine ⟨_, logSoftmaxS_of_max L zeros x h1 _ idx hM, fun r j j' => ?_, fun h => absurd h h1, fun _ r => ?_⟩
    · simp only [L.row_pos]
      ring
    · simp only [L.row_pos]
      ring

example : ∃ s, logSoftmaxS (exactOps ℝ) (Layout.flat 2) (.ok fun _ => 0) ![3, 5] = .ok s ∧ s 1 - s 0 = 2 := by
  obtain ⟨s, hs, hd, -⟩ := C62_log_softmax_partial (Layout.flat 2) (.ok fun _ => 0) rfl ![3, 5] (fun _ => (1 : Fin 2))
    (fun r j hj => by
      have : j = (0 : Fin 2) := by
        have h2 : ∀ j : Fin 2, j ≠ 1 → j = 0 := by decide
        exact h2 j hj
      subst this
      change (3 : ℝ) < 5
      norm_num)
  refine ⟨s, hs, ?_⟩
  have := hd (0 : Fin 1) (1 : Fin 2) (0 : Fin 2)
  change s 1 - s 0 = (5 : ℝ) - 3 at this
  rw [this]
  norm_num

end SyMPC
