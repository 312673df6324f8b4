import Verif.Props.RobustActivations
import Verif.Props.Argmax
import Verif.Props.Softmax

/-!
# Softmax with rounding errors
-/

namespace SyMPC

open Finset

variable {m : Type → Type} [Monad m] {X : Nat → Type} {n : Nat} {O : SecretOps m X ℚ} {S : Sure m}

theorem sum_near {k : Nat} (f g : Fin k → ℝ) (c : ℝ) (h : ∀ j, |f j - g j| ≤ c) : |∑ j, f j - ∑ j, g j| ≤ k * c := by
  rw [← Finset.sum_sub_distrib]
  refine (Finset.abs_sum_le_sum_abs _ _).trans ?_
  refine (Finset.sum_le_sum fun j _ => h j).trans ?_
  simp

/-- the quotient of a number by a sum that contains it, both off by a little -/
theorem quotient_near (e E d D r δ k : ℝ) (hE0 : 0 ≤ E) (hED : E ≤ D) (hD : 1 ≤ D) (he : |e - E| ≤ δ) (hd : |d - D| ≤ k * δ)
    (hr : |1 - d * r| ≤ 1 / 200) (hr1 : |r| ≤ 125 / 100) : |e * r - E / D| ≤ 1 / 200 + (k + 1) * δ * (125 / 100) := by
  have hD0 : 0 < D := by linarith
  have e1 : e * r - E / D = (e - E) * r - E / D * ((1 - d * r) + (d - D) * r) := by
    field_simp
    ring
  have h1 : |(e - E) * r| ≤ δ * (125 / 100) := by
    rw [abs_mul]
    exact mul_le_mul he hr1 (abs_nonneg _) ((abs_nonneg _).trans he)
  have h2 : |(d - D) * r| ≤ k * δ * (125 / 100) := by
    rw [abs_mul]
    exact mul_le_mul hd hr1 (abs_nonneg _) ((abs_nonneg _).trans hd)
  have h3 : |E / D| ≤ 1 := by
    rw [abs_of_nonneg (div_nonneg hE0 hD0.le), div_le_one hD0]
    exact hED
  have h4 : |E / D * ((1 - d * r) + (d - D) * r)| ≤ 1 / 200 + k * δ * (125 / 100) := by
    rw [abs_mul]
    have h5 := (abs_add_le (1 - d * r) ((d - D) * r)).trans (add_le_add hr h2)
    have := mul_le_mul h3 h5 (abs_nonneg _) zero_le_one
    linarith
  rw [e1]
  refine (abs_sub _ _).trans ?_
  linarith

/-- **C62, softmax with rounding errors.**  For fibres of up to 8 elements with one maximum each and numbers up to 100: the values of
`softmax` add up to 1 along every fibre up to 0.006, and with `k` elements each is within `0.006 + (k + 1) 0.033` of its exponential
divided by the sum of the exponentials.  Missing: longer fibres, and ties, where the claim is false (`C62_softmax_ties_wrong`). -/
theorem C62_softmax_sound_partial (A : Sound O S) (H : Fine A) (L : Layout n) (zeros : m (X n))
    (hz : S.sure zeros fun z => A.Ok z ∧ ∀ i, A.val z i = 0) (x : X n) (ok : A.Ok x) (hl : L.len ≤ 8) (hx : ∀ i, |A.val x i| ≤ 100)
    (top : Fin L.rows → Fin L.len) (htop : ∀ r j, j ≠ top r → A.val x (L.pos r j) < A.val x (L.pos r (top r))) :
    S.sure (softmaxS O L zeros x) fun z => A.Ok z ∧ (∀ r, |∑ j, A.val z (L.pos r j) - 1| ≤ 6 / 1000) ∧
      ∀ r j, |(A.val z (L.pos r j) : ℝ) - Real.exp (A.val x (L.pos r j)) / ∑ j', Real.exp (A.val x (L.pos r j'))|
        ≤ 6 / 1000 + (L.len + 1) * (33 / 1000) := by
  have d0 := H.δ0
  have d1 := H.δ1
  have hB := H.B1
  norm_num at d1
  have hl8 : (L.len : ℚ) ≤ 8 := by exact_mod_cast hl
  have hl0 : (0 : ℚ) ≤ L.len := Nat.cast_nonneg _
  unfold softmaxS
  by_cases h1 : L.len = 1
  · rw [if_pos h1]
    refine S.bind _ _ _ _ hz ?_
    rintro z0 ⟨hz0, ez0⟩
    have hm := A.addP z0 1 hz0 (fun i => by rw [ez0 i]; norm_num; linarith)
    push_cast at hm
    refine S.mono _ _ _ hm ?_
    rintro z ⟨hz, ez⟩
    have hone : ∀ j j' : Fin L.len, j = j' := fun j j' => by
      apply Fin.ext
      have := j.isLt
      have := j'.isLt
      omega
    refine ⟨hz, fun r => ?_, fun r j => ?_⟩
    · have : ∀ j, A.val z (L.pos r j) = 1 := fun j => by rw [ez, ez0, zero_add]
      simp only [this, sum_const, card_univ, Fintype.card_fin, h1]
      norm_num
    · rw [ez, ez0]
      have hs : ∑ j', Real.exp (A.val x (L.pos r j')) = Real.exp (A.val x (L.pos r j)) := by
        have h3 : ∀ j' ∈ (univ : Finset (Fin L.len)), Real.exp (A.val x (L.pos r j')) = Real.exp (A.val x (L.pos r j)) := fun j' _ => by
          rw [hone j' j]
        rw [Finset.sum_congr rfl h3, sum_const, card_univ, Fintype.card_fin, h1, one_smul]
      rw [hs, div_self (Real.exp_pos _).ne']
      push_cast
      norm_num
      positivity
  · rw [if_neg h1]
    unfold logitsS
    have hmax := C41_max_dim_partial A (by linarith) L x ok 100 (by norm_num) hx (by linarith) (by linarith) (by nlinarith) (by nlinarith) top htop
    refine S.bind _ _ (fun lg => A.Ok lg ∧ ∀ r j, |A.val lg (L.pos r j) - (A.val x (L.pos r j) - A.val x (L.pos r (top r)))| ≤ 8 / 32768) _
      (S.bind _ _ _ _ hmax ?_) ?_
    · rintro ⟨mx, idx⟩ ⟨hmx, -, emx, -⟩
      refine S.bind _ _ _ _ (A.view L.row mx hmx) ?_
      rintro mv ⟨hmv, emv⟩
      have emx' : ∀ r, |A.val mx r - A.val x (L.pos r (top r))| ≤ 8 / 32768 := by
        intro r
        refine (emx r).trans ?_
        have := mul_le_mul hl8 d1 d0 (by norm_num)
        linarith
      refine S.mono _ _ _ (A.sub x mv ok hmv (fun i => ?_)) ?_
      · have h3 := abs_le.mp (emx' (L.row i))
        have h4 := abs_le.mp (hx i)
        have h5 := abs_le.mp (hx (L.pos (L.row i) (top (L.row i))))
        rw [emv i, abs_le]
        constructor <;> linarith [h3.1, h3.2, h4.1, h4.2, h5.1, h5.2]
      · rintro lg ⟨hlg, elg⟩
        refine ⟨hlg, fun r j => ?_⟩
        have h3 := emx' r
        rw [elg, emv, L.row_pos]
        have e : A.val x (L.pos r j) - A.val mx r - (A.val x (L.pos r j) - A.val x (L.pos r (top r)))
            = -(A.val mx r - A.val x (L.pos r (top r))) := by ring
        rw [e, abs_neg]
        exact h3
    · rintro lg ⟨hlg, elg⟩
      have tneg : ∀ r j, A.val x (L.pos r j) - A.val x (L.pos r (top r)) ≤ 0 := by
        intro r j
        by_cases hj : j = top r
        · rw [hj, sub_self]
        · linarith [htop r j hj]
      have tlow : ∀ r j, -200 ≤ A.val x (L.pos r j) - A.val x (L.pos r (top r)) := by
        intro r j
        have h4 := abs_le.mp (hx (L.pos r j))
        have h5 := abs_le.mp (hx (L.pos r (top r)))
        linarith [h4.1, h5.2]
      refine S.bind _ _ _ _ (exp_neg_near A H lg hlg (fun i => A.val x i - A.val x (L.pos (L.row i) (top (L.row i)))) (fun i => ?_) (fun i => ?_)) ?_
      · have := elg (L.row i) (L.col i)
        rw [L.pos_row_col] at this
        exact this.trans (by norm_num)
      · have h3 := tneg (L.row i) (L.col i)
        have h4 := tlow (L.row i) (L.col i)
        rw [L.pos_row_col] at h3 h4
        exact ⟨by linarith, h3⟩
      · rintro e ⟨he, ee⟩
        let E : Fin L.rows → Fin L.len → ℚ := fun r j => expValue 8 (A.val x (L.pos r j) - A.val x (L.pos r (top r)))
        have ee' : ∀ r j, |A.val e (L.pos r j) - E r j| ≤ 24 / 1000 := by
          intro r j
          have := ee (L.pos r j)
          rw [L.row_pos] at this
          exact this
        have hE : ∀ r j, 0 ≤ E r j ∧ E r j ≤ 1 := by
          intro r j
          have h3 := tneg r j
          have h4 := tlow r j
          change 0 ≤ expValue 8 _ ∧ expValue 8 _ ≤ 1
          rw [expValue_eight]
          exact ⟨pow_nonneg (by linarith) _, pow_le_one₀ (by linarith) (by linarith)⟩
        have hEt : ∀ r, E r (top r) = 1 := by
          intro r
          change expValue 8 (A.val x (L.pos r (top r)) - A.val x (L.pos r (top r))) = 1
          rw [sub_self, expValue_eight]
          norm_num
        have hD1 : ∀ r, 1 ≤ ∑ j, E r j := by
          intro r
          have := Finset.single_le_sum (f := E r) (fun j _ => (hE r j).1) (mem_univ (top r))
          rwa [hEt r] at this
        have hD8 : ∀ r, ∑ j, E r j ≤ 8 := by
          intro r
          have := Finset.sum_le_sum fun j (_ : j ∈ univ) => (hE r j).2
          simp only [sum_const, card_univ, Fintype.card_fin, nsmul_eq_mul, mul_one] at this
          linarith
        have eabs : ∀ i, |A.val e i| ≤ 1024 / 1000 := by
          intro i
          have h3 := abs_le.mp (ee' (L.row i) (L.col i))
          have h4 := hE (L.row i) (L.col i)
          rw [L.pos_row_col] at h3
          rw [abs_le]
          constructor <;> linarith [h3.1, h3.2, h4.1, h4.2]
        refine S.bind _ _ _ _ (A.sums (fun r => (List.finRange L.len).map (L.pos r)) e he (fun r => ?_)) ?_
        · rw [List.map_map]
          have : ((List.finRange L.len).map ((fun i => |A.val e i|) ∘ L.pos r)).sum = ∑ j, |A.val e (L.pos r j)| := by
            rw [Fin.sum_univ_def]
            rfl
          rw [this]
          have h3 := Finset.sum_le_sum fun j (_ : j ∈ univ) => eabs (L.pos r j)
          simp only [sum_const, card_univ, Fintype.card_fin, nsmul_eq_mul] at h3
          linarith
        · rintro d ⟨hd, ed⟩
          have ed' : ∀ r, A.val d r = ∑ j, A.val e (L.pos r j) := by
            intro r
            rw [ed r, List.map_map, Fin.sum_univ_def]
            rfl
          have edD : ∀ r, |A.val d r - ∑ j, E r j| ≤ L.len * (24 / 1000) := by
            intro r
            rw [ed' r, ← Finset.sum_sub_distrib]
            refine (Finset.abs_sum_le_sum_abs _ _).trans ((Finset.sum_le_sum fun j _ => ee' r j).trans ?_)
            simp
          have dlo : ∀ r, 808 / 1000 ≤ A.val d r := by
            intro r
            have h3 := abs_le.mp (edD r)
            linarith [h3.1, hD1 r]
          have dhi : ∀ r, A.val d r ≤ 9 := by
            intro r
            have h3 := abs_le.mp (edD r)
            linarith [h3.2, hD8 r]
          refine S.bind _ _ _ _ (C51_reciprocal_sound A H d hd
            (fun i => by rw [abs_of_pos (by linarith [dlo i])]; linarith [dlo i])
            (fun i => by rw [abs_of_pos (by linarith [dlo i])]; linarith [dhi i])) ?_
          rintro q ⟨hq, eq⟩
          have hq1 : ∀ r, |A.val q r| ≤ 125 / 100 := by
            intro r
            have h3 := abs_le.mp (eq r)
            have h4 := dlo r
            rw [abs_le]
            constructor <;> nlinarith [h3.1, h3.2]
          refine S.bind _ _ _ _ (A.view L.row q hq) ?_
          rintro qv ⟨hqv, eqv⟩
          refine S.mono _ _ _ (A.mul e qv he hqv (fun i => ?_)) ?_
          · rw [eqv i, abs_mul]
            have := mul_le_mul (eabs i) (hq1 (L.row i)) (abs_nonneg _) (by norm_num)
            linarith
          · rintro z ⟨hz, ez⟩
            have ez' : ∀ r j, |A.val z (L.pos r j) - A.val e (L.pos r j) * A.val q r| ≤ 1 / 32768 := by
              intro r j
              have := ez (L.pos r j)
              rw [eqv, L.row_pos] at this
              exact this.trans d1
            refine ⟨hz, fun r => ?_, fun r j => ?_⟩
            · have h3 : |∑ j, A.val z (L.pos r j) - ∑ j, A.val e (L.pos r j) * A.val q r| ≤ L.len * (1 / 32768) := by
                rw [← Finset.sum_sub_distrib]
                refine (Finset.abs_sum_le_sum_abs _ _).trans ((Finset.sum_le_sum fun j _ => ez' r j).trans ?_)
                simp
              rw [← Finset.sum_mul, ← ed' r] at h3
              have h4 := abs_le.mp h3
              have h5 := abs_le.mp (eq r)
              rw [abs_le]
              constructor <;> linarith [h4.1, h4.2, h5.1, h5.2]
            · -- in the real numbers
              let t : Fin L.len → ℝ := fun j => ((A.val x (L.pos r j) - A.val x (L.pos r (top r)) : ℚ) : ℝ)
              have hsoft : Real.exp (A.val x (L.pos r j)) / ∑ j', Real.exp (A.val x (L.pos r j')) = Real.exp (t j) / ∑ j', Real.exp (t j') := by
                have h3 : ∀ j, Real.exp (t j) = Real.exp (A.val x (L.pos r j)) * Real.exp (-(A.val x (L.pos r (top r)) : ℝ)) := by
                  intro j
                  rw [← Real.exp_add]
                  congr 1
                  change (((A.val x (L.pos r j) - A.val x (L.pos r (top r)) : ℚ)) : ℝ) = _
                  push_cast
                  ring
                simp only [h3]
                rw [← Finset.sum_mul, mul_div_mul_right _ _ (Real.exp_pos _).ne']
              have hclose : ∀ j, |expValue 8 (t j) - Real.exp (t j)| ≤ 212 / 100000 := by
                intro j
                have h3 : t j ≤ 0 := by
                  change (((A.val x (L.pos r j) - A.val x (L.pos r (top r)) : ℚ)) : ℝ) ≤ 0
                  exact_mod_cast tneg r j
                have h4 : -200 ≤ t j := by
                  change -200 ≤ (((A.val x (L.pos r j) - A.val x (L.pos r (top r)) : ℚ)) : ℝ)
                  exact_mod_cast tlow r j
                obtain ⟨-, h5, h6⟩ := exp_close (-(t j)) (by linarith) (by linarith)
                rw [neg_neg] at h5 h6
                rw [abs_le]
                constructor <;> linarith
              have hcastE : ∀ j, ((E r j : ℚ) : ℝ) = expValue 8 (t j) := fun j => expValue_cast 8 _
              have hcast : ∀ {a b : ℚ}, |a| ≤ b → |(a : ℝ)| ≤ (b : ℝ) := by
                intro a b h
                exact_mod_cast h
              have g1 : ∀ j, |(A.val e (L.pos r j) : ℝ) - Real.exp (t j)| ≤ 2612 / 100000 := by
                intro j
                have h3 := hcast (ee' r j)
                rw [Rat.cast_sub, hcastE] at h3
                push_cast at h3
                have := abs_sub_le (A.val e (L.pos r j) : ℝ) (expValue 8 (t j)) (Real.exp (t j))
                linarith [hclose j]
              have g2 : |((A.val d r : ℚ) : ℝ) - ∑ j, Real.exp (t j)| ≤ L.len * (2612 / 100000) := by
                rw [ed' r]
                push_cast
                exact sum_near _ _ _ g1
              have g3 : |1 - ((A.val d r : ℚ) : ℝ) * ((A.val q r : ℚ) : ℝ)| ≤ 1 / 200 := by
                have h3 := hcast (eq r)
                push_cast at h3
                exact h3
              have g4 : |((A.val q r : ℚ) : ℝ)| ≤ 125 / 100 := by
                have h3 := hcast (hq1 r)
                push_cast at h3
                exact h3
              have ht0 : Real.exp (t (top r)) = 1 := by
                change Real.exp (((A.val x (L.pos r (top r)) - A.val x (L.pos r (top r)) : ℚ)) : ℝ) = 1
                rw [sub_self]
                simp
              have g5 : 1 ≤ ∑ j, Real.exp (t j) := by
                have := Finset.single_le_sum (f := fun j => Real.exp (t j)) (fun j _ => (Real.exp_pos _).le) (mem_univ (top r))
                rwa [ht0] at this
              have g6 := quotient_near _ _ _ _ _ _ (L.len : ℝ) (Real.exp_pos (t j)).le
                (Finset.single_le_sum (f := fun j => Real.exp (t j)) (fun j _ => (Real.exp_pos _).le) (mem_univ j)) g5 (g1 j) g2 g3 g4
              have g7 : |((A.val z (L.pos r j) : ℚ) : ℝ) - ((A.val e (L.pos r j) : ℚ) : ℝ) * ((A.val q r : ℚ) : ℝ)| ≤ 1 / 32768 := by
                have h3 := hcast (ez' r j)
                push_cast at h3
                exact h3
              rw [hsoft]
              have g8 := abs_sub_le ((A.val z (L.pos r j) : ℚ) : ℝ) (((A.val e (L.pos r j) : ℚ) : ℝ) * ((A.val q r : ℚ) : ℝ))
                (Real.exp (t j) / ∑ j', Real.exp (t j'))
              have hk : (0 : ℝ) ≤ L.len := Nat.cast_nonneg _
              linarith

end SyMPC
