import Verif.Model.Loss
import Verif.Props.RobustSession

/-!
# C69: the loss, and a public number divided by a secret

Specification: `squares p t` is the sum of the squared differences; torch's `mse_loss` divides it by the number of all elements.
-/

namespace SyMPC

open Machine

/-- the sum of the squared differences -/
def squares {F : Type} [Field F] {n : Nat} (p t : Fin n → F) : F := ∑ i, (p i - t i) ^ 2

theorem sum_finRange {F : Type} [AddCommMonoid F] {n : Nat} (f : Fin n → F) : ((List.finRange n).map f).sum = ∑ i, f i := by
  rw [← List.ofFn_eq_map, List.sum_ofFn]

section Exact

variable {F : Type} [Field F] [LinearOrder F] {n : Nat}

theorem squaresS_exact (p t : Fin n → F) : squaresS (exactOps F) p t = .ok fun _ => squares p t := by
  unfold squaresS
  change (powSec (exactOps F) (fun i => p i - t i) ((2 : Nat) : Int) >>= _) = _
  rw [powSec_exact _ 2 (by decide), ok_bind]
  change Except.ok (fun _ => ((List.finRange n).map fun i => (p i - t i) ^ 2).sum) = _
  simp only [sum_finRange]
  rfl

/-- With exact operators `reduction="sum"` gives the sum of the squared differences and `reduction="mean"` that sum divided by the length
of the first dimension; any other reduction raises `ValueError`, and the mean of tensors without dimensions raises `IndexError`. -/
theorem C69_mse_exact (p t : Fin n → F) (k : Nat) (hk : k ≠ 0) (rest : List Nat) :
    mseLoss (exactOps F) (k :: rest) p t .sum = .ok (fun _ => squares p t) ∧
    mseLoss (exactOps F) (k :: rest) p t .mean = .ok (fun _ => squares p t / k) ∧
    mseLoss (exactOps F) (k :: rest) p t .other = .error .valueError ∧
    mseLoss (exactOps F) [] p t .mean = .error .indexError := by
  refine ⟨squaresS_exact p t, ?_, rfl, ?_⟩
  · unfold mseLoss
    rw [squaresS_exact, ok_bind]
    simp [exactOps, hk]
  · unfold mseLoss
    rw [squaresS_exact, ok_bind]
    rfl

/-- `reduction="mean"` is torch's mean exactly when the predictions have one element per entry of the first dimension, or are all right:
in general it is torch's mean times the number of elements per entry. -/
theorem C69_mean_of_matrices [CharZero F] (k r : Nat) (hk : k ≠ 0) (hr : r ≠ 0) (p t : Fin n → F) (hn : n = k * r) (rest : List Nat) :
    ∃ z, mseLoss (exactOps F) (k :: rest) p t .mean = .ok z ∧ z 0 = r * (squares p t / n) ∧
      (z 0 = squares p t / n ↔ r = 1 ∨ squares p t = 0) := by
  refine ⟨_, (C69_mse_exact p t k hk rest).2.1, ?_⟩
  have hk' : (k : F) ≠ 0 := Nat.cast_ne_zero.mpr hk
  have hr' : (r : F) ≠ 0 := Nat.cast_ne_zero.mpr hr
  have hnc : (n : F) = k * r := by rw [← Nat.cast_mul, ← hn]
  have e : squares p t / k = r * (squares p t / n) := by
    rw [hnc]
    field_simp
  refine ⟨e, ?_⟩
  rw [e]
  have hn' : (n : F) ≠ 0 := by rw [hnc]; exact mul_ne_zero hk' hr'
  constructor
  · intro h
    have h2 : ((r : F) - 1) * (squares p t / n) = 0 := by rw [sub_mul, h]; ring
    rcases mul_eq_zero.mp h2 with h3 | h3
    · left
      have : (r : F) = ((1 : Nat) : F) := by rw [Nat.cast_one]; exact sub_eq_zero.mp h3
      exact Nat.cast_injective this
    · exact Or.inr ((div_eq_zero_iff.mp h3).resolve_right hn')
  · rintro (rfl | h)
    · simp
    · simp [h]

end Exact

/-- The loss of a matrix is not torch's: the predictions 1, 2, 3, 4 in two rows for targets 0 have loss 15, torch's is 7.5. -/
theorem C69_matrix_mean_wrong : mseLoss (exactOps ℚ) [2, 2] ![1, 2, 3, 4] 0 .mean = .ok (fun _ => 15) ∧
    squares ![(1 : ℚ), 2, 3, 4] 0 / (4 : Nat) = 15 / 2 := by
  have h : squares ![(1 : ℚ), 2, 3, 4] 0 = 30 := by
    change ∑ i, (![(1 : ℚ), 2, 3, 4] i - 0) ^ 2 = 30
    rw [Fin.sum_univ_four]
    change ((1 : ℚ) - 0) ^ 2 + (2 - 0) ^ 2 + (3 - 0) ^ 2 + (4 - 0) ^ 2 = 30
    norm_num
  refine ⟨?_, by rw [h]; norm_num⟩
  rw [(C69_mse_exact _ _ 2 (by decide) [2]).2.1, h]
  norm_num

section Rounded

variable {m : Type → Type} [Monad m] {X : Nat → Type} {O : SecretOps m X ℚ} {S : Sure m} {n : Nat}

/-- the error of a sum of squares: `n` squares with the error of two products -/
def squaresError (n : Nat) (C δ : ℚ) : ℚ := n * (C ^ 2 * ((1 + δ) ^ 2 - 1))

theorem squaresS_sound (A : Sound O S) (hδ : 0 ≤ A.δ) (p t : X n) (okp : A.Ok p) (okt : A.Ok t) (C : ℚ) (hC : 1 ≤ C)
    (hd : ∀ i, |A.val p i - A.val t i| ≤ C) (hB : (C * (1 + A.δ)) ^ 4 ≤ A.B) (hS : n * (C * (1 + A.δ)) ^ 2 ≤ A.B) :
    S.sure (squaresS O p t) fun z => A.Ok z ∧ |A.val z 0 - squares (A.val p) (A.val t)| ≤ squaresError n C A.δ := by
  have hone : 1 ≤ C * (1 + A.δ) := by nlinarith
  unfold squaresS
  refine S.bind _ _ _ _ (A.sub p t okp okt fun i => (hd i).trans ?_) ?_
  · have h1 : C ≤ C * (1 + A.δ) := by nlinarith
    have h2 : C * (1 + A.δ) ≤ (C * (1 + A.δ)) ^ 4 := le_self_pow₀ hone (by decide)
    linarith
  rintro d ⟨okd, ed⟩
  refine S.bind _ _ _ _ ((C42_power_sound A hδ d okd C hC (fun i => by rw [ed]; exact hd i) 2 hB).2.1 (by decide)) ?_
  rintro q ⟨okq, eq⟩
  have hq : ∀ i, |A.val q i - (A.val p i - A.val t i) ^ 2| ≤ C ^ 2 * ((1 + A.δ) ^ 2 - 1) := fun i => by
    have := eq i
    rwa [ed i] at this
  refine S.mono _ _ _ (A.sums (fun _ : Fin 1 => List.finRange n) q okq fun _ => ?_) ?_
  · rw [sum_finRange]
    calc ∑ i, |A.val q i| ≤ ∑ _i : Fin n, (C * (1 + A.δ)) ^ 2 := by
          refine Finset.sum_le_sum fun i _ => ?_
          have h1 := abs_sub_abs_le_abs_sub (A.val q i) ((A.val p i - A.val t i) ^ 2)
          have h2 : |(A.val p i - A.val t i) ^ 2| ≤ C ^ 2 := by
            rw [abs_pow]
            exact pow_le_pow_left₀ (abs_nonneg _) (hd i) 2
          have h3 := hq i
          nlinarith
      _ = n * (C * (1 + A.δ)) ^ 2 := by simp
      _ ≤ A.B := hS
  · rintro z ⟨okz, ez⟩
    refine ⟨okz, ?_⟩
    rw [ez 0, sum_finRange]
    unfold squares squaresError
    rw [← Finset.sum_sub_distrib]
    refine (Finset.abs_sum_le_sum_abs _ _).trans ((Finset.sum_le_sum fun i _ => hq i).trans ?_)
    simp

/-- With rounding: for differences up to `C`, the sum of squares is off by at most `squaresError`, and the mean by that divided by the
length of the first dimension plus the error of a division.
Missing: torch's mean when an entry of the first dimension has several elements, which is false (`C69_matrix_mean_wrong`). -/
theorem C69_mse_sound_partial (A : Sound O S) (hδ : 0 ≤ A.δ) (p t : X n) (okp : A.Ok p) (okt : A.Ok t) (C : ℚ) (hC : 1 ≤ C)
    (hd : ∀ i, |A.val p i - A.val t i| ≤ C) (hB : (C * (1 + A.δ)) ^ 4 ≤ A.B) (hS : n * (C * (1 + A.δ)) ^ 2 ≤ A.B) (k : Nat) (hk : 0 < k)
    (hkB : (k : ℚ) ≤ A.B) (rest : List Nat) :
    (S.sure (mseLoss O (k :: rest) p t .sum) fun z => A.Ok z ∧ |A.val z 0 - squares (A.val p) (A.val t)| ≤ squaresError n C A.δ) ∧
    S.sure (mseLoss O (k :: rest) p t .mean) fun z => A.Ok z ∧
      |A.val z 0 - squares (A.val p) (A.val t) / k| ≤ squaresError n C A.δ / k + A.δd := by
  have h := squaresS_sound A hδ p t okp okt C hC hd hB hS
  refine ⟨h, ?_⟩
  have hk' : (0 : ℚ) < k := by exact_mod_cast hk
  unfold mseLoss
  refine S.bind _ _ _ _ h ?_
  rintro s ⟨oks, es⟩
  refine S.mono _ _ _ (A.divP s k oks hk hkB) ?_
  rintro z ⟨okz, ez⟩
  refine ⟨okz, ?_⟩
  have h1 := abs_sub_le (A.val z 0) (A.val s 0 / k) (squares (A.val p) (A.val t) / k)
  have h2 : |A.val s 0 / k - squares (A.val p) (A.val t) / k| ≤ squaresError n C A.δ / k := by
    rw [← sub_div, abs_div, abs_of_pos hk']
    exact div_le_div_of_nonneg_right es hk'.le
  linarith [ez 0]

/-- `y / x` for a public number and a secret with modulus between 0.1 and 10: half a percent, and the rounding of one product.
Missing: other secrets, for which the iterations of `reciprocal` are too few. -/
theorem C69_rtruediv_sound_partial (A : Sound O S) (H : Fine A) (x : X n) (ok : A.Ok x) (h1 : ∀ i, 1 / 10 ≤ |A.val x i|) (h2 : ∀ i, |A.val x i| ≤ 10)
    (y : ℚ) (hy : |y| ≤ 90) :
    S.sure (rtruedivS O x y) fun z => A.Ok z ∧ ∀ i, |A.val z i - y / A.val x i| ≤ |y / A.val x i| / 200 + 11 * A.δc + A.δ := by
  have hc := H.δc0
  have hB1 := H.B1
  unfold rtruedivS
  refine S.bind _ _ _ _ (C51_reciprocal_sound A H x ok h1 h2) ?_
  rintro r ⟨okr, er⟩
  have hx0 : ∀ i, 0 < |A.val x i| := fun i => by linarith [h1 i]
  have hr : ∀ i, |A.val r i| ≤ 11 := fun i => by
    have e1 := er i
    have e2 : |A.val x i * A.val r i| ≤ 201 / 200 := by
      have := abs_sub_abs_le_abs_sub (A.val x i * A.val r i) 1
      rw [abs_sub_comm, abs_one] at this
      linarith
    rw [abs_mul] at e2
    have := mul_le_mul_of_nonneg_right (h1 i) (abs_nonneg (A.val r i))
    linarith
  refine S.mono _ _ _ (A.mulF r y okr fun i => ?_) ?_
  · rw [abs_mul]
    have := mul_le_mul (hr i) hy (abs_nonneg _) (by norm_num)
    linarith
  · rintro z ⟨okz, ez⟩
    refine ⟨okz, fun i => ?_⟩
    have hne : A.val x i ≠ 0 := abs_pos.mp (hx0 i)
    have e1 : A.val r i * y - y / A.val x i = -(y / A.val x i) * (1 - A.val x i * A.val r i) := by
      field_simp
      ring
    have e2 : |A.val r i * y - y / A.val x i| ≤ |y / A.val x i| / 200 := by
      rw [e1, abs_mul, abs_neg]
      have := mul_le_mul_of_nonneg_left (er i) (abs_nonneg (y / A.val x i))
      linarith
    have e3 := abs_sub_le (A.val z i) (A.val r i * y) (y / A.val x i)
    have e4 := mul_le_mul_of_nonneg_right (hr i) hc
    linarith [ez i]

end Rounded

/-! ## In a session of two parties -/

section Sessions

variable {Key : Type} {n : Nat}

/-- The loss in a two-party session.  Missing: as for `C69_mse_sound_partial`. -/
theorem C69_mse_session_partial (M : Machine Key) (hM : M.Fair) (p t : MX n) (okp : M.Ok p) (okt : M.Ok t) (C : ℚ) (hC : 1 ≤ C)
    (hd : ∀ i, |M.val p i - M.val t i| ≤ C) (hB : (C * (1 + 2 / M.scale)) ^ 4 ≤ (2 ^ 30 - 1) / M.scale)
    (hS : n * (C * (1 + 2 / M.scale)) ^ 2 ≤ (2 ^ 30 - 1) / M.scale) (k : Nat) (hk : 0 < k) (hkB : (k : ℚ) ≤ (2 ^ 30 - 1) / M.scale)
    (rest : List Nat) (w : MState Key) (hw : M.Inv w) :
    mseLoss M.ops (k :: rest) p t .mean w = .error (.inr ()) ∨
    ∃ z w', mseLoss M.ops (k :: rest) p t .mean w = .ok (z, w') ∧ M.Inv w' ∧ M.Ok z ∧
      |M.val z 0 - squares (M.val p) (M.val t) / k| ≤ squaresError n C (2 / M.scale) / k + 2 / M.scale := by
  obtain ⟨d1, d2, -⟩ := sort_room M.scale hM.pos _ rfl
  have d1' : 0 ≤ (M.sound hM).δ := d1
  have d2' : (M.sound hM).δ ≤ 2 / M.scale := d2
  have hle : C * (1 + (M.sound hM).δ) ≤ C * (1 + 2 / M.scale) := mul_le_mul_of_nonneg_left (by linarith) (by linarith)
  have h0 : 0 ≤ C * (1 + (M.sound hM).δ) := by positivity
  rcases (C69_mse_sound_partial (M.sound hM) d1 p t okp okt C hC hd ((pow_le_pow_left₀ h0 hle 4).trans hB)
    ((mul_le_mul_of_nonneg_left (pow_le_pow_left₀ h0 hle 2) (Nat.cast_nonneg n)).trans hS) k hk hkB rest).2 w hw with h | ⟨z, w', h3, ⟨h4, h5⟩, h6⟩
  · exact Or.inl h
  · refine Or.inr ⟨z, w', h3, h6, h4, h5.trans ?_⟩
    have : squaresError n C (M.sound hM).δ ≤ squaresError n C (2 / M.scale) := by
      unfold squaresError
      have := pow_le_pow_left₀ (by linarith) (by linarith : 1 + (M.sound hM).δ ≤ 1 + 2 / M.scale) 2
      exact mul_le_mul_of_nonneg_left (mul_le_mul_of_nonneg_left (by linarith) (by positivity)) (Nat.cast_nonneg n)
    exact add_le_add (div_le_div_of_nonneg_right this (Nat.cast_nonneg k)) le_rfl

/-- `y / x` in a two-party session.  Missing: as for `C69_rtruediv_sound_partial`. -/
theorem C69_rtruediv_session_partial (M : Machine Key) (hM : M.Fair) (hs1 : 2 ^ 16 ≤ M.scale) (hs2 : M.scale ≤ 2 ^ 20) (x : MX n) (ok : M.Ok x)
    (h1 : ∀ i, 1 / 10 ≤ |M.val x i|) (h2 : ∀ i, |M.val x i| ≤ 10) (y : ℚ) (hy : |y| ≤ 90) (w : MState Key) (hw : M.Inv w) :
    rtruedivS M.ops x y w = .error (.inr ()) ∨
    ∃ z w', rtruedivS M.ops x y w = .ok (z, w') ∧ M.Inv w' ∧ M.Ok z ∧
      ∀ i, |M.val z i - y / M.val x i| ≤ |y / M.val x i| / 200 + 13 / M.scale := by
  rcases C69_rtruediv_sound_partial (M.sound hM) (machine_fine M hM hs1 hs2) x ok h1 h2 y hy w hw with h | ⟨z, w', h3, ⟨h4, h5⟩, h6⟩
  · exact Or.inl h
  · refine Or.inr ⟨z, w', h3, h6, h4, fun i => (h5 i).trans ?_⟩
    have d2 : (M.sound hM).δ ≤ 2 / M.scale := (sort_room M.scale hM.pos _ rfl).2.1
    have e : (M.sound hM).δc = 1 / M.scale := rfl
    rw [e]
    have : (13 : ℚ) / M.scale = 11 * (1 / M.scale) + 2 / M.scale := by ring
    have ex : (M.sound hM).val x i = M.val x i := rfl
    rw [this, ex]
    linarith

/-- the loss of predictions 2 and 0.5 for targets 0.5 and 1 is 1.25, and 3 / -4 -/
example : exNear (mseLoss exMachine.ops [2] (exVector ![131072, 32768]) (exVector ![32768, 65536]) .mean start) ![81920] 10 = true := by
  decide +kernel

example : exNear (rtruedivS exMachine.ops (exVector ![-4 * 65536]) 3 start) ![-49152] 400 = true := by
  decide +kernel

example : (3 / 2 * (1 + 2 / 65536)) ^ 4 ≤ ((2 : ℚ) ^ 30 - 1) / 65536 ∧ (2 : Nat) * (3 / 2 * (1 + 2 / 65536)) ^ 2 ≤ ((2 : ℚ) ^ 30 - 1) / 65536 := by
  norm_num

end Sessions

end SyMPC
