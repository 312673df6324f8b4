import Verif.Props.RobustSession
import Verif.Props.Chebyshev

/-!
# C77: `tanh` and `sigmoid` by Chebyshev polynomials with rounding errors

Over operators that are as exact as those of a session with 16 binary places (`Fine`).  The numbers are rational, the functions real.
-/

namespace SyMPC

open Chebyshev Polynomial.Chebyshev

variable {m : Type → Type} [Monad m] {X : Nat → Type} {n : Nat} {O : SecretOps m X ℚ} {S : Sure m}

/-- the numbers of a secret are off by at most `e` -/
def Off (A : Sound O S) (x : X n) (t : Fin n → ℝ) (e : ℝ) : Prop := A.Ok x ∧ ∀ i, |(A.val x i : ℝ) - t i| ≤ e

theorem Off.abs {A : Sound O S} {x : X n} {t : Fin n → ℝ} {e P : ℝ} (h : Off A x t e) (hP : ∀ i, |t i| ≤ P) (i : Fin n) :
    |(A.val x i : ℝ)| ≤ P + e := by
  have := abs_sub_abs_le_abs_sub (A.val x i : ℝ) (t i)
  linarith [h.2 i, hP i]

theorem cast_le {q r : ℚ} (h : |q| ≤ r) : |(q : ℝ)| ≤ r := by exact_mod_cast h

theorem fine_B {A : Sound O S} (H : Fine A) : (1000 : ℝ) ≤ A.B := by exact_mod_cast H.B1

theorem le_B {A : Sound O S} (H : Fine A) {q : ℚ} (h : |(q : ℝ)| ≤ 1000) : |q| ≤ A.B := by
  have : |q| ≤ 1000 := by exact_mod_cast h
  exact this.trans H.B1

theorem off_mul (A : Sound O S) (H : Fine A) {x y : X n} {s t : Fin n → ℝ} {e f P Q : ℝ} (hx : Off A x s e) (hy : Off A y t f)
    (hP : ∀ i, |s i| ≤ P) (hQ : ∀ i, |t i| ≤ Q) (hB : (P + e) * (Q + f) ≤ 1000) :
    S.sure (O.mul x y) fun z => Off A z (fun i => s i * t i) (P * f + Q * e + e * f + 1 / 2 ^ 15) := by
  refine S.mono _ _ _ (A.mul x y hx.1 hy.1 fun i => le_B H ?_) ?_
  · push_cast
    rw [abs_mul]
    refine (mul_le_mul (hx.abs hP i) (hy.abs hQ i) (abs_nonneg _) ?_).trans hB
    linarith [abs_nonneg (A.val x i : ℝ), hx.abs hP i]
  · rintro z ⟨hz, ez⟩
    refine ⟨hz, fun i => ?_⟩
    have h1 := cast_le ((ez i).trans H.δ1)
    push_cast at h1
    have h2 : (A.val z i : ℝ) - s i * t i = (A.val z i - A.val x i * A.val y i) + s i * (A.val y i - t i)
        + t i * (A.val x i - s i) + (A.val x i - s i) * (A.val y i - t i) := by ring
    have h3 := hx.2 i
    have h4 := hy.2 i
    have h5 : |s i * ((A.val y i : ℝ) - t i)| ≤ P * f := by
      rw [abs_mul]
      exact mul_le_mul (hP i) h4 (abs_nonneg _) ((abs_nonneg _).trans (hP i))
    have h6 : |t i * ((A.val x i : ℝ) - s i)| ≤ Q * e := by
      rw [abs_mul]
      exact mul_le_mul (hQ i) h3 (abs_nonneg _) ((abs_nonneg _).trans (hQ i))
    have h7 : |((A.val x i : ℝ) - s i) * ((A.val y i : ℝ) - t i)| ≤ e * f := by
      rw [abs_mul]
      exact mul_le_mul h3 h4 (abs_nonneg _) ((abs_nonneg _).trans h3)
    rw [h2]
    refine (abs_add_le _ _).trans ?_
    have := abs_add_le ((A.val z i - A.val x i * A.val y i : ℝ) + s i * (A.val y i - t i)) (t i * (A.val x i - s i))
    have := abs_add_le (A.val z i - A.val x i * A.val y i : ℝ) (s i * (A.val y i - t i))
    linarith

theorem off_sub (A : Sound O S) (H : Fine A) {x y : X n} {s t : Fin n → ℝ} {e f P Q : ℝ} (hx : Off A x s e) (hy : Off A y t f)
    (hP : ∀ i, |s i| ≤ P) (hQ : ∀ i, |t i| ≤ Q) (hB : P + e + (Q + f) ≤ 1000) :
    S.sure (O.sub x y) fun z => Off A z (fun i => s i - t i) (e + f) := by
  refine S.mono _ _ _ (A.sub x y hx.1 hy.1 fun i => le_B H ?_) ?_
  · push_cast
    have := abs_sub (A.val x i : ℝ) (A.val y i)
    linarith [hx.abs hP i, hy.abs hQ i]
  · rintro z ⟨hz, ez⟩
    refine ⟨hz, fun i => ?_⟩
    rw [ez i]
    push_cast
    have h := abs_sub ((A.val x i : ℝ) - s i) (A.val y i - t i)
    rw [show (A.val x i : ℝ) - A.val y i - (s i - t i) = A.val x i - s i - (A.val y i - t i) by ring]
    linarith [hx.2 i, hy.2 i]

theorem off_add (A : Sound O S) (H : Fine A) {x y : X n} {s t : Fin n → ℝ} {e f P Q : ℝ} (hx : Off A x s e) (hy : Off A y t f)
    (hP : ∀ i, |s i| ≤ P) (hQ : ∀ i, |t i| ≤ Q) (hB : P + e + (Q + f) ≤ 1000) :
    S.sure (O.add x y) fun z => Off A z (fun i => s i + t i) (e + f) := by
  refine S.mono _ _ _ (A.add x y hx.1 hy.1 fun i => le_B H ?_) ?_
  · push_cast
    have := abs_add_le (A.val x i : ℝ) (A.val y i)
    linarith [hx.abs hP i, hy.abs hQ i]
  · rintro z ⟨hz, ez⟩
    refine ⟨hz, fun i => ?_⟩
    rw [ez i]
    push_cast
    have h := abs_add_le ((A.val x i : ℝ) - s i) (A.val y i - t i)
    rw [show (A.val x i : ℝ) + A.val y i - (s i + t i) = A.val x i - s i + (A.val y i - t i) by ring]
    linarith [hx.2 i, hy.2 i]

theorem off_subP (A : Sound O S) (H : Fine A) {x : X n} {s : Fin n → ℝ} {e P : ℝ} (c : Int) (hx : Off A x s e)
    (hP : ∀ i, |s i| ≤ P) (hB : P + e + |(c : ℝ)| ≤ 1000) : S.sure (O.subP x c) fun z => Off A z (fun i => s i - c) e := by
  refine S.mono _ _ _ (A.subP x c hx.1 fun i => le_B H ?_) ?_
  · push_cast
    have := abs_sub (A.val x i : ℝ) c
    linarith [hx.abs hP i]
  · rintro z ⟨hz, ez⟩
    refine ⟨hz, fun i => ?_⟩
    rw [ez i]
    push_cast
    rw [show (A.val x i : ℝ) - c - (s i - c) = A.val x i - s i by ring]
    exact hx.2 i

theorem off_addP (A : Sound O S) (H : Fine A) {x : X n} {s : Fin n → ℝ} {e P : ℝ} (c : Int) (hx : Off A x s e)
    (hP : ∀ i, |s i| ≤ P) (hB : P + e + |(c : ℝ)| ≤ 1000) : S.sure (O.addP x c) fun z => Off A z (fun i => s i + c) e := by
  refine S.mono _ _ _ (A.addP x c hx.1 fun i => le_B H ?_) ?_
  · push_cast
    have := abs_add_le (A.val x i : ℝ) c
    linarith [hx.abs hP i]
  · rintro z ⟨hz, ez⟩
    refine ⟨hz, fun i => ?_⟩
    rw [ez i]
    push_cast
    rw [show (A.val x i : ℝ) + c - (s i + c) = A.val x i - s i by ring]
    exact hx.2 i

theorem off_mulP (A : Sound O S) (H : Fine A) {x : X n} {s : Fin n → ℝ} {e P : ℝ} (c : Int) (hx : Off A x s e)
    (hP : ∀ i, |s i| ≤ P) (hB : (P + e) * |(c : ℝ)| ≤ 1000) :
    S.sure (O.mulP x c) fun z => Off A z (fun i => s i * c) (e * |(c : ℝ)| + 1 / 2 ^ 15) := by
  refine S.mono _ _ _ (A.mulP x c hx.1 fun i => le_B H ?_) ?_
  · push_cast
    rw [abs_mul]
    exact (mul_le_mul_of_nonneg_right (hx.abs hP i) (abs_nonneg _)).trans hB
  · rintro z ⟨hz, ez⟩
    refine ⟨hz, fun i => ?_⟩
    have h1 := cast_le ((ez i).trans H.δ1)
    push_cast at h1
    rw [show (A.val z i : ℝ) - s i * c = A.val z i - A.val x i * c + (A.val x i - s i) * c by ring]
    refine (abs_add_le _ _).trans ?_
    rw [abs_mul]
    have := mul_le_mul_of_nonneg_right (hx.2 i) (abs_nonneg (c : ℝ))
    linarith

/-- a product with a public number `c` that stands for `r` -/
theorem off_mulF (A : Sound O S) (H : Fine A) {x : X n} {s : Fin n → ℝ} {e P : ℝ} (c : ℚ) (r ε : ℝ) (hc : |(c : ℝ) - r| ≤ ε) (hx : Off A x s e)
    (hP : ∀ i, |s i| ≤ P) (hB : (P + e) * (|r| + ε) ≤ 1000) :
    S.sure (O.mulP x c) fun z => Off A z (fun i => s i * r) (|r| * e + (P + e) * (ε + 1 / 2 ^ 16) + 1 / 2 ^ 15) := by
  have hcr : |(c : ℝ)| ≤ |r| + ε := by
    have := abs_sub_abs_le_abs_sub (c : ℝ) r
    linarith
  refine S.mono _ _ _ (A.mulF x c hx.1 fun i => le_B H ?_) ?_
  · push_cast
    rw [abs_mul]
    refine (mul_le_mul (hx.abs hP i) hcr (abs_nonneg _) ?_).trans hB
    linarith [abs_nonneg (A.val x i : ℝ), hx.abs hP i]
  · rintro z ⟨hz, ez⟩
    refine ⟨hz, fun i => ?_⟩
    have hxa := hx.abs hP i
    have h1 : |(A.val z i : ℝ) - A.val x i * c| ≤ (P + e) * (1 / 2 ^ 16) + 1 / 2 ^ 15 := by
      have h2 := cast_le (ez i)
      have h3 : ((A.δc : ℚ) : ℝ) ≤ 1 / 2 ^ 16 := by
        have := (Rat.cast_le (K := ℝ)).mpr H.δc1
        push_cast at this
        exact this
      have h4 : ((A.δ : ℚ) : ℝ) ≤ 1 / 2 ^ 15 := by
        have := (Rat.cast_le (K := ℝ)).mpr H.δ1
        push_cast at this
        exact this
      have h5 : (0 : ℝ) ≤ A.δc := by exact_mod_cast H.δc0
      push_cast at h2
      have h6 : |(A.val x i : ℝ)| * A.δc ≤ (P + e) * (1 / 2 ^ 16) :=
        mul_le_mul hxa h3 h5 ((abs_nonneg _).trans hxa)
      linarith
    rw [show (A.val z i : ℝ) - s i * r = A.val z i - A.val x i * c + A.val x i * (c - r) + r * (A.val x i - s i) by ring]
    refine (abs_add_le _ _).trans ?_
    have h7 := abs_add_le ((A.val z i : ℝ) - A.val x i * c) (A.val x i * (c - r))
    have h8 : |(A.val x i : ℝ) * (c - r)| ≤ (P + e) * ε := by
      rw [abs_mul]
      exact mul_le_mul hxa hc (abs_nonneg _) ((abs_nonneg _).trans hxa)
    have h9 : |r * ((A.val x i : ℝ) - s i)| ≤ |r| * e := by
      rw [abs_mul]
      exact mul_le_mul_of_nonneg_left (hx.2 i) (abs_nonneg _)
    rw [mul_add]
    linarith

theorem Off.mono {A : Sound O S} {x : X n} {s : Fin n → ℝ} {e f : ℝ} (h : Off A x s e) (hef : e ≤ f) : Off A x s f :=
  ⟨h.1, fun i => (h.2 i).trans hef⟩

theorem off_relu (A : Sound O S) (H : Fine A) {x : X n} {s : Fin n → ℝ} {e P : ℝ} (hx : Off A x s e)
    (hP : ∀ i, |s i| ≤ P) (hB : P + e ≤ 1000) : S.sure (reluS O x) fun z => Off A z (fun i => max (s i) 0) (e + 1 / 2 ^ 15) := by
  have hb : ∀ i, |A.val x i| ≤ A.B := fun i => le_B H ((hx.abs hP i).trans hB)
  unfold reluS
  have hg := A.geP x 0 hx.1 hb (by simp; linarith [H.B1])
  push_cast at hg
  refine S.bind _ _ _ _ hg ?_
  rintro g ⟨hg, eg⟩
  refine S.mono _ _ _ (A.mul x g hx.1 hg fun i => ?_) ?_
  · rw [eg i]
    split
    · rw [mul_one]; exact hb i
    · rw [mul_zero, abs_zero]; linarith [H.B1]
  · rintro z ⟨hz, ez⟩
    refine ⟨hz, fun i => ?_⟩
    have h1 := cast_le ((ez i).trans H.δ1)
    have h2 : A.val x i * A.val g i = max (A.val x i) 0 := by
      rw [eg i]
      split
      · rename_i h; rw [mul_one, max_eq_left h]
      · rename_i h; rw [mul_zero, max_eq_right (by simpa using (not_le.mp h).le)]
    rw [h2] at h1
    push_cast at h1
    have h3 := abs_max_sub_max_le_abs (A.val x i : ℝ) (s i) 0
    have := abs_sub_le (A.val z i : ℝ) (max (A.val x i : ℝ) 0) (max (s i) 0)
    linarith [hx.2 i]

theorem off_hardtanh (A : Sound O S) (H : Fine A) {x : X n} {s : Fin n → ℝ} {e P : ℝ} (hx : Off A x s e)
    (hP : ∀ i, |s i| ≤ P) (hB : P + e ≤ 400) :
    S.sure (hardtanhS O x (-1) 1) fun z => Off A z (fun i => max (-1) (min (s i) 1)) (2 * e + 1 / 2 ^ 14) := by
  unfold hardtanhS
  have h1 := off_subP A H (-1) hx hP (by norm_num; linarith)
  push_cast at h1
  refine S.bind _ _ _ _ h1 fun a ha => ?_
  have ba : ∀ i, |s i - -1| ≤ P + 1 := fun i => by
    have := abs_sub (s i) (-1)
    norm_num at this ⊢
    linarith [hP i]
  refine S.bind _ _ _ _ (off_relu A H ha ba (by linarith)) fun a ha => ?_
  have h2 := off_subP A H 1 hx hP (by norm_num; linarith)
  push_cast at h2
  refine S.bind _ _ _ _ h2 fun b hb => ?_
  have bb : ∀ i, |s i - 1| ≤ P + 1 := fun i => by
    have := abs_sub (s i) 1
    norm_num at this
    linarith [hP i]
  refine S.bind _ _ _ _ (off_relu A H hb bb (by linarith)) fun b hb => ?_
  have hmax : ∀ {u : ℝ}, |u| ≤ P + 1 → |max u 0| ≤ P + 1 := fun {u} hu => by
    rw [abs_of_nonneg (le_max_right _ _)]
    exact max_le ((le_abs_self u).trans hu) ((abs_nonneg u).trans hu)
  refine S.bind _ _ _ _ (off_sub A H ha hb (fun i => hmax (ba i)) (fun i => hmax (bb i)) (by norm_num; linarith)) fun d hd => ?_
  have h3 := off_addP A H (P := 2 * P + 2) (-1) hd (fun i => by
    have := abs_sub (max (s i - -1) 0) (max (s i - 1) 0)
    linarith [hmax (ba i), hmax (bb i)]) (by norm_num; linarith)
  push_cast at h3
  refine S.mono _ _ _ h3 fun z hz => ?_
  have e1 : (fun i => max (s i - -1) 0 - max (s i - 1) 0 + -1) = fun i => max (-1) (min (s i) 1) := by
    funext i
    rcases le_total (s i) (-1) with h | h
    · rw [max_eq_right (by linarith), max_eq_right (by linarith), min_eq_left (by linarith), max_eq_left h]; ring
    · rcases le_total (s i) 1 with h' | h'
      · rw [max_eq_left (by linarith), max_eq_right (by linarith), min_eq_left h', max_eq_right h]; ring
      · rw [max_eq_left (by linarith), max_eq_left (by linarith), min_eq_right h', max_eq_right (by norm_num)]; ring
  rw [← e1]
  exact hz.mono (by norm_num; linarith)

/-- the odd Chebyshev polynomials -/
noncomputable def chebT (k : Nat) (a : ℝ) : ℝ := (T ℝ ((2 * k + 1 : Nat) : ℤ)).eval a

theorem chebT_le (k : Nat) {a : ℝ} (ha : |a| ≤ 1) : |chebT k a| ≤ 1 := abs_eval_T_real_le_one _ ha

theorem y_bound {a : ℝ} (ha : |a| ≤ 1) : |4 * a * a - 2| ≤ 2 := by
  obtain ⟨h1, h2⟩ := abs_le.mp ha
  rw [abs_le]
  constructor
  · nlinarith [mul_self_nonneg a]
  · nlinarith [mul_nonneg (by linarith : 0 ≤ 1 - a) (by linarith : 0 ≤ 1 + a)]

/-- one more polynomial -/
theorem off_step (A : Sound O S) (H : Fine A) {a : Fin n → ℝ} (ha : ∀ i, |a i| ≤ 1) {y p0 p1 : X n} {e f g : ℝ} {k : Nat}
    (hy : Off A y (fun i => 4 * a i * a i - 2) (1 / 2 ^ 14)) (h0 : Off A p0 (fun i => chebT k (a i)) e)
    (h1 : Off A p1 (fun i => chebT (k + 1) (a i)) f) (he : e ≤ 1) (hf : f ≤ 1)
    (hg : 2 * f + 1 / 2 ^ 14 + 1 / 2 ^ 14 * f + 1 / 2 ^ 15 + e ≤ g)
    {β : Type} (next : X n → m β) (R : β → Prop) (hn : ∀ z, Off A z (fun i => chebT (k + 2) (a i)) g → S.sure (next z) R) :
    S.sure (do let t ← O.mul y p1; let z ← O.sub t p0; next z) R := by
  have hyb : ∀ i, |4 * a i * a i - 2| ≤ 2 := fun i => y_bound (ha i)
  refine S.bind _ _ _ _ (off_mul A H hy h1 hyb (fun i => chebT_le _ (ha i)) (by nlinarith)) fun t ht => ?_
  refine S.bind _ _ _ _ (off_sub A H (P := 2) (Q := 1) ht h0 (fun i => ?_) (fun i => chebT_le _ (ha i)) (by nlinarith)) fun z hz => hn z ?_
  · rw [abs_mul]
    calc _ ≤ 2 * (1 : ℝ) := mul_le_mul (hyb i) (chebT_le _ (ha i)) (abs_nonneg _) (by norm_num)
      _ = 2 := mul_one 2
  · have e1 : (fun i => (4 * a i * a i - 2) * chebT (k + 1) (a i) - chebT k (a i)) = fun i => chebT (k + 2) (a i) := by
      funext i
      have := chebyshev_step (F := ℝ) (a i) ((2 * k + 1 : Nat) : ℤ)
      unfold chebT
      push_cast at this ⊢
      ring_nf at this ⊢
      linarith
    rw [← e1]
    exact hz.mono (by linarith)

/-- the five polynomials -/
theorem off_polynomials (A : Sound O S) (H : Fine A) (x : X n) (ok : A.Ok x) (hx : ∀ i, |A.val x i| ≤ 1) :
    S.sure (chebyshevPolynomials O x 10) fun l => ∃ p0 p1 p2 p3 p4, l = [p0, p1, p2, p3, p4] ∧
      Off A p0 (fun i => chebT 0 (A.val x i)) 0 ∧ Off A p1 (fun i => chebT 1 (A.val x i)) (3 / 2 ^ 15) ∧
      Off A p2 (fun i => chebT 2 (A.val x i)) (10 / 2 ^ 15) ∧ Off A p3 (fun i => chebT 3 (A.val x i)) (27 / 2 ^ 15) ∧
      Off A p4 (fun i => chebT 4 (A.val x i)) (68 / 2 ^ 15) := by
  have ha : ∀ i, |((A.val x i : ℚ) : ℝ)| ≤ 1 := fun i => by
    have := hx i
    exact_mod_cast this
  have h0 : Off A x (fun i => (A.val x i : ℝ)) 0 := ⟨ok, fun i => by simp⟩
  unfold chebyshevPolynomials
  rw [if_neg (by decide)]
  have h1 := off_mulP A H 4 h0 ha (by norm_num)
  push_cast at h1
  refine S.bind _ _ _ _ h1 fun y hy => ?_
  have b4 : ∀ i, |(A.val x i : ℝ) * 4| ≤ 4 := fun i => by
    rw [abs_mul]
    norm_num
    linarith [ha i]
  refine S.bind _ _ _ _ (off_mul A H hy h0 b4 ha (by norm_num)) fun y hy => ?_
  have b5 : ∀ i, |(A.val x i : ℝ) * 4 * A.val x i| ≤ 4 := fun i => by
    rw [abs_mul]
    calc _ ≤ 4 * (1 : ℝ) := mul_le_mul (b4 i) (ha i) (abs_nonneg _) (by norm_num)
      _ = 4 := mul_one 4
  have h2 := off_subP A H 2 hy b5 (by norm_num)
  push_cast at h2
  refine S.bind _ _ _ _ h2 fun y hy => ?_
  have hy : Off A y (fun i => 4 * (A.val x i : ℝ) * A.val x i - 2) (1 / 2 ^ 14) := by
    have e : (fun i => 4 * (A.val x i : ℝ) * A.val x i - 2) = fun i => (A.val x i : ℝ) * 4 * A.val x i - 2 := by
      funext i
      ring
    rw [e]
    exact hy.mono (by norm_num)
  have b6 : ∀ i, |4 * (A.val x i : ℝ) * A.val x i - 2| ≤ 2 := fun i => y_bound (ha i)
  have h3 := off_subP A H 1 hy b6 (by norm_num)
  push_cast at h3
  refine S.bind _ _ _ _ h3 fun z hz => ?_
  refine S.bind _ _ _ _ (off_mul A H (P := 3) hz h0 (fun i => by
    have := abs_sub (4 * (A.val x i : ℝ) * A.val x i - 2) 1
    norm_num at this
    linarith [b6 i]) ha (by norm_num)) fun p1 hp1 => ?_
  have hp0 : Off A x (fun i => chebT 0 (A.val x i)) 0 := by
    have e : (fun i => chebT 0 (A.val x i)) = fun i => (A.val x i : ℝ) := by
      funext i
      simp [chebT]
    rw [e]
    exact h0
  have hp1 : Off A p1 (fun i => chebT 1 (A.val x i)) (3 / 2 ^ 15) := by
    have e : (fun i => chebT 1 (A.val x i)) = fun i => (4 * (A.val x i : ℝ) * A.val x i - 2 - 1) * A.val x i := by
      funext i
      have := (evals (A.val x i)).2.1
      unfold chebT
      norm_num at this ⊢
      rw [this]
      ring
    rw [e]
    exact hp1.mono (by norm_num)
  refine S.bind _ _ (fun l => ∃ p2 p3 p4, l = [p2, p3, p4] ∧
      Off A p2 (fun i => chebT 2 (A.val x i)) (10 / 2 ^ 15) ∧ Off A p3 (fun i => chebT 3 (A.val x i)) (27 / 2 ^ 15) ∧
      Off A p4 (fun i => chebT 4 (A.val x i)) (68 / 2 ^ 15)) _ ?_ ?_
  · refine off_step A H ha hy hp0 hp1 (g := 10 / 2 ^ 15) (by norm_num) (by norm_num) (by norm_num) _ _ fun p2 h2 => ?_
    refine S.bind _ _ (fun l => ∃ p3 p4, l = [p3, p4] ∧ Off A p3 (fun i => chebT 3 (A.val x i)) (27 / 2 ^ 15) ∧
      Off A p4 (fun i => chebT 4 (A.val x i)) (68 / 2 ^ 15)) _ ?_ ?_
    · refine off_step A H ha hy hp1 h2 (g := 27 / 2 ^ 15) (by norm_num) (by norm_num) (by norm_num) _ _ fun p3 h3 => ?_
      refine S.bind _ _ (fun l => ∃ p4, l = [p4] ∧ Off A p4 (fun i => chebT 4 (A.val x i)) (68 / 2 ^ 15)) _ ?_ ?_
      · refine off_step A H ha hy h2 h3 (g := 68 / 2 ^ 15) (by norm_num) (by norm_num) (by norm_num) _ _ fun p4 h4 => ?_
        refine S.bind _ _ (fun l => l = []) _ (S.pure _ _ rfl) ?_
        rintro l rfl
        exact S.pure _ _ ⟨p4, rfl, h4⟩
      · rintro l ⟨p4, rfl, h4⟩
        exact S.pure _ _ ⟨p3, p4, rfl, h3, h4⟩
    · rintro l ⟨p3, p4, rfl, h3, h4⟩
      exact S.pure _ _ ⟨p2, p3, p4, rfl, h2, h3, h4⟩
  · rintro l ⟨p2, p3, p4, rfl, h2, h3, h4⟩
    exact S.pure _ _ ⟨x, p1, p2, p3, p4, rfl, hp0, hp1, h2, h3, h4⟩

/-- the coefficients: the first is about 0.81, the others are small -/
theorem coeff_bounds : |coeff Real.tanh 1| ≤ 1 ∧ |coeff Real.tanh 3| ≤ 1 / 16 ∧ |coeff Real.tanh 5| ≤ 1 / 16 ∧ |coeff Real.tanh 7| ≤ 1 / 16 ∧
    |coeff Real.tanh 9| ≤ 1 / 16 := by
  have h : ∀ (j : Nat) (b : ℝ), j < 10 → j ≠ 0 → |qCoeff j| + 162 / 10 ^ 6 ≤ b → |coeff Real.tanh j| ≤ b := by
    intro j b h1 h0 hb
    have := coeff_close j
    rw [coeff_q h1 h0] at this
    have := abs_sub_abs_le_abs_sub (coeff Real.tanh j) (qCoeff j)
    linarith
  refine ⟨h 1 _ (by norm_num) (by norm_num) ?_, h 3 _ (by norm_num) (by norm_num) ?_, h 5 _ (by norm_num) (by norm_num) ?_,
    h 7 _ (by norm_num) (by norm_num) ?_, h 9 _ (by norm_num) (by norm_num) ?_⟩
  all_goals
    simp only [qCoeff]
    norm_num [abs_of_pos, abs_of_neg]

/-- a polynomial times its coefficient, where the public number is near the true coefficient -/
theorem off_term (A : Sound O S) (H : Fine A) {p : X n} {s : Fin n → ℝ} {e g R r : ℝ} {c : ℚ} (hp : Off A p s e) (hs : ∀ i, |s i| ≤ 1)
    (hr : |r| ≤ R) (hR : R ≤ 1) (he : 0 ≤ e) (he1 : e ≤ 1) (hc : |(c : ℝ) - r| ≤ 1 / 10 ^ 5)
    (hg : R * e + (1 + e) * (1 / 10 ^ 5 + 1 / 2 ^ 16) + 1 / 2 ^ 15 ≤ g) :
    S.sure (O.mulP p c) fun z => Off A z (fun i => s i * r) g := by
  refine S.mono _ _ _ (off_mulF A H c r (1 / 10 ^ 5) hc hp hs ?_) fun z hz => hz.mono ?_
  · have : |r| + 1 / 10 ^ 5 ≤ 2 := by norm_num; linarith
    calc _ ≤ (1 + 1) * (2 : ℝ) := mul_le_mul (by linarith) this (by positivity) (by norm_num)
      _ ≤ 1000 := by norm_num
  · have := mul_le_mul_of_nonneg_right hr he
    linarith

/-- the sum of the polynomials with their coefficients -/
theorem off_combination (A : Sound O S) (H : Fine A) {a : Fin n → ℝ} (ha : ∀ i, |a i| ≤ 1) {p0 p1 p2 p3 p4 : X n} {c0 c1 c2 c3 c4 : ℚ}
    (h0 : Off A p0 (fun i => chebT 0 (a i)) 0) (h1 : Off A p1 (fun i => chebT 1 (a i)) (3 / 2 ^ 15))
    (h2 : Off A p2 (fun i => chebT 2 (a i)) (10 / 2 ^ 15)) (h3 : Off A p3 (fun i => chebT 3 (a i)) (27 / 2 ^ 15))
    (h4 : Off A p4 (fun i => chebT 4 (a i)) (68 / 2 ^ 15))
    (k0 : |(c0 : ℝ) - coeff Real.tanh 1| ≤ 1 / 10 ^ 5) (k1 : |(c1 : ℝ) - coeff Real.tanh 3| ≤ 1 / 10 ^ 5)
    (k2 : |(c2 : ℝ) - coeff Real.tanh 5| ≤ 1 / 10 ^ 5) (k3 : |(c3 : ℝ) - coeff Real.tanh 7| ≤ 1 / 10 ^ 5)
    (k4 : |(c4 : ℝ) - coeff Real.tanh 9| ≤ 1 / 10 ^ 5) :
    S.sure (linearCombination O [p0, p1, p2, p3, p4] [c0, c1, c2, c3, c4] (.pub 0)) fun r => ∃ z, r = .sec z ∧
      Off A z (fun i => tanhSum tanhCoeffs (a i)) (5 / 10 ^ 4) := by
  obtain ⟨b0, b1, b2, b3, b4⟩ := coeff_bounds
  have small : ∀ {k : Nat} {r : ℝ}, |r| ≤ 1 → ∀ i, |chebT k (a i) * r| ≤ 1 := fun {k r} hr i => by
    rw [abs_mul]
    calc _ ≤ 1 * (1 : ℝ) := mul_le_mul (chebT_le k (ha i)) hr (abs_nonneg _) zero_le_one
      _ = 1 := one_mul 1
  have w : ∀ {r : ℝ}, |r| ≤ 1 / 16 → |r| ≤ 1 := fun h => h.trans (by norm_num)
  have sum2 : ∀ {u v P Q : ℝ}, |u| ≤ P → |v| ≤ Q → |u + v| ≤ P + Q := fun hu hv => (abs_add_le _ _).trans (add_le_add hu hv)
  simp only [linearCombination, Num.addTo]
  refine S.bind _ _ _ _ (off_term A H (g := 56 / 10 ^ 6) h0 (fun i => chebT_le _ (ha i)) b0 le_rfl le_rfl (by norm_num) k0 (by norm_num)) fun t ht => ?_
  have hz := off_addP A H 0 ht (small b0) (by norm_num)
  push_cast at hz
  refine S.bind _ _ _ _ hz fun s hs => ?_
  have hb : ∀ i, |chebT 0 (a i) * coeff Real.tanh 1 + 0| ≤ 1 := fun i => by rw [add_zero]; exact small b0 i
  refine S.bind _ _ _ _ (off_term A H (g := 62 / 10 ^ 6) h1 (fun i => chebT_le _ (ha i)) b1 (by norm_num) (by norm_num) (by norm_num) k1 (by norm_num)) fun t ht => ?_
  refine S.bind _ _ _ _ (off_add A H ht hs (small (w b1)) hb (by norm_num)) fun s hs => ?_
  have hb := fun i => sum2 (small (k := 1) (w b1) i) (hb i)
  refine S.bind _ _ _ _ (off_term A H (g := 76 / 10 ^ 6) h2 (fun i => chebT_le _ (ha i)) b2 (by norm_num) (by norm_num) (by norm_num) k2 (by norm_num)) fun t ht => ?_
  refine S.bind _ _ _ _ (off_add A H ht hs (small (w b2)) hb (by norm_num)) fun s hs => ?_
  have hb := fun i => sum2 (small (k := 2) (w b2) i) (hb i)
  refine S.bind _ _ _ _ (off_term A H (g := 108 / 10 ^ 6) h3 (fun i => chebT_le _ (ha i)) b3 (by norm_num) (by norm_num) (by norm_num) k3 (by norm_num)) fun t ht => ?_
  refine S.bind _ _ _ _ (off_add A H ht hs (small (w b3)) hb (by norm_num)) fun s hs => ?_
  have hb := fun i => sum2 (small (k := 3) (w b3) i) (hb i)
  refine S.bind _ _ _ _ (off_term A H (g := 187 / 10 ^ 6) h4 (fun i => chebT_le _ (ha i)) b4 (by norm_num) (by norm_num) (by norm_num) k4 (by norm_num)) fun t ht => ?_
  refine S.bind _ _ _ _ (off_add A H ht hs (small (w b4)) hb (by norm_num)) fun s hs => ?_
  refine S.pure _ _ ⟨s, rfl, ?_⟩
  have e : (fun i => tanhSum tanhCoeffs (a i)) = fun i => chebT 4 (a i) * coeff Real.tanh 9 + (chebT 3 (a i) * coeff Real.tanh 7 +
      (chebT 2 (a i) * coeff Real.tanh 5 + (chebT 1 (a i) * coeff Real.tanh 3 + (chebT 0 (a i) * coeff Real.tanh 1 + 0)))) := by
    funext i
    unfold tanhSum chebT
    rw [tanhCoeffs_eq, show List.range 5 = [0, 1, 2, 3, 4] from rfl]
    simp only [List.zipWith_cons_cons, List.sum_cons, List.zipWith_nil_left, List.sum_nil]
    ring
  rw [e]
  exact hs.mono (by norm_num)

/-- the public coefficients (the code computes them in float32) are near those of the series -/
def CoeffsNear (cs : List ℚ) : Prop := cs.length = 5 ∧ ∀ k < 5, |(cs.getD k 0 : ℝ) - tanhCoeffs.getD k 0| ≤ 1 / 10 ^ 5

/-- C77 with rounding errors: for numbers of modulus up to 1, `tanh` with `method="chebyshev"` is within 0.002 of the hyperbolic
tangent. -/
theorem C77_tanh_sound (A : Sound O S) (H : Fine A) (cs : List ℚ) (hcs : CoeffsNear cs) (x : X n) (ok : A.Ok x) (hx : ∀ i, |A.val x i| ≤ 1) :
    S.sure (tanhChebyshev O cs x) fun z => A.Ok z ∧ ∀ i, |(A.val z i : ℝ) - Real.tanh (A.val x i)| ≤ 2 / 1000 := by
  have ha : ∀ i, |((A.val x i : ℚ) : ℝ)| ≤ 1 := fun i => by
    have := hx i
    exact_mod_cast this
  obtain ⟨hl, hc⟩ := hcs
  match cs, hl with
  | [c0, c1, c2, c3, c4], _ =>
    rw [tanhCoeffs_eq] at hc
    unfold tanhChebyshev
    refine S.bind _ _ _ _ (off_polynomials A H x ok hx) ?_
    rintro l ⟨p0, p1, p2, p3, p4, rfl, h0, h1, h2, h3, h4⟩
    refine S.bind _ _ _ _ (off_combination A H ha h0 h1 h2 h3 h4 (hc 0 (by norm_num)) (hc 1 (by norm_num)) (hc 2 (by norm_num))
      (hc 3 (by norm_num)) (hc 4 (by norm_num))) ?_
    rintro r ⟨out, rfl, ho⟩
    have hv : ∀ i, |(A.val out i : ℝ) - Real.tanh (A.val x i)| ≤ 15 / 10 ^ 4 := fun i => by
      have := abs_sub_le (A.val out i : ℝ) (tanhSum tanhCoeffs (A.val x i)) (Real.tanh (A.val x i))
      have := ho.2 i
      have := tanhSum_close (ha i)
      norm_num at *
      linarith
    have hself : Off A out (fun i => (A.val out i : ℝ)) 0 := ⟨ho.1, fun i => by simp⟩
    refine S.mono _ _ _ (off_hardtanh A H (P := 3) hself (fun i => ?_) (by norm_num)) fun z hz => ⟨hz.1, fun i => ?_⟩
    · have h5 := tanh_abs_le_one (A.val x i)
      have h6 := abs_le.mp (hv i)
      rw [abs_le]
      norm_num at h6
      constructor <;> linarith
    · have h5 := clamp_close (tanh_abs_le_one (A.val x i)) (by norm_num) (hv i)
      have h6 := hz.2 i
      have := abs_sub_le (A.val z i : ℝ) (max (-1) (min (A.val out i : ℝ) 1)) (Real.tanh (A.val x i))
      norm_num at *
      linarith

theorem sigmoid_tanh (v : ℝ) : 1 / (1 + Real.exp (-v)) = Real.tanh (v / 2) / 2 + 1 / 2 := by
  rw [Real.tanh_eq_sinh_div_cosh, Real.sinh_eq, Real.cosh_eq]
  have hx2 : Real.exp (-v) = Real.exp (-(v / 2)) / Real.exp (v / 2) := by
    rw [← Real.exp_sub]
    congr 1
    ring
  rw [hx2]
  have := Real.exp_pos (v / 2)
  have := Real.exp_pos (-(v / 2))
  field_simp
  ring

/-- C77 with rounding errors: for numbers of modulus up to 1.9, `sigmoid` with `method="chebyshev"` is within 0.002 of the logistic
function. -/
theorem C77_sigmoid_sound (A : Sound O S) (H : Fine A) (cs : List ℚ) (hcs : CoeffsNear cs) (x : X n) (ok : A.Ok x)
    (hx : ∀ i, |A.val x i| ≤ 19 / 10) :
    S.sure (sigmoidChebyshev O cs x) fun z => A.Ok z ∧ ∀ i, |(A.val z i : ℝ) - 1 / (1 + Real.exp (-(A.val x i : ℝ)))| ≤ 2 / 1000 := by
  have d1 := H.δd1
  have d0 := H.δd0
  have c1 := H.δc1
  have c0 := H.δc0
  have hB := H.B1
  norm_num at d1 c1
  unfold sigmoidChebyshev
  have h1 := A.divP x 2 ok (by norm_num) (by norm_num; linarith)
  push_cast at h1
  refine S.bind _ _ _ _ h1 ?_
  rintro h ⟨hh, eh⟩
  refine S.bind _ _ _ _ (C77_tanh_sound A H cs hcs h hh fun i => ?_) ?_
  · have h2 := abs_le.mp (eh i)
    have h3 := abs_le.mp (hx i)
    rw [abs_le]
    constructor <;> linarith
  rintro t ⟨ht, et⟩
  have h1 := A.divP t 2 ht (by norm_num) (by norm_num; linarith)
  push_cast at h1
  refine S.bind _ _ _ _ h1 ?_
  rintro u ⟨hu, eu⟩
  have key : ∀ i, |(A.val u i : ℝ) + 1 / 2 - 1 / (1 + Real.exp (-(A.val x i : ℝ)))| ≤ 15 / 10 ^ 4 := by
    intro i
    have k1 := et i
    have k2 := cast_le ((eh i).trans d1)
    have k3 := cast_le ((eu i).trans d1)
    push_cast at k2 k3
    have k4 := sigmoid_lipschitz (2 * A.val h i : ℝ) (A.val x i)
    have k5 : |2 * (A.val h i : ℝ) - A.val x i| ≤ 2 / 32768 := by
      rw [show 2 * (A.val h i : ℝ) - A.val x i = 2 * (A.val h i - A.val x i / 2) by ring, abs_mul, abs_two]
      linarith
    rw [sigmoid_tanh (2 * A.val h i : ℝ), mul_div_cancel_left₀ _ (two_ne_zero)] at k4
    have k6 := abs_le.mp (k4.trans k5)
    have k7 := abs_le.mp k1
    have k8 := abs_le.mp k3
    rw [abs_le]
    norm_num at *
    constructor <;> linarith [k6.1, k6.2, k7.1, k7.2, k8.1, k8.2]
  have hu2 : ∀ i, |A.val u i| ≤ 3 := by
    intro i
    have hp := Real.exp_pos (-(A.val x i : ℝ))
    have h6 : 0 ≤ 1 / (1 + Real.exp (-(A.val x i : ℝ))) := by positivity
    have h7 : 1 / (1 + Real.exp (-(A.val x i : ℝ))) ≤ 1 := by rw [div_le_one (by linarith)]; linarith
    have h8 := abs_le.mp (key i)
    have : |(A.val u i : ℝ)| ≤ 3 := by
      rw [abs_le]
      generalize 1 / (1 + Real.exp (-(A.val x i : ℝ))) = g at h6 h7 h8
      constructor <;> linarith [h8.1, h8.2]
    exact_mod_cast this
  refine S.mono _ _ _ (A.addF u (1 / 2) hu fun i => ?_) ?_
  · have := abs_add_le (A.val u i) (1 / 2)
    norm_num at this ⊢
    linarith [hu2 i]
  · rintro z ⟨hz, ez⟩
    refine ⟨hz, fun i => ?_⟩
    have k1 := cast_le ((ez i).trans c1)
    push_cast at k1
    have k2 := abs_sub_le (A.val z i : ℝ) (A.val u i + 1 / 2) (1 / (1 + Real.exp (-(A.val x i : ℝ))))
    have k3 := key i
    norm_num at *
    linarith

variable {Key : Type}

/-- C77 in a two-party session: `tanh` with `method="chebyshev"` is within 0.002 of the hyperbolic tangent for numbers up to 1. -/
theorem C77_tanh_session (M : Machine Key) (hM : M.Fair) (hs1 : 2 ^ 16 ≤ M.scale) (hs2 : M.scale ≤ 2 ^ 20) (cs : List ℚ) (hcs : CoeffsNear cs)
    (x : MX n) (ok : M.Ok x) (hx : ∀ i, |M.val x i| ≤ 1) (w : MState Key) (hw : M.Inv w) :
    tanhS M.ops cs x .chebyshev w = .error (.inr ()) ∨
    ∃ z w', tanhS M.ops cs x .chebyshev w = .ok (z, w') ∧ M.Inv w' ∧ M.Ok z ∧
      ∀ i, |(M.val z i : ℝ) - Real.tanh (M.val x i)| ≤ 2 / 1000 := by
  rcases C77_tanh_sound (M.sound hM) (machine_fine M hM hs1 hs2) cs hcs x ok hx w hw with h | ⟨z, w', h3, ⟨h4, h5⟩, h6⟩
  · exact Or.inl h
  · exact Or.inr ⟨z, w', h3, h6, h4, h5⟩

/-- C77 in a two-party session: `sigmoid` with `method="chebyshev"` is within 0.002 of the logistic function for numbers up to 1.9. -/
theorem C77_sigmoid_session (M : Machine Key) (hM : M.Fair) (hs1 : 2 ^ 16 ≤ M.scale) (hs2 : M.scale ≤ 2 ^ 20) (cs : List ℚ)
    (hcs : CoeffsNear cs) (x : MX n) (ok : M.Ok x) (hx : ∀ i, |M.val x i| ≤ 19 / 10) (w : MState Key) (hw : M.Inv w) :
    sigmoidS M.ops cs x .chebyshev w = .error (.inr ()) ∨
    ∃ z w', sigmoidS M.ops cs x .chebyshev w = .ok (z, w') ∧ M.Inv w' ∧ M.Ok z ∧
      ∀ i, |(M.val z i : ℝ) - 1 / (1 + Real.exp (-(M.val x i : ℝ)))| ≤ 2 / 1000 := by
  rcases C77_sigmoid_sound (M.sound hM) (machine_fine M hM hs1 hs2) cs hcs x ok hx w hw with h | ⟨z, w', h3, ⟨h4, h5⟩, h6⟩
  · exact Or.inl h
  · exact Or.inr ⟨z, w', h3, h6, h4, h5⟩

/-! ## Cases -/

/-- there are such coefficients -/
example : ∃ cs, CoeffsNear cs := by
  have h : ∀ r : ℝ, ∃ q : ℚ, |(q : ℝ) - r| ≤ 1 / 10 ^ 5 := fun r => by
    obtain ⟨q, hq⟩ := exists_rat_near r (show (0 : ℝ) < 1 / 10 ^ 5 by norm_num)
    exact ⟨q, by rw [abs_sub_comm]; exact hq.le⟩
  choose f hf using h
  refine ⟨tanhCoeffs.map f, by simp [tanhCoeffs_eq], fun k hk => ?_⟩
  have hl : k < tanhCoeffs.length := by simpa [tanhCoeffs_eq] using hk
  simp only [List.getD_eq_getElem?_getD, List.getElem?_map, List.getElem?_eq_getElem hl, Option.map_some, Option.getD_some]
  exact hf _

example : exMachine.Fair ∧ 2 ^ 16 ≤ exMachine.scale ∧ exMachine.scale ≤ 2 ^ 20 ∧ exMachine.Inv Machine.start ∧
    exMachine.Ok (exVector ![32768, -65536]) :=
  ⟨exMachine_fair, by decide, by decide, Machine.inv_start _, exVector_ok _⟩

/-- the hyperbolic tangents of 0.5 and -1 (0.46212 and -0.76159) -/
example : exNear (tanhS exMachine.ops [811676 / 1000000, -54246 / 1000000, 4517 / 1000000, -382 / 1000000, 32 / 1000000]
    (exVector ![32768, -65536]) .chebyshev Machine.start) ![30285, -49912] 100 = true := by
  decide +kernel

end SyMPC
