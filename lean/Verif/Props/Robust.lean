import Verif.Model.Approx
import Verif.Spec.Algo
import Verif.Props.Approx

/-!
# The approximations with rounding errors

The theorems of `Props/Approx.lean` are about exact operators.  Here the operators are off by the errors of `Sound`.
-/

namespace SyMPC

/-! ## powers -/

section
variable {m : Type → Type} [Monad m] {X : Nat → Type} {F : Type} [Field F] [LinearOrder F] [IsStrictOrderedRing F] {n : Nat}
  {O : SecretOps m X F} {S : Sure m}

/-- the error of a product of two approximations with relative errors `g - 1` and `h - 1` -/
theorem product_error {P Q g h a b x y : F} (hg : 1 ≤ g) (ha : |a| ≤ P) (hb : |b| ≤ Q)
    (hx : |x - a| ≤ P * (g - 1)) (hy : |y - b| ≤ Q * (h - 1)) :
    |x * y - a * b| ≤ P * Q * (g * h - 1) ∧ |x * y| ≤ P * Q * (g * h) := by
  have hP : 0 ≤ P := (abs_nonneg _).trans ha
  have hQ : 0 ≤ Q := (abs_nonneg _).trans hb
  have e : x * y - a * b = (x - a) * (y - b) + a * (y - b) + b * (x - a) := by ring
  have h1 : |(x - a) * (y - b)| ≤ (P * (g - 1)) * (Q * (h - 1)) := by
    rw [abs_mul]
    exact mul_le_mul hx hy (abs_nonneg _) (mul_nonneg hP (by linarith))
  have h2 : |a * (y - b)| ≤ P * (Q * (h - 1)) := by
    rw [abs_mul]
    exact mul_le_mul ha hy (abs_nonneg _) hP
  have h3 : |b * (x - a)| ≤ Q * (P * (g - 1)) := by
    rw [abs_mul]
    exact mul_le_mul hb hx (abs_nonneg _) hQ
  have h4 : |x * y - a * b| ≤ P * Q * (g * h - 1) := by
    rw [e]
    refine (abs_add_le _ _).trans ?_
    refine (add_le_add (abs_add_le _ _) le_rfl).trans ?_
    refine (add_le_add (add_le_add h1 h2) h3).trans (le_of_eq ?_)
    ring
  refine ⟨h4, ?_⟩
  have h5 : |a * b| ≤ P * Q := by
    rw [abs_mul]
    exact mul_le_mul ha hb (abs_nonneg _) hP
  have := abs_add_le (x * y - a * b) (a * b)
  rw [sub_add_cancel] at this
  linarith

/-- what the loop of `pow` knows of its result so far: the power `m` of the numbers `v` -/
def PowerOk (A : Sound O S) (v : Fin n → F) (C : F) (r : Num X F n) (k : Nat) : Prop :=
  (r = .pub 1 ∧ k = 0) ∨ ∃ y, r = .sec y ∧ 1 ≤ k ∧ A.Ok y ∧ ∀ i, |A.val y i - v i ^ k| ≤ C ^ k * ((1 + A.δ) ^ k - 1)

theorem powLoopS_sound (A : Sound O S) (hδ : 0 ≤ A.δ) (v : Fin n → F) (C : F) (hC : 1 ≤ C) (hv : ∀ i, |v i| ≤ C) (N : Nat)
    (hB : (C * (1 + A.δ)) ^ (2 * N) ≤ A.B) (p : Nat) :
    ∀ (r : Num X F n) (base : X n) (k q : Nat), PowerOk A v C r k → A.Ok base → 1 ≤ q →
      (∀ i, |A.val base i - v i ^ q| ≤ C ^ q * ((1 + A.δ) ^ (q - 1) - 1)) → k + p * q ≤ N →
      S.sure (powLoopS O p r base) fun r' => PowerOk A v C r' (k + p * q) := by
  have h1δ : 1 ≤ 1 + A.δ := by linarith
  have hCδ : 1 ≤ C * (1 + A.δ) := by nlinarith
  have hvq : ∀ i q, |v i ^ q| ≤ C ^ q := fun i q => by
    rw [abs_pow]
    exact pow_le_pow_left₀ (abs_nonneg _) (hv i) q
  have hCq : ∀ q, (1 : F) ≤ C ^ q := fun q => one_le_pow₀ hC
  have hg : ∀ q, (1 : F) ≤ (1 + A.δ) ^ q := fun q => one_le_pow₀ h1δ
  -- products below the bound
  have hprod : ∀ s t : Nat, s ≤ 2 * N → t ≤ s → C ^ s * (1 + A.δ) ^ t ≤ A.B := by
    intro s t hs ht
    refine le_trans ?_ hB
    calc C ^ s * (1 + A.δ) ^ t ≤ C ^ s * (1 + A.δ) ^ s :=
          mul_le_mul_of_nonneg_left (pow_le_pow_right₀ h1δ ht) (by linarith [hCq s])
      _ = (C * (1 + A.δ)) ^ s := (mul_pow _ _ _).symm
      _ ≤ _ := pow_le_pow_right₀ hCδ hs
  -- one more rounding
  have hround : ∀ (s t : Nat) (z w : F), |z - w| ≤ C ^ s * ((1 + A.δ) ^ t - 1) + A.δ →
      |z - w| ≤ C ^ s * ((1 + A.δ) ^ (t + 1) - 1) := by
    intro s t z w h
    refine h.trans ?_
    have e : C ^ s * ((1 + A.δ) ^ (t + 1) - 1) = C ^ s * ((1 + A.δ) ^ t - 1) + C ^ s * (1 + A.δ) ^ t * A.δ := by ring
    rw [e]
    have : 1 * 1 ≤ C ^ s * (1 + A.δ) ^ t := mul_le_mul (hCq s) (hg t) zero_le_one (by linarith [hCq s])
    nlinarith
  induction p using Nat.strongRecOn with
  | ind p ih =>
    intro r base k q hr hb hq hbv hN
    unfold powLoopS
    by_cases hp : p = 0
    · subst hp
      rw [dif_pos rfl]
      refine S.pure _ _ ?_
      simpa using hr
    · rw [dif_neg hp]
      have hpq : q ≤ p * q := Nat.le_mul_of_pos_left q (Nat.pos_of_ne_zero hp)
      have hbig : ∀ i, |A.val base i| ≤ C ^ q * (1 + A.δ) ^ (q - 1) := by
        intro i
        have := abs_add_le (A.val base i - v i ^ q) (v i ^ q)
        rw [sub_add_cancel] at this
        have := hbv i
        have := hvq i q
        linarith
      -- the result of this round
      have hres : S.sure (powRound O p r base) fun r' =>
          PowerOk A v C r' (k + p % 2 * q) := by
        unfold powRound
        by_cases hodd : p % 2 = 1
        · rw [if_pos hodd, hodd, one_mul]
          rcases hr with ⟨rfl, rfl⟩ | ⟨y, rfl, hk, hy, hyv⟩
          · have := A.mulP base 1 hb (by
              intro i
              rw [Int.cast_one, mul_one]
              exact (hbig i).trans (hprod q (q - 1) (by omega) (by omega)))
            rw [Int.cast_one] at this
            refine S.bind _ _ _ _ this ?_
            rintro z ⟨hz, hzv⟩
            refine S.pure _ _ (Or.inr ⟨z, rfl, by omega, hz, fun i => ?_⟩)
            rw [zero_add]
            have e : q = q - 1 + 1 := by omega
            rw [show (1 + A.δ) ^ q = (1 + A.δ) ^ (q - 1 + 1) by rw [← e]]
            apply hround
            have h1 := hzv i
            rw [mul_one] at h1
            have := abs_sub_le (A.val z i) (A.val base i) (v i ^ q)
            have := hbv i
            linarith
          · have hpe := fun i => product_error (hg k) (hvq i k) (hvq i q) (hyv i) (hbv i)
            have := A.mul y base hy hb (by
              intro i
              refine (hpe i).2.trans ?_
              rw [← pow_add, ← pow_add]
              exact hprod (k + q) (k + (q - 1)) (by omega) (by omega))
            refine S.bind _ _ _ _ this ?_
            rintro z ⟨hz, hzv⟩
            refine S.pure _ _ (Or.inr ⟨z, rfl, by omega, hz, fun i => ?_⟩)
            have e : k + q = k + (q - 1) + 1 := by omega
            rw [show (1 + A.δ) ^ (k + q) = (1 + A.δ) ^ (k + (q - 1) + 1) by rw [← e]]
            apply hround
            have h1 := hzv i
            have h2 := (hpe i).1
            rw [← pow_add, ← pow_add, ← pow_add] at h2
            have := abs_sub_le (A.val z i) (A.val y i * A.val base i) (v i ^ (k + q))
            linarith
        · rw [if_neg hodd, show p % 2 = 0 by omega, zero_mul, add_zero]
          exact S.pure _ _ hr
      refine S.bind _ _ _ _ hres ?_
      intro r' hr'
      have hpe := fun i => product_error (hg (q - 1)) (hvq i q) (hvq i q) (hbv i) (hbv i)
      have := A.mul base base hb hb (by
        intro i
        refine (hpe i).2.trans ?_
        rw [← pow_add, ← pow_add]
        exact hprod (q + q) (q - 1 + (q - 1)) (by omega) (by omega))
      refine S.bind _ _ _ _ this ?_
      rintro base' ⟨hb', hbv'⟩
      have hdiv := Nat.div_add_mod p 2
      have ecount : k + p % 2 * q + p / 2 * (2 * q) = k + p * q := by
        conv_rhs => rw [← hdiv]
        ring
      have := ih (p / 2) (Nat.div_lt_self (Nat.pos_of_ne_zero hp) (by decide)) r' base' (k + p % 2 * q) (2 * q) hr' hb' (by omega) (by
        intro i
        have e : 2 * q - 1 = q - 1 + (q - 1) + 1 := by omega
        rw [e, two_mul]
        apply hround
        have h1 := hbv' i
        have h2 := (hpe i).1
        rw [← pow_add, ← pow_add, ← pow_add] at h2
        have := abs_sub_le (A.val base' i) (A.val base i * A.val base i) (v i ^ (q + q))
        linarith) (by omega)
      rw [ecount] at this
      exact this

/-- C42 with rounding: for `|x| ≤ C`, `x ** p` is off by at most `C^p ((1 + δ)^p - 1)`, where `δ` is the error of one product; a
negative power raises `RuntimeError`, the power 0 is the number 1. -/
theorem C42_power_sound (A : Sound O S) (hδ : 0 ≤ A.δ) (x : X n) (ok : A.Ok x) (C : F) (hC : 1 ≤ C)
    (hx : ∀ i, |A.val x i| ≤ C) (p : Nat) (hB : (C * (1 + A.δ)) ^ (2 * p) ≤ A.B) :
    (p = 0 → S.sure (powS O x p) fun r => r = .pub 1) ∧
    (p ≠ 0 → S.sure (powSec O x p) fun z => A.Ok z ∧ ∀ i, |A.val z i - A.val x i ^ p| ≤ C ^ p * ((1 + A.δ) ^ p - 1)) ∧
    ∀ k : Int, k < 0 → powS O x k = O.raise .runtimeError := by
  have main := powLoopS_sound A hδ (A.val x) C hC hx p hB p (.pub 1) x 0 1 (Or.inl ⟨rfl, rfl⟩) ok le_rfl
    (fun i => by simp) (by omega)
  rw [zero_add, mul_one] at main
  have hpow : powS O x p = powLoopS O p (.pub 1) x := by
    unfold powS
    rw [if_neg (by omega), Int.toNat_natCast]
  refine ⟨fun h0 => ?_, fun h0 => ?_, fun k hk => ?_⟩
  · rw [hpow]
    refine S.mono _ _ _ main ?_
    rintro r (⟨h, -⟩ | ⟨y, -, h, -⟩)
    · exact h
    · omega
  · unfold powSec
    rw [hpow]
    refine S.bind _ _ _ _ main ?_
    rintro r (⟨-, h⟩ | ⟨y, rfl, -, hy, hyv⟩)
    · exact absurd h h0
    · exact S.pure _ _ ⟨hy, hyv⟩
  · unfold powS
    rw [if_pos hk]

example : (2 * (1 + (exactSound (100 : ℚ)).δ)) ^ (2 * 3) ≤ (exactSound (100 : ℚ)).B := by
  norm_num [exactSound]

/-! ## exponential -/

/-- C52 with rounding: if `|1 + x/2^k| + δd ≤ C`, the exponential is off from `(1 + x/2^k)^(2^k)` by at most
`C^(2^k) ((1 + δ)^(2^k) - 1 + 2^k δd)`. -/
theorem C52_exp_sound (A : Sound O S) (hδ : 0 ≤ A.δ) (hd : 0 ≤ A.δd) (x : X n) (ok : A.Ok x) (k : Nat) (C : F) (hC : 1 ≤ C)
    (hx : ∀ i, |1 + A.val x i / 2 ^ k| + A.δd ≤ C) (hB : (C * (1 + A.δ)) ^ (2 * 2 ^ k) ≤ A.B) (h2 : (2 : F) ^ k ≤ A.B) :
    S.sure (expS O x k) fun z => A.Ok z ∧
      ∀ i, |A.val z i - expValue k (A.val x i)| ≤ C ^ 2 ^ k * ((1 + A.δ) ^ 2 ^ k - 1 + 2 ^ k * A.δd) := by
  have hpow : (2 : Nat) ^ k ≠ 0 := by positivity
  have hCB : C ≤ A.B := by
    refine le_trans ?_ hB
    calc C ≤ C * (1 + A.δ) := by nlinarith
      _ = (C * (1 + A.δ)) ^ 1 := (pow_one _).symm
      _ ≤ _ := pow_le_pow_right₀ (by nlinarith) (by omega)
  unfold expS
  refine S.bind _ _ _ _ (A.divP x (2 ^ k) ok (Nat.pos_of_ne_zero hpow) (by push_cast; exact h2)) ?_
  rintro v0 ⟨hv0, e0⟩
  have hclose : ∀ i, |(A.val v0 i + 1) - (1 + A.val x i / 2 ^ k)| ≤ A.δd := by
    intro i
    have := e0 i
    push_cast at this
    have e : (A.val v0 i + 1) - (1 + A.val x i / 2 ^ k) = A.val v0 i - A.val x i / 2 ^ k := by ring
    rw [e]
    exact this
  have hv0C : ∀ i, |A.val v0 i + 1| ≤ C := by
    intro i
    have h1 := abs_add_le ((A.val v0 i + 1) - (1 + A.val x i / 2 ^ k)) (1 + A.val x i / 2 ^ k)
    rw [sub_add_cancel] at h1
    have := hclose i
    have := hx i
    linarith
  have hadd := A.addP v0 1 hv0 (fun i => by rw [Int.cast_one]; exact (hv0C i).trans hCB)
  rw [Int.cast_one] at hadd
  refine S.bind _ _ _ _ hadd ?_
  rintro v ⟨hv, e1⟩
  have e : ((2 : Int) ^ k) = ((2 ^ k : Nat) : Int) := by push_cast; rfl
  rw [e]
  refine S.mono _ _ _ ((C42_power_sound A hδ v hv C hC (fun i => by rw [e1 i]; exact hv0C i) (2 ^ k) hB).2.1 hpow) ?_
  rintro z ⟨hz, ez⟩
  refine ⟨hz, fun i => ?_⟩
  have hw : |1 + A.val x i / 2 ^ k| ≤ C := by have := hx i; linarith
  have h1 := abs_pow_sub_pow_le (A.val v i) (1 + A.val x i / 2 ^ k) (2 ^ k)
  have h2 : max |A.val v i| |1 + A.val x i / 2 ^ k| ^ (2 ^ k - 1) ≤ C ^ 2 ^ k := by
    refine (pow_le_pow_left₀ (le_max_of_le_left (abs_nonneg _)) (max_le ?_ hw) _).trans (pow_le_pow_right₀ hC (Nat.sub_le _ _))
    rw [e1 i]
    exact hv0C i
  have h3 : |A.val v i - (1 + A.val x i / 2 ^ k)| ≤ A.δd := by rw [e1 i]; exact hclose i
  have h4 : |A.val v i ^ 2 ^ k - expValue k (A.val x i)| ≤ A.δd * 2 ^ k * C ^ 2 ^ k := by
    refine h1.trans ?_
    push_cast
    refine mul_le_mul (mul_le_mul_of_nonneg_right h3 (by positivity)) h2 ?_ (by positivity)
    exact pow_nonneg (le_max_of_le_left (abs_nonneg _)) _
  have := abs_sub_le (A.val z i) (A.val v i ^ 2 ^ k) (expValue k (A.val x i))
  have := ez i
  nlinarith

/-- the error of repeated squaring of a number up to `c`, with a start error `b` and a rounding error `δ` -/
def squareError (δ c b : F) : Nat → F
  | 0 => b
  | j + 1 => let s := squareError δ c b j; (2 * c ^ 2 ^ j + s) * s + δ

theorem powTwo_sound (A : Sound O S) (δ : F) (hδ : A.δ ≤ δ) (w c : Fin n → F) (b : F) (hw : ∀ i, |w i| ≤ c i) (K : Nat)
    (hB : ∀ j ≤ K, ∀ i, (c i ^ 2 ^ j + squareError δ (c i) b j) ^ 2 ≤ A.B) (h1 : 1 ≤ A.B) (k : Nat) :
    ∀ (j : Nat) (base : X n), j + k = K → A.Ok base → (∀ i, |A.val base i - w i ^ 2 ^ j| ≤ squareError δ (c i) b j) →
      S.sure (powLoopS O (2 ^ k) (.pub 1) base) fun r => ∃ y, r = .sec y ∧ A.Ok y ∧
        ∀ i, |A.val y i - w i ^ 2 ^ K| ≤ squareError δ (c i) b K + δ := by
  have hwq : ∀ i q, |w i ^ q| ≤ c i ^ q := fun i q => by
    rw [abs_pow]
    exact pow_le_pow_left₀ (abs_nonneg _) (hw i) q
  have hbig : ∀ (j : Nat) (base : X n), (∀ i, |A.val base i - w i ^ 2 ^ j| ≤ squareError δ (c i) b j) →
      ∀ i, |A.val base i| ≤ c i ^ 2 ^ j + squareError δ (c i) b j := by
    intro j base hv i
    have := abs_add_le (A.val base i - w i ^ 2 ^ j) (w i ^ 2 ^ j)
    rw [sub_add_cancel] at this
    have := hv i
    have := hwq i (2 ^ j)
    linarith
  have hsq : ∀ (j : Nat) (base : X n), j ≤ K → (∀ i, |A.val base i - w i ^ 2 ^ j| ≤ squareError δ (c i) b j) →
      ∀ i, |A.val base i * A.val base i| ≤ A.B := by
    intro j base hj hv i
    rw [abs_mul, ← pow_two]
    exact (pow_le_pow_left₀ (abs_nonneg _) (hbig j base hv i) 2).trans (hB j hj i)
  induction k with
  | zero =>
    intro j base hjk hb hv
    rw [add_zero] at hjk
    subst hjk
    unfold powLoopS
    rw [dif_neg (by norm_num)]
    have hm := A.mulP base 1 hb (by
      intro i
      rw [Int.cast_one, mul_one]
      have h2 := hsq j base le_rfl hv i
      rw [abs_mul, ← pow_two] at h2
      by_contra hc
      push Not at hc
      nlinarith)
    rw [Int.cast_one] at hm
    have hround : S.sure (powRound O (2 ^ 0) (.pub 1) base) fun r => ∃ y, r = .sec y ∧ A.Ok y ∧
        ∀ i, |A.val y i - w i ^ 2 ^ j| ≤ squareError δ (c i) b j + δ := by
      unfold powRound
      rw [if_pos (by norm_num)]
      refine S.bind _ _ _ _ hm ?_
      rintro y ⟨hy, ey⟩
      refine S.pure _ _ ⟨y, rfl, hy, fun i => ?_⟩
      have h1 := ey i
      rw [mul_one] at h1
      have := abs_sub_le (A.val y i) (A.val base i) (w i ^ 2 ^ j)
      have := hv i
      linarith
    refine S.bind _ _ _ _ hround ?_
    rintro r hr
    refine S.bind _ _ _ _ (A.mul base base hb hb (hsq j base le_rfl hv)) ?_
    rintro base' -
    unfold powLoopS
    rw [dif_pos (by norm_num)]
    exact S.pure _ _ hr
  | succ k ih =>
    intro j base hjk hb hv
    unfold powLoopS
    rw [dif_neg (by positivity)]
    have hr : powRound O (2 ^ (k + 1)) (.pub 1) base = pure (.pub 1) := by
      unfold powRound
      rw [if_neg (by rw [pow_succ]; omega)]
    rw [hr]
    refine S.bind _ _ (fun r => r = .pub 1) _ (S.pure _ _ rfl) ?_
    rintro r rfl
    refine S.bind _ _ _ _ (A.mul base base hb hb (hsq j base (by omega) hv)) ?_
    rintro base' ⟨hb', ev'⟩
    have e : 2 ^ (k + 1) / 2 = 2 ^ k := by rw [pow_succ]; omega
    rw [e]
    refine ih (j + 1) base' (by omega) hb' fun i => ?_
    simp only [squareError]
    have h1 := ev' i
    have h2 := hv i
    have h3 := hwq i (2 ^ j)
    have e2 : w i ^ 2 ^ (j + 1) = w i ^ 2 ^ j * w i ^ 2 ^ j := by rw [← pow_add, pow_succ, mul_two]
    have e3 : A.val base' i - w i ^ 2 ^ (j + 1) = (A.val base' i - A.val base i * A.val base i) +
        (2 * w i ^ 2 ^ j + (A.val base i - w i ^ 2 ^ j)) * (A.val base i - w i ^ 2 ^ j) := by rw [e2]; ring
    have h4 : |(2 * w i ^ 2 ^ j + (A.val base i - w i ^ 2 ^ j)) * (A.val base i - w i ^ 2 ^ j)|
        ≤ (2 * c i ^ 2 ^ j + squareError δ (c i) b j) * squareError δ (c i) b j := by
      rw [abs_mul]
      refine mul_le_mul ?_ h2 (abs_nonneg _) (by linarith [abs_nonneg (w i ^ 2 ^ j), abs_nonneg (A.val base i - w i ^ 2 ^ j)])
      refine (abs_add_le _ _).trans ?_
      rw [abs_mul, abs_of_pos (by norm_num : (0 : F) < 2)]
      linarith
    rw [e3]
    refine (abs_add_le _ _).trans ?_
    linarith

/-- the exponential of numbers that are off by `η`, element by element: `c i` is a bound on `|1 + t i / 2^k|` -/
theorem exp_fine (A : Sound O S) (δ : F) (hδ : A.δ ≤ δ) (x : X n) (ok : A.Ok x) (k : Nat) (t c : Fin n → F) (η b : F)
    (hx : ∀ i, |A.val x i - t i| ≤ η) (hc : ∀ i, |1 + t i / 2 ^ k| ≤ c i) (hb : η / 2 ^ k + A.δd ≤ b)
    (hB : ∀ j ≤ k, ∀ i, (c i ^ 2 ^ j + squareError δ (c i) b j) ^ 2 ≤ A.B) (h1 : 1 ≤ A.B) (h2 : (2 : F) ^ k ≤ A.B) :
    S.sure (expS O x k) fun z => A.Ok z ∧ ∀ i, |A.val z i - expValue k (t i)| ≤ squareError δ (c i) b k + δ := by
  have hpow : (2 : Nat) ^ k ≠ 0 := by positivity
  have hp2 : (0 : F) < 2 ^ k := by positivity
  unfold expS
  refine S.bind _ _ _ _ (A.divP x (2 ^ k) ok (Nat.pos_of_ne_zero hpow) (by push_cast; exact h2)) ?_
  rintro v0 ⟨hv0, e0⟩
  have hclose : ∀ i, |(A.val v0 i + 1) - (1 + t i / 2 ^ k)| ≤ b := by
    intro i
    have h3 := e0 i
    push_cast at h3
    have h4 := hx i
    have e : (A.val v0 i + 1) - (1 + t i / 2 ^ k) = (A.val v0 i - A.val x i / 2 ^ k) + (A.val x i - t i) / 2 ^ k := by ring
    rw [e]
    refine (abs_add_le _ _).trans (le_trans ?_ hb)
    rw [abs_div, abs_of_pos hp2]
    have : |A.val x i - t i| / 2 ^ k ≤ η / 2 ^ k := by gcongr
    linarith
  have hadd := A.addP v0 1 hv0 (fun i => by
    rw [Int.cast_one]
    have h3 := abs_add_le ((A.val v0 i + 1) - (1 + t i / 2 ^ k)) (1 + t i / 2 ^ k)
    rw [sub_add_cancel] at h3
    have h4 := hclose i
    have h5 := hc i
    have h6 := hB 0 (Nat.zero_le _) i
    rw [pow_zero, pow_one] at h6
    change (c i + b) ^ 2 ≤ _ at h6
    have h7 : |A.val v0 i + 1| ≤ c i + b := by linarith
    have h8 := pow_le_pow_left₀ (abs_nonneg _) h7 2
    by_contra hcon
    push Not at hcon
    nlinarith)
  rw [Int.cast_one] at hadd
  refine S.bind _ _ _ _ hadd ?_
  rintro v ⟨hv, e1⟩
  unfold powSec powS
  rw [if_neg (not_lt.mpr (by positivity))]
  have e : ((2 : Int) ^ k).toNat = 2 ^ k := by
    have : ((2 : Int) ^ k) = ((2 ^ k : Nat) : Int) := by push_cast; rfl
    rw [this, Int.toNat_natCast]
  rw [e]
  refine S.bind _ _ _ _ (powTwo_sound A δ hδ (fun i => 1 + t i / 2 ^ k) c b hc k hB h1 k 0 v (by omega) hv (by
    intro i
    rw [pow_zero, pow_one, e1 i]
    exact hclose i)) ?_
  rintro r ⟨y, rfl, hy, ey⟩
  exact S.pure _ _ ⟨hy, ey⟩

/-! ## sign, modulus and the Newton iteration -/

theorem sign_sound (A : Sound O S) (x : X n) (ok : A.Ok x) (hx : ∀ i, |A.val x i| ≤ A.B) (h2 : 2 ≤ A.B) (hδ1 : A.δ ≤ 1) :
    S.sure (signS O x) fun z => A.Ok z ∧ ∀ i, |A.val z i - sgn (A.val x i)| ≤ A.δ := by
  unfold signS
  have hgt := A.gtP x 0 ok hx (by simp; linarith)
  have hlt := A.ltP x 0 ok hx (by simp; linarith)
  rw [Int.cast_zero] at hgt hlt
  refine S.bind _ _ _ _ hgt ?_
  rintro p ⟨hp, ep⟩
  refine S.bind _ _ _ _ hlt ?_
  rintro q ⟨hq, eq⟩
  have hm := A.mulP q (-1) hq (by
    intro i
    rw [eq i]
    push_cast
    split <;> norm_num <;> linarith)
  push_cast at hm
  refine S.bind _ _ _ _ hm ?_
  rintro q' ⟨hq', eq'⟩
  have hval : ∀ i, |A.val p i + A.val q' i - sgn (A.val x i)| ≤ A.δ := by
    intro i
    have h := eq' i
    rw [eq i] at h
    rw [ep i]
    unfold sgn
    rcases lt_trichotomy (A.val x i) 0 with h0 | h0 | h0
    · rw [if_pos h0] at h
      rw [if_neg (not_lt.mpr h0.le), if_neg (not_lt.mpr h0.le), if_pos h0]
      rw [abs_le] at h ⊢
      constructor <;> linarith [h.1, h.2]
    · rw [if_neg (by rw [h0]; exact lt_irrefl _)] at h
      rw [if_neg (by rw [h0]; exact lt_irrefl _), if_neg (by rw [h0]; exact lt_irrefl _), if_neg (by rw [h0]; exact lt_irrefl _)]
      rw [abs_le] at h ⊢
      constructor <;> linarith [h.1, h.2]
    · rw [if_neg (not_lt.mpr h0.le)] at h
      rw [if_pos h0, if_pos h0]
      rw [abs_le] at h ⊢
      constructor <;> linarith [h.1, h.2]
  have habs : ∀ i, |sgn (A.val x i)| ≤ 1 := by
    intro i
    unfold sgn
    split
    · simp
    · split <;> simp
  refine S.mono _ _ _ (A.add p q' hp hq' (by
    intro i
    have h3 := abs_add_le (A.val p i + A.val q' i - sgn (A.val x i)) (sgn (A.val x i))
    rw [sub_add_cancel] at h3
    have := hval i
    have := habs i
    linarith)) ?_
  rintro z ⟨hz, ez⟩
  exact ⟨hz, fun i => by rw [ez i]; exact hval i⟩

theorem modulus_sound (A : Sound O S) (x : X n) (ok : A.Ok x) (C : F) (hx : ∀ i, |A.val x i| ≤ C) (hC : 2 * C ≤ A.B) (h2 : 2 ≤ A.B)
    (hδ1 : A.δ ≤ 1) :
    S.sure (modulusS O x) fun z => A.Ok z ∧ ∀ i, |A.val z i - (|A.val x i|)| ≤ (|A.val x i| + 1) * A.δ := by
  unfold modulusS
  refine S.bind _ _ _ _ (sign_sound A x ok (fun i => by linarith [hx i, abs_nonneg (A.val x i)]) h2 hδ1) ?_
  rintro s ⟨hs, es⟩
  have habs : ∀ i, |sgn (A.val x i)| ≤ 1 := by
    intro i
    unfold sgn
    split
    · simp
    · split <;> simp
  have hs2 : ∀ i, |A.val s i| ≤ 2 := by
    intro i
    have h3 := abs_add_le (A.val s i - sgn (A.val x i)) (sgn (A.val x i))
    rw [sub_add_cancel] at h3
    have := es i
    have := habs i
    linarith
  refine S.mono _ _ _ (A.mul s x hs ok (by
    intro i
    rw [abs_mul]
    refine le_trans (mul_le_mul (hs2 i) (hx i) (abs_nonneg _) (by norm_num)) hC)) ?_
  rintro z ⟨hz, ez⟩
  refine ⟨hz, fun i => ?_⟩
  have e : A.val z i - (|A.val x i|) = (A.val z i - A.val s i * A.val x i) + (A.val s i - sgn (A.val x i)) * A.val x i := by
    rw [← sgn_mul_self]; ring
  rw [e]
  refine (abs_add_le _ _).trans ?_
  rw [abs_mul]
  have := mul_le_mul_of_nonneg_right (es i) (abs_nonneg (A.val x i))
  have := ez i
  linarith

/-- The Newton iteration: the error `e` of the start is squared in every step, up to a rounding error `c`. -/
theorem newton_sound (A : Sound O S) (hδ : 0 ≤ A.δ) (hδ1 : A.δ ≤ 1) (a : X n) (ha : A.Ok a) (lo hi c : F) (hlo : 0 < lo) (hhi : 0 ≤ hi)
    (hal : ∀ i, lo ≤ A.val a i) (hah : ∀ i, A.val a i ≤ hi) (hc : hi * (2 + hi) * A.δ ≤ c)
    (hB : (2 / lo) ^ 2 + 4 / lo + (2 / lo) * 2 + hi + 2 ≤ A.B) (k : Nat) :
    ∀ (r : X n) (e : F), A.Ok r → e ^ 2 + c ≤ e → e ≤ 1 → (∀ i, |1 - A.val a i * A.val r i| ≤ e) →
      S.sure (newtonLoop O a k r) fun z => A.Ok z ∧ ∀ i, |1 - A.val a i * A.val z i| ≤ (fun e => e ^ 2 + c)^[k] e := by
  induction k with
  | zero =>
    intro r e hr he he1 h
    unfold newtonLoop
    exact S.pure _ _ ⟨hr, h⟩
  | succ k ih =>
    intro r e hr he he1 h
    unfold newtonLoop
    have hpos : ∀ i, 0 < A.val a i := fun i => lt_of_lt_of_le hlo (hal i)
    have hM0 : 0 < 2 / lo := by positivity
    have har : ∀ i, |A.val a i * A.val r i| ≤ 2 := by
      intro i
      have := h i
      rw [abs_le] at this ⊢
      constructor <;> linarith [this.1, this.2]
    have hrM : ∀ i, |A.val r i| ≤ 2 / lo := by
      intro i
      rw [le_div_iff₀ hlo]
      have h3 := har i
      rw [abs_mul, abs_of_pos (hpos i)] at h3
      nlinarith [hal i, abs_nonneg (A.val r i)]
    have h4lo : 4 / lo = 2 * (2 / lo) := by ring
    have hm := A.mulP r 2 hr (by
      intro i
      push_cast
      rw [abs_mul, abs_of_pos (by norm_num : (0 : F) < 2)]
      have := hrM i
      nlinarith [sq_nonneg (2 / lo)])
    push_cast at hm
    refine S.bind _ _ _ _ hm ?_
    rintro t ⟨ht, et⟩
    refine S.bind _ _ _ _ (A.mul r r hr hr (by
      intro i
      rw [abs_mul]
      have := mul_le_mul (hrM i) (hrM i) (abs_nonneg _) hM0.le
      nlinarith)) ?_
    rintro u ⟨hu, eu⟩
    have hua : ∀ i, |A.val u i * A.val a i| ≤ (2 / lo) * 2 + hi := by
      intro i
      have e3 : A.val u i * A.val a i = (A.val u i - A.val r i * A.val r i) * A.val a i + A.val r i * (A.val a i * A.val r i) := by ring
      rw [e3]
      refine (abs_add_le _ _).trans ?_
      rw [abs_mul, abs_mul (A.val r i), abs_of_pos (hpos i)]
      have h5 : |A.val u i - A.val r i * A.val r i| * A.val a i ≤ 1 * hi :=
        mul_le_mul ((eu i).trans hδ1) (hah i) (hpos i).le zero_le_one
      have h6 := mul_le_mul (hrM i) (har i) (abs_nonneg _) hM0.le
      linarith
    refine S.bind _ _ _ _ (A.mul u a hu ha (by
      intro i
      have := hua i
      nlinarith [sq_nonneg (2 / lo)])) ?_
    rintro u' ⟨hu', eu'⟩
    refine S.bind _ _ _ _ (A.sub t u' ht hu' (by
      intro i
      have h5 := et i
      have h6 := eu' i
      have h7 := hua i
      have h8 := hrM i
      rw [abs_le] at *
      constructor <;> nlinarith [sq_nonneg (2 / lo), h5.1, h5.2, h6.1, h6.2, h7.1, h7.2, h8.1, h8.2])) ?_
    rintro r' ⟨hr', er'⟩
    refine S.mono _ _ _ (ih r' (e ^ 2 + c) hr' ?_ (by linarith) ?_) ?_
    · have he0 : e ^ 2 + c ≤ e := he
      have hc0 : 0 ≤ c := le_trans (by positivity) hc
      nlinarith [sq_nonneg e]
    · intro i
      have e4 : 1 - A.val a i * A.val r' i = (1 - A.val a i * A.val r i) ^ 2 + A.val a i * (-(A.val t i - A.val r i * 2)
          + (A.val u' i - A.val u i * A.val a i) + (A.val u i - A.val r i * A.val r i) * A.val a i) := by
        rw [er' i]; ring
      rw [e4]
      refine (abs_add_le _ _).trans ?_
      have h5 : |(1 - A.val a i * A.val r i) ^ 2| ≤ e ^ 2 := by
        rw [abs_pow]
        exact pow_le_pow_left₀ (abs_nonneg _) (h i) 2
      have h6 : |A.val a i * (-(A.val t i - A.val r i * 2) + (A.val u' i - A.val u i * A.val a i)
          + (A.val u i - A.val r i * A.val r i) * A.val a i)| ≤ hi * (2 + hi) * A.δ := by
        rw [abs_mul, abs_of_pos (hpos i), mul_assoc]
        have hi0 : 0 ≤ hi := (hpos i).le.trans (hah i)
        refine mul_le_mul (hah i) ?_ (abs_nonneg _) hi0
        refine (abs_add_le _ _).trans ?_
        refine (add_le_add (abs_add_le _ _) le_rfl).trans ?_
        rw [abs_neg, abs_mul, abs_of_pos (hpos i)]
        have := et i
        have := eu' i
        have h7 : |A.val u i - A.val r i * A.val r i| * A.val a i ≤ A.δ * hi := mul_le_mul (eu i) (hah i) (hpos i).le hδ
        linarith
      linarith
    · rintro z ⟨hz, ez⟩
      exact ⟨hz, fun i => by rw [Function.iterate_succ_apply]; exact ez i⟩

end

end SyMPC
