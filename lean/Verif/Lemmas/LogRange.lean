import Verif.Props.Approx
import Mathlib.Analysis.Calculus.Deriv.MeanValue
import Mathlib.Analysis.Calculus.Deriv.Pow
import Mathlib.Analysis.SpecialFunctions.Log.Deriv

/-!
# Where the logarithm of a secret is after its first step

The start value and the first step are followed on intervals, in rational arithmetic that is rounded outwards; the interval is
halved until the bounds are good enough.  The rational computation is run by the kernel, and shown to bound the real one.
-/

namespace SyMPC

namespace LogRange

/-! ## rounding -/

/-- a rational below, with a small denominator -/
def rd (q : ℚ) : ℚ := (⌊q * 2 ^ 20⌋ : ℚ) / 2 ^ 20

/-- a rational above, with a small denominator -/
def ru (q : ℚ) : ℚ := -rd (-q)

theorem rd_le (q : ℚ) : rd q ≤ q := by
  unfold rd
  rw [div_le_iff₀ (by positivity)]
  exact Int.floor_le _

theorem le_ru (q : ℚ) : q ≤ ru q := by
  have := rd_le (-q)
  unfold ru
  linarith

theorem rd_le' {q : ℚ} {x : ℝ} (h : (q : ℝ) ≤ x) : (rd q : ℝ) ≤ x := le_trans (by exact_mod_cast rd_le q) h

theorem le_ru' {q : ℚ} {x : ℝ} (h : x ≤ (q : ℝ)) : x ≤ (ru q : ℝ) := le_trans h (by exact_mod_cast le_ru q)

/-! ## the functions on intervals -/

theorem exp_mono {u v : ℝ} (h : -256 ≤ u) (huv : u ≤ v) : expValue 8 u ≤ expValue 8 v := by
  unfold expValue
  refine pow_le_pow_left₀ ?_ ?_ _ <;> norm_num <;> linarith

theorem exp_nonneg (u : ℝ) : 0 ≤ expValue 8 u := by
  unfold expValue
  exact Even.pow_nonneg ⟨128, by norm_num⟩ _

theorem exp_cast (q : ℚ) : ((expValue 8 q : ℚ) : ℝ) = expValue 8 (q : ℝ) := by
  unfold expValue
  push_cast
  rfl

theorem series_cast (q : ℚ) : ((logSeries q : ℚ) : ℝ) = logSeries (q : ℝ) := by
  unfold logSeries
  push_cast
  rfl

theorem series_deriv (h : ℝ) : HasDerivAt logSeries ((1 + h) * (1 + h ^ 2 + h ^ 4)) h := by
  have e : (1 + h) * (1 + h ^ 2 + h ^ 4)
      = 1 + (2 : ℕ) * h ^ (2 - 1) / 2 + (3 : ℕ) * h ^ (3 - 1) / 3 + (4 : ℕ) * h ^ (4 - 1) / 4
        + (5 : ℕ) * h ^ (5 - 1) / 5 + (6 : ℕ) * h ^ (6 - 1) / 6 := by
    norm_num
    ring
  rw [e]
  exact (((((hasDerivAt_id h).add ((hasDerivAt_pow 2 h).div_const 2)).add ((hasDerivAt_pow 3 h).div_const 3)).add
    ((hasDerivAt_pow 4 h).div_const 4)).add ((hasDerivAt_pow 5 h).div_const 5)).add ((hasDerivAt_pow 6 h).div_const 6)

theorem series_mono {a b : ℝ} (ha : -1 ≤ a) (hab : a ≤ b) : logSeries a ≤ logSeries b := by
  refine monotoneOn_of_deriv_nonneg (convex_Ici (-1 : ℝ))
    (fun x _ => (series_deriv x).continuousAt.continuousWithinAt)
    (fun x _ => (series_deriv x).differentiableAt.differentiableWithinAt) ?_ ha (ha.trans hab) hab
  intro x hx
  rw [interior_Ici] at hx
  rw [(series_deriv x).deriv]
  have : -1 < x := hx
  refine mul_nonneg (by linarith) (by positivity)

theorem series_anti {a b : ℝ} (hb : b ≤ -1) (hab : a ≤ b) : logSeries b ≤ logSeries a := by
  refine antitoneOn_of_deriv_nonpos (convex_Iic (-1 : ℝ))
    (fun x _ => (series_deriv x).continuousAt.continuousWithinAt)
    (fun x _ => (series_deriv x).differentiableAt.differentiableWithinAt) ?_ (hab.trans hb) hb hab
  intro x hx
  rw [interior_Iic] at hx
  rw [(series_deriv x).deriv]
  have : x < -1 := hx
  exact mul_nonpos_of_nonpos_of_nonneg (by linarith) (by positivity)

/-- the series falls up to -1 and rises from there -/
theorem series_range {l u h : ℝ} (hl : l ≤ h) (hu : h ≤ u) :
    logSeries (max l (min u (-1))) ≤ logSeries h ∧ logSeries h ≤ max (logSeries l) (logSeries u) := by
  rcases le_total (-1) h with h1 | h1
  · refine ⟨?_, le_max_of_le_right (series_mono h1 hu)⟩
    rw [min_eq_right (h1.trans hu)]
    exact series_mono (le_max_right _ _) (max_le hl h1)
  · refine ⟨?_, le_max_of_le_left (series_anti h1 hl)⟩
    refine series_anti (max_le (hl.trans h1) (min_le_right _ _)) ?_
    exact le_max_of_le_right (le_min hu h1)

/-! ## the interval computation -/

/-- the values that matter lie in these intervals: `1 - x·E(-y)` and `y` after the first step -/
structure Box where
  gl : ℚ
  gh : ℚ
  yl : ℚ
  yh : ℚ
  sh : ℚ

/-- the first step for all `x` in an interval -/
def box (a b : ℚ) : Box :=
  let elo := rd (expValue 8 (-2 * b - 14 / 10))
  let ehi := ru (expValue 8 (-2 * a - 14 / 10))
  let sl := rd (a / 31 + 159 / 100 - 20 * ehi)
  let sh := ru (b / 31 + 159 / 100 - 20 * elo)
  let fl := rd (expValue 8 (-sh))
  let fh := ru (expValue 8 (-sl))
  let hl := rd (1 - b * fh)
  let hh := ru (1 - a * fl)
  let pl := rd (logSeries (max hl (min hh (-1))))
  let ph := ru (max (logSeries hl) (logSeries hh))
  let yl := sl - ph
  let yh := sh - pl
  ⟨rd (1 - b * ru (expValue 8 (-yl))), ru (1 - a * rd (expValue 8 (-yh))), yl, yh, sh⟩

/-- the bounds are good enough -/
def good (a b : ℚ) (B : Box) : Bool :=
  let h := max (-B.gl) B.gh
  let y := max (-B.yl) B.yh
  let p := max (-(logSeries (max B.gl (min B.gh (-1))))) (max (logSeries B.gl) (logSeries B.gh))
  decide (0 ≤ a) && decide (b ≤ 127) && decide (B.sh ≤ 256) && decide (y ≤ 8) && decide (h ≤ 11 / 20) &&
    decide (h ^ 7 / (7 * (1 - h)) + 8 / 15 * (y ^ 2 / 256) ≤ 1 / 20) &&
    decide (h ^ 7 / (7 * (1 - h)) + 1 / 248 * (p * y) + 1 / 450 * p ^ 2 ≤ 99 / 10000)

/-- halve until the bounds are good enough -/
def cover : Nat → ℚ → ℚ → Bool
  | 0, _, _ => false
  | k + 1, a, b =>
    good a b (box a b) || (let m := if 2 * a < b then 2 * a else (a + b) / 2; cover k a m && cover k m b)

set_option maxRecDepth 10000 in
theorem covered : cover 30 (1 / 100) 100 = true := by decide +kernel

/-! ## what the computation says about real numbers -/

/-- the intervals hold the real values -/
theorem box_sound {a b : ℚ} {x : ℝ} (ha : (0 : ℚ) ≤ a) (hax : (a : ℝ) ≤ x) (hxb : x ≤ b) (hb : b ≤ 127)
    (hs : (box a b).sh ≤ 256) (hy : (box a b).yh ≤ 256) :
    let y := logNext (expValue 8) x (logStart (expValue 8) x)
    ((box a b).gl ≤ 1 - x * expValue 8 (-y) ∧ 1 - x * expValue 8 (-y) ≤ (box a b).gh) ∧
      (box a b).yl ≤ y ∧ y ≤ (box a b).yh := by
  have ha' : (0 : ℝ) ≤ a := by exact_mod_cast ha
  have hb' : (b : ℝ) ≤ 127 := by exact_mod_cast hb
  have hx : 0 ≤ x := ha'.trans hax
  unfold box at hs hy ⊢
  dsimp only at hs hy ⊢
  set elo := rd (expValue 8 (-2 * b - 14 / 10)) with helo
  set ehi := ru (expValue 8 (-2 * a - 14 / 10)) with hehi
  set sl := rd (a / 31 + 159 / 100 - 20 * ehi) with hsl
  set sh := ru (b / 31 + 159 / 100 - 20 * elo) with hsh
  set fl := rd (expValue 8 (-sh)) with hfl
  set fh := ru (expValue 8 (-sl)) with hfh
  set hl := rd (1 - b * fh) with hhl
  set hh := ru (1 - a * fl) with hhh
  set pl := rd (logSeries (max hl (min hh (-1)))) with hpl
  set ph := ru (max (logSeries hl) (logSeries hh)) with hph
  have hs' : (sh : ℝ) ≤ 256 := by exact_mod_cast hs
  have hy' : (sh : ℝ) - pl ≤ 256 := by exact_mod_cast hy
  -- the start value
  have e1 : (elo : ℝ) ≤ expValue 8 (-2 * x - 14 / 10) := by
    refine rd_le' ?_
    rw [exp_cast]
    push_cast
    exact exp_mono (by norm_num; linarith) (by linarith)
  have e2 : expValue 8 (-2 * x - 14 / 10) ≤ (ehi : ℝ) := by
    refine le_ru' ?_
    rw [exp_cast]
    push_cast
    exact exp_mono (by norm_num; linarith) (by linarith)
  set s := logStart (expValue 8) x with hsdef
  have s1 : (sl : ℝ) ≤ s := by
    refine rd_le' ?_
    push_cast
    rw [hsdef]
    unfold logStart
    linarith
  have s2 : s ≤ (sh : ℝ) := by
    refine le_ru' ?_
    push_cast
    rw [hsdef]
    unfold logStart
    linarith
  -- its exponential
  have f1 : (fl : ℝ) ≤ expValue 8 (-s) := by
    refine rd_le' ?_
    rw [exp_cast]
    push_cast
    exact exp_mono (by linarith) (by linarith)
  have f2 : expValue 8 (-s) ≤ (fh : ℝ) := by
    refine le_ru' ?_
    rw [exp_cast]
    push_cast
    exact exp_mono (by linarith) (by linarith)
  have prod : ∀ {e : ℝ} {l u : ℝ}, 0 ≤ e → l ≤ e → e ≤ u → (a : ℝ) * l ≤ x * e ∧ x * e ≤ (b : ℝ) * u := by
    intro e l u he h1 h2
    constructor
    · exact (mul_le_mul_of_nonneg_left h1 ha').trans (mul_le_mul_of_nonneg_right hax he)
    · exact (mul_le_mul_of_nonneg_left h2 hx).trans (mul_le_mul_of_nonneg_right hxb (he.trans h2))
  obtain ⟨p1, p2⟩ := prod (exp_nonneg (-s)) f1 f2
  have h1 : (hl : ℝ) ≤ 1 - x * expValue 8 (-s) := by
    refine rd_le' ?_
    push_cast
    linarith
  have h2 : 1 - x * expValue 8 (-s) ≤ (hh : ℝ) := by
    refine le_ru' ?_
    push_cast
    linarith
  -- the step
  obtain ⟨r1, r2⟩ := series_range h1 h2
  have q1 : (pl : ℝ) ≤ logSeries (1 - x * expValue 8 (-s)) := by
    refine rd_le' ?_
    rw [series_cast]
    push_cast
    exact r1
  have q2 : logSeries (1 - x * expValue 8 (-s)) ≤ (ph : ℝ) := by
    refine le_ru' ?_
    push_cast
    rw [series_cast, series_cast]
    exact r2
  set y := logNext (expValue 8) x s with hydef
  have y1 : ((sl - ph : ℚ) : ℝ) ≤ y := by
    push_cast
    rw [hydef]
    unfold logNext
    linarith
  have y2 : y ≤ ((sh - pl : ℚ) : ℝ) := by
    push_cast
    rw [hydef]
    unfold logNext
    linarith
  have hye : (-256 : ℝ) ≤ -y := by
    have : ((sh - pl : ℚ) : ℝ) ≤ 256 := by push_cast; exact hy'
    linarith
  obtain ⟨t1, t2⟩ := prod (exp_nonneg (-y))
    (l := (rd (expValue 8 (-(sh - pl))) : ℝ)) (u := (ru (expValue 8 (-(sl - ph))) : ℝ))
    (by
      refine rd_le' ?_
      rw [exp_cast]
      push_cast
      push_cast at y2
      exact exp_mono (by linarith) (by linarith))
    (by
      refine le_ru' ?_
      rw [exp_cast]
      push_cast
      push_cast at y1
      exact exp_mono hye (by linarith))
  refine ⟨⟨rd_le' ?_, le_ru' ?_⟩, y1, y2⟩
  · push_cast
    linarith
  · push_cast
    linarith

/-- `h`, `y` are good enough: what is proved of every point of a covered interval -/
def Good (h y : ℝ) : Prop :=
  |h| ≤ 11 / 20 ∧ |y| ≤ 8 ∧ |h| ^ 7 / (7 * (1 - |h|)) + 8 / 15 * (y ^ 2 / 256) ≤ 1 / 20 ∧
    |h| ^ 7 / (7 * (1 - |h|)) + 1 / 248 * (|logSeries h| * |y|) + 1 / 450 * |logSeries h| ^ 2 ≤ 99 / 10000

theorem rem_mono {s t : ℝ} (hs : 0 ≤ s) (hst : s ≤ t) (ht : t ≤ 11 / 20) : s ^ 7 / (7 * (1 - s)) ≤ t ^ 7 / (7 * (1 - t)) :=
  div_le_div₀ (pow_nonneg (hs.trans hst) _) (pow_le_pow_left₀ hs hst _) (by linarith) (by linarith)

theorem good_sound {a b : ℚ} {x : ℝ} (hg : good a b (box a b) = true) (hax : (a : ℝ) ≤ x) (hxb : x ≤ b) :
    let y := logNext (expValue 8) x (logStart (expValue 8) x)
    Good (1 - x * expValue 8 (-y)) y := by
  unfold good at hg
  simp only [Bool.and_eq_true, decide_eq_true_eq] at hg
  obtain ⟨⟨⟨⟨⟨⟨h1, h2⟩, h3⟩, h4⟩, h5⟩, h6⟩, h7⟩ := hg
  have hy : (box a b).yh ≤ 256 := (le_max_right _ _).trans (h4.trans (by norm_num))
  obtain ⟨⟨g1, g2⟩, y1, y2⟩ := box_sound h1 hax hxb h2 h3 hy
  intro y
  set g := 1 - x * expValue 8 (-y) with hgdef
  set B := box a b with hB
  set H := max (-B.gl) B.gh with hH
  set Y := max (-B.yl) B.yh with hY
  set P := max (-(logSeries (max B.gl (min B.gh (-1))))) (max (logSeries B.gl) (logSeries B.gh)) with hP
  have gH : |g| ≤ (H : ℝ) := by
    rw [abs_le', hH]
    push_cast
    exact ⟨le_max_of_le_right g2, le_max_of_le_left (by linarith)⟩
  have yY : |y| ≤ (Y : ℝ) := by
    rw [abs_le', hY]
    push_cast
    exact ⟨le_max_of_le_right y2, le_max_of_le_left (by linarith)⟩
  have pP : |logSeries g| ≤ (P : ℝ) := by
    obtain ⟨r1, r2⟩ := series_range g1 g2
    rw [abs_le', hP]
    push_cast
    rw [series_cast, series_cast, series_cast]
    push_cast
    exact ⟨le_max_of_le_right r2, le_max_of_le_left (by linarith)⟩
  have H5 : (H : ℝ) ≤ 11 / 20 := by
    have := (Rat.cast_le (K := ℝ)).mpr h5
    push_cast at this
    exact this
  have H4 : (Y : ℝ) ≤ 8 := by exact_mod_cast h4
  have H6 := (Rat.cast_le (K := ℝ)).mpr h6
  have H7 := (Rat.cast_le (K := ℝ)).mpr h7
  push_cast at H6 H7
  have hr := rem_mono (abs_nonneg g) gH H5
  have y2' : y ^ 2 ≤ (Y : ℝ) ^ 2 := by
    rw [← sq_abs]
    exact pow_le_pow_left₀ (abs_nonneg _) yY 2
  have p2' : |logSeries g| ^ 2 ≤ (P : ℝ) ^ 2 := pow_le_pow_left₀ (abs_nonneg _) pP 2
  have py : |logSeries g| * |y| ≤ (P : ℝ) * Y := mul_le_mul pP yY (abs_nonneg _) ((abs_nonneg _).trans pP)
  refine ⟨gH.trans H5, yY.trans H4, ?_, ?_⟩
  · linarith
  · linarith

theorem cover_sound (k : Nat) (a b : ℚ) (x : ℝ) (hc : cover k a b = true) (hax : (a : ℝ) ≤ x) (hxb : x ≤ b) :
    let y := logNext (expValue 8) x (logStart (expValue 8) x)
    Good (1 - x * expValue 8 (-y)) y := by
  induction k generalizing a b with
  | zero => simp [cover] at hc
  | succ k ih =>
    unfold cover at hc
    dsimp only at hc
    set m := if 2 * a < b then 2 * a else (a + b) / 2
    rw [Bool.or_eq_true, Bool.and_eq_true] at hc
    rcases hc with hc | ⟨hc1, hc2⟩
    · exact good_sound hc hax hxb
    · rcases le_total x (m : ℝ) with hm | hm
      · exact ih a m hc1 hax hm
      · exact ih m b hc2 hm hxb

/-- where the first step leads for arguments between 1/100 and 100 -/
theorem first_step (x : ℝ) (h1 : 1 / 100 ≤ x) (h2 : x ≤ 100) :
    let y := logNext (expValue 8) x (logStart (expValue 8) x)
    Good (1 - x * expValue 8 (-y)) y :=
  cover_sound 30 _ _ x covered (by push_cast; exact h1) (by push_cast; exact h2)

/-! ## the second step -/

/-- the remainder of the series of the logarithm -/
theorem series_rem {h : ℝ} (hh : |h| < 1) : |Real.log (1 - h) + logSeries h| ≤ |h| ^ 7 / (7 * (1 - |h|)) := by
  obtain ⟨hl, hu⟩ := abs_lt.mp hh
  have hd : ∀ t : ℝ, t < 1 → HasDerivAt (fun t => Real.log (1 - t) + logSeries t) (-(t ^ 6 / (1 - t))) t := by
    intro t ht
    have h1 : HasDerivAt (fun t : ℝ => 1 - t) (-1) t := by simpa using (hasDerivAt_id t).const_sub 1
    have h2 := (h1.log (by linarith)).add (series_deriv t)
    refine h2.congr_deriv ?_
    have : (1 : ℝ) - t ≠ 0 := by linarith
    field_simp
    ring
  have hc : ∀ (c : ℝ) (t : ℝ), t < 1 →
      HasDerivAt (fun t => Real.log (1 - t) + logSeries t + c * t ^ 7) (-(t ^ 6 / (1 - t)) + c * (7 * t ^ 6)) t := by
    intro c t ht
    refine ((hd t ht).add ((hasDerivAt_pow 7 t).const_mul c)).congr_deriv ?_
    norm_num
  have zero : Real.log (1 - (0 : ℝ)) + logSeries 0 = 0 := by simp [logSeries]
  have p6 : ∀ t : ℝ, 0 ≤ t ^ 6 := fun t => by positivity
  -- the function falls
  have anti : ∀ u v : ℝ, u ≤ v → v < 1 → Real.log (1 - v) + logSeries v ≤ Real.log (1 - u) + logSeries u := by
    intro u v huv hv
    refine antitoneOn_of_deriv_nonpos (convex_Icc u v)
      (fun t ht => (hd t (ht.2.trans_lt hv)).continuousAt.continuousWithinAt)
      (fun t ht => (hd t ((interior_subset ht).2.trans_lt hv)).differentiableAt.differentiableWithinAt) ?_
      (Set.left_mem_Icc.mpr huv) (Set.right_mem_Icc.mpr huv) huv
    intro t ht
    have ht1 := (interior_subset ht).2.trans_lt hv
    rw [(hd t ht1).deriv]
    have := div_nonneg (p6 t) (show 0 ≤ 1 - t by linarith)
    linarith
  -- not faster than the bound
  have mono : ∀ u v r : ℝ, u ≤ v → v ≤ r → r < 1 →
      Real.log (1 - u) + logSeries u + 1 / (7 * (1 - r)) * u ^ 7 ≤ Real.log (1 - v) + logSeries v + 1 / (7 * (1 - r)) * v ^ 7 := by
    intro u v r huv hvr hr
    refine monotoneOn_of_deriv_nonneg (f := fun t => Real.log (1 - t) + logSeries t + 1 / (7 * (1 - r)) * t ^ 7) (convex_Icc u v)
      (fun t ht => (hc _ t (ht.2.trans_lt (hvr.trans_lt hr))).continuousAt.continuousWithinAt)
      (fun t ht => (hc _ t ((interior_subset ht).2.trans_lt (hvr.trans_lt hr))).differentiableAt.differentiableWithinAt) ?_
      (Set.left_mem_Icc.mpr huv) (Set.right_mem_Icc.mpr huv) huv
    intro t ht
    have ht1 := (interior_subset ht).2
    rw [(hc _ t (ht1.trans_lt (hvr.trans_lt hr))).deriv]
    have e : 1 / (7 * (1 - r)) * (7 * t ^ 6) = t ^ 6 / (1 - r) := by
      have : (1 : ℝ) - r ≠ 0 := by linarith
      field_simp
    rw [e]
    have : t ^ 6 / (1 - t) ≤ t ^ 6 / (1 - r) := div_le_div_of_nonneg_left (p6 t) (by linarith) (by linarith)
    linarith
  rcases le_total 0 h with h0 | h0
  · rw [abs_of_nonneg h0]
    have h1 := anti 0 h h0 hu
    have h2 := mono 0 h h h0 (le_refl _) hu
    rw [zero] at h1 h2
    rw [abs_of_nonpos h1]
    have e : 1 / (7 * (1 - h)) * h ^ 7 = h ^ 7 / (7 * (1 - h)) := by ring
    rw [e] at h2
    simp only [ne_eq, OfNat.ofNat_ne_zero, not_false_eq_true, zero_pow, mul_zero, add_zero] at h2
    linarith
  · rw [abs_of_nonpos h0]
    have h1 := anti h 0 h0 one_pos
    have h2 := mono h 0 0 h0 (le_refl _) one_pos
    rw [zero] at h1 h2
    rw [abs_of_nonneg h1]
    simp only [ne_eq, OfNat.ofNat_ne_zero, not_false_eq_true, zero_pow, mul_zero, add_zero, sub_zero, mul_one] at h2
    have h3 : (-h) ^ 7 / 7 ≤ (-h) ^ 7 / (7 * (1 - -h)) * (1 - -h) := by
      have : (1 : ℝ) - -h ≠ 0 := by linarith
      rw [div_mul_eq_mul_div, mul_div_mul_right _ _ this]
    have h4 : 0 ≤ (-h) ^ 7 / (7 * (1 - -h)) := div_nonneg (pow_nonneg (by linarith) _) (by linarith)
    have h5 : (-h) ^ 7 = -h ^ 7 := by ring
    have h6 : (-h) ^ 7 / (7 * (1 - -h)) * (1 - -h) ≤ (-h) ^ 7 / (7 * (1 - -h)) := by
      nlinarith
    rw [h5] at h3
    rw [h5] at h6 ⊢
    linarith

/-- the logarithm near 1 -/
theorem log_near {z : ℝ} (hz : |z| ≤ 1 / 32) : Real.log (1 - z) ≤ -z ∧ -z - 8 / 15 * z ^ 2 ≤ Real.log (1 - z) := by
  obtain ⟨z1, z2⟩ := abs_le.mp hz
  constructor
  · have := Real.log_le_sub_one_of_pos (show (0 : ℝ) < 1 - z by linarith)
    linarith
  · have h := Real.abs_log_sub_add_sum_range_le (show |z| < 1 by linarith) 2
    simp only [Finset.sum_range_succ, Finset.sum_range_zero, Nat.cast_zero, Nat.cast_one, zero_add, pow_one, div_one] at h
    have h1 : |z| ^ 3 / (1 - |z|) ≤ z ^ 2 / 31 := by
      rw [div_le_div_iff₀ (by linarith) (by norm_num), ← sq_abs z]
      nlinarith [sq_nonneg |z|, abs_nonneg z]
    have h2 := (abs_le.mp h).1
    norm_num at h2 h1
    nlinarith [sq_nonneg z]

theorem exp_eq (y : ℝ) : expValue 8 (-y) = (1 - y / 256) ^ 256 := by
  unfold expValue
  rw [show (1 + -y / 2 ^ 8 : ℝ) = 1 - y / 256 by ring, show (2 : ℕ) ^ 8 = 256 from rfl]

/-- what the second step makes of a good first one -/
theorem second_step (x y : ℝ) (hg : Good (1 - x * expValue 8 (-y)) y) :
    |logNext (expValue 8) x y - Real.log x| ≤ 1 / 20 ∧
      |1 - x * expValue 8 (-(logNext (expValue 8) x y))| ≤ 1 / 100 := by
  obtain ⟨g1, g2, g3, g4⟩ := hg
  set h := 1 - x * expValue 8 (-y) with hdef
  set z := y / 256 with hz
  have hzb : |z| ≤ 1 / 32 := by
    rw [hz, abs_div, div_le_iff₀ (by positivity)]
    norm_num
    exact g2
  obtain ⟨z1, z2⟩ := abs_le.mp hzb
  have hE : expValue 8 (-y) = (1 - z) ^ 256 := exp_eq y
  have hEpos : 0 < expValue 8 (-y) := by rw [hE]; exact pow_pos (by linarith) _
  have hh : |h| < 1 := by linarith
  have hxE : x * expValue 8 (-y) = 1 - h := by rw [hdef]; ring
  have h1h : 0 < 1 - h := by have := (abs_lt.mp hh).2; linarith
  have hx : 0 < x := by
    by_contra hc
    push Not at hc
    have := mul_nonpos_of_nonpos_of_nonneg hc hEpos.le
    linarith
  have hl : Real.log (1 - h) = Real.log x + 256 * Real.log (1 - z) := by
    rw [← hxE, Real.log_mul hx.ne' hEpos.ne', hE, Real.log_pow]
    norm_num
  have hrem := series_rem hh
  set p := logSeries h with hp
  have hn : logNext (expValue 8) x y = y - p := rfl
  obtain ⟨n1, n2⟩ := log_near hzb
  have hyz : y = 256 * z := by rw [hz]; ring
  have hzsq : y ^ 2 / 256 = 256 * z ^ 2 := by rw [hyz]; ring
  refine ⟨?_, ?_⟩
  · have key : logNext (expValue 8) x y - Real.log x = -(Real.log (1 - h) + p) + 256 * (Real.log (1 - z) + z) := by
      rw [hn, hl, hyz]
      ring
    rw [key]
    refine (abs_add_le _ _).trans (le_trans (add_le_add (by rw [abs_neg]; exact hrem) ?_) g3)
    rw [hzsq, abs_mul, abs_of_pos (by norm_num : (0 : ℝ) < 256)]
    have : |Real.log (1 - z) + z| ≤ 8 / 15 * z ^ 2 := by
      have := sq_nonneg z
      rw [abs_le]
      constructor <;> linarith
    linarith
  · -- `(1 - z + p/256) = (1 - z) (1 + u)`
    have hz0 : (0 : ℝ) < 1 - z := by linarith
    set u := p / (256 - y) with hu
    have hd : (248 : ℝ) ≤ 256 - y := by have := (abs_le.mp g2).2; linarith
    have hdpos : (0 : ℝ) < 256 - y := by linarith
    have hup : u * (256 - y) = p := by rw [hu]; field_simp
    have pabs : |p| ≤ 5 / 2 := by
      have h0 : 0 ≤ |h| ^ 7 / (7 * (1 - |h|)) := div_nonneg (by positivity) (by linarith)
      have h1 : 0 ≤ |p| * |y| := by positivity
      have h2 : |p| ^ 2 ≤ (5 / 2) ^ 2 := by linarith
      exact le_of_sq_le_sq h2 (by norm_num)
    have hub : |u| ≤ 1 / 32 := by
      rw [hu, abs_div, abs_of_pos hdpos, div_le_iff₀ hdpos]
      linarith
    obtain ⟨u1, u2⟩ := abs_le.mp hub
    have hE2 : expValue 8 (-(y - p)) = expValue 8 (-y) * (1 + u) ^ 256 := by
      rw [exp_eq, hE, ← mul_pow]
      congr 1
      have e : (1 - z) * (1 + u) = 1 - z + u * (256 - y) / 256 := by rw [hyz]; ring
      rw [e, hup, hz]
      ring
    rw [hn, hE2, ← mul_assoc, hxE]
    have hpos : 0 < (1 - h) * (1 + u) ^ 256 := mul_pos h1h (pow_pos (by linarith) _)
    have hlog : |Real.log ((1 - h) * (1 + u) ^ 256)| ≤ 99 / 10000 := by
      rw [Real.log_mul h1h.ne' (pow_pos (by linarith) _).ne', Real.log_pow]
      obtain ⟨m1, m2⟩ := log_near (z := -u) (by rw [abs_neg]; exact hub)
      rw [sub_neg_eq_add, neg_neg] at m1 m2
      have e : Real.log (1 - h) + ((256 : ℕ) : ℝ) * Real.log (1 + u)
          = (Real.log (1 - h) + p) + u * y + 256 * (Real.log (1 + u) - u) := by
        have : p = u * 256 - u * y := by rw [← hup]; ring
        rw [this]
        push_cast
        ring
      rw [e]
      refine (abs_add_three _ _ _).trans (le_trans (add_le_add (add_le_add hrem ?_) ?_) g4)
      · rw [abs_mul, hu, abs_div, abs_of_pos hdpos, div_mul_eq_mul_div, div_le_iff₀ hdpos]
        have h0 : 0 ≤ |p| * |y| := by positivity
        have := mul_le_mul_of_nonneg_left hd h0
        linarith
      · rw [abs_mul, abs_of_pos (by norm_num : (0 : ℝ) < 256)]
        have h1 : |Real.log (1 + u) - u| ≤ 8 / 15 * u ^ 2 := by
          have := sq_nonneg u
          rw [abs_le]
          constructor <;> linarith
        have h2 : u ^ 2 ≤ |p| ^ 2 / 248 ^ 2 := by
          rw [hu, div_pow, sq_abs]
          exact div_le_div_of_nonneg_left (sq_nonneg _) (by norm_num) (pow_le_pow_left₀ (by norm_num) hd 2)
        have h3 : 0 ≤ |p| ^ 2 := by positivity
        norm_num at h2
        rw [sq_abs] at h3 ⊢
        linarith
    clear hE2
    generalize (1 - h) * (1 + u) ^ 256 = t at hpos hlog ⊢
    obtain ⟨l1, l2⟩ := abs_le.mp hlog
    have b1 := Real.add_one_le_exp (Real.log t)
    rw [Real.exp_log hpos] at b1
    have b2 := Real.add_one_le_exp (-Real.log t)
    rw [Real.exp_neg, Real.exp_log hpos] at b2
    rw [abs_le]
    constructor
    · have : t ≤ 1 / (1 - 99 / 10000) := by
        rw [le_div_iff₀ (by norm_num), mul_comm, ← le_div_iff₀ hpos, one_div]
        linarith
      norm_num at this ⊢
      linarith
    · linarith

end LogRange
end SyMPC
