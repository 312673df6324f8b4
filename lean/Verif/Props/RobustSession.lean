import Verif.Props.RobustSoftmax
import Verif.Props.AlgoMachine

/-!
# Powers, division, exponential and activations in a two-party session

Beaver triples for the products, function secret sharing for the comparisons, truncation by the parties.  Every theorem holds from stores
as they are after any number of operations, unless one of the two recorded events happens (a share addition that leaves the ring, an
output `-2^31` of a key): then the run is marked by `.inr ()`.
-/

namespace SyMPC

open Machine

variable {Key : Type} {n : Nat}

/-- sessions with 16 to 20 binary places are `Fine` -/
theorem machine_fine (M : Machine Key) (hM : M.Fair) (h1 : 2 ^ 16 ≤ M.scale) (h2 : M.scale ≤ 2 ^ 20) : Fine (M.sound hM) := by
  obtain ⟨d1, d2, -⟩ := sort_room M.scale hM.pos _ rfl
  have hS : (0 : ℚ) < M.scale := by exact_mod_cast hM.pos
  have h1' : (2 : ℚ) ^ 16 ≤ M.scale := by exact_mod_cast h1
  have h2' : (M.scale : ℚ) ≤ 2 ^ 20 := by exact_mod_cast h2
  have hd : (2 : ℚ) / M.scale ≤ 1 / 2 ^ 15 := by
    rw [div_le_div_iff₀ hS (by norm_num)]
    norm_num at h1' ⊢
    linarith
  refine ⟨d1, d2.trans hd, ?_, hd, ?_, ?_, ?_⟩
  · change (0 : ℚ) ≤ 2 / M.scale
    positivity
  · change (0 : ℚ) ≤ 1 / M.scale
    positivity
  · change (1 : ℚ) / M.scale ≤ 1 / 2 ^ 16
    exact one_div_le_one_div_of_le (by norm_num) h1'
  · change (1000 : ℚ) ≤ (2 ^ 30 - 1) / M.scale
    rw [le_div_iff₀ hS]
    have : (M.scale : ℚ) ≤ 1048576 := h2'.trans (by norm_num)
    linarith

/-- **C42** in a two-party session: for `|x| ≤ C`, `x ** p` with `p > 0` is within `C^p ((1 + 2/scale)^p - 1)` of the power. -/
theorem C42_power_session (M : Machine Key) (hM : M.Fair) (x : MX n) (ok : M.Ok x) (C : ℚ) (hC : 1 ≤ C)
    (hx : ∀ i, |M.val x i| ≤ C) (p : Nat) (hp : p ≠ 0) (hB : (C * (1 + 2 / M.scale)) ^ (2 * p) ≤ (2 ^ 30 - 1) / M.scale)
    (w : MState Key) (hw : M.Inv w) :
    powSec M.ops x p w = .error (.inr ()) ∨
    ∃ z w', powSec M.ops x p w = .ok (z, w') ∧ M.Inv w' ∧ M.Ok z ∧
      ∀ i, |M.val z i - M.val x i ^ p| ≤ C ^ p * ((1 + 2 / M.scale) ^ p - 1) := by
  obtain ⟨d1, d2, -⟩ := sort_room M.scale hM.pos _ rfl
  have d1' : 0 ≤ (M.sound hM).δ := d1
  have d2' : (M.sound hM).δ ≤ 2 / M.scale := d2
  rcases (C42_power_sound (M.sound hM) d1 x ok C hC hx p (le_trans
    (pow_le_pow_left₀ (by positivity) (mul_le_mul_of_nonneg_left (by linarith) (by linarith)) _) hB)).2.1 hp w hw with h | ⟨z, w', h3, ⟨h4, h5⟩, h6⟩
  · exact Or.inl h
  · refine Or.inr ⟨z, w', h3, h6, h4, fun i => (h5 i).trans ?_⟩
    have := pow_le_pow_left₀ (by linarith) (by linarith : 1 + (M.sound hM).δ ≤ 1 + 2 / M.scale) p
    exact mul_le_mul_of_nonneg_left (by linarith) (by positivity)

/-- **C42** in a two-party session that computes with integers: `x ** p` is the power. -/
theorem C42_power_integers (M : Machine Key) (hM : M.Fair) (hprec : M.session.config.encoderPrecision = 0) (x : MX n) (ok : M.Ok x) (C : Int)
    (hC : 1 ≤ C) (hx : ∀ i, |(x.value i).toInt| ≤ C) (p : Nat) (hp : p ≠ 0) (hB : C ^ (2 * p) < 2 ^ 30) (w : MState Key) (hw : M.Inv w) :
    powSec M.ops x p w = .error (.inr ()) ∨
    ∃ z w', powSec M.ops x p w = .ok (z, w') ∧ M.Inv w' ∧ M.Ok z ∧ ∀ i, (z.value i).toInt = (x.value i).toInt ^ p := by
  have hS : M.scale = 1 := by unfold Machine.scale; rw [hprec, pow_zero]
  have hval : ∀ (x : MX n) i, M.val x i = ((x.value i).toInt : ℚ) := by
    intro x i
    unfold Machine.val
    rw [hS]
    simp
  have hδ : (M.sound hM).δ = 0 := by
    change 2 * ((M.scale : ℚ) - 1) / M.scale / M.scale = 0
    rw [hS]
    norm_num
  have hBB : (M.sound hM).B = 2 ^ 30 - 1 := by
    change ((2 : ℚ) ^ 30 - 1) / M.scale = _
    rw [hS]
    norm_num
  rcases (C42_power_sound (M.sound hM) hδ.ge x ok (C : ℚ) (by exact_mod_cast hC) (fun i => by
      change |M.val x i| ≤ _
      rw [hval]
      exact_mod_cast hx i) p (by
      rw [hδ, hBB, add_zero, mul_one]
      have : C ^ (2 * p) ≤ 2 ^ 30 - 1 := by omega
      exact_mod_cast this)).2.1 hp w hw with h | ⟨z, w', h3, ⟨h4, h5⟩, h6⟩
  · exact Or.inl h
  · refine Or.inr ⟨z, w', h3, h6, h4, fun i => ?_⟩
    have h7 := h5 i
    rw [hδ, add_zero, one_pow, sub_self, mul_zero] at h7
    have h8 := abs_nonpos_iff.mp h7
    change M.val z i - M.val x i ^ p = 0 at h8
    rw [hval, hval, sub_eq_zero] at h8
    exact_mod_cast h8

/-- **C51** in a two-party session: the reciprocal of numbers with modulus between 0.1 and 10 is exact to half a percent. -/
theorem C51_reciprocal_session (M : Machine Key) (hM : M.Fair) (hs1 : 2 ^ 16 ≤ M.scale) (hs2 : M.scale ≤ 2 ^ 20) (x : MX n) (ok : M.Ok x)
    (h1 : ∀ i, 1 / 10 ≤ |M.val x i|) (h2 : ∀ i, |M.val x i| ≤ 10) (w : MState Key) (hw : M.Inv w) :
    reciprocalS M.ops x .nr 10 w = .error (.inr ()) ∨
    ∃ z w', reciprocalS M.ops x .nr 10 w = .ok (z, w') ∧ M.Inv w' ∧ M.Ok z ∧ ∀ i, |1 - M.val x i * M.val z i| ≤ 1 / 200 := by
  rcases C51_reciprocal_sound (M.sound hM) (machine_fine M hM hs1 hs2) x ok h1 h2 w hw with h | ⟨z, w', h3, ⟨h4, h5⟩, h6⟩
  · exact Or.inl h
  · exact Or.inr ⟨z, w', h3, h6, h4, h5⟩

/-- **C51** in a two-party session: `x / y` for two secrets. -/
theorem C51_truediv_session (M : Machine Key) (hM : M.Fair) (hs1 : 2 ^ 16 ≤ M.scale) (hs2 : M.scale ≤ 2 ^ 20) (x y : MX n) (okx : M.Ok x)
    (oky : M.Ok y) (hx : ∀ i, |M.val x i| ≤ 90) (h1 : ∀ i, 1 / 10 ≤ |M.val y i|) (h2 : ∀ i, |M.val y i| ≤ 10) (w : MState Key)
    (hw : M.Inv w) :
    truedivS M.ops 2 x y w = .error (.inr ()) ∨
    ∃ z w', truedivS M.ops 2 x y w = .ok (z, w') ∧ M.Inv w' ∧ M.Ok z ∧
      ∀ i, |M.val z i - M.val x i / M.val y i| ≤ |M.val x i / M.val y i| / 200 + 2 / M.scale := by
  rcases C51_truediv_sound (M.sound hM) (machine_fine M hM hs1 hs2) 2 le_rfl x y okx oky hx h1 h2 w hw with h | ⟨z, w', h3, ⟨h4, h5⟩, h6⟩
  · exact Or.inl h
  · refine Or.inr ⟨z, w', h3, h6, h4, fun i => (h5 i).trans ?_⟩
    exact add_le_add le_rfl (sort_room M.scale hM.pos _ rfl).2.1

/-- **C52** in a two-party session: `exp` of numbers between -256 and 0 is within 0.018 of the exponential function. -/
theorem C52_exp_session (M : Machine Key) (hM : M.Fair) (hs1 : 2 ^ 16 ≤ M.scale) (hs2 : M.scale ≤ 2 ^ 20) (x : MX n) (ok : M.Ok x)
    (h1 : ∀ i, -256 ≤ M.val x i) (h2 : ∀ i, M.val x i ≤ 0) (w : MState Key) (hw : M.Inv w) :
    expS M.ops x 8 w = .error (.inr ()) ∨
    ∃ z w', expS M.ops x 8 w = .ok (z, w') ∧ M.Inv w' ∧ M.Ok z ∧ ∀ i, |(M.val z i : ℝ) - Real.exp (M.val x i)| ≤ 18 / 1000 := by
  rcases C52_exp_accuracy_sound (M.sound hM) (machine_fine M hM hs1 hs2) x ok h1 h2 w hw with h | ⟨z, w', h3, ⟨h4, h5⟩, h6⟩
  · exact Or.inl h
  · exact Or.inr ⟨z, w', h3, h6, h4, h5⟩

/-- **C53** in a two-party session: `sigmoid` is within 0.034 of the sigmoid function for numbers up to 64. -/
theorem C53_sigmoid_session (M : Machine Key) (hM : M.Fair) (hs1 : 2 ^ 16 ≤ M.scale) (hs2 : M.scale ≤ 2 ^ 20) (x : MX n) (ok : M.Ok x)
    (hx : ∀ i, |M.val x i| ≤ 64) (w : MState Key) (hw : M.Inv w) :
    sigmoidExp M.ops x w = .error (.inr ()) ∨
    ∃ z w', sigmoidExp M.ops x w = .ok (z, w') ∧ M.Inv w' ∧ M.Ok z ∧
      ∀ i, |(M.val z i : ℝ) - 1 / (1 + Real.exp (-(M.val x i : ℝ)))| ≤ 34 / 1000 := by
  rcases C53_sigmoid_sound (M.sound hM) (machine_fine M hM hs1 hs2) x ok hx w hw with h | ⟨z, w', h3, ⟨h4, h5⟩, h6⟩
  · exact Or.inl h
  · exact Or.inr ⟨z, w', h3, h6, h4, h5⟩

/-- **C53** in a two-party session: `tanh` is within 0.07 of the hyperbolic tangent for numbers up to 31. -/
theorem C53_tanh_session (M : Machine Key) (hM : M.Fair) (hs1 : 2 ^ 16 ≤ M.scale) (hs2 : M.scale ≤ 2 ^ 20) (x : MX n) (ok : M.Ok x)
    (hx : ∀ i, |M.val x i| ≤ 31) (w : MState Key) (hw : M.Inv w) :
    tanhSigmoid M.ops x w = .error (.inr ()) ∨
    ∃ z w', tanhSigmoid M.ops x w = .ok (z, w') ∧ M.Inv w' ∧ M.Ok z ∧ ∀ i, |(M.val z i : ℝ) - Real.tanh (M.val x i)| ≤ 7 / 100 := by
  rcases C53_tanh_sound (M.sound hM) (machine_fine M hM hs1 hs2) x ok hx w hw with h | ⟨z, w', h3, ⟨h4, h5⟩, h6⟩
  · exact Or.inl h
  · exact Or.inr ⟨z, w', h3, h6, h4, h5⟩

/-- **C62** in a two-party session, for fibres of up to 8 elements with one maximum each; `z0` is the sharing of zero that is used for
fibres of one element.  Missing: longer fibres, and ties, where the claim is false. -/
theorem C62_softmax_session_partial (M : Machine Key) (hM : M.Fair) (hs1 : 2 ^ 16 ≤ M.scale) (hs2 : M.scale ≤ 2 ^ 20) (L : Layout n) (z0 : MX n)
    (okz : M.Ok z0) (hz0 : ∀ i, z0.value i = 0) (x : MX n) (ok : M.Ok x) (hl : L.len ≤ 8) (hx : ∀ i, |M.val x i| ≤ 100)
    (top : Fin L.rows → Fin L.len) (htop : ∀ r j, j ≠ top r → M.val x (L.pos r j) < M.val x (L.pos r (top r))) (w : MState Key)
    (hw : M.Inv w) :
    softmaxS M.ops L (pure z0) x w = .error (.inr ()) ∨
    ∃ z w', softmaxS M.ops L (pure z0) x w = .ok (z, w') ∧ M.Inv w' ∧ M.Ok z ∧ (∀ r, |∑ j, M.val z (L.pos r j) - 1| ≤ 6 / 1000) ∧
      ∀ r j, |(M.val z (L.pos r j) : ℝ) - Real.exp (M.val x (L.pos r j)) / ∑ j', Real.exp (M.val x (L.pos r j'))|
        ≤ 6 / 1000 + (L.len + 1) * (33 / 1000) := by
  rcases C62_softmax_sound_partial (M.sound hM) (machine_fine M hM hs1 hs2) L (pure z0) (M.sure.pure _ _ ⟨okz, fun i => by
      change M.val z0 i = 0
      unfold Machine.val
      rw [hz0 i]
      simp⟩) x ok hl hx top htop w hw with h | ⟨z, w', h3, ⟨h4, h5, h7⟩, h6⟩
  · exact Or.inl h
  · exact Or.inr ⟨z, w', h3, h6, h4, h5, h7⟩

/-! ## cases -/

theorem exVector_ok {n : Nat} (v : Fin n → Int) : exMachine.Ok (exVector v) := ⟨exPairSecret_wf _ _, rfl⟩

example : exMachine.Fair ∧ 2 ^ 16 ≤ exMachine.scale ∧ exMachine.scale ≤ 2 ^ 20 ∧ exMachine.Inv start :=
  ⟨exMachine_fair, by decide, by decide, Machine.inv_start _⟩

/-- the results in quanta are near the given numbers -/
def exNear (r : Except (PyErr ⊕ Unit) (MX n × MState (BitVec 32 × BitVec 32))) (v : Fin n → Int) (d : Nat) : Bool :=
  match r with
  | .ok (z, _) => decide (∀ i, ((z.value i).toInt - v i).natAbs ≤ d)
  | .error _ => false

/-- the reciprocals of 4 and -0.5 -/
example : exNear (reciprocalS exMachine.ops (exVector ![4 * 65536, -32768]) .nr 10 start) ![16384, -131072] 100 = true := by
  decide +kernel

/-- 3 divided by 4 -/
example : exNear (truedivS exMachine.ops 2 (exVector ![3 * 65536]) (exVector ![4 * 65536]) start) ![49152] 100 = true := by
  decide +kernel

/-- the exponentials of -1 and 0 -/
example : exNear (expS exMachine.ops (exVector ![-65536, 0]) 8 start) ![24109, 65536] 1100 = true := by
  decide +kernel

/-- the sigmoids of 1 and -2 -/
example : exNear (sigmoidExp exMachine.ops (exVector ![65536, -131072]) start) ![47911, 7812] 1000 = true := by
  decide +kernel

/-- 1.5 to the power 5 -/
example : exNear (powSec exMachine.ops (exVector ![98304]) 5 start) ![497664] 20 = true := by
  decide +kernel

/-- softmax of 1, 0 and 2 -/
example : exNear (softmaxS exMachine.ops (Layout.flat 3) (pure (exVector 0)) (exVector ![65536, 0, 131072]) start) ![16039, 5900, 43597] 1000
    = true := by
  decide +kernel

end SyMPC
