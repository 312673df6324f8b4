import Verif.Model.Module
import Verif.Props.Conv
import Verif.Props.Encoder
import Verif.Props.Przs
import Verif.Lemmas.Grad

/-!
# C64, C65: sharing networks

A network shared between the parties and reconstructed is the network that was shared; a shared `Conv2d` layer convolves with the
attributes of the layer it was made from.
-/

namespace SyMPC.Module

open Tensor
open Grad (ConvSizes)
open Conv (Secret)

/-! ## Specification -/

/-- The scale of the fixed point numbers of a session. -/
def scaleOf (s : Session) : Nat := s.config.encoderBase ^ s.config.encoderPrecision

/-- The same parameter up to less than one quantum, and exactly the same where the numbers are multiples of the quantum. -/
def SameParam (scale : Nat) (t t' : Tensor ℚ) : Prop :=
  t'.shape = t.shape ∧ ∀ i, ValidIdx t.shape i → |t.at_ i - t'.at_ i| < 1 / scale ∧ ∀ k : Int, t.at_ i = k / scale → t'.at_ i = t.at_ i

/-- The same bias, or both without a bias. -/
def SameBias (scale : Nat) : Option (Tensor ℚ) → Option (Tensor ℚ) → Prop
  | none, none => True
  | some b, some b' => SameParam scale b b'
  | _, _ => False

/-- The same layer: class, attributes and parameters. -/
def SameLayer (scale : Nat) : TorchLayer → TorchLayer → Prop
  | .linear w b, .linear w' b' => SameParam scale w w' ∧ SameBias scale b b'
  | .conv2d a w b, .conv2d a' w' b' => a' = a ∧ SameParam scale w w' ∧ SameBias scale b b'
  | _, _ => False

/-- Numbers that the encoding can hold. -/
def Fits (scale : Nat) (t : Tensor ℚ) : Prop := ∀ i, ValidIdx t.shape i → |t.at_ i * scale| < 2 ^ 63

/-- The randomness that the parties have: for a remote layer, zero shares, and its holder is a party. -/
def Drawn (s : Session) (holder : Option Nat) (d : Draw) : Prop :=
  ∀ h ∈ holder, h ∈ s.parties ∧ d.zeros.length = s.nrParties ∧ d.zeros.sum = 0

/-- The layers that survive: linear layers with or without bias, local or at a party, and local convolutions with a bias and one group.
The shapes are those that torch gives to the parameters. -/
def Survives (s : Session) (m : TorchModule) : Prop :=
  match m.layer with
  | .linear w b => (∃ o i, w.shape = [o, i] ∧ ∀ b' ∈ b, b'.shape = [o] ∧ Fits (scaleOf s) b') ∧ Fits (scaleOf s) w
  | .conv2d a w b => m.holder = none ∧ a.groups = 1 ∧ (∃ kh kw, w.shape = [a.outChannels, a.inChannels, kh, kw]) ∧ Fits (scaleOf s) w ∧
      ∃ b', b = some b' ∧ b'.shape = [a.outChannels] ∧ Fits (scaleOf s) b'
  | _ => False

/-! ## Parameters -/

/-- the encoded parameter -/
def encoded (s : Session) (t : Tensor ℚ) : List Nat → I64 := fun i => s.config.encoder.encode (.float (t.at_ i))

theorem shareParam_ok (env : Env) (s : Session) (hs : s.Ready env) (d : Draw) (holder : Option Nat) (hd : Drawn s holder d) (t : Tensor ℚ)
    (shape : List Nat) : ∃ x, shareParam env s d holder t shape = .ok ⟨x, shape⟩ ∧ x.session = s ∧ x.WF env ∧
      x.reconstruct = .ok (encoded s t) := by
  cases holder with
  | none =>
    obtain ⟨x, h1, h2, h3, h4⟩ := ofSecret_ok env s hs (fun i => FixedPointEncoder.Val.float (t.at_ i)) d.shares
    refine ⟨x, ?_, h2, h3, h4⟩
    unfold shareParam
    dsimp only
    rw [h1, ok_bind]
    rfl
  | some h =>
    obtain ⟨hp, hz, hsum⟩ := hd h rfl
    obtain ⟨x, h1, h2, h3, h4⟩ := C07_remote_secret_partial env s hs h hp (fun i => FixedPointEncoder.Val.float (t.at_ i)) d.zeros hz hsum
    refine ⟨x, ?_, h3, h2, h4⟩
    unfold shareParam
    dsimp only
    rw [h1, ok_bind]
    rfl

theorem decoded_ok (s : Session) (hb : 1 ≤ s.config.encoderBase) (hsc : scaleOf s < 2 ^ 63) (t : Tensor ℚ) (hf : Fits (scaleOf s) t)
    (x : MPCTensor (List Nat → I64)) (hxs : x.session = s) (hx : x.reconstruct = .ok (encoded s t)) (r : Bool) :
    ∃ t', (⟨⟨x, t.shape⟩, r⟩ : Param).decoded = .ok t' ∧ SameParam (scaleOf s) t t' := by
  refine ⟨⟨t.shape, fun i => if s.config.encoderPrecision = 0 then (encoded s t i).toInt
    else s.config.encoder.decodeCore (encoded s t i)⟩, ?_, rfl, fun i hi => ?_⟩
  · unfold Param.decoded
    dsimp only
    rw [hx, ok_bind, hxs]
    rfl
  · obtain ⟨d, h1, h2, -, -, h5⟩ := C01_encode_decode_error s.config.encoderBase s.config.encoderPrecision hb hsc (t.at_ i) (hf i hi)
    have e : (if s.config.encoderPrecision = 0 then ((encoded s t i).toInt : ℚ) else s.config.encoder.decodeCore (encoded s t i)) = d :=
      Except.ok.inj h1
    dsimp only
    rw [e]
    exact ⟨h2, h5⟩

/-! ## Tables -/

theorem lookup_linear : mapTorchToSympc.lookup "Linear" = some .linear := by decide
theorem lookup_linear' : mapTorchToSympc.lookup "LinearPointer" = some .linear := by decide
theorem lookup_conv : mapTorchToSympc.lookup "Conv2d" = some .conv2d := by decide
theorem lookup_conv' : mapTorchToSympc.lookup "Conv2dPointer" = some .conv2d := by decide

theorem className_linear (h : Option Nat) (w : Tensor ℚ) (b : Option (Tensor ℚ)) :
    (⟨h, .linear w b⟩ : TorchModule).className = "Linear" ∨ (⟨h, .linear w b⟩ : TorchModule).className = "LinearPointer" := by
  cases h with
  | none => exact .inl rfl
  | some _ => exact .inr rfl

/-- sharing a linear layer -/
theorem shareLayer_linear (env : Env) (s : Session) (dw db : Draw) (h : Option Nat) (w : Tensor ℚ) (b : Option (Tensor ℚ)) :
    shareLayer env s dw db ⟨h, .linear w b⟩ = (do
      let l ← Linear.shareStateDict env s dw db h w b
      return .linear l) := by
  unfold shareLayer
  rcases className_linear h w b with e | e
  · rw [e, if_neg (by decide), lookup_linear]
    rfl
  · rw [e, if_neg (by decide), lookup_linear']
    rfl

/-- the sizes of a layer, as pairs -/
def sizesOf (a : ConvAttrs) : ConvSizes :=
  ⟨.pair a.stride.1 a.stride.2, .pair a.padding.1 a.padding.2, .pair a.dilation.1 a.dilation.2, a.groups⟩

/-- sharing a convolution: the attributes of a local layer are kept, those of a remote one are torch's defaults -/
theorem shareLayer_conv (env : Env) (s : Session) (dw db : Draw) (h : Option Nat) (a : ConvAttrs) (w : Tensor ℚ) (b : Option (Tensor ℚ)) :
    ∃ attrs, setAdditionalAttributes initSizes (some attrs) = .ok (if h = none then sizesOf a else initSizes) ∧
      shareLayer env s dw db ⟨h, .conv2d a w b⟩ = (do
        let l ← Conv2d.shareStateDict env s dw db h w b (some attrs)
        return .conv2d l) := by
  cases h with
  | none =>
    refine ⟨[("padding", .pair a.padding.1 a.padding.2), ("dilation", .pair a.dilation.1 a.dilation.2), ("groups", .one a.groups),
      ("stride", .pair a.stride.1 a.stride.2), ("in_channels", .one a.inChannels), ("out_channels", .one a.outChannels)], rfl, ?_⟩
    unfold shareLayer
    rw [show (⟨none, .conv2d a w b⟩ : TorchModule).className = "Conv2d" from rfl, if_neg (by decide), lookup_conv]
    rfl
  | some h =>
    refine ⟨[], rfl, ?_⟩
    unfold shareLayer
    rw [show (⟨some h, .conv2d a w b⟩ : TorchModule).className = "Conv2dPointer" from rfl, if_neg (by decide), lookup_conv']
    rfl

/-- sharing a convolution succeeds, and gives a layer with these sizes and shared parameters -/
theorem shareConv_ok (env : Env) (s : Session) (hs : s.Ready env) (dw db : Draw) (h : Option Nat) (hdw : Drawn s h dw) (hdb : Drawn s h db)
    (a : ConvAttrs) (w : Tensor ℚ) (b : Option (Tensor ℚ)) (o i kh kw : Nat) (hw : w.shape = [o, i, kh, kw]) :
    ∃ x b', shareLayer env s dw db ⟨h, .conv2d a w b⟩
        = .ok (.conv2d ⟨if h = none then sizesOf a else initSizes, o, i, (kh, kw), ⟨⟨x, w.shape⟩, false⟩, b'⟩) ∧
      x.session = s ∧ x.WF env ∧ x.reconstruct = .ok (encoded s w) ∧ (b = none → b' = none) ∧
      ∀ v ∈ b, ∃ y, b' = some ⟨⟨y, [o]⟩, false⟩ ∧ y.session = s ∧ y.WF env ∧ y.reconstruct = .ok (encoded s v) := by
  obtain ⟨attrs, h1, h2⟩ := shareLayer_conv env s dw db h a w b
  obtain ⟨x, x1, x2, x3, x4⟩ := shareParam_ok env s hs dw h hdw w [o, i, kh, kw]
  cases b with
  | none =>
    refine ⟨x, none, ?_, x2, x3, x4, fun _ => rfl, by simp⟩
    rw [h2]
    unfold Conv2d.shareStateDict
    rw [h1, ok_bind, hw]
    dsimp only
    rw [x1]
    rfl
  | some v =>
    obtain ⟨y, y1, y2, y3, y4⟩ := shareParam_ok env s hs db h hdb v [o]
    refine ⟨x, some ⟨⟨y, [o]⟩, false⟩, ?_, x2, x3, x4, by simp, ?_⟩
    · rw [h2]
      unfold Conv2d.shareStateDict
      rw [h1, ok_bind, hw]
      dsimp only
      rw [x1, ok_bind, y1]
      rfl
    · intro v' hv
      cases hv
      exact ⟨y, rfl, y2, y3, y4⟩

/-! ## C64 -/

/-- one layer -/
theorem layer_round_trip (env : Env) (s : Session) (hs : s.Ready env) (hb : 1 ≤ s.config.encoderBase) (hsc : scaleOf s < 2 ^ 63)
    (dw db : Draw) (m : TorchModule) (hdw : Drawn s m.holder dw) (hdb : Drawn s m.holder db) (hm : Survives s m) :
    ∃ l m', shareLayer env s dw db m = .ok l ∧ reconstructLayer l = .ok m' ∧ m'.holder = none ∧ SameLayer (scaleOf s) m.layer m'.layer := by
  obtain ⟨h, layer⟩ := m
  cases layer with
  | linear w b =>
    obtain ⟨⟨o, i, hw, hbias⟩, hf⟩ := hm
    obtain ⟨x, x1, x2, x3, x4⟩ := shareParam_ok env s hs dw h hdw w [o, i]
    obtain ⟨w', w1, w2⟩ := decoded_ok s hb hsc w hf x x2 x4 true
    rw [hw] at w1
    have hws := w2.1
    rw [hw] at hws
    rw [shareLayer_linear]
    unfold Linear.shareStateDict
    rw [hw]
    dsimp only
    rw [x1, ok_bind]
    cases b with
    | none =>
      refine ⟨_, ⟨none, .linear w' none⟩, rfl, ?_, rfl, w2, trivial⟩
      unfold reconstructLayer Linear.reconstruct loadStateDict
      dsimp only
      rw [w1, ok_bind, if_pos ⟨hws, rfl⟩]
      rfl
    | some v =>
      obtain ⟨hv, hvf⟩ := hbias v rfl
      obtain ⟨y, y1, y2, y3, y4⟩ := shareParam_ok env s hs db h hdb v [o]
      obtain ⟨v', v1, v2⟩ := decoded_ok s hb hsc v hvf y y2 y4 true
      rw [hv] at v1
      have hvs := v2.1
      rw [hv] at hvs
      dsimp only
      rw [y1, ok_bind]
      refine ⟨_, ⟨none, .linear w' (some v')⟩, rfl, ?_, rfl, w2, v2⟩
      unfold reconstructLayer Linear.reconstruct loadStateDict
      dsimp only
      rw [w1, ok_bind, v1, ok_bind, if_pos ⟨hws, by rw [Option.map_some, hvs]⟩]
      rfl
  | conv2d a w b =>
    obtain ⟨rfl, hg, ⟨kh, kw, hw⟩, hf, v, rfl, hv, hvf⟩ := hm
    obtain ⟨x, b', e, x2, x3, x4, -, hy⟩ := shareConv_ok env s hs dw db none hdw hdb a w (some v) _ _ _ _ hw
    obtain ⟨y, rfl, y2, y3, y4⟩ := hy v rfl
    obtain ⟨w', w1, w2⟩ := decoded_ok s hb hsc w hf x x2 x4 false
    obtain ⟨v', v1, v2⟩ := decoded_ok s hb hsc v hvf y y2 y4 false
    have hws := w2.1
    rw [hw] at hws
    have hvs := v2.1
    rw [hv] at hvs
    rw [hv] at v1
    refine ⟨_, ⟨none, .conv2d a w' (some v')⟩, e, ?_, rfl, rfl, w2, v2⟩
    unfold reconstructLayer Conv2d.reconstruct loadStateDict
    dsimp only
    rw [w1, ok_bind, v1, ok_bind, if_pos rfl]
    simp only [sizesOf, hg, Nat.mod_one, ne_eq, not_true_eq_false, or_self, if_false, Nat.div_one]
    rw [if_pos ⟨hws, by rw [Option.map_some, hvs]⟩]
    simp only [Grad.Size.both, ← hg]
    rfl
  | flatten => exact hm.elim
  | other _ => exact hm.elim

/-- C64: sharing a network and reconstructing it gives a network with the same layers under the same names in the same order, with the
same attributes, and with the same weights up to less than one quantum.  Missing: convolutions without bias, with groups or at a
party, and layers without parameters; see the theorems below. -/
theorem C64_round_trip_partial (env : Env) (s : Session) (hs : s.Ready env) (hb : 1 ≤ s.config.encoderBase) (hsc : scaleOf s < 2 ^ 63)
    (draw : Nat → Draw × Draw) (ms : List (String × TorchModule))
    (hm : ∀ i name m, ms[i]? = some (name, m) → Survives s m ∧ Drawn s m.holder (draw i).1 ∧ Drawn s m.holder (draw i).2) :
    ∃ ls out, share env s draw ms = .ok ls ∧ reconstruct ls = .ok out ∧
      List.Forall₂ (fun a b => b.1 = a.1 ∧ b.2.holder = none ∧ SameLayer (scaleOf s) a.2.layer b.2.layer) ms out := by
  have general : ∀ (ms : List (String × TorchModule)) (k : Nat),
      (∀ i name m, ms[i]? = some (name, m) → Survives s m ∧ Drawn s m.holder (draw (k + i)).1 ∧ Drawn s m.holder (draw (k + i)).2) →
      ∃ ls out, ((ms.zipIdx k).mapM fun ((name, m), i) => do
          let l ← shareLayer env s (draw i).1 (draw i).2 m
          return (name, l)) = .ok ls ∧ reconstruct ls = .ok out ∧
        List.Forall₂ (fun a b => b.1 = a.1 ∧ b.2.holder = none ∧ SameLayer (scaleOf s) a.2.layer b.2.layer) ms out := by
    intro ms
    induction ms with
    | nil => exact fun k _ => ⟨[], [], rfl, rfl, .nil⟩
    | cons a ms ih =>
      intro k hm
      obtain ⟨name, m⟩ := a
      obtain ⟨h1, h2, h3⟩ := hm 0 name m rfl
      obtain ⟨l, m', e1, e2, e3, e4⟩ := layer_round_trip env s hs hb hsc (draw k).1 (draw k).2 m h2 h3 h1
      obtain ⟨ls, out, f1, f2, f3⟩ := ih (k + 1) fun i name m hi => by
        have := hm (i + 1) name m hi
        rwa [show k + (i + 1) = k + 1 + i by omega] at this
      refine ⟨(name, l) :: ls, (name, m') :: out, ?_, ?_, .cons ⟨rfl, e3, e4⟩ f3⟩
      · rw [List.zipIdx_cons, List.mapM_cons, f1]
        dsimp only
        rw [e1]
        rfl
      · unfold reconstruct at f2 ⊢
        rw [List.mapM_cons, f2]
        dsimp only
        rw [e2]
        rfl
  refine general ms 0 fun i name m hi => ?_
  have := hm i name m hi
  rwa [Nat.zero_add]

/-- C64: a reconstructed layer with a bias is close to the original for `eq_close` with an absolute tolerance of one quantum. -/
theorem C64_eq_close (scale : Nat) (rtol atol : ℚ) (hr : 0 ≤ rtol) (ha : (1 : ℚ) / scale ≤ atol) (w w' b b' : Tensor ℚ)
    (hw : SameParam scale w w') (hb : SameParam scale b b') : eqClose rtol atol w w' (some b) (some b') = .ok true := by
  have close : ∀ t t' : Tensor ℚ, SameParam scale t t' → allclose rtol atol t t' = true := by
    intro t t' h
    unfold allclose
    rw [List.all_eq_true]
    intro i hi
    have hv : ValidIdx t.shape i := by
      rw [← mem_positions]
      exact List.mem_toFinset.mpr hi
    have := (h.2 i hv).1
    rw [decide_eq_true_iff]
    have h0 : 0 ≤ rtol * |t'.at_ i| := mul_nonneg hr (abs_nonneg _)
    linarith
  unfold eqClose
  simp [close _ _ hw, close _ _ hb]

/-- two parameters are within the tolerances of each other -/
def WithinTol (rtol atol : ℚ) (t t' : Tensor ℚ) : Prop := ∀ i, ValidIdx t.shape i → |t.at_ i - t'.at_ i| ≤ atol + rtol * |t'.at_ i|

/-- C64: `eq_close` of two layers with biases tells whether both parameters are within the tolerances, and it never takes a layer with a bias
for one without. -/
theorem C64_eq_close_decides (rtol atol : ℚ) (w w' b b' : Tensor ℚ) :
    (∃ c, eqClose rtol atol w w' (some b) (some b') = .ok c ∧ (c = true ↔ WithinTol rtol atol w w' ∧ WithinTol rtol atol b b')) ∧
    eqClose rtol atol w w' none (some b) = .ok false ∧ eqClose rtol atol w w' (some b) none = .ok false := by
  have close : ∀ t t' : Tensor ℚ, allclose rtol atol t t' = true ↔ WithinTol rtol atol t t' := by
    intro t t'
    unfold allclose WithinTol
    rw [List.all_eq_true]
    simp only [decide_eq_true_iff, mem_indices]
  refine ⟨?_, rfl, rfl⟩
  unfold eqClose
  rw [← close, ← close]
  cases h1 : allclose rtol atol w w' <;> cases h2 : allclose rtol atol b b' <;> simp [h2]

/-- two layers whose weights differ by more than the absolute and less than the relative tolerance -/
example : WithinTol (1 / 10) (1 / 100) ⟨[1], fun _ => 100⟩ ⟨[1], fun _ => 101⟩ ∧ ¬ WithinTol 0 (1 / 100) ⟨[1], fun _ => 100⟩ ⟨[1], fun _ => 101⟩ := by
  constructor
  · intro i _
    norm_num
  · intro h
    have := h [0] (by simp [ValidIdx])
    norm_num at this

/-- C64 (negation): comparing two layers without bias raises, although the code compares whether both have one. -/
theorem C64_eq_close_without_bias (rtol atol : ℚ) (w w' : Tensor ℚ) (h : allclose rtol atol w w' = true) :
    eqClose rtol atol w w' none none = .error .typeError := by
  unfold eqClose
  simp [h]

/-- C64 (negation): a network with a `Flatten` layer can be shared and not reconstructed. -/
theorem C64_flatten_not_reconstructed (env : Env) (s : Session) (dw db : Draw) :
    shareLayer env s dw db ⟨none, .flatten⟩ = .ok (.kept ⟨none, .flatten⟩) ∧
    ∀ (ls : List (String × MpcLayer)) name m, (name, .kept m) ∈ ls → ∃ e, reconstruct ls = .error e := by
  refine ⟨rfl, fun ls name m h => ?_⟩
  exact mapM_error _ ls _ h .attributeError rfl

/-- C64 (negation): a network with a layer that is not in the tables cannot be shared; a `Flatten` layer at a party is not in them. -/
theorem C64_unknown_layer_refused (env : Env) (s : Session) (dw db : Draw) (m : TorchModule)
    (h1 : m.className ∉ ["Linear", "Conv2d", "LinearPointer", "Conv2dPointer", "Flatten"]) :
    shareLayer env s dw db m = .error .keyError ∧ (⟨some 11, .flatten⟩ : TorchModule).className
      ∉ ["Linear", "Conv2d", "LinearPointer", "Conv2dPointer", "Flatten"] := by
  refine ⟨?_, by decide⟩
  simp only [List.mem_cons, List.not_mem_nil, or_false, not_or] at h1
  unfold shareLayer
  rw [if_neg (by simp [skipLayers, h1])]
  have : mapTorchToSympc.lookup m.className = none := by
    simp only [mapTorchToSympc, baseMap, List.map_cons, List.map_nil, List.cons_append, List.nil_append]
    simp only [List.lookup_cons, show ("Linear" ++ "Pointer" : String) = "LinearPointer" from rfl,
      show ("Conv2d" ++ "Pointer" : String) = "Conv2dPointer" from rfl, beq_eq_false_iff_ne.mpr h1.1, beq_eq_false_iff_ne.mpr h1.2.1,
      beq_eq_false_iff_ne.mpr h1.2.2.1, beq_eq_false_iff_ne.mpr h1.2.2.2.1, List.lookup_nil]
  rw [this]

/-- C64, C65 (negation): a convolution without bias is shared; evaluating and reconstructing it raise `AttributeError`. -/
theorem C64_conv_without_bias (env : Env) (s : Session) (hs : s.Ready env) (dw db : Draw) (h : Option Nat) (hdw : Drawn s h dw)
    (hdb : Drawn s h db) (a : ConvAttrs) (w : Tensor ℚ) (o i kh kw : Nat) (hw : w.shape = [o, i, kh, kw]) :
    ∃ l, shareLayer env s dw db ⟨h, .conv2d a w none⟩ = .ok (.conv2d l) ∧ reconstructLayer (.conv2d l) = .error .attributeError ∧
      ∀ rnd divide x world, l.forward env rnd divide x world = .error .attributeError := by
  obtain ⟨x, b', e, x2, x3, x4, hb, -⟩ := shareConv_ok env s hs dw db h hdw hdb a w none o i kh kw hw
  obtain rfl := hb rfl
  refine ⟨_, e, ?_, fun _ _ _ _ => rfl⟩
  unfold reconstructLayer Conv2d.reconstruct Param.decoded
  dsimp only
  rw [x4]
  rfl

/-- C64 (negation): a convolution with groups is shared and not reconstructed: `in_channels` is taken from the shape of the weight, where
torch has divided it by the number of groups. -/
theorem C64_groups_not_reconstructed (env : Env) (s : Session) (hs : s.Ready env) (dw db : Draw) (hdw : Drawn s none dw)
    (hdb : Drawn s none db) (a : ConvAttrs) (hg : 2 ≤ a.groups) (w v : Tensor ℚ) (o i kh kw : Nat) (hi : 0 < i) (hw : w.shape = [o, i, kh, kw]) :
    ∃ l, shareLayer env s dw db ⟨none, .conv2d a w (some v)⟩ = .ok (.conv2d l) ∧ ∃ e, reconstructLayer (.conv2d l) = .error e := by
  obtain ⟨x, b', e, x2, x3, x4, -, hy⟩ := shareConv_ok env s hs dw db none hdw hdb a w (some v) o i kh kw hw
  obtain ⟨y, rfl, y2, y3, y4⟩ := hy v rfl
  refine ⟨_, e, ?_⟩
  unfold reconstructLayer Conv2d.reconstruct Param.decoded
  dsimp only
  rw [x4, ok_bind, pure_eq_ok, ok_bind, y4, ok_bind, pure_eq_ok, ok_bind, if_pos rfl]
  split
  · exact ⟨_, rfl⟩
  · unfold loadStateDict
    have hlt : i / a.groups < i := Nat.div_lt_self hi hg
    refine ⟨.runtimeError, ?_⟩
    rw [if_neg (by
      rintro ⟨h1, -⟩
      dsimp only [sizesOf] at h1
      rw [hw] at h1
      simp only [List.cons.injEq] at h1
      omega)]
    rfl

/-! ## C65 -/

theorem bind_ok {α β : Type} {x : Py α} {f : α → Py β} {r : β} (h : (x >>= f) = .ok r) : ∃ v, x = .ok v ∧ f v = .ok r := by
  cases x with
  | error e => cases h
  | ok v => exact ⟨v, rfl, h⟩

/-- what the attributes of a layer mean for torch -/
def argsOf (a : ConvAttrs) : Conv.Args := ⟨a.stride, a.padding, a.dilation, a.groups⟩

/-- C65: a `Conv2d` layer of the orchestrator that is shared between two parties convolves with its own stride, padding, dilation and groups,
with the encoded weights, and adds the encoded bias: each element is off by less than two quanta, as for `conv2d` itself (`C63`, whose
gaps it has).  Missing: layers at a party, layers without bias, see below. -/
theorem C65_conv_layer_partial (env : Env) (s : Session) (hs : s.Live env) (hn : s.nrParties = 2) (hadd : s.protocol.shareClass = .additive)
    (hsc : scaleOf s < 2 ^ 63) (hb : 0 < s.config.encoderBase) (rnd : Conv.ConvRand)
    (divide : MPCTensor (List Nat → I64) → Py (MPCTensor (List Nat → I64))) (dw db : Draw) (a : ConvAttrs) (wt bt : Tensor ℚ)
    (o i kh kw : Nat) (hwt : wt.shape = [o, i, kh, kw]) (x : Secret) (hx : x.tensor.WF env) (hxs : x.tensor.session = s) (sh sh' : List Nat)
    (hsh : Conv.ConvOp.conv2d.shape (argsOf a) x.shape wt.shape = .ok sh)
    (hsh' : Conv.ConvOp.conv2d.shape .default x.shape wt.shape = .ok sh') (w : Conv.ConvWorld) (q : Conv.ConvKey → List Nat)
    (kwOf : Nat → Conv.Args) (ts : (k : Conv.ConvKey) → Nat → Nat → Triple (List Nat → I64) (List Nat → I64) (List Nat → I64))
    (hg : w.Good Conv.convOp s q kwOf ts) (hkw : ∀ j ∈ q (.conv2d, x.shape, wt.shape), kwOf j = argsOf a) (xv : List Nat → I64)
    (hxv : x.tensor.reconstruct = .ok xv) :
    ∃ (l : Conv2d) (out : MPCTensor (List Nat → I64)) (w' : Conv.ConvWorld) (z0 z1 v : List Nat → I64),
      shareLayer env s dw db ⟨none, .conv2d a wt (some bt)⟩ = .ok (.conv2d l) ∧
      l.forward env rnd divide x w = .ok (⟨out, sh⟩, w') ∧ out.WF env ∧ out.session = s ∧ out.reconstruct = .ok v ∧
      ∀ n m i j, Conv.Inside sh n m i j →
        let exact := Conv.exact .conv2d (argsOf a) x.shape wt.shape xv (encoded s wt) n m i j
        z0 [n, m, i, j] + z1 [n, m, i, j] = BitVec.ofInt 64 exact ∧
        (|exact| < 2 ^ 62 → |(encoded s bt [m]).toInt| < 2 ^ 61 →
          -2 ^ 63 ≤ (z0 [n, m, i, j]).toInt + (z1 [n, m, i, j]).toInt → (z0 [n, m, i, j]).toInt + (z1 [n, m, i, j]).toInt < 2 ^ 63 →
          |(v [n, m, i, j]).toInt * (scaleOf s : Int) - (exact + (encoded s bt [m]).toInt * (scaleOf s : Int))| < 2 * (scaleOf s : Int)) := by
  have hdraw : ∀ d, Drawn s none d := fun d h hh => by cases hh
  obtain ⟨y, b', e, y2, y3, y4, -, hbias⟩ := shareConv_ok env s hs.toReady dw db none (hdraw _) (hdraw _) a wt (some bt) o i kh kw hwt
  obtain ⟨z, rfl, b2, b3, b4⟩ := hbias bt rfl
  have hc : ∀ c ∈ sh[1]?, Conv.BiasIs env s c (.secret ⟨z, [o]⟩) fun m => encoded s bt [m] := by
    obtain ⟨_, _, _, _, o', _, _, _, _, _, -, r2, rfl, -⟩ := Conv.shape_ok hsh
    rw [hwt] at r2
    cases r2
    intro c hc
    cases hc
    exact .secret _ _ b3 b2 rfl b4
  obtain ⟨out, w', q', kwOf', ts', z0, z1, v, h1, -, -, h4, h5, h6, h7⟩ := Conv.C63_two_parties_partial env s hs hn hadd hsc hb rnd divide
    .conv2d (argsOf a) x ⟨y, wt.shape⟩ hx y3 hxs y2 sh sh' hsh hsh' (.secret ⟨z, [o]⟩) _ hc w q kwOf ts hg hkw xv _ hxv y4
  exact ⟨_, out, w', z0, z1, v, e, h1, h4, h5, h6, h7⟩

/-- C65 (negation): the attributes of a `Conv2d` layer at a party are lost in silence: the shared layer has stride 1, padding 0, dilation
1 and one group, whatever those of the layer are, because the table of attributes has no entry for `Conv2dPointer`. -/
theorem C65_remote_attributes_lost (env : Env) (s : Session) (hs : s.Ready env) (dw db : Draw) (h : Nat) (hdw : Drawn s (some h) dw)
    (hdb : Drawn s (some h) db) (a : ConvAttrs) (w : Tensor ℚ) (b : Option (Tensor ℚ)) (o i kh kw : Nat) (hw : w.shape = [o, i, kh, kw]) :
    ∃ l, shareLayer env s dw db ⟨some h, .conv2d a w b⟩ = .ok (.conv2d l) ∧ l.sizes.args = .default ∧
      ∀ r, reconstructLayer (.conv2d l) = .ok r → ∃ w' b', r.layer = .conv2d ⟨(1, 1), (0, 0), (1, 1), 1, i, o⟩ w' b' := by
  obtain ⟨x, b', e, x2, x3, x4, -⟩ := shareConv_ok env s hs dw db (some h) hdw hdb a w b o i kh kw hw
  refine ⟨_, e, rfl, fun r hr => ?_⟩
  unfold reconstructLayer Conv2d.reconstruct Param.decoded at hr
  dsimp only at hr
  rw [x4, ok_bind, pure_eq_ok, ok_bind] at hr
  cases b' with
  | none => cases hr
  | some p =>
    dsimp only at hr
    cases hp : p.secret.tensor.reconstruct with
    | error e => rw [hp] at hr; cases hr
    | ok v =>
      rw [hp, ok_bind, pure_eq_ok, ok_bind, if_neg (show ¬ (some h : Option Nat) = none by simp),
        if_neg (show ¬ (i % initSizes.groups ≠ 0 ∨ o % initSizes.groups ≠ 0) by simp [initSizes, Nat.mod_one])] at hr
      obtain ⟨l, h1, h2⟩ := bind_ok hr
      obtain ⟨-, -, h3⟩ := bind_ok h1
      obtain rfl := Except.ok.inj h2
      obtain rfl := Except.ok.inj h3
      exact ⟨_, _, rfl⟩

/-- C64: parameters with the wrong number of dimensions are refused with `ValueError` (the unpacking of the shape), whatever else is given;
for `Conv2d` when the attributes are accepted. -/
theorem C64_wrong_dims_refused (env : Env) (s : Session) (dw db : Draw) (h : Option Nat) (w : Tensor ℚ) (b : Option (Tensor ℚ))
    (attrs : List (String × Grad.Size)) (c : ConvSizes) (hc : setAdditionalAttributes initSizes (some attrs) = .ok c) :
    (w.shape.length ≠ 2 → Linear.shareStateDict env s dw db h w b = .error .valueError) ∧
    (w.shape.length ≠ 4 → Conv2d.shareStateDict env s dw db h w b (some attrs) = .error .valueError) := by
  constructor
  · intro hl
    unfold Linear.shareStateDict
    split
    · rename_i e
      exact absurd (by rw [e]; rfl) hl
    · rfl
  · intro hl
    unfold Conv2d.shareStateDict
    rw [hc]
    dsimp only [bind, Except.bind]
    split
    · rename_i e
      exact absurd (by rw [e]; rfl) hl
    · rfl

/-- weights with three dimensions fit neither layer -/
example : (∃ c, setAdditionalAttributes initSizes (some [("stride", .pair 2 1)]) = .ok c) ∧
    (⟨[2, 3, 1], fun _ => 1⟩ : Tensor ℚ).shape.length ≠ 2 ∧ (⟨[2, 3, 1], fun _ => 1⟩ : Tensor ℚ).shape.length ≠ 4 :=
  ⟨⟨_, rfl⟩, by decide, by decide⟩

/-- C65 (negation): the parameters of a shared `Conv2d` layer do not require gradients, so that no training changes them; those of a
`Linear` layer do. -/
theorem C65_conv_not_trainable (env : Env) (s : Session) (dw db : Draw) (m : TorchModule) :
    (∀ l, shareLayer env s dw db m = .ok (.conv2d l) → l.weight.requiresGrad = false ∧ ∀ b ∈ l.bias, b.requiresGrad = false) ∧
    (∀ l, shareLayer env s dw db m = .ok (.linear l) → l.weight.requiresGrad = true ∧ ∀ b ∈ l.bias, b.requiresGrad = true) := by
  have conv : ∀ h w b attrs l, Conv2d.shareStateDict env s dw db h w b attrs = .ok l →
      l.weight.requiresGrad = false ∧ ∀ b ∈ l.bias, b.requiresGrad = false := by
    intro h w b attrs l hl
    unfold Conv2d.shareStateDict at hl
    cases e1 : setAdditionalAttributes initSizes attrs with
    | error e => rw [e1] at hl; cases hl
    | ok sizes =>
      rw [e1, ok_bind] at hl
      split at hl
      · next o i kw kh _ =>
        cases e2 : shareParam env s dw h w [o, i, kw, kh] with
        | error e => rw [e2] at hl; cases hl
        | ok x =>
          rw [e2, ok_bind] at hl
          cases b with
          | none =>
            obtain rfl := Except.ok.inj hl
            exact ⟨rfl, by simp⟩
          | some v =>
            dsimp only at hl
            cases e3 : shareParam env s db h v [o] with
            | error e => rw [e3] at hl; cases hl
            | ok y =>
              rw [e3] at hl
              obtain rfl := Except.ok.inj hl
              exact ⟨rfl, by simp⟩
      · cases hl
  have lin : ∀ h w b l, Linear.shareStateDict env s dw db h w b = .ok l →
      l.weight.requiresGrad = true ∧ ∀ b ∈ l.bias, b.requiresGrad = true := by
    intro h w b l hl
    unfold Linear.shareStateDict at hl
    split at hl
    · next o i _ =>
      cases e2 : shareParam env s dw h w [o, i] with
      | error e => rw [e2] at hl; cases hl
      | ok x =>
        rw [e2, ok_bind] at hl
        cases b with
        | none =>
          obtain rfl := Except.ok.inj hl
          exact ⟨rfl, by simp⟩
        | some v =>
          dsimp only at hl
          cases e3 : shareParam env s db h v [o] with
          | error e => rw [e3] at hl; cases hl
          | ok y =>
            rw [e3] at hl
            obtain rfl := Except.ok.inj hl
            exact ⟨rfl, by simp⟩
    · cases hl
  obtain ⟨h, layer⟩ := m
  cases layer with
  | linear w b =>
    rw [shareLayer_linear]
    cases e : Linear.shareStateDict env s dw db h w b with
    | error e => exact ⟨fun l hl => (by cases hl), fun l hl => (by cases hl)⟩
    | ok l =>
      refine ⟨fun l' hl => (by cases hl), fun l' hl => ?_⟩
      cases hl
      exact lin _ _ _ _ e
  | conv2d a w b =>
    obtain ⟨attrs, -, e'⟩ := shareLayer_conv env s dw db h a w b
    rw [e']
    cases e : Conv2d.shareStateDict env s dw db h w b (some attrs) with
    | error e => exact ⟨fun l hl => (by cases hl), fun l hl => (by cases hl)⟩
    | ok l =>
      refine ⟨fun l' hl => ?_, fun l' hl => (by cases hl)⟩
      cases hl
      exact conv _ _ _ _ _ e
  | flatten =>
    have : ∀ r, shareLayer env s dw db ⟨h, .flatten⟩ = .ok r → ∃ m, r = .kept m := by
      intro r hr
      unfold shareLayer at hr
      split at hr
      · exact ⟨_, (Except.ok.inj hr).symm⟩
      · split at hr
        · cases hr
        · obtain ⟨_, -, h2⟩ := bind_ok hr
          cases h2
    exact ⟨fun l hl => (by obtain ⟨_, e⟩ := this _ hl; cases e), fun l hl => (by obtain ⟨_, e⟩ := this _ hl; cases e)⟩
  | other name =>
    have : ∀ r, shareLayer env s dw db ⟨h, .other name⟩ = .ok r → ∃ m, r = .kept m := by
      intro r hr
      unfold shareLayer at hr
      split at hr
      · exact ⟨_, (Except.ok.inj hr).symm⟩
      · split at hr
        · cases hr
        · obtain ⟨_, -, h2⟩ := bind_ok hr
          cases h2
    exact ⟨fun l hl => (by obtain ⟨_, e⟩ := this _ hl; cases e), fun l hl => (by obtain ⟨_, e⟩ := this _ hl; cases e)⟩

/-- C65: an attribute that a `Conv2d` does not have is refused, and so is sharing without a table of attributes.
(`share` never does either.) -/
theorem C65_attributes_checked (env : Env) (s : Session) (dw db : Draw) (h : Option Nat) (w : Tensor ℚ) (b : Option (Tensor ℚ)) (name : String)
    (v : Grad.Size) (rest : List (String × Grad.Size))
    (hname : name ∉ ["stride", "padding", "dilation", "groups", "in_channels", "out_channels"]) :
    Conv2d.shareStateDict env s dw db h w b (some ((name, v) :: rest)) = .error .valueError ∧
    Conv2d.shareStateDict env s dw db h w b none = .error .attributeError := by
  refine ⟨?_, rfl⟩
  simp only [List.mem_cons, List.not_mem_nil, or_false, not_or] at hname
  have : setAttribute initSizes (name, v) = .error .valueError := by
    unfold setAttribute
    split <;> simp_all
  unfold Conv2d.shareStateDict setAdditionalAttributes
  dsimp only
  rw [List.foldlM_cons, this]
  rfl

/-! ## An example -/

/-- a network: a linear layer of the orchestrator, one at party 11 without bias, and a convolution with stride 2 and padding 1 -/
def exNetwork : List (String × TorchModule) :=
  [("fc1", ⟨none, .linear ⟨[2, 3], fun l => (l.sum : ℚ) / 2⟩ (some ⟨[2], fun l => 1 / 3 - l.sum⟩)⟩),
   ("fc2", ⟨some 11, .linear ⟨[1, 2], fun l => -(l.sum : ℚ) / 8⟩ none⟩),
   ("conv", ⟨none, .conv2d ⟨(2, 2), (1, 1), (1, 1), 1, 1, 2⟩ ⟨[2, 1, 2, 2], fun l => 1 / 2 + l.getD 0 0⟩ (some ⟨[2], fun l => 10 * (1 + l.sum)⟩)⟩)]

/-- the shares of 0 held by the two parties -/
def exDraw : Draw := ⟨fun r l => BitVec.ofNat 64 (77 * r + 5 * l.sum + 3), [fun l => BitVec.ofNat 64 (l.sum + 9), fun l => -BitVec.ofNat 64 (l.sum + 9)]⟩

theorem exDraw_drawn (h : Option Nat) (hh : ∀ p ∈ h, p ∈ exPair.parties) : Drawn exPair h exDraw := by
  refine fun p hp => ⟨hh p hp, rfl, ?_⟩
  funext l
  change BitVec.ofNat 64 (l.sum + 9) + (-BitVec.ofNat 64 (l.sum + 9) + 0) = 0
  rw [add_zero, add_neg_cancel]

theorem fits_of (t : Tensor ℚ) (h : ∀ i ∈ indices t.shape, |t.at_ i * 65536| < 2 ^ 63) : Fits (scaleOf exPair) t := by
  intro i hi
  have : i ∈ indices t.shape := by
    rw [← List.mem_toFinset]
    exact (mem_positions _ _).mpr hi
  have h2 := h i this
  rw [show ((scaleOf exPair : Nat) : ℚ) = 65536 by norm_num [show scaleOf exPair = 65536 by decide]]
  exact h2

/-- C64: all hypotheses hold for this network, and for two parties. -/
example : exPair.Ready exPairEnv ∧ 1 ≤ exPair.config.encoderBase ∧ scaleOf exPair < 2 ^ 63 ∧
    ∀ (i : Nat) name m, exNetwork[i]? = some (name, m) → Survives exPair m ∧ Drawn exPair m.holder exDraw := by
  refine ⟨exPairReady, by decide, by decide, fun i name m hi => ?_⟩
  match i, hi with
  | 0, hi =>
    obtain ⟨rfl, rfl⟩ := Prod.mk.inj (Option.some.inj hi)
    refine ⟨⟨⟨2, 3, rfl, fun b hb => ?_⟩, fits_of _ (by decide +kernel)⟩, exDraw_drawn _ (by simp)⟩
    cases hb
    exact ⟨rfl, fits_of _ (by decide +kernel)⟩
  | 1, hi =>
    obtain ⟨rfl, rfl⟩ := Prod.mk.inj (Option.some.inj hi)
    exact ⟨⟨⟨1, 2, rfl, fun b hb => by cases hb⟩, fits_of _ (by decide +kernel)⟩, exDraw_drawn _ (by intro p hp; cases hp; decide)⟩
  | 2, hi =>
    obtain ⟨rfl, rfl⟩ := Prod.mk.inj (Option.some.inj hi)
    exact ⟨⟨rfl, rfl, ⟨2, 2, rfl⟩, fits_of _ (by decide +kernel), _, rfl, rfl, fits_of _ (by decide +kernel)⟩, exDraw_drawn _ (by simp)⟩
  | n + 3, hi => simp [exNetwork] at hi

/-- the class of a layer, the shape of its weight, an element of the weight and one of the bias -/
def summary (m : TorchModule) : String × List Nat × ℚ × Option ℚ :=
  match m.layer with
  | .linear w b => (m.className, w.shape, w.at_ [0, 1], b.map fun b => b.at_ [0])
  | .conv2d a w b => (m.className, w.shape, w.at_ [1, 0, 1, 1], b.map fun b => b.at_ [a.stride.1 - 1])
  | _ => (m.className, [], 0, none)

/-- The round trip: 1/2 comes back as it was, 1/3 as 21845/65536. -/
example :
    (match share exPairEnv exPair (fun _ => (exDraw, exDraw)) exNetwork with
      | .ok ls =>
        match reconstruct ls with
        | .ok out => out.map fun l => (l.1, summary l.2)
        | .error _ => []
      | .error _ => [])
    = [("fc1", "Linear", [2, 3], 1 / 2, some (21845 / 65536)), ("fc2", "Linear", [1, 2], -1 / 8, none),
        ("conv", "Conv2d", [2, 1, 2, 2], 3 / 2, some 20)] := by
  decide +kernel

/-- C65: the convolution of the image of `exImage` with the shared layer: 0.5 * 1 + 10 and 1.5 * (5 + 6 + 8 + 9) + 20, as in `C63`. -/
example :
    (match shareLayer exPairEnv exPair exDraw exDraw (exNetwork[2]).2 with
      | .ok (.conv2d l) =>
        match l.forward exPairEnv Conv.exRand (fun z => .ok z) Conv.exImage Conv.exWorld with
        | .ok (r, _) => (r.tensor.reconstruct.map fun v =>
            [(v [0, 0, 0, 0]).toInt - 688128, (v [0, 1, 1, 1]).toInt - 4063232].map fun e => decide (-1 ≤ e ∧ e ≤ 1), r.shape)
        | .error e => (.error e, [])
      | _ => (.error .keyError, [])) = (.ok [true, true], [1, 2, 2, 2]) := by
  decide +kernel

/-- C65: the hypotheses of the theorem hold for it. -/
example : exPair.Live exPairEnv ∧ exPair.nrParties = 2 ∧ exPair.protocol.shareClass = .additive ∧ scaleOf exPair < 2 ^ 63 ∧
    Conv.exImage.tensor.WF exPairEnv ∧ Conv.exImage.tensor.session = exPair ∧
    (∃ q kwOf ts, Conv.exWorld.Good Conv.convOp exPair q kwOf ts ∧ ∀ k, q k = []) ∧
    Conv.ConvOp.conv2d.shape (argsOf ⟨(2, 2), (1, 1), (1, 1), 1, 1, 2⟩) Conv.exImage.shape [2, 1, 2, 2] = .ok [1, 2, 2, 2] ∧
    Conv.ConvOp.conv2d.shape .default Conv.exImage.shape [2, 1, 2, 2] = .ok [1, 2, 2, 2] :=
  ⟨exPairLive, rfl, rfl, by decide, exPairSecret_wf _ _, rfl, ⟨fun _ => [], fun _ => .default,
    fun _ _ _ => ⟨0, ⟨fun _ => 0, none, {}, 0⟩, ⟨fun _ => 0, none, {}, 0⟩, ⟨fun _ => 0, none, {}, 0⟩⟩, good_empty _ _ _ _, fun _ => rfl⟩,
    by decide, by decide⟩

/-- C64, C65 (negations): layers as in the theorems: a `ReLU`, a `Flatten` at a party, a convolution with two groups. -/
example : (⟨none, .other "ReLU"⟩ : TorchModule).className ∉ ["Linear", "Conv2d", "LinearPointer", "Conv2dPointer", "Flatten"] ∧
    Drawn exPair (some 11) exDraw ∧ 2 ≤ (⟨(1, 1), (0, 0), (1, 1), 2, 4, 2⟩ : ConvAttrs).groups ∧
    "padding_mode" ∉ ["stride", "padding", "dilation", "groups", "in_channels", "out_channels"] :=
  ⟨by decide, exDraw_drawn _ (by intro p hp; cases hp; decide), by decide, by decide⟩

end SyMPC.Module
