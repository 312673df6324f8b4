import Verif.Model.Conv
import Verif.Model.Grad
import Verif.Model.Przs
import Verif.Model.Session

/-!
# Modules: sharing the layers of a network and getting them back

`src/sympc/module/__init__.py`, `src/sympc/module/nn/conv.py`, `src/sympc/module/nn/linear.py`
-/

namespace SyMPC.Module

open Tensor
open Grad (ConvSizes)
open Conv (Secret)

/-! ## Layers of torch -/

/-- the attributes of a `torch.nn.Conv2d`; torch stores sizes as pairs -/
structure ConvAttrs where
  stride : Nat × Nat
  padding : Nat × Nat
  dilation : Nat × Nat
  groups : Nat
  inChannels : Nat
  outChannels : Nat
  deriving DecidableEq, Repr

/-- a layer of torch with its parameters (floating point numbers, here exact rationals) -/
inductive TorchLayer where
  | linear (weight : Tensor ℚ) (bias : Option (Tensor ℚ))
  | conv2d (a : ConvAttrs) (weight : Tensor ℚ) (bias : Option (Tensor ℚ))
  | flatten
  | other (name : String)

/-- a layer at the orchestrator (`none`) or at the client of a party -/
structure TorchModule where
  holder : Option Nat
  layer : TorchLayer

/-- the name of its class in torch -/
def TorchLayer.name : TorchLayer → String
  | .linear .. => "Linear"
  | .conv2d .. => "Conv2d"
  | .flatten => "Flatten"
  | .other name => name

/-- `type(module).__name__`: PySyft's classes for remote objects end in `Pointer` -/
def TorchModule.className (m : TorchModule) : String := if m.holder.isSome then m.layer.name ++ "Pointer" else m.layer.name

/-- `getattr(layer, arg)` of a local layer, for numbers and pairs -/
def TorchLayer.getattr : TorchLayer → String → Py Grad.Size
  | .conv2d a _ _, "padding" => .ok (.pair a.padding.1 a.padding.2)
  | .conv2d a _ _, "dilation" => .ok (.pair a.dilation.1 a.dilation.2)
  | .conv2d a _ _, "groups" => .ok (.one a.groups)
  | .conv2d a _ _, "stride" => .ok (.pair a.stride.1 a.stride.2)
  | .conv2d a _ _, "in_channels" => .ok (.one a.inChannels)
  | .conv2d a _ _, "out_channels" => .ok (.one a.outChannels)
  | _, _ => .error .attributeError

/-! ## Tables of `module/__init__.py` -/

/-- the classes of layers on shares -/
inductive SympcClass where
  | linear
  | conv2d
  deriving DecidableEq, Repr

/-- the first table, `module/__init__.py:23-26` -/
def baseMap : List (String × SympcClass) := [("Linear", .linear), ("Conv2d", .conv2d)]

/-- `MAP_TORCH_TO_SYMPC`, `module/__init__.py:23-28` -/
def mapTorchToSympc : List (String × SympcClass) := baseMap ++ baseMap.map fun (k, v) => (k ++ "Pointer", v)

/-- `ADDITIONAL_ATTRIBUTES`, `module/__init__.py:30-32` -/
def additionalAttributes : List (String × List String) :=
  [("Conv2d", ["padding", "dilation", "groups", "stride", "in_channels", "out_channels"])]

/-- `SKIP_LAYERS_NAME`, `module/__init__.py:34` -/
def skipLayers : List String := ["Flatten"]

/-- `copy_additional_attributes`, `module/__init__.py:37-54` -/
def copyAdditionalAttributes (layer : TorchLayer) (layerName : String) : Py (List (String × Grad.Size)) :=
  match additionalAttributes.lookup layerName with
  | none => .ok []
  | some args => args.mapM fun arg => do
    let v ← layer.getattr arg
    return (arg, v)

/-! ## Layers on shares -/

/-- the randomness for one parameter: the shares of a local secret, or the zero shares for a remote one -/
structure Draw where
  shares : Nat → List Nat → I64
  zeros : List (List Nat → I64)

/-- `MPCTensor(secret=..., session=..., shape=...)` of a parameter, `mpc_tensor.py:132-209` -/
def shareParam (env : Env) (s : Session) (draw : Draw) (holder : Option Nat) (t : Tensor ℚ) (shape : List Nat) : Py Secret := do
  let secret : List Nat → FixedPointEncoder.Val := fun i => .float (t.at_ i)
  let x ← match holder with
    | none => MPCTensor.ofSecret env s secret draw.shares
    | some h => ofRemote env s h secret true draw.zeros
  return ⟨x, shape⟩

/-- A parameter with the flag `requires_grad`. -/
structure Param where
  secret : Secret
  requiresGrad : Bool

/-- `Linear` after `share_state_dict`, `linear.py:19-45`; an attribute `bias` that is `None` is `none` -/
structure Linear where
  outFeatures : Nat
  inFeatures : Nat
  weight : Param
  bias : Option Param

/-- `Linear.share_state_dict`, `linear.py:77-113` -/
def Linear.shareStateDict (env : Env) (s : Session) (drawW drawB : Draw) (holder : Option Nat) (weight : Tensor ℚ)
    (bias : Option (Tensor ℚ)) : Py Linear :=
  match weight.shape with
  | [o, i] => do
    let w ← shareParam env s drawW holder weight [o, i]
    match bias with
    | none => return ⟨o, i, ⟨w, true⟩, none⟩
    | some b => do
      let b ← shareParam env s drawB holder b [o]
      return ⟨o, i, ⟨w, true⟩, some ⟨b, true⟩⟩
  | _ => .error .valueError

/-- `Conv2d` after `share_state_dict`, `conv.py:21-62`; `bias` is `none` if the attribute does not exist, which is so for layers without
a bias: `__init__` does not create it -/
structure Conv2d where
  sizes : ConvSizes
  outChannels : Nat
  inChannels : Nat
  kernelSize : Nat × Nat
  weight : Param
  bias : Option Param

/-- the sizes set by `Conv2d.__init__`, `conv.py:58-61` -/
def initSizes : ConvSizes := ⟨.one 1, .one 0, .one 1, 1⟩

/-- One step of the loop of `set_additional_attributes`, `conv.py:95-99`.  The channels are set again in lines 137-142.  Simplification: of
the attributes that exist, only those that `copy_additional_attributes` passes can be set, with values of their types. -/
def setAttribute (c : ConvSizes) : String × Grad.Size → Py ConvSizes
  | ("stride", v) => .ok { c with stride := v }
  | ("padding", v) => .ok { c with padding := v }
  | ("dilation", v) => .ok { c with dilation := v }
  | ("groups", .one g) => .ok { c with groups := g }
  | ("in_channels", .one _) => .ok c
  | ("out_channels", .one _) => .ok c
  | _ => .error .valueError

/-- `set_additional_attributes`, `conv.py:86-99`; `none` is the default argument `None`, which has no `keys` -/
def setAdditionalAttributes (c : ConvSizes) : Option (List (String × Grad.Size)) → Py ConvSizes
  | none => .error .attributeError
  | some attrs => attrs.foldlM setAttribute c

/-- `Conv2d.share_state_dict`, `conv.py:101-152` -/
def Conv2d.shareStateDict (env : Env) (s : Session) (drawW drawB : Draw) (holder : Option Nat) (weight : Tensor ℚ)
    (bias : Option (Tensor ℚ)) (attrs : Option (List (String × Grad.Size))) : Py Conv2d := do
  let sizes ← setAdditionalAttributes initSizes attrs
  match weight.shape with
  | [o, i, kw, kh] => do
    let w ← shareParam env s drawW holder weight [o, i, kw, kh]
    match bias with
    | none => return ⟨sizes, o, i, (kw, kh), ⟨w, false⟩, none⟩
    | some b => do
      let b ← shareParam env s drawB holder b [o]
      return ⟨sizes, o, i, (kw, kh), ⟨w, false⟩, some ⟨b, false⟩⟩
  | _ => .error .valueError

/-- `Conv2d.forward`, `conv.py:64-84`: `self.bias` raises if the attribute does not exist. -/
def Conv2d.forward (env : Env) (rnd : Conv.ConvRand) (divide : MPCTensor (List Nat → I64) → Py (MPCTensor (List Nat → I64)))
    (layer : Conv2d) (x : Secret) (w : Conv.ConvWorld) : Py (Secret × Conv.ConvWorld) :=
  match layer.bias with
  | none => .error .attributeError
  | some b => Conv.conv env rnd divide .conv2d layer.sizes.args x (.inl layer.weight.secret) (.secret b.secret) w

/-! ## Whole modules -/

/-- a layer of a shared module -/
inductive MpcLayer where
  | linear (l : Linear)
  | conv2d (l : Conv2d)
  | kept (m : TorchModule)

/-- the parameters of a layer that `state_dict()` gives; a class of the table has a weight, another layer of a network nothing of
interest -/
def TorchLayer.stateDict : TorchLayer → Option (Tensor ℚ × Option (Tensor ℚ))
  | .linear w b => some (w, b)
  | .conv2d _ w b => some (w, b)
  | _ => none

/-- the body of the loop of `share`, `module/__init__.py:71-81` -/
def shareLayer (env : Env) (s : Session) (drawW drawB : Draw) (m : TorchModule) : Py MpcLayer :=
  if m.className ∈ skipLayers then .ok (.kept m)
  else
    match mapTorchToSympc.lookup m.className with
    | none => .error .keyError
    | some cls => do
      let attrs ← copyAdditionalAttributes m.layer m.className
      match m.layer.stateDict, cls with
      | none, _ => .error .keyError
      | some (w, b), .linear => do
        let l ← Linear.shareStateDict env s drawW drawB m.holder w b
        return .linear l
      | some (w, b), .conv2d => do
        let l ← Conv2d.shareStateDict env s drawW drawB m.holder w b (some attrs)
        return .conv2d l

/-- `share`, `module/__init__.py:57-83`: names and layers in the order of the module.  `draw i` is the randomness for the weight and the
bias of layer `i`.  PySyft's `Module` is a dictionary of layers here, and `copy.copy` keeps the original as it is. -/
def share (env : Env) (s : Session) (draw : Nat → Draw × Draw) (ms : List (String × TorchModule)) : Py (List (String × MpcLayer)) :=
  ms.zipIdx.mapM fun ((name, m), i) => do
    let l ← shareLayer env s (draw i).1 (draw i).2 m
    return (name, l)

/-- `reconstruct()` of a parameter with decoding, `mpc_tensor.py:359-393`.  The floats are exact rationals. -/
def Param.decoded (p : Param) : Py (Tensor ℚ) := do
  let v ← p.secret.tensor.reconstruct
  let c := p.secret.tensor.session.config
  return ⟨p.secret.shape, fun i => if c.encoderPrecision = 0 then (v i).toInt else c.encoder.decodeCore (v i)⟩

/-- `torch_module.load_state_dict(state_dict)` into a layer whose parameters have the shapes `ws` and `bs` (`none` without bias): torch
raises if keys or shapes differ. -/
def loadStateDict (ws : List Nat) (bs : Option (List Nat)) (weight : Tensor ℚ) (bias : Option (Tensor ℚ)) : Py Unit :=
  if weight.shape = ws ∧ bias.map (·.shape) = bs then .ok () else .error .runtimeError

/-- `reconstruct_state_dict`, `get_torch_module` and `load_state_dict` of a `Linear`, `linear.py:115-147` -/
def Linear.reconstruct (l : Linear) : Py TorchLayer := do
  let w ← l.weight.decoded
  match l.bias with
  | none => do
    loadStateDict [l.outFeatures, l.inFeatures] none w none
    return .linear w none
  | some b => do
    let b ← b.decoded
    loadStateDict [l.outFeatures, l.inFeatures] (some [l.outFeatures]) w (some b)
    return .linear w (some b)

/-- `reconstruct_state_dict`, `get_torch_module` and `load_state_dict` of a `Conv2d`, `conv.py:166-203`: `self.bias` raises if the
attribute does not exist, and torch's constructor refuses channels that are no multiple of `groups`. -/
def Conv2d.reconstruct (l : Conv2d) : Py TorchLayer := do
  let w ← l.weight.decoded
  match l.bias with
  | none => .error .attributeError
  | some b => do
    let b ← b.decoded
    if l.inChannels % l.sizes.groups ≠ 0 ∨ l.outChannels % l.sizes.groups ≠ 0 then .error .valueError
    else do
      loadStateDict [l.outChannels, l.inChannels / l.sizes.groups, l.kernelSize.1, l.kernelSize.2] (some [l.outChannels]) w (some b)
      return .conv2d ⟨l.sizes.stride.both, l.sizes.padding.both, l.sizes.dilation.both, l.sizes.groups, l.inChannels, l.outChannels⟩ w (some b)

/-- the body of the loop of `reconstruct`, `module/__init__.py:99-103`; a layer of torch has no method `reconstruct_state_dict` -/
def reconstructLayer : MpcLayer → Py TorchModule
  | .linear l => do
    let r ← l.reconstruct
    return ⟨none, r⟩
  | .conv2d l => do
    let r ← l.reconstruct
    return ⟨none, r⟩
  | .kept _ => .error .attributeError

/-- `reconstruct`, `module/__init__.py:86-105` -/
def reconstruct (ls : List (String × MpcLayer)) : Py (List (String × TorchModule)) :=
  ls.mapM fun (name, l) => do
    let m ← reconstructLayer l
    return (name, m)

/-! ## Comparing layers -/

/-- `torch.allclose(a, b, rtol, atol)` -/
def allclose (rtol atol : ℚ) (a b : Tensor ℚ) : Bool :=
  (indices a.shape).all fun i => decide (|a.at_ i - b.at_ i| ≤ atol + rtol * |b.at_ i|)

/-- `SMPCModule.eq_close`, `smpc_module.py:8-35`, for parameters of equal shapes: `torch.allclose` of `None` raises. -/
def eqClose (rtol atol : ℚ) (w1 w2 : Tensor ℚ) (b1 b2 : Option (Tensor ℚ)) : Py Bool :=
  if b1.isNone ≠ b2.isNone then .ok false
  else if allclose rtol atol w1 w2 = false then .ok false
  else match b1, b2 with
    | some b1, some b2 => .ok (allclose rtol atol b1 b2)
    | _, _ => .error .typeError

end SyMPC.Module
