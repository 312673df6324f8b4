import Verif.Model.Network

/-!
# What a network computes, and how far its shared copy may be off
-/

namespace SyMPC.Network

/-- the bias of an output -/
def TorchLinear.biasAt {i o : Nat} (l : TorchLinear i o) (c : Fin o) : ℚ := match l.bias with | none => 0 | some b => b c

/-- a linear layer of torch: `x W^T + b` -/
def TorchLinear.eval {i o : Nat} (l : TorchLinear i o) (v : Fin i → ℚ) : Fin o → ℚ := fun c =>
  ∑ k, v k * l.weight (c, k) + l.biasAt c

/-- the outputs of the network of torch -/
def Net.eval {i o : Nat} : Net TorchLinear i o → (Fin i → ℚ) → Fin o → ℚ
  | .done, v => v
  | .linear l rest, v => rest.eval (l.eval v)
  | .relu rest, v => rest.eval fun k => max (v k) 0

/-- The error after a linear layer with the scale `S`, if input number `k` is off by at most `e k`: weights are off by at most a quantum,
so is the bias if there is one, and the truncation adds two quanta. -/
def TorchLinear.error (S : ℚ) {i o : Nat} (l : TorchLinear i o) (v e : Fin i → ℚ) : Fin o → ℚ := fun c =>
  ∑ k, (e k * (|l.weight (c, k)| + 1 / S) + |v k| * (1 / S)) + (if l.bias.isSome then 1 / S else 0) + 2 / S

/-- the error of the outputs -/
def Net.error (S : ℚ) {i o : Nat} : Net TorchLinear i o → (Fin i → ℚ) → (Fin i → ℚ) → Fin o → ℚ
  | .done, _, e => e
  | .linear l rest, v, e => rest.error S (l.eval v) (l.error S v e)
  | .relu rest, v, e => rest.error S (fun k => max (v k) 0) fun k => e k + 2 / S

/-- the numbers of a linear layer fit 64 bits -/
def TorchLinear.Fits (S : ℚ) {i o : Nat} (l : TorchLinear i o) (v e : Fin i → ℚ) : Prop :=
  (∀ p, |l.weight p| * S < 2 ^ 62) ∧ (∀ b ∈ l.bias, ∀ c, |b c| * S < 2 ^ 61) ∧
  ∀ c, (∑ k, (|v k| + e k) * (|l.weight (c, k)| + 1 / S)) * S ^ 2 < 2 ^ 62

/-- all numbers of the network fit; those that are compared fit 31 bits -/
def Net.Fits (S : ℚ) {i o : Nat} : Net TorchLinear i o → (Fin i → ℚ) → (Fin i → ℚ) → Prop
  | .done, _, _ => True
  | .linear l rest, v, e => l.Fits S v e ∧ rest.Fits S (l.eval v) (l.error S v e)
  | .relu rest, v, e => (∀ k, (|v k| + e k) * S < 2 ^ 30) ∧ rest.Fits S (fun k => max (v k) 0) fun k => e k + 2 / S

end SyMPC.Network
