import Verif.Model.ShareExpr
import Verif.Props.Share

/-!
# C99: what is computed from shares belongs to their session and ring
-/

namespace SyMPC

namespace ShareExpr

variable {P T : Type}

/-- the shares in an expression -/
def inputs : ShareExpr P T → List (ShareTensor T)
  | .input x => [x]
  | .add a b | .sub a b | .prod _ _ a b => a.inputs ++ b.inputs
  | .addPublic a _ | .subPublic a _ | .rsubPublic a _ | .prodPublic _ _ a _ | .div _ a | .method _ a => a.inputs

/-- does the expression end with a division or a forwarded method? -/
def forgets : ShareExpr P T → Bool
  | .div _ _ | .method _ _ => true
  | _ => false

/-- does a division or a forwarded method occur? -/
def everForgets : ShareExpr P T → Bool
  | .input _ => false
  | .add a b | .sub a b | .prod _ _ a b => a.everForgets || b.everForgets
  | .addPublic a _ | .subPublic a _ | .rsubPublic a _ | .prodPublic _ _ a _ => a.everForgets
  | .div _ _ | .method _ _ => true

/-- what holds of a share: its session, its configuration and its ring -/
def Tagged (u : Option Nat) (c : Config) (q : Nat) (x : ShareTensor T) : Prop := x.sessionUuid = u ∧ x.config = c ∧ x.ringSize = q

end ShareExpr

open ShareExpr

variable {P T : Type}

theorem applyFunction_session {env : Env} {u : Nat} {p : PartySession} (hp : env u = some p) (op : T → T → T) {x y z : ShareTensor T}
    (h : x.sessionUuid = some u ∨ (x.sessionUuid = none ∧ y.sessionUuid = some u)) (hz : ShareTensor.applyFunction env op x y = .ok z) :
    Tagged (some u) p.config p.ringSize z := by
  have : x.sessionUuid.or y.sessionUuid = some u := by
    rcases h with h | ⟨h, h'⟩
    · rw [h]; rfl
    · rw [h, h']; rfl
  unfold ShareTensor.applyFunction at hz
  simp only [this, hp] at hz
  cases hz
  exact ⟨rfl, rfl, rfl⟩

theorem applyFunction_alone {env : Env} (op : T → T → T) {x y z : ShareTensor T} (h : x.sessionUuid = none) (h' : y.sessionUuid = none)
    (hz : ShareTensor.applyFunction env op x y = .ok z) : Tagged none x.config x.ringSize z := by
  unfold ShareTensor.applyFunction at hz
  rw [h, h'] at hz
  cases hz
  exact ⟨rfl, rfl, rfl⟩

theorem ofPublic_tags [PubEnc P T] {v : P} {c : Config} {q : Nat} {y : ShareTensor T} (h : ShareTensor.ofPublic v c q = .ok y) :
    Tagged none c q y := by
  unfold ShareTensor.ofPublic at h
  cases hq : getTypeFromRing q with
  | error e => rw [hq, error_bind] at h; cases h
  | ok t => rw [hq, ok_bind] at h; cases h; exact ⟨rfl, rfl, rfl⟩

/-- the second operand after the checks -/
theorem checked_private [PubEnc P T] {env : Env} {x y y' : ShareTensor T} (h : ShareTensor.sanityChecks (P := P) env x (.inr y) = .ok y') :
    y' = y := by
  simp only [ShareTensor.sanityChecks] at h
  split at h
  · split_ifs at h
    cases h
    rfl
  · cases h
    rfl

theorem checked_public [PubEnc P T] {env : Env} {x y' : ShareTensor T} {v : P}
    (h : ShareTensor.sanityChecks (U := T) env x (.inl v) = .ok y') :
    y'.sessionUuid = none ∧ (x.sessionUuid = none → Tagged none x.config x.ringSize y') := by
  simp only [ShareTensor.sanityChecks] at h
  split at h
  · rename_i u hu
    split at h
    · cases h
    · exact ⟨(ofPublic_tags h).1, fun h0 => by rw [h0] at hu; cases hu⟩
  · exact ⟨(ofPublic_tags h).1, fun _ => ofPublic_tags h⟩

theorem of_bind_share {α β : Type} {x : Py α} {f : α → Py β} {z : β} (h : (x >>= f) = .ok z) : ∃ a, x = .ok a ∧ f a = .ok z := by
  cases x with
  | error e => cases h
  | ok a => exact ⟨a, rfl, h⟩

theorem prod_tags [PubEnc P T] {env : Env} {op : T → T → T} {trunc : T → T} {x : ShareTensor T} {y : P ⊕ ShareTensor T} {z : ShareTensor T}
    (h : ShareTensor.prod env op trunc x y = .ok z) : ∃ y' w, ShareTensor.sanityChecks env x y = .ok y' ∧
      ShareTensor.applyFunction env op x y' = .ok w ∧ ∀ u c q, Tagged u c q w → Tagged u c q z := by
  obtain ⟨y', h1, h⟩ := of_bind_share h
  obtain ⟨w, h2, h⟩ := of_bind_share h
  refine ⟨y', w, h1, h2, fun u c q hw => ?_⟩
  split_ifs at h <;> cases h
  · exact hw
  · exact hw

/-- C99: whatever a party computes from shares of a session belongs to that session and has its configuration; it is in the ring of the
session unless the last step was a division or a forwarded method, after which it is said to be in the ring `2**64`. -/
theorem C99_session [Add T] [Sub T] [PubEnc P T] (env : Env) (u : Nat) (p : PartySession) (hp : env u = some p) (e : ShareExpr P T)
    (hin : ∀ x ∈ e.inputs, Tagged (some u) p.config p.ringSize x) (z : ShareTensor T) (hz : e.eval env = .ok z) :
    Tagged (some u) p.config (if e.forgets then 2 ^ 64 else p.ringSize) z := by
  induction e generalizing z with
  | input x => cases hz; exact hin x (by simp [inputs])
  | add a b iha ihb | sub a b iha ihb =>
    obtain ⟨x, hx, hz⟩ := of_bind_share hz
    obtain ⟨y, hy, hz⟩ := of_bind_share hz
    obtain ⟨y', -, hz⟩ := of_bind_share hz
    exact applyFunction_session hp _ (Or.inl (iha (fun v hv => hin v (by simp [inputs, hv])) x hx).1) hz
  | prod op trunc a b iha ihb =>
    obtain ⟨x, hx, hz⟩ := of_bind_share hz
    obtain ⟨y, hy, hz⟩ := of_bind_share hz
    obtain ⟨y', w, -, h2, hw⟩ := prod_tags hz
    exact hw _ _ _ (applyFunction_session hp _ (Or.inl (iha (fun v hv => hin v (by simp [inputs, hv])) x hx).1) h2)
  | addPublic a v iha | subPublic a v iha =>
    obtain ⟨x, hx, hz⟩ := of_bind_share hz
    obtain ⟨y', -, hz⟩ := of_bind_share hz
    exact applyFunction_session hp _ (Or.inl (iha hin x hx).1) hz
  | rsubPublic a v iha =>
    obtain ⟨x, hx, hz⟩ := of_bind_share hz
    obtain ⟨y', h1, hz⟩ := of_bind_share hz
    exact applyFunction_session hp _ (Or.inr ⟨(checked_public h1).1, (iha hin x hx).1⟩) hz
  | prodPublic op trunc a v iha =>
    obtain ⟨x, hx, hz⟩ := of_bind_share hz
    obtain ⟨y', w, -, h2, hw⟩ := prod_tags hz
    exact hw _ _ _ (applyFunction_session hp _ (Or.inl (iha hin x hx).1) h2)
  | div dv a iha | method f a iha =>
    obtain ⟨x, hx, hz⟩ := of_bind_share hz
    cases hz
    obtain ⟨h1, h2, -⟩ := iha hin x hx
    exact ⟨h1, h2, rfl⟩

/-- C99: in a session in the ring `2**64` nothing is forgotten. -/
theorem C99_default_ring_partial [Add T] [Sub T] [PubEnc P T] (env : Env) (u : Nat) (p : PartySession) (hp : env u = some p)
    (hring : p.ringSize = 2 ^ 64) (e : ShareExpr P T) (hin : ∀ x ∈ e.inputs, Tagged (some u) p.config p.ringSize x) (z : ShareTensor T)
    (hz : e.eval env = .ok z) : Tagged (some u) p.config p.ringSize z := by
  have := C99_session env u p hp e hin z hz
  rwa [hring, ite_self, ← hring] at this

/-- C99: shares without a session stay so, with their configuration, and in their ring if there are no divisions and forwarded methods. -/
theorem C99_alone_partial [Add T] [Sub T] [PubEnc P T] (env : Env) (c : Config) (q : Nat) (e : ShareExpr P T)
    (hin : ∀ x ∈ e.inputs, Tagged none c q x) (z : ShareTensor T) (hz : e.eval env = .ok z) :
    z.sessionUuid = none ∧ z.config = c ∧ (q = 2 ^ 64 ∨ e.everForgets = false → z.ringSize = q) := by
  induction e generalizing z with
  | input x => cases hz; obtain ⟨h1, h2, h3⟩ := hin x (by simp [inputs]); exact ⟨h1, h2, fun _ => h3⟩
  | add a b iha ihb | sub a b iha ihb =>
    obtain ⟨x, hx, hz⟩ := of_bind_share hz
    obtain ⟨y, hy, hz⟩ := of_bind_share hz
    obtain ⟨y', h1, hz⟩ := of_bind_share hz
    cases checked_private h1
    obtain ⟨a1, a2, a3⟩ := iha (fun v hv => hin v (by simp [inputs, hv])) x hx
    obtain ⟨b1, -, -⟩ := ihb (fun v hv => hin v (by simp [inputs, hv])) y hy
    obtain ⟨t1, t2, t3⟩ := applyFunction_alone _ a1 b1 hz
    exact ⟨t1, t2.trans a2, fun h => t3.trans (a3 (h.imp id fun h => by simp [everForgets] at h; exact h.1))⟩
  | prod op trunc a b iha ihb =>
    obtain ⟨x, hx, hz⟩ := of_bind_share hz
    obtain ⟨y, hy, hz⟩ := of_bind_share hz
    obtain ⟨y', w, h1, h2, hw⟩ := prod_tags hz
    cases checked_private h1
    obtain ⟨a1, a2, a3⟩ := iha (fun v hv => hin v (by simp [inputs, hv])) x hx
    obtain ⟨b1, -, -⟩ := ihb (fun v hv => hin v (by simp [inputs, hv])) y hy
    obtain ⟨t1, t2, t3⟩ := hw _ _ _ (applyFunction_alone _ a1 b1 h2)
    exact ⟨t1, t2.trans a2, fun h => t3.trans (a3 (h.imp id fun h => by simp [everForgets] at h; exact h.1))⟩
  | addPublic a v iha | subPublic a v iha =>
    obtain ⟨x, hx, hz⟩ := of_bind_share hz
    obtain ⟨y', h1, hz⟩ := of_bind_share hz
    obtain ⟨a1, a2, a3⟩ := iha hin x hx
    obtain ⟨t1, t2, t3⟩ := applyFunction_alone _ a1 (checked_public h1).1 hz
    exact ⟨t1, t2.trans a2, fun h => t3.trans (a3 h)⟩
  | rsubPublic a v iha =>
    obtain ⟨x, hx, hz⟩ := of_bind_share hz
    obtain ⟨y', h1, hz⟩ := of_bind_share hz
    obtain ⟨a1, a2, a3⟩ := iha hin x hx
    obtain ⟨-, b2, b3⟩ := (checked_public h1).2 a1
    obtain ⟨t1, t2, t3⟩ := applyFunction_alone _ (checked_public h1).1 a1 hz
    exact ⟨t1, (t2.trans b2).trans a2, fun h => (t3.trans b3).trans (a3 h)⟩
  | prodPublic op trunc a v iha =>
    obtain ⟨x, hx, hz⟩ := of_bind_share hz
    obtain ⟨y', w, h1, h2, hw⟩ := prod_tags hz
    obtain ⟨a1, a2, a3⟩ := iha hin x hx
    obtain ⟨t1, t2, t3⟩ := hw _ _ _ (applyFunction_alone _ a1 (checked_public h1).1 h2)
    exact ⟨t1, t2.trans a2, fun h => t3.trans (a3 h)⟩
  | div dv a iha | method f a iha =>
    obtain ⟨x, hx, hz⟩ := of_bind_share hz
    cases hz
    obtain ⟨h1, h2, -⟩ := iha hin x hx
    refine ⟨h1, h2, fun h => ?_⟩
    rcases h with h | h
    · exact h.symm
    · cases h

/-- C99: a share without a session that meets one of a session joins the session. -/
theorem C99_joins [Add T] [PubEnc P T] (env : Env) (u : Nat) (p : PartySession) (hp : env u = some p) (x y : ShareTensor T)
    (hx : x.sessionUuid = none) (hy : y.sessionUuid = some u) :
    (∃ z, ShareTensor.add (P := P) env x (.inr y) = .ok z ∧ z.tensor = x.tensor + y.tensor ∧ Tagged (some u) p.config p.ringSize z) ∧
    (∃ z, ShareTensor.add (P := P) env y (.inr x) = .ok z ∧ z.tensor = y.tensor + x.tensor ∧ Tagged (some u) p.config p.ringSize z) := by
  constructor <;>
    exact ⟨_, by simp [ShareTensor.add, ShareTensor.sanityChecks, ShareTensor.applyFunction, hx, hy, hp, ok_bind]; rfl, rfl, rfl, rfl, rfl⟩

/-- C99 fails in every other ring: shares of the session that are added and then transposed, or divided, are said to be in a ring that is
not that of the session. -/
theorem C99_ring_forgotten [Add T] [Sub T] [PubEnc P T] (env : Env) (u : Nat) (p : PartySession) (hp : env u = some p)
    (hring : p.ringSize ≠ 2 ^ 64) (f : T → T) (x y : ShareTensor T) (hx : Tagged (some u) p.config p.ringSize x)
    (hy : Tagged (some u) p.config p.ringSize y) :
    (∃ z, (ShareExpr.method f (.add (.input x) (.input y)) : ShareExpr P T).eval env = .ok z ∧ z.ringSize ≠ p.ringSize) ∧
    (∃ z, (ShareExpr.div f (.add (.input x) (.input y)) : ShareExpr P T).eval env = .ok z ∧ z.ringSize ≠ p.ringSize) := by
  have h : (ShareExpr.add (.input x) (.input y) : ShareExpr P T).eval env = .ok ⟨x.tensor + y.tensor, some u, p.config, p.ringSize⟩ := by
    simp [ShareExpr.eval, ShareTensor.add, ShareTensor.sanityChecks, ShareTensor.applyFunction, hx.1, hy.1, hp, ok_bind]
  constructor
  · refine ⟨ShareTensor.hookMethod f ⟨x.tensor + y.tensor, some u, p.config, p.ringSize⟩, ?_, fun e => hring e.symm⟩
    rw [ShareExpr.eval, h]
    rfl
  · refine ⟨ShareTensor.div f ⟨x.tensor + y.tensor, some u, p.config, p.ringSize⟩, ?_, fun e => hring e.symm⟩
    rw [ShareExpr.eval, h]
    rfl

/-! ## Cases -/

/-- `(x + y).t() - 1` with shares of a session -/
def exExpr : ShareExpr FixedPointEncoder.Val I64 :=
  .subPublic (.method id (.add (.input ⟨3, some 100, {}, 2 ^ 64⟩) (.input ⟨4, some 100, {}, 2 ^ 64⟩))) (.int 1)

example : (∃ p, exEnv 100 = some p ∧ p.ringSize = 2 ^ 64 ∧ ∀ x ∈ exExpr.inputs, Tagged (some 100) p.config p.ringSize x) ∧
    (∃ z, exExpr.eval exEnv = .ok z ∧ z.tensor = 7 - 65536 ∧ Tagged (some 100) {} (2 ^ 64) z) := by
  refine ⟨⟨_, rfl, rfl, fun x hx => ?_⟩, ⟨_, rfl, by decide +kernel, rfl, rfl, rfl⟩⟩
  simp only [exExpr, inputs, List.cons_append, List.nil_append, List.mem_cons, List.not_mem_nil, or_false] at hx
  rcases hx with rfl | rfl <;> exact ⟨rfl, rfl, rfl⟩

/-- a session in the ring `2**32` -/
def exEnv32 : Env := fun u => (exEnv u).map fun p => { p with ringSize := 2 ^ 32 }

example : ∃ p, exEnv32 100 = some p ∧ p.ringSize ≠ 2 ^ 64 ∧ Tagged (some 100) p.config p.ringSize (⟨3, some 100, {}, 2 ^ 32⟩ : ShareTensor I64) :=
  ⟨_, rfl, by decide, rfl, rfl, rfl⟩

/-- `1 - x * y` without a session, in the ring `2**32` -/
example : ∃ z, (ShareExpr.rsubPublic (.prod (· * ·) (BitVec.sdiv · 65536) (.input ⟨3 * 65536, none, {}, 2 ^ 32⟩)
    (.input ⟨2 * 65536, none, {}, 2 ^ 32⟩)) (.int 1) : ShareExpr FixedPointEncoder.Val I64).eval exEnv = .ok z ∧ z.ringSize = 2 ^ 32 ∧
    z.tensor = -5 * 65536 := ⟨_, rfl, by decide +kernel, by decide +kernel⟩

end SyMPC
