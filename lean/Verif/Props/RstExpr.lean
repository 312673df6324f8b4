import Verif.Model.RstExpr
import Verif.Props.ShareExpr
import Verif.Props.Rst

/-!
# C99: what is computed from replicated shares belongs to their session and ring
-/

namespace SyMPC

namespace RstExpr

variable {E : Type}

/-- the shares in an expression -/
def inputs : RstExpr E → List (RST E)
  | .input x => [x]
  | .lin _ a b => a.inputs ++ b.inputs
  | .linPublic _ a _ | .rsubPublic a _ | .mulPublic a _ | .xorPublic a _ _ | .method _ a => a.inputs

/-- what holds of a share: its session, its configuration, its ring and how many parts it has -/
def Tagged (u : Option Nat) (c : Config) (q n : Nat) (x : RST E) : Prop :=
  x.sessionUuid = u ∧ x.config = c ∧ x.ringSize = q ∧ x.shares.length = n

end RstExpr

open RstExpr

variable {E : Type}

theorem tagged_new {u : Option Nat} {c : Config} {q n : Nat} (hc : RST.initConfig c q = c) {x : RST E} (hx : RstExpr.Tagged u c q n x)
    {l : List E} (hl : l.length = n) : RstExpr.Tagged u c q n (RST.new l x.sessionUuid x.config x.ringSize) := by
  obtain ⟨h1, h2, h3, h4⟩ := hx
  refine ⟨h1, ?_, h3, hl⟩
  simp only [RST.new, h2, h3, hc]

theorem publicOp_tagged {I : RingOps E} {env : Env} {op : MPCTensor.LinOp} {u : Option Nat} {c : Config} {q n : Nat}
    (hc : RST.initConfig c q = c) {x z : RST E} (hx : RstExpr.Tagged u c q n x) {y : E} (hz : RST.publicOp I env op x y = .ok z) :
    RstExpr.Tagged u c q n z := by
  obtain ⟨⟨rank, nr⟩, -, hz⟩ := of_bind_share hz
  simp only at hz
  split_ifs at hz
  · cases hz
  · obtain ⟨s, -, hz⟩ := of_bind_share hz
    cases hz
    exact tagged_new hc hx (by rw [List.length_set]; exact hx.2.2.2)
  · cases hz
    exact tagged_new hc hx hx.2.2.2

theorem privateOp_tagged {I : RingOps E} {op : MPCTensor.LinOp} {u v : Option Nat} {c d : Config} {q n : Nat}
    (hc : RST.initConfig c q = c) {x y z : RST E} (hx : RstExpr.Tagged u c q n x) (hy : RstExpr.Tagged v d q n y)
    (hz : RST.privateOp I op x y = .ok z) : RstExpr.Tagged u c q n z := by
  obtain ⟨-, -, hz⟩ := of_bind_share hz
  cases hz
  exact tagged_new hc hx (by rw [List.length_zipWith, hx.2.2.2, hy.2.2.2, Nat.min_self])

/-- C99, replicated shares: whatever a party computes from shares with the same session, configuration and ring has that session,
configuration and ring, and as many parts; in every ring and after forwarded methods, too. -/
theorem C99_replicated (I : RingOps E) (env : Env) (u : Option Nat) (c : Config) (q n : Nat) (hc : RST.initConfig c q = c)
    (e : RstExpr E) (hin : ∀ x ∈ e.inputs, RstExpr.Tagged u c q n x) (z : RST E) (hz : e.eval I env = .ok z) :
    RstExpr.Tagged u c q n z := by
  induction e generalizing z with
  | input x => cases hz; exact hin x (by simp [inputs])
  | lin op a b iha ihb =>
    obtain ⟨x, hx, hz⟩ := of_bind_share hz
    obtain ⟨y, hy, hz⟩ := of_bind_share hz
    exact privateOp_tagged hc (iha (fun v hv => hin v (by simp [inputs, hv])) x hx) (ihb (fun v hv => hin v (by simp [inputs, hv])) y hy) hz
  | linPublic op a y iha =>
    obtain ⟨x, hx, hz⟩ := of_bind_share hz
    exact publicOp_tagged hc (iha hin x hx) hz
  | rsubPublic a y iha =>
    obtain ⟨x, hx, hz⟩ := of_bind_share hz
    exact publicOp_tagged hc (iha hin x hx) hz
  | mulPublic a y iha =>
    obtain ⟨x, hx, hz⟩ := of_bind_share hz
    cases hz
    exact tagged_new hc (iha hin x hx) (by rw [List.length_map]; exact (iha hin x hx).2.2.2)
  | xorPublic a y two iha =>
    obtain ⟨x, hx, hz⟩ := of_bind_share hz
    have tx := iha hin x hx
    unfold RST.publicXor at hz
    split_ifs at hz
    · exact publicOp_tagged hc tx hz
    · split at hz
      · cases hz
      · obtain ⟨w, hw, hz⟩ := of_bind_share hz
        have t1 : RstExpr.Tagged u c q n (RST.publicMul I x y) := tagged_new hc tx (by rw [List.length_map]; exact tx.2.2.2)
        have t2 : RstExpr.Tagged u c q n (RST.publicMul I (RST.publicMul I x y) two) :=
          tagged_new hc t1 (by rw [List.length_map]; exact t1.2.2.2)
        exact privateOp_tagged hc (publicOp_tagged hc tx hw) t2 hz
  | method f a iha =>
    obtain ⟨x, hx, hz⟩ := of_bind_share hz
    cases hz
    exact tagged_new hc (iha hin x hx) (by rw [List.length_map]; exact (iha hin x hx).2.2.2)

/-- C99 fails for replicated shares of which only the second one has a session: unlike an additive share, the sum has none, and when a public
number is added afterwards every party adds it to its first part, whatever its rank is. -/
theorem C99_replicated_not_joined (I : RingOps E) (env : Env) (u : Nat) (c : Config) (q : Nat) (hc : RST.initConfig c q = c)
    (x0 x1 y0 y1 v : E) :
    ∃ z, (RstExpr.lin .add (.input ⟨[x0, x1], none, c, q⟩) (.input ⟨[y0, y1], some u, c, q⟩)).eval I env = .ok z ∧ z.sessionUuid = none ∧
      (RstExpr.linPublic .add (.input z) v).eval I env = .ok ⟨[I.add (I.add x0 y0) v, I.add x1 y1], none, c, q⟩ := by
  refine ⟨⟨[I.add x0 y0, I.add x1 y1], none, c, q⟩, ?_, rfl, ?_⟩
  · simp [RstExpr.eval, RST.privateOp, RST.checkPrivate, RST.new, RST.lin, hc, ok_bind, pure_eq_ok]
  · simp [RstExpr.eval, RST.publicOp, RST.sessionOf, RST.new, RST.lin, hc, ok_bind, pure_eq_ok, pyGet]

/-! ## Cases -/

/-- the configurations that a constructor leaves as they are -/
example : RST.initConfig {} (2 ^ 64) = {} ∧ RST.initConfig { encoderBase := 1, encoderPrecision := 0 } 2 = { encoderBase := 1, encoderPrecision := 0 } :=
  ⟨rfl, rfl⟩

/-- `(x + y).t() * 3 - 1` of the first party of a session in the ring `2**32` -/
example : ∃ z, (RstExpr.linPublic .sub (.mulPublic (.method id (.lin .add (.input ⟨[3, 4], some 100, {}, 2 ^ 32⟩)
    (.input ⟨[10, 20], some 100, {}, 2 ^ 32⟩))) 3) 1 : RstExpr (BitVec 32)).eval (powOps 32) exEnv = .ok z ∧ z.shares = [38, 72] ∧
    RstExpr.Tagged (some 100) {} (2 ^ 32) 2 z := ⟨_, rfl, by decide +kernel, rfl, rfl, rfl, rfl⟩

end SyMPC
