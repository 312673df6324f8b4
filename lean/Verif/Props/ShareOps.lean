import Verif.Props.Share
import Verif.Props.RstLinear

/-!
# C07 (replicated), C15, C16 (additive), C61
-/

namespace SyMPC

variable {P T U V : Type}

/-! ## C14 -/

/-- C14 at one share: `rsub` with a public value or with a share of the same session is the operand minus the share, and stays
in the session. -/
theorem C14_share_rsub [Sub T] [PubEnc P T] (env : Env) (x : ShareTensor T) (u : Nat) (p : PartySession)
    (hx : x.sessionUuid = some u) (hp : env u = some p) (hr : ∃ t, getTypeFromRing p.ringSize = .ok t) :
    (∀ y : P, ShareTensor.rsub env x (.inl y) = .ok ⟨PubEnc.enc p.config y - x.tensor, some u, p.config, p.ringSize⟩) ∧
    ∀ y : ShareTensor T, y.sessionUuid = some u →
      ShareTensor.rsub (P := P) env x (.inr y) = .ok ⟨y.tensor - x.tensor, some u, p.config, p.ringSize⟩ := by
  obtain ⟨t, ht⟩ := hr
  refine ⟨fun y => ?_, fun y hy => ?_⟩ <;>
  simp [ShareTensor.rsub, ShareTensor.sanityChecks, ShareTensor.applyFunction, ShareTensor.ofPublic, ok_bind, pure_eq_ok, *]

example : (ShareTensor.rsub (P := FixedPointEncoder.Val) exEnv (⟨7, some 100, {}, 2 ^ 64⟩ : ShareTensor I64) (.inl (.int 1))).toOption.map (·.tensor)
    = some 65529 := by decide +kernel

/-! ## C15 -/

theorem prod_pub [PubEnc P U] (env : Env) (op : T → U → V) (trunc : V → V) (x : ShareTensor T) (y : P) (u : Nat)
    (p : PartySession) (hx : x.sessionUuid = some u) (hp : env u = some p)
    (hr : ∃ t, getTypeFromRing p.ringSize = .ok t) :
    ShareTensor.prod env op trunc x (.inl y)
      = .ok ⟨op x.tensor (PubEnc.enc p.config y), some u, p.config, p.ringSize⟩ := by
  obtain ⟨t, ht⟩ := hr
  simp [ShareTensor.prod, ShareTensor.sanityChecks, ShareTensor.applyFunction, ShareTensor.ofPublic, hx, hp, ht, ok_bind,
    pure_eq_ok]

/-- shares that are computed party by party from the shares of a well formed tensor -/
theorem mapM_tagged (us : List Nat) (xs : List (ShareTensor T)) (f : ShareTensor T → Py (ShareTensor V)) (g : T → V)
    (htags : xs.map (·.sessionUuid) = us.map some)
    (hf : ∀ x ∈ xs, ∀ u ∈ us, x.sessionUuid = some u → ∃ c r, f x = .ok ⟨g x.tensor, some u, c, r⟩) :
    ∃ zs, xs.mapM f = .ok zs ∧ zs.map (·.sessionUuid) = us.map some ∧ zs.map (·.tensor) = xs.map (fun x => g x.tensor) := by
  induction xs generalizing us with
  | nil =>
    refine ⟨[], rfl, ?_, rfl⟩
    simpa using htags
  | cons x xs ih =>
    cases us with
    | nil => simp at htags
    | cons u us =>
      simp only [List.map_cons, List.cons.injEq] at htags
      obtain ⟨c, r, h1⟩ := hf x (by simp) u (by simp) htags.1
      obtain ⟨zs, h2, h3, h4⟩ := ih us htags.2 (fun x hx v hv => hf x (by simp [hx]) v (by simp [hv]))
      refine ⟨⟨g x.tensor, some u, c, r⟩ :: zs, ?_, by simp [h3], by simp [h4]⟩
      rw [List.mapM_cons, h1, h2]; rfl

/-- C15 (additive sharing): a product with a public operand (element-wise, matrix or any other product that is additive
in the secret), done by every party on its own share, reconstructs to the product with the encoded public operand. -/
theorem C15_public_product_additive [AddCommGroup T] [AddCommGroup V] [PubEnc P U] (env : Env) (op : T → U → V)
    (hop : ∀ a b u, op (a + b) u = op a u + op b u) (trunc : V → V) (x : MPCTensor T) (y : P) (hx : x.WF env) (a : T)
    (ha : x.reconstruct = .ok a) :
    ∃ z, MPCTensor.applyPublicMul env op trunc x y = .ok z ∧ z.WF env ∧
      z.reconstruct = .ok (op a (PubEnc.enc x.session.config y)) := by
  obtain ⟨zs, h1, h2, h3⟩ := mapM_tagged x.session.rankToUuid x.shares
    (fun sh => ShareTensor.prod env op trunc sh (.inl y)) (fun t => op t (PubEnc.enc x.session.config y)) hx.tags (by
      intro sh _ u hu hsh
      obtain ⟨p, hp, hc, hr⟩ := hx.ready.known u hu
      refine ⟨p.config, p.ringSize, ?_⟩
      rw [prod_pub env op trunc sh y u p hsh hp (by rw [hr]; exact hx.ready.ring), hc])
  have hwf : MPCTensor.WF env ⟨x.session, zs⟩ := ⟨hx.ready, h2⟩
  refine ⟨⟨x.session, zs⟩, ?_, hwf, ?_⟩
  · unfold MPCTensor.applyPublicMul
    rw [h1, ok_bind, ofShares_ok _ _ hx.ready.ptrs (WF.nonempty hwf)]
  · rw [WF.reconstruct hx] at ha
    cases ha
    rw [WF.reconstruct hwf]
    simp only [h3]
    congr 1
    let φ : T →+ V := AddMonoidHom.mk' (fun t => op t (PubEnc.enc x.session.config y)) (fun a b => hop a b _)
    have := map_list_sum φ (x.shares.map (·.tensor))
    rw [List.map_map] at this
    exact this.symm

/-- an instance: 2x2 matrix times public vector, three parties -/
example : ∃ (op : (Fin 2 → Fin 2 → I64) → (Fin 2 → I64) → (Fin 2 → I64)), (∀ a b u, op (a + b) u = op a u + op b u) ∧
    op (fun i j => if i = j then 3 else 1) (fun _ => 2) 0 = 8 :=
  ⟨fun m v i => ∑ j, m i j * v j, fun a b u => by funext i; simp [add_mul, Finset.sum_add_distrib], by decide⟩

/-! ## C16 -/

/-- C16 (additive sharing): a forwarded method that is an additive map commutes with reconstruction, and the result is a
well formed tensor. -/
theorem C16_additive_map [AddCommGroup T] [AddCommGroup V] (env : Env) (f : T →+ V) (x : MPCTensor T) (hx : x.WF env) (a : T)
    (ha : x.reconstruct = .ok a) :
    ∃ z, MPCTensor.hookMethod f x = .ok z ∧ z.WF env ∧ z.reconstruct = .ok (f a) := by
  have hwf : MPCTensor.WF env ⟨x.session, x.shares.map (ShareTensor.hookMethod f)⟩ :=
    ⟨hx.ready, by simpa [ShareTensor.hookMethod, Function.comp_def] using hx.tags⟩
  refine ⟨⟨x.session, x.shares.map (ShareTensor.hookMethod f)⟩, ?_, hwf, ?_⟩
  · unfold MPCTensor.hookMethod
    rw [ofShares_ok _ _ hx.ready.ptrs (WF.nonempty hwf)]
  · rw [WF.reconstruct hx] at ha
    cases ha
    rw [WF.reconstruct hwf, map_list_sum]
    simp [ShareTensor.hookMethod, Function.comp_def]

/-- C16: every method that moves, copies or drops elements (result position `j` shows operand position `σ j`). -/
theorem C16_reindex {ι κ : Type} (env : Env) (σ : κ → ι) (x : MPCTensor (ι → I64)) (hx : x.WF env) (a : ι → I64)
    (ha : x.reconstruct = .ok a) :
    ∃ z, MPCTensor.hookMethod (fun w j => w (σ j)) x = .ok z ∧ z.WF env ∧ z.reconstruct = .ok (fun j => a (σ j)) :=
  C16_additive_map env
    { toFun := fun (w : ι → I64) j => w (σ j), map_zero' := rfl, map_add' := fun _ _ => rfl } x hx a ha

/-- C16: `sum`, also along some dimensions: result position `j` adds up the operand positions in `fibre j`. -/
theorem C16_sum {ι κ : Type} (env : Env) (fibre : κ → Finset ι) (x : MPCTensor (ι → I64)) (hx : x.WF env) (a : ι → I64)
    (ha : x.reconstruct = .ok a) :
    ∃ z, MPCTensor.hookMethod (fun w j => ∑ i ∈ fibre j, w i) x = .ok z ∧ z.WF env ∧
      z.reconstruct = .ok (fun j => ∑ i ∈ fibre j, a i) :=
  C16_additive_map env
    { toFun := fun (w : ι → I64) j => ∑ i ∈ fibre j, w i, map_zero' := by funext j; simp,
      map_add' := fun a b => by funext j; simp [Finset.sum_add_distrib] } x hx a ha

/-- transposing a 2x3 matrix shared among three parties -/
example : (match (MPCTensor.ofSecret (P := Fin 2 × Fin 3 → FixedPointEncoder.Val) exEnv exSession
      (fun p => .int (3 * p.1 + p.2)) (fun k _ => BitVec.ofNat 64 (7 * k + 1)))
      >>= MPCTensor.hookMethod (fun (w : Fin 2 × Fin 3 → I64) (j : Fin 3 × Fin 2) => w (j.2, j.1))
      >>= MPCTensor.reconstruct with
    | .ok w => w (2, 1)
    | .error _ => 0) = BitVec.ofNat 64 (5 * 65536) := by decide +kernel

/-! ## C61 -/

/-- C61 fails for additive sharing: xor with a public bit changes the bits of one share, which is not xor of the secret. The
secret bit 0, shared as `1 + (-1)`, xor 1 opens to -1. -/
theorem C61_public_xor_additive_wrong :
    ∃ (x : MPCTensor I64) (z : MPCTensor I64), x.session = exSession ∧ x.WF exEnv ∧ x.reconstruct = .ok 0 ∧
      MPCTensor.applyPublicXor exEnv x 1 = .ok z ∧ z.reconstruct = .ok (-1) := by
  refine ⟨⟨exSession, [⟨1, some 100, {}, 2 ^ 64⟩, ⟨-1, some 101, {}, 2 ^ 64⟩, ⟨0, some 102, {}, 2 ^ 64⟩]⟩, _, rfl,
    ⟨exReady, rfl⟩, by decide +kernel, rfl, by decide +kernel⟩

/-- C61 (partial), replicated sharing: with an encoder of scale 1, so that the public bit and the constant 2 are encoded as
themselves, `x ^ p` opens to `x + p - 2xp`, which is the xor of two bits; in the ring 2 it is `x + p`.  Missing: additive
shares and any other scale, see `C61_public_xor_additive_wrong` and `C61_public_xor_scale_wrong`. -/
theorem C61_public_xor_replicated_partial {E R : Type} [CommRing R] {I : RingOps E} [DecidableEq E] {env : Env}
    (S : RingSem I R) (x : RMPC E) (s : Nat → E) (hx : x.Sharing env S s) (y two : E) (hy : S.Valid y) (htwo : S.Valid two)
    (h2 : S.den two = 2) (a b : Bool) (ha : total S x.session.nrParties s = if a then 1 else 0)
    (hy' : S.den y = if b then 1 else 0) (hchar : x.session.ringSize = 2 → (2 : R) = 0) :
    ∃ z v, RMPC.publicXor I env x y two = .ok z ∧ z.reconstruct I = .ok v ∧
      S.den v = if xor a b then 1 else 0 := by
  obtain ⟨zadd, hadd1, hadd2, hadd3⟩ := public_sharing .add hx y hy
  have hn := hx.ready.two
  have htot := total_public S .add x.session.nrParties (by omega) s y (hx.valid 0 (by omega)) hy
  obtain ⟨ty, hty⟩ := hx.ready.ring
  by_cases hring : x.session.ringSize = 2
  · have heq : RMPC.publicXor I env x y two = .ok zadd := by
      rw [← hadd1]
      unfold RMPC.publicXor RMPC.publicLin
      congr 1
      rw [hx.shares, List.mapM_map, List.mapM_map]
      have : ((fun t => RST.publicXor I env t y two) ∘ fun r => RST.new (held x.session.nrParties s r)
          x.session.rankToUuid[r]? x.session.config x.session.ringSize)
          = ((fun t => RST.publicOp I env .add t y) ∘ fun r => RST.new (held x.session.nrParties s r)
          x.session.rankToUuid[r]? x.session.config x.session.ringSize) := by
        funext r
        simp only [Function.comp, RST.publicXor]
        rw [if_pos (by exact hring)]
      rw [this]
    obtain ⟨v, hv, _, hv'⟩ := Sharing.reconstruct hadd3
    refine ⟨zadd, v, heq, hv, ?_⟩
    rw [hv', hadd2, htot, ha]
    have h20 := hchar hring
    simp only [LinOp.den, hy']
    cases a <;> cases b <;> simp
    linear_combination h20
  · -- x + p - 2xp
    obtain ⟨z1, hm1, hm2, hm3⟩ := publicMul_sharing hx y hy
    obtain ⟨z2, hm4, hm5, hm6⟩ := publicMul_sharing hm3 two htwo
    obtain ⟨z, hz1, hz2, hz3⟩ := private_sharing .sub hadd3 hm6 (by rw [hm5, hm2, hadd2])
    obtain ⟨v, hv, _, hv'⟩ := Sharing.reconstruct hz3
    refine ⟨z, v, ?_, hv, ?_⟩
    · have hzsh : RMPC.ofShares x.session z.shares = .ok z := by
        have := rofShares_ok x.session z.shares hx.ready.ptrs (by
          rw [hz3.shares]; intro h0; have := congrArg List.length h0; simp at this
          have := hz3.ready.two; omega)
        rw [this]
        have hs : z.session = x.session := by rw [hz2, hadd2]
        cases z; simp at hs ⊢; exact hs.symm
      unfold RMPC.publicXor
      rw [hx.shares, List.mapM_map]
      rw [mapM_ok _ (fun r => RST.new (held x.session.nrParties
        (fun i => RST.lin I .sub (if i = 0 then RST.lin I .add (s 0) y else s i) (I.mul (I.mul (s i) y) two)) r)
        x.session.rankToUuid[r]? x.session.config x.session.ringSize)]
      · rw [ok_bind, ← hzsh, hz3.shares, hz2, hadd2]
      · intro r hr
        have hr := List.mem_range.mp hr
        obtain ⟨u, p, h3, h4, h5, h6⟩ := ranked_lookup hx.ready hx.ranked r hr
        simp only [Function.comp, RST.publicXor]
        rw [if_neg (by exact hring)]
        simp only [RST.new] at *
        rw [hty]
        simp only
        have hp := public_party (I := I) env .add x.session.nrParties hn s r hr u p h4 h5 h6 x.session.config
          x.session.ringSize y
        rw [h3]
        simp only [RST.new] at hp
        rw [hp, ok_bind]
        simp only [RST.privateOp, RST.checkPrivate, RST.publicMul, RST.new, held_map, initConfig_idem, held_length,
          ne_eq, not_true_eq_false, and_false, if_false, ok_bind, held_zipWith, pure_eq_ok]
    · rw [hv', hz2, hadd2, total_lin S .sub _ _ _ (fun i hi => hadd3.valid i (by rw [hadd2]; exact hi))
        (fun i hi => hm6.valid i (by rw [hm5, hm2]; exact hi))]
      rw [total_mul S _ _ two (fun i hi => hm3.valid i (by rw [hm2]; exact hi)) htwo, total_mul S _ s y hx.valid hy, htot, ha, h2]
      simp only [LinOp.den, hy']
      cases a <;> cases b <;> simp
      ring

/-- C61: with the default scale the public operands are encoded, so xor with 1 of the (encoded) bit 0 is right, but of the
raw bit 1 it is not 0. -/
theorem C61_public_xor_scale_wrong :
    let s : Nat → I64 := fun i => if i = 1 then 1 else 0
    let x : RMPC I64 := ⟨exRSession, (List.range 3).map fun r => RST.new (held 3 s r) exRSession.rankToUuid[r]? {} (2 ^ 64)⟩
    ∃ z, RMPC.publicXor (powOps 64) exREnv x (RST.encPow 64 {} (.int 1)) (RST.encPow 64 {} (.int 2)) = .ok z ∧
      z.reconstruct (powOps 64) = .ok (1 + 0x10000#64 - 0x200000000#64) := by
  refine ⟨_, rfl, ?_⟩
  decide +kernel

/-! ## C07, replicated -/

/-- C07 fails for replicated sharing with three parties: a secret held by the second party is dropped, one held by the third
party is an error, and one held by the first party opens to a masked value. -/
theorem C07_replicated_broken {E : Type} [DecidableEq E] (I : RingOps E) (enc : Config → P → E) (env : Env) (s : Session)
    (c0 c1 c2 u0 u1 u2 : Nat) (hc01 : c0 ≠ c1) (hc02 : c0 ≠ c2) (hc12 : c1 ≠ c2)
    (hpar : s.parties = [c0, c1, c2]) (hu : s.rankToUuid = [u0, u1, u2]) (hn : s.nrParties = 3)
    (hr : s.Ranked env) (hptr : s.sessionPtrs ≠ []) (secret : P) (z0 z1 z2 : E) :
    (∃ x, RMPC.ofRemote I enc env s c1 secret [z0, z1, z2] = .ok x ∧ x.shares.map (·.shares) = [[z0], [z1], [z2]]) ∧
    RMPC.ofRemote I enc env s c2 secret [z0, z1, z2] = .error .indexError ∧
    (∃ x, RMPC.ofRemote I enc env s c0 secret [z0, z1, z2] = .ok x ∧
      RST.reconstruct I x.shares .semiHonest
        = I.sum [I.add z0 (enc (RST.initConfig { encoderPrecision := 0 } s.ringSize) secret), z1]) := by
  obtain ⟨p0, h00, h01, h02⟩ := hr 0 u0 (by rw [hu]; rfl)
  obtain ⟨p1, h10, h11, h12⟩ := hr 1 u1 (by rw [hu]; rfl)
  obtain ⟨p2, h20, h21, h22⟩ := hr 2 u2 (by rw [hu]; rfl)
  rw [hn] at h02 h12 h22
  have hl : ¬ s.sessionPtrs.length = 0 := by simpa using hptr
  refine ⟨⟨⟨s, [RST.new [z0] (some u0) { encoderPrecision := 0 } s.ringSize,
      RST.new [z1] (some u1) { encoderPrecision := 0 } s.ringSize,
      RST.new [z2] (some u2) { encoderPrecision := 0 } s.ringSize]⟩, ?_, rfl⟩, ?_,
    ⟨⟨s, [RST.new [I.add z0 (enc (RST.initConfig { encoderPrecision := 0 } s.ringSize) secret)] (some u0)
        { encoderPrecision := 0 } s.ringSize,
      RST.new [z1] (some u1) { encoderPrecision := 0 } s.ringSize,
      RST.new [z2] (some u2) { encoderPrecision := 0 } s.ringSize]⟩, ?_, ?_⟩⟩
  · simp [RMPC.ofRemote, hl, hpar, hu, addRemoteR, hc01, RST.publicOp, RST.sessionOf, RST.new, h10, h11, h12, ok_bind,
      pure_eq_ok, initConfig_idem, RMPC.ofShares]
  · simp [RMPC.ofRemote, hl, hpar, hu, addRemoteR, hc02, hc12, RST.publicOp, RST.sessionOf, RST.new, h20, h21, h22, ok_bind,
      pure_eq_ok, initConfig_idem, RMPC.ofShares, pyGet, error_bind, throw_eq_error]
  · simp [RMPC.ofRemote, hl, hpar, hu, addRemoteR, RST.publicOp, RST.sessionOf, RST.new, h00, h01, h02, ok_bind,
      pure_eq_ok, initConfig_idem, RMPC.ofShares, pyGet, RST.lin]
  · simp [RST.reconstruct, RST.reconstructSemiHonest, RST.new, pyGet, ok_bind]

example : exRSession.parties = [10, 11, 12] ∧ exRSession.rankToUuid = [100, 101, 102] ∧ exRSession.Ranked exREnv :=
  ⟨rfl, rfl, exRRanked⟩

end SyMPC
