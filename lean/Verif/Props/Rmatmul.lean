import Verif.Model.Rmatmul
import Verif.Props.WrapsT
import Verif.Props.Layer

/-!
# C70: a public matrix times a secret matrix

Specification: the result is the product of the encoded public operand and the secret, divided by the scale.
-/

namespace SyMPC

variable {P T U V : Type}

theorem rprod_session [PubEnc P U] (env : Env) (op : U → T → V) (trunc : V → V) (x : ShareTensor T) (y : P) (u : Nat) (p : PartySession)
    (hx : x.sessionUuid = some u) (hp : env u = some p) (hr : ∃ t, getTypeFromRing p.ringSize = .ok t) :
    ShareTensor.rprod env op trunc x y = .ok ⟨op (PubEnc.enc p.config y) x.tensor, some u, p.config, p.ringSize⟩ := by
  obtain ⟨t, ht⟩ := hr
  simp [ShareTensor.rprod, ShareTensor.prod, ShareTensor.sanityChecks, ShareTensor.applyFunction, ShareTensor.ofPublic, hx, hp, ht, ok_bind,
    pure_eq_ok]

/-- a share that belongs to no session is divided by the scale at once -/
theorem C70_share_alone [PubEnc P U] (env : Env) (op : U → T → V) (trunc : V → V) (x : ShareTensor T) (y : P) (hx : x.sessionUuid = none)
    (hr : ∃ t, getTypeFromRing x.ringSize = .ok t) :
    ShareTensor.rprod env op trunc x y = .ok ⟨trunc (op (PubEnc.enc x.config y) x.tensor), none, x.config, x.ringSize⟩ := by
  obtain ⟨t, ht⟩ := hr
  simp [ShareTensor.rprod, ShareTensor.prod, ShareTensor.sanityChecks, ShareTensor.applyFunction, ShareTensor.ofPublic, hx, ht, ok_bind,
    pure_eq_ok]

/-- Any number of parties: before the division the shares add up to the product of the encoded operand and the secret. -/
theorem C70_left_product [AddCommGroup T] [AddCommGroup V] [PubEnc P U] (env : Env) (op : U → T → V)
    (hop : ∀ u a b, op u (a + b) = op u a + op u b) (trunc : V → V) (x : MPCTensor T) (y : P) (hx : x.WF env) (a : T)
    (ha : x.reconstruct = .ok a) :
    ∃ z, MPCTensor.leftProduct env op trunc x y = .ok z ∧ z.WF env ∧ z.session = x.session ∧
      z.reconstruct = .ok (op (PubEnc.enc x.session.config y) a) := by
  obtain ⟨zs, h1, h2, h3⟩ := mapM_tagged x.session.rankToUuid x.shares
    (fun sh => ShareTensor.rprod env op trunc sh y) (fun t => op (PubEnc.enc x.session.config y) t) hx.tags (by
      intro sh _ u hu hsh
      obtain ⟨p, hp, hc, hr⟩ := hx.ready.known u hu
      refine ⟨p.config, p.ringSize, ?_⟩
      rw [rprod_session env op trunc sh y u p hsh hp (by rw [hr]; exact hx.ready.ring), hc])
  have hwf : MPCTensor.WF env ⟨x.session, zs⟩ := ⟨hx.ready, h2⟩
  refine ⟨⟨x.session, zs⟩, ?_, hwf, rfl, ?_⟩
  · unfold MPCTensor.leftProduct
    rw [h1, ok_bind, ofShares_ok _ _ hx.ready.ptrs (WF.nonempty hwf)]
  · rw [WF.reconstruct hx] at ha
    cases ha
    rw [WF.reconstruct hwf]
    simp only [h3]
    congr 1
    let φ : T →+ V := AddMonoidHom.mk' (fun t => op (PubEnc.enc x.session.config y) t) (fun a b => hop _ a b)
    have := map_list_sum φ (x.shares.map (·.tensor))
    rw [List.map_map] at this
    exact this.symm

theorem matProd_add (k : MatKey) (u : MatL k) (a b : MatR k) : matProd k u (a + b) = matProd k u a + matProd k u b := by
  funext p
  simp [matProd, mul_add, Finset.sum_add_distrib]

/-- Two parties: `y @ x` for a public matrix `y` and a secret matrix `x`.  At every position where the exact product `p` of the encodings
fits the ring, the result is the quotient by the scale up to two quanta, unless the two shares `z0`, `z1` of the product wrap around. -/
theorem C70_rmatmul_two (env : Env) (k : MatKey) (trunc : MatO k → MatO k) (divide : MPCTensor (MatO k) → Nat → Py (MPCTensor (MatO k)))
    (x : MPCTensor (MatR k)) (y : Fin k.1 × Fin k.2.1 → FixedPointEncoder.Val) (hx : x.WF env) (hn : x.session.nrParties = 2)
    (hb : 0 < x.session.config.encoderBase) (hsc : x.session.config.encoderBase ^ x.session.config.encoderPrecision < 2 ^ 63)
    (a : MatR k) (ha : x.reconstruct = .ok a) :
    ∃ (res : MPCTensor (MatO k)) (z0 z1 q : MatO k),
      MPCTensor.rmatmul env (matProd k) trunc (fun v d j => floordiv (v j) (BitVec.ofNat 64 d)) divide x y = .ok res ∧ res.WF env ∧
      res.session = x.session ∧ res.reconstruct = .ok q ∧
      z0 + z1 = matProd k (PubEnc.enc x.session.config y) a ∧
      ∀ i j, ∀ p : Int, p = ∑ l, (x.session.config.encoder.encode (y (i, l))).toInt * (a (l, j)).toInt → -2 ^ 63 ≤ p → p < 2 ^ 63 →
        TruncatedProduct (z0 (i, j)) (z1 (i, j)) (q (i, j)) p (x.session.config.encoderBase ^ x.session.config.encoderPrecision : Nat) := by
  obtain ⟨z, h1, h2, h3, h4⟩ := C70_left_product env (matProd k) (matProd_add k) trunc x y hx a ha
  have hn' : z.session.nrParties = 2 := by rw [h3]; exact hn
  have hlz : z.shares.length = 2 := by
    have := congrArg List.length h2.tags
    rw [← hn', ← h2.ready.ranks]
    simpa using this
  obtain ⟨s, shares⟩ := z
  obtain ⟨sa, sb, rfl⟩ : ∃ sa sb, shares = [sa, sb] := by
    match shares, hlz with
    | [sa, sb], _ => exact ⟨sa, sb, rfl⟩
  dsimp only at h3 hn'
  subst h3
  generalize hS : x.session.config.encoderBase ^ x.session.config.encoderPrecision = S at hsc ⊢
  have hS0 : 0 < S := by rw [← hS]; exact Nat.pow_pos hb
  let dv : MatO k → MatO k := fun v j => floordiv (v j) (BitVec.ofNat 64 S)
  have hwf : MPCTensor.WF env ⟨x.session, [ShareTensor.div dv sa, ShareTensor.div dv sb]⟩ := ⟨hx.ready, h2.tags⟩
  have hsum : sa.tensor + sb.tensor = matProd k (PubEnc.enc x.session.config y) a := by
    rw [WF.reconstruct h2] at h4
    have := Except.ok.inj h4
    simpa using this
  refine ⟨_, sa.tensor, sb.tensor, _, ?_, hwf, rfl, WF.reconstruct hwf, hsum, ?_⟩
  · unfold MPCTensor.rmatmul
    rw [h1, ok_bind]
    dsimp only
    rw [if_pos hn', hS, ofShares_ok _ _ hx.ready.ptrs (by simp)]
    rfl
  · intro i j p hp p1 p2
    have hv : (sa.tensor (i, j) + sb.tensor (i, j)).toInt = p := by
      have e : sa.tensor (i, j) + sb.tensor (i, j) = BitVec.ofInt 64 p := by
        have := congrFun hsum (i, j)
        rw [Pi.add_apply] at this
        rw [this, matProd_ofInt, hp]
        rfl
      rw [e, toInt_ofInt64 p1 p2]
    have := truncatedProduct _ _ p S (by exact_mod_cast hS0) (by exact_mod_cast hsc) hv
    simpa [ShareTensor.div, dv, BitVec.ofInt_natCast] using this

/-- the product of two vectors, `torch.matmul` of tensors with one dimension -/
def dotProd (l : Nat) (u v : Fin l → I64) : I64 := ∑ i, u i * v i

theorem dotProd_add (l : Nat) (u a b : Fin l → I64) : dotProd l u (a + b) = dotProd l u a + dotProd l u b := by
  simp [dotProd, mul_add, Finset.sum_add_distrib]

theorem dotProd_ofInt (l : Nat) (u v : Fin l → I64) : dotProd l u v = BitVec.ofInt 64 (∑ i, (u i).toInt * (v i).toInt) := by
  rw [ofInt_sum]
  unfold dotProd
  apply Finset.sum_congr rfl
  intro i _
  rw [BitVec.ofInt_mul, BitVec.ofInt_toInt, BitVec.ofInt_toInt]

/-- What the division of three and more parties needs of the shares of the product: those conditions of `DivideOk` that depend on the
random numbers.  That the shares reconstruct to `v` is not among them, it is proved. -/
structure DivideRoom (env : Env) (s : Session) (rnd : WrapRand) (z : MPCTensor I64) (v : I64) (theta : Int) : Prop where
  wraps : ((z.shares.map (·.tensor)).map BitVec.toInt).sum = v.toInt + theta * 2 ^ 64
  low : -2 ^ 63 ≤ v.toInt + rnd.r.toInt
  high : v.toInt + rnd.r.toInt < 2 ^ 63
  minPair : ∃ rs, generateShares env ⟨rnd.r, none, { encoderPrecision := 0 }, 2 ^ 64⟩ s.nrParties rnd.dr = .ok rs ∧
    NoMinPair (rs.map (·.tensor)) ∧
    (∀ p ∈ (z.shares.map (·.tensor)).zip (rs.map (·.tensor)), ¬ (p.1 = BitVec.intMin 64 ∧ p.2 = BitVec.intMin 64)) ∧
    NoMinPair (List.zipWith (· + ·) (rs.map (·.tensor)) (z.shares.map (·.tensor)))

/-- Three and more parties with a binary encoder (partial): `y @ x` for a public vector `y` and a secret vector `x` is within `n` quanta
of the quotient, when the division itself is one of those of `C27_public_divide_pow2_partial`.
Missing: other bases of the encoder, and products with more than one element, whose divisions share one call. -/
theorem C70_rmatmul_many_partial (env : Env) (s : Session) (hs : s.Live env) (rnd : WrapRand) (l : Nat) (trunc : I64 → I64)
    (div : I64 → Nat → I64) (x : MPCTensor (Fin l → I64)) (y : Fin l → FixedPointEncoder.Val) (hx : x.WF env) (hxs : x.session = s)
    (a : Fin l → I64) (ha : x.reconstruct = .ok a)
    (hring : s.ringSize = 2 ^ 64) (h3 : 3 ≤ s.nrParties) (hn : s.nrParties ≤ 2 ^ 24) (hb : s.config.encoderBase = 2)
    (hp0 : s.config.encoderPrecision ≠ 0) (hp : s.config.encoderPrecision ≤ 24)
    (p : Int) (hpv : p = ∑ i, (s.config.encoder.encode (y i)).toInt * (a i).toInt) (p1 : -2 ^ 63 ≤ p) (p2 : p < 2 ^ 63)
    (theta : Int)
    (h : ∀ z, MPCTensor.leftProduct env (dotProd l) trunc x y = .ok z → DivideRoom env s rnd z (BitVec.ofInt 64 p) theta) :
    ∃ (res : MPCTensor I64) (q : I64),
      MPCTensor.rmatmul env (dotProd l) trunc div (fun z d => (publicDivide f32 env rnd z d).map Prod.fst) x y = .ok res ∧
      res.WF env ∧ res.reconstruct = .ok q ∧
      |q.toInt * 2 ^ s.config.encoderPrecision - p| ≤ s.nrParties * (2 ^ s.config.encoderPrecision - 1) := by
  obtain ⟨z, h1, h2, hz, h4⟩ := C70_left_product env (dotProd l) (dotProd_add l) trunc x y hx a ha
  have hr := h z h1
  have hval : dotProd l (PubEnc.enc x.session.config y) a = BitVec.ofInt 64 p := by
    rw [dotProd_ofInt, hpv, hxs]
    rfl
  rw [hval] at h4
  have hd : DivideOk env s rnd z (BitVec.ofInt 64 p) theta :=
    ⟨hz.trans hxs, h2, hring, h3, h4, hr.wraps, hr.low, hr.high, hr.minPair⟩
  obtain ⟨res, x', q, r1, r2, r3, r4⟩ :=
    C27_public_divide_pow2_partial env s hs rnd z _ theta hd s.config.encoderPrecision (by omega) hn hb hp0 hp
  rw [toInt_ofInt64 p1 p2] at r4
  refine ⟨res, q, ?_, r2, r3, r4⟩
  unfold MPCTensor.rmatmul
  rw [h1, ok_bind]
  dsimp only
  rw [if_neg (by rw [hd.session]; omega), hxs, hb]
  push_cast
  rw [r1]
  rfl

/-- Three and more parties with a binary encoder (partial): `y @ x` for a public matrix `y` and a secret matrix `x`.  At every position
where the exact product `p` of the encodings fits the ring and no rare number was drawn (see `Drawn`) the result is within `n` quanta of
the quotient by the scale.  Missing: other bases of the encoder, see `C27_float32_error`. -/
theorem C70_rmatmul_matrices_partial (env : Env) (s : Session) (hs : s.Live env) (k : MatKey) (rnd : WrapRandT (Fin k.1 × Fin k.2.2))
    (trunc : MatO k → MatO k) (div : MatO k → Nat → MatO k) (x : MPCTensor (MatR k)) (y : Fin k.1 × Fin k.2.1 → FixedPointEncoder.Val)
    (hx : x.WF env) (hxs : x.session = s) (a : MatR k) (ha : x.reconstruct = .ok a)
    (hring : s.ringSize = 2 ^ 64) (h3 : 3 ≤ s.nrParties) (hn : s.nrParties ≤ 2 ^ 24) (hb : s.config.encoderBase = 2)
    (hp0 : s.config.encoderPrecision ≠ 0) (hp : s.config.encoderPrecision ≤ 24) :
    ∃ (z res : MPCTensor (MatO k)) (q : MatO k), z.reconstruct = .ok (matProd k (PubEnc.enc s.config y) a) ∧
      MPCTensor.leftProduct env (matProd k) trunc x y = .ok z ∧
      MPCTensor.rmatmul env (matProd k) trunc div (fun z d => publicDivideT f32 env rnd z d) x y = .ok res ∧
      res.WF env ∧ res.session = s ∧ res.reconstruct = .ok q ∧
      ∀ i j, ∀ p : Int, p = ∑ l, (s.config.encoder.encode (y (i, l))).toInt * (a (l, j)).toInt → -2 ^ 63 ≤ p → p < 2 ^ 63 →
        Drawn s.nrParties rnd (z.shares.map (·.tensor)) (i, j) →
        |(q (i, j)).toInt * 2 ^ s.config.encoderPrecision - p| ≤ s.nrParties * (2 ^ s.config.encoderPrecision - 1) := by
  obtain ⟨z, h1, h2, hz, h4⟩ := C70_left_product env (matProd k) (matProd_add k) trunc x y hx a ha
  rw [hxs] at h4 hz
  obtain ⟨res, q, r1, r2, r3, r4, r5⟩ := C27_tensors_pow2_partial env s hs hring h3 hn hb hp0 hp rnd z h2 hz _ h4 s.config.encoderPrecision
    (by omega)
  refine ⟨z, res, q, h4, h1, ?_, r2, r3, r4, fun i j p hpv p1 p2 hd => ?_⟩
  · unfold MPCTensor.rmatmul
    rw [h1, ok_bind]
    dsimp only
    rw [if_neg (by rw [hz]; omega), hxs, hb]
    push_cast
    exact r1
  · have := r5 (i, j) hd
    have e : matProd k (PubEnc.enc s.config y) a (i, j) = BitVec.ofInt 64 p := by
      rw [matProd_ofInt, hpv]
      rfl
    rwa [e, toInt_ofInt64 p1 p2] at this

/-! ## Examples -/

/-- the column 3, 1.5 shared between two parties -/
def exColumn : MPCTensor (MatR (1, 2, 1)) :=
  exPairSecret (fun p => if p.1 = 0 then 196608 + 31 else 98304 + 42) (fun p => if p.1 = 0 then BitVec.ofInt 64 (-31) else BitVec.ofInt 64 (-42))

/-- the public row 2.5, -1 -/
def exRow : Fin 1 × Fin 2 → FixedPointEncoder.Val := fun p => if p.2 = 0 then .float (5 / 2) else .int (-1)

/-- C70: `[2.5, -1] @ [3, 1.5] = 6`. -/
example : ((MPCTensor.rmatmul exPairEnv (matProd (1, 2, 1)) id (fun v d j => floordiv (v j) (BitVec.ofNat 64 d)) (fun z _ => .ok z) exColumn
      exRow).toOption.bind fun r => r.reconstruct.toOption.map fun v => (v (0, 0)).toInt) = some (6 * 65536) := by decide +kernel

/-- the hypotheses of `C70_rmatmul_two` -/
example : exColumn.WF exPairEnv ∧ exColumn.session.nrParties = 2 ∧ 0 < exColumn.session.config.encoderBase ∧
    exColumn.session.config.encoderBase ^ exColumn.session.config.encoderPrecision < 2 ^ 63 :=
  ⟨exPairSecret_wf _ _, rfl, by decide, by decide⟩

/-- the vector 3, 1.5 shared between three parties, with shares that wrap around -/
def exThree : MPCTensor (Fin 2 → I64) :=
  exSecret ![0x0000200000000000, 5] ![0x0000200000000000, 7] ![0xffffc00000030000, 98304 - 12]

/-- C70 with three parties: `[2.5, -1] @ [3, 1.5] = 6`. -/
example : ((MPCTensor.rmatmul exEnv (dotProd 2) id (fun v _ => v)
      (fun z d => (publicDivide f32 exEnv ⟨77, fun k => BitVec.ofNat 64 (k + 5), fun _ => 9⟩ z d).map Prod.fst) exThree
      (![.float (5 / 2), .int (-1)] : Fin 2 → FixedPointEncoder.Val)).toOption.bind fun r =>
        r.reconstruct.toOption.map BitVec.toInt) = some (6 * 65536) := by decide +kernel

/-- the hypotheses of `C70_rmatmul_many_partial` for this product: its shares wrap around once -/
example : ∀ z, MPCTensor.leftProduct exEnv (dotProd 2) id exThree (![.float (5 / 2), .int (-1)] : Fin 2 → FixedPointEncoder.Val) = .ok z →
    DivideRoom exEnv exSession ⟨77, fun k => BitVec.ofNat 64 (k + 5), fun _ => 9⟩ z (BitVec.ofInt 64 (6 * 2 ^ 32)) 1 := by
  intro z hz
  have hs : z.shares.map (·.tensor) = [0x4ffffffffffb0000, 0x4ffffffffff90000, 0x60000006000c0000] := by
    have : (MPCTensor.leftProduct exEnv (dotProd 2) id exThree
        (![.float (5 / 2), .int (-1)] : Fin 2 → FixedPointEncoder.Val)).toOption.map (fun z => z.shares.map (·.tensor))
        = some [0x4ffffffffffb0000, 0x4ffffffffff90000, 0x60000006000c0000] := by decide +kernel
    rw [hz] at this
    exact Option.some.inj this
  refine ⟨?_, by decide +kernel, by decide +kernel, _, rfl, ?_, ?_, ?_⟩
  · rw [hs]; decide +kernel
  · exact noMinPair_of_notMem (by decide +kernel)
  · rw [hs]; decide +kernel
  · rw [hs]; exact noMinPair_of_notMem (by decide +kernel)

/-- the columns `[3, 1.5]` and `[-1, 0.25]` shared between three parties -/
def exColumns : MPCTensor (MatR (1, 2, 2)) :=
  exSecret (fun p => if p.1 = 0 then 196608 + 31 else 5) (fun p => if p.2 = 0 then 7 else -65536) fun p =>
    if p.1 = 0 then (if p.2 = 0 then -38 else -196608 - 31) else if p.2 = 0 then 98304 - 12 else 16384 + 65536 - 5

/-- `[2.5, -1]` times these columns is 6 (less one quantum) and -2.75 -/
example : ((MPCTensor.rmatmul exEnv (matProd (1, 2, 2)) id (fun v _ => v)
      (fun z d => publicDivideT f32 exEnv ⟨fun _ => 77, fun k _ => BitVec.ofNat 64 (k + 5), fun _ _ => 9⟩ z d) exColumns
      exRow).toOption.bind fun r => r.reconstruct.toOption.map fun v => ((v (0, 0)).toInt, (v (0, 1)).toInt)) = some (6 * 65536 - 1, -11 * 16384) := by
  decide +kernel

example : exColumns.WF exEnv ∧ exSession.Live exEnv ∧ exColumns.session = exSession ∧ exSession.nrParties = 3 ∧ exSession.config.encoderBase = 2 ∧
    exSession.config.encoderPrecision = 16 := ⟨exSecret_wf _ _ _, exLive, rfl, rfl, rfl, rfl⟩

end SyMPC
