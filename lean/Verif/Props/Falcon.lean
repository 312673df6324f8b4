import Verif.Lemmas.FalconStore
import Verif.Props.RstLinear
import Verif.Props.Wraps

/-!
# C22, C29, C30, C31, C54: products and triples of three-party replicated sharing
-/

namespace SyMPC

variable {E R A B C RA RB RC : Type} [CommRing R] [CommRing RA] [CommRing RB] [CommRing RC]

/-! ## Concrete values for the examples -/

theorem exRThree : exRSession.Three exREnv where
  toReady := exRReady
  ranked := exRRanked
  distinct := by decide
  pointers := by decide
  three := rfl

/-- a replicated tensor of the example session -/
def exRep (q : Nat) (c : Config) (a b d : E) : RMPC E :=
  ⟨exRSession, [⟨[a, b], some 100, c, q⟩, ⟨[b, d], some 101, c, q⟩, ⟨[d, a], some 102, c, q⟩]⟩

theorem exRep_is {I : RingOps E} (S : RingSem I R) (q : Nat) (c : Config) (a b d : E) (ha : S.Valid a) (hb : S.Valid b)
    (hd : S.Valid d) : (exRep q c a b d).Is S exRSession q c (S.den a + S.den b + S.den d) :=
  is_of_list S rfl q c a b d ha hb hd _ rfl

/-- a triple of the example session -/
def exTriple (q : Nat) (a : Nat → A) (b : Nat → B) (c : Nat → C) (u : Nat) : Py (RTriple A B C) :=
  .ok (tripleAt q u { encoderPrecision := 0 } a b c (u - 100))

theorem exTriple_err {IA : RingOps A} {IB : RingOps B} {IC : RingOps C} (SA : RingSem IA RA) (SB : RingSem IB RB)
    (SC : RingSem IC RC) (β : RA →+ RB →+ RC) (q : Nat) (a : Nat → A) (b : Nat → B) (c : Nat → C) (ha : ∀ i, SA.Valid (a i))
    (hb : ∀ i, SB.Valid (b i)) (hc : ∀ i, SC.Valid (c i)) (err : RC)
    (h : SC.den (c 0) + SC.den (c 1) + SC.den (c 2)
      = β (SA.den (a 0) + SA.den (a 1) + SA.den (a 2)) (SB.den (b 0) + SB.den (b 1) + SB.den (b 2)) + err) :
    TripleErr SA SB SC β exRSession q (exTriple q a b c) err := by
  refine ⟨a, b, c, { encoderPrecision := 0 }, { encoderPrecision := 0 }, { encoderPrecision := 0 }, ha, hb, hc, ?_, h⟩
  intro r hr u hu
  obtain rfl | rfl | rfl : r = 0 ∨ r = 1 ∨ r = 2 := by omega
  all_goals
    simp [exRSession] at hu
    subst hu
    rfl

/-! ## C29 -/

/-- **C29.** The product of two secrets (`Falcon.mul_semi_honest`, before truncation): for every bi-additive operation the
parties implement, in every ring, for all consistent sharings and all masks that sum to zero, no step fails and the result
is a consistent sharing of the product. -/
theorem C29_product {env : Env} {s : Session} (hs : s.Three env) {IA : RingOps A} {IB : RingOps B} {IC : RingOps C}
    {SA : RingSem IA RA} {SB : RingSem IB RB} (SC : RingSem IC RC) {P : Product A B C} {β : RA →+ RB →+ RC}
    (hP : ProdSem SA SB SC P β) {x : RMPC A} {y : RMPC B} {q q' : Nat} {c c' : Config} {v : RA} {w : RB}
    (hx : x.Is SA s q c v) (hy : y.Is SB s q' c' w) {k : OpKind} (hop : getOp q P.opStr = .ok k) (mask : Nat → C)
    (hm : ZeroMask SC mask) (q'' : Nat) (c'' : Config) :
    ∃ z, Falcon.mulReshare IC env P mask s q'' c'' x y = .ok z ∧ z.Is SC s q'' (RST.initConfig c'' q'') (β v w) := by
  obtain ⟨z, h1, h2⟩ := mulReshare3 hs SC hP hx hy hop mask hm.1 q'' c''
  exact ⟨z, h1, by rw [hm.2, add_zero] at h2; exact h2⟩

/-- **C29** for `x * y` of tensors that are not scaled (bits, elements of the prime ring, integers with precision 0), with
either security type: the opened result is the product, element by element. -/
theorem C29_mul [DecidableEq E] {env : Env} {s : Session} (hs : s.Three env) {K : RingKit E} {S : RingSem K.ops R}
    (hK : KitSem K S) {x y : RMPC E} {v w : R} (hx : x.Plain S s K.size v) (hy : y.Plain S s K.size w) {rnd : MulRand E E E}
    (hr : rnd.Ok S S S AddMonoidHom.mul s K.size) :
    ∃ z e, RMPC.mulPrivate K env rnd x y = .ok z ∧ z.reconstruct K.ops = .ok e ∧ S.den e = v * w := by
  obtain ⟨z, h1, h2⟩ := plain_mul hs hK hx hy hr
  obtain ⟨e, h3, -, h4⟩ := plain_reconstruct hs h2
  exact ⟨z, e, h1, h3, h4⟩

/-- the bit ring: the product is the conjunction -/
theorem C29_bit {env : Env} {s : Session} (hs : s.Three env) {ι : Type} [Fintype ι] [DecidableEq (ι → Bool)]
    {x y : RMPC (ι → Bool)} {v w : ι → Bool} (hx : x.Plain (binSem.tensor ι) s 2 (fun i => binDen (v i)))
    (hy : y.Plain (binSem.tensor ι) s 2 (fun i => binDen (w i))) {rnd : MulRand (ι → Bool) (ι → Bool) (ι → Bool)}
    (hr : rnd.Ok (binSem.tensor ι) (binSem.tensor ι) (binSem.tensor ι) AddMonoidHom.mul s 2) :
    ∃ z, RMPC.mulPrivate (binKit.tensor ι) env rnd x y = .ok z ∧
      z.reconstruct (binOps.tensor ι) = .ok (fun i => v i && w i) := by
  obtain ⟨z, e, h1, h2, h3⟩ := C29_mul hs (binKitSem.tensor ι) hx hy hr
  refine ⟨z, h1, ?_⟩
  have : e = fun i => v i && w i := by
    apply (binSem.tensor ι).inj e _ (fun _ => trivial) (fun _ => trivial)
    refine h3.trans ?_
    funext i
    have : ∀ a b : Bool, binDen a * binDen b = binDen (a && b) := by decide
    exact this (v i) (w i)
  rw [← this]; exact h2

/-- the rings `2**w`: the product of the opened integers modulo `2**w` -/
theorem C29_pow (w : Nat) (hw : w = 8 ∨ w = 16 ∨ w = 32 ∨ w = 64) {env : Env} {s : Session} (hs : s.Three env) {ι : Type}
    [Fintype ι] [DecidableEq (ι → BitVec w)] {x y : RMPC (ι → BitVec w)} {a b : ι → BitVec w}
    (hx : x.Plain ((powSem w).tensor ι) s (2 ^ w) a) (hy : y.Plain ((powSem w).tensor ι) s (2 ^ w) b)
    {rnd : MulRand (ι → BitVec w) (ι → BitVec w) (ι → BitVec w)}
    (hr : rnd.Ok ((powSem w).tensor ι) ((powSem w).tensor ι) ((powSem w).tensor ι) AddMonoidHom.mul s (2 ^ w)) :
    ∃ z, RMPC.mulPrivate ((powKit w).tensor ι) env rnd x y = .ok z ∧
      z.reconstruct ((powOps w).tensor ι) = .ok (fun i => a i * b i) := by
  obtain ⟨z, e, h1, h2, h3⟩ := C29_mul hs ((powKitSem w hw).tensor ι) hx hy hr
  exact ⟨z, h1, h2.trans (congrArg _ h3)⟩

/-- the prime ring: the opened values multiply modulo 67 -/
theorem C29_prime {env : Env} {s : Session} (hs : s.Three env) {ι : Type} [Fintype ι] [DecidableEq (ι → BitVec 8)]
    {x y : RMPC (ι → BitVec 8)} {a b : ι → Nat} (hx : x.Plain (primeSem.tensor ι) s 67 (fun i => (a i : ZMod 67)))
    (hy : y.Plain (primeSem.tensor ι) s 67 (fun i => (b i : ZMod 67)))
    {rnd : MulRand (ι → BitVec 8) (ι → BitVec 8) (ι → BitVec 8)}
    (hr : rnd.Ok (primeSem.tensor ι) (primeSem.tensor ι) (primeSem.tensor ι) AddMonoidHom.mul s 67) :
    ∃ z e, RMPC.mulPrivate (primeKit.tensor ι) env rnd x y = .ok z ∧ z.reconstruct (primeOps.tensor ι) = .ok e ∧
      ∀ i, (e i).toNat = a i * b i % 67 := by
  obtain ⟨z, h1, h2⟩ := plain_mul hs (primeKitSem.tensor ι) hx hy hr
  obtain ⟨e, h3, h5, h4⟩ := plain_reconstruct hs h2
  refine ⟨z, e, h1, h3, ?_⟩
  intro i
  have hd : (((e i).toNat : Nat) : ZMod 67) = ((a i * b i : Nat) : ZMod 67) := by
    have := congrFun h4 i
    rw [Nat.cast_mul]
    exact this
  have hlt : (e i).toNat < 67 := h5 i
  have := (ZMod.natCast_eq_natCast_iff' _ _ 67).mp hd
  rw [Nat.mod_eq_of_lt hlt] at this
  exact this

/-- `torch.matmul` of two matrices of integers -/
def matmulProduct (w m k n : Nat) :
    Product (Fin m × Fin k → BitVec w) (Fin k × Fin n → BitVec w) (Fin m × Fin n → BitVec w) :=
  ⟨.matmul, fun a b ij => ((List.finRange k).map fun l => a (ij.1, l) * b (l, ij.2)).sum⟩

/-- the matrix product as a bi-additive map -/
def matmulHom (w m k n : Nat) :
    (Fin m × Fin k → BitVec w) →+ (Fin k × Fin n → BitVec w) →+ (Fin m × Fin n → BitVec w) :=
  AddMonoidHom.mk' (fun a => AddMonoidHom.mk' (fun b ij => ((List.finRange k).map fun l => a (ij.1, l) * b (l, ij.2)).sum)
    (by
      intro b b'
      funext ij
      simp only [Pi.add_apply, mul_add]
      exact List.sum_map_add))
    (by
      intro a a'
      ext b ij : 2
      simp only [AddMonoidHom.mk'_apply, Pi.add_apply, add_mul, AddMonoidHom.add_apply]
      exact List.sum_map_add)

/-- **C29** for matrices: `x @ y` in a ring `2**w`, without scaling. -/
theorem C29_matmul (w m k n : Nat) (hw : w = 8 ∨ w = 16 ∨ w = 32 ∨ w = 64) {env : Env} {s : Session} (hs : s.Three env)
    {x : RMPC (Fin m × Fin k → BitVec w)} {y : RMPC (Fin k × Fin n → BitVec w)} {c c' : Config}
    {a : Fin m × Fin k → BitVec w} {b : Fin k × Fin n → BitVec w} (hc : c.encoderBase ^ c.encoderPrecision = 1)
    (hx : x.Is ((powSem w).tensor _) s (2 ^ w) c a) (hy : y.Is ((powSem w).tensor _) s (2 ^ w) c' b)
    {rnd : MulRand (Fin m × Fin k → BitVec w) (Fin k × Fin n → BitVec w) (Fin m × Fin n → BitVec w)}
    (hr : rnd.Ok ((powSem w).tensor _) ((powSem w).tensor _) ((powSem w).tensor _) (matmulHom w m k n) s (2 ^ w)) :
    ∃ z, Falcon.mulMaster ((powKit w).tensor _) ((powKit w).tensor _) ((powKit w).tensor _) env (matmulProduct w m k n) rnd x y
        = .ok z ∧
      z.reconstruct ((powOps w).tensor _)
        = .ok (fun ij : Fin m × Fin n => ((List.finRange k).map fun l => a (ij.1, l) * b (l, ij.2)).sum) := by
  have hop : ∃ k, getOp (2 ^ w) .matmul = .ok k := by rcases hw with rfl | rfl | rfl | rfl <;> exact ⟨_, rfl⟩
  obtain ⟨o, ho⟩ := hop
  obtain ⟨z, h1, h2⟩ := mulMaster_plain (KA := (powKit w).tensor (Fin m × Fin k)) (KB := (powKit w).tensor (Fin k × Fin n))
    (KC := (powKit w).tensor (Fin m × Fin n)) (SA := (powSem w).tensor _) (SB := (powSem w).tensor _) hs
    ((powKitSem w hw).tensor _) (P := matmulProduct w m k n) (β := matmulHom w m k n)
    (fun a b _ _ => ⟨fun _ => trivial, rfl⟩) hx hy (.inr (.inr hc)) ho hr
  obtain ⟨e, h3, -, h4⟩ := plain_reconstruct hs h2
  exact ⟨z, h1, h3.trans (congrArg _ h4)⟩

/-- a product in the example session: 6 * 7 -/
example : (RMPC.mulPrivate (powKit 64) exREnv
    { mask := fun i => if i = 0 then 5 else if i = 1 then -3 else -2
      triple := exTriple (2 ^ 64) (fun i => BitVec.ofNat 64 i) (fun _ => 4) (fun i => if i = 0 then 30 else 3), trunc := 9 }
    (exRep (2 ^ 64) { encoderPrecision := 0 } 10 (-5) 1) (exRep (2 ^ 64) { encoderPrecision := 0 } 2 2 3)).toOption.map
      (fun z => (z.reconstruct (powOps 64)).toOption) = some (some 42) := by decide +kernel

/-! ## C31 and C30 -/

/-- **C31.** The verification of a product with malicious security: for a consistent tensor `z` of value `vz` and a triple
with `c = a * b + err`, the check passes exactly if `vz - x * y = c - a * b`; otherwise it raises `ValueError`. -/
theorem C31_verification [DecidableEq A] [DecidableEq B] [DecidableEq C] {env : Env} {s : Session} (hs : s.Three env)
    {KA : RingKit A} {KB : RingKit B} {KC : RingKit C} {SA : RingSem KA.ops RA} {SB : RingSem KB.ops RB}
    (SC : RingSem KC.ops RC) (hK : KitSem KC SC) {P : Product A B C} {β : RA →+ RB →+ RC} (hP : ProdSem SA SB SC P β)
    {x : RMPC A} {y : RMPC B} {z : RMPC C} {q : Nat} {c c' c'' : Config} {v : RA} {w : RB} {vz : RC}
    (hx : x.Is SA s q c v) (hy : y.Is SB s q c' w) (hz : z.Is SC s q c'' vz) {k : OpKind} (hop : getOp q P.opStr = .ok k)
    (triple : Nat → Py (RTriple A B C)) (err : RC) (ht : TripleErr SA SB SC β s q triple err) :
    (vz - β v w = err → Falcon.verifyProduct KA KB KC env P triple s x y z = .ok z) ∧
    (vz - β v w ≠ err → Falcon.verifyProduct KA KB KC env P triple s x y z = .error .valueError) := by
  classical
  rw [verify3 hs SC hK hP hx hy hz hop triple err ht]
  constructor
  · intro h; rw [if_pos (by rw [← h]; ring)]
  · intro h; rw [if_neg (fun h' => h (by rw [h']; ring))]

/-- **C31** for the product as a whole: masks that do not sum to zero (a party that adds an error to its share of the
product) make `x * y` raise, unless the triple is wrong by the same amount. -/
theorem C31_tampered [DecidableEq A] [DecidableEq B] [DecidableEq C] {env : Env} {s : Session} (hs : s.Three env)
    {KA : RingKit A} {KB : RingKit B} {KC : RingKit C} {SA : RingSem KA.ops RA} {SB : RingSem KB.ops RB}
    (SC : RingSem KC.ops RC) (hK : KitSem KC SC) {P : Product A B C} {β : RA →+ RB →+ RC} (hP : ProdSem SA SB SC P β)
    {x : RMPC A} {y : RMPC B} {q : Nat} {c c' : Config} {v : RA} {w : RB} (hx : x.Is SA s q c v) (hy : y.Is SB s q c' w)
    {k : OpKind} (hop : getOp q P.opStr = .ok k) (rnd : MulRand A B C) (hm : ∀ i, SC.Valid (rnd.mask i)) (err : RC)
    (ht : TripleErr SA SB SC β s q rnd.triple err)
    (hbad : SC.den (rnd.mask 0) + SC.den (rnd.mask 1) + SC.den (rnd.mask 2) ≠ err) (c'' : Config) :
    Falcon.mulMalicious KA KB KC env P rnd s q c'' x y = .error .valueError := by
  obtain ⟨z, h1, h2⟩ := mulReshare3 hs SC hP hx hy hop rnd.mask hm q c''
  unfold Falcon.mulMalicious
  rw [h1, ok_bind]
  exact (C31_verification hs SC hK hP hx hy h2 hop _ err ht).2 (by rw [add_sub_cancel_left]; exact hbad)

/-- an error of 1 in one share of 6 * 7, caught -/
example : (Falcon.mulMalicious (powKit 64) (powKit 64) (powKit 64) exREnv (powKit 64).product
    { mask := fun i => if i = 0 then 6 else if i = 1 then -3 else -2
      triple := exTriple (2 ^ 64) (fun i => BitVec.ofNat 64 i) (fun _ => 4) (fun i => if i = 0 then 30 else 3), trunc := 9 }
    exRSession (2 ^ 64) { encoderPrecision := 0 } (exRep (2 ^ 64) { encoderPrecision := 0 } 10 (-5) 1)
    (exRep (2 ^ 64) { encoderPrecision := 0 } 2 2 3)).toOption.isNone = true := by decide +kernel

example : TripleErr (powSem 64) (powSem 64) (powSem 64) AddMonoidHom.mul exRSession (2 ^ 64)
    (exTriple (2 ^ 64) (fun i => BitVec.ofNat 64 i) (fun _ => 4) (fun i => if i = 0 then 30 else 3)) 0 :=
  exTriple_err _ _ _ _ _ _ _ _ (fun _ => trivial) (fun _ => trivial) (fun _ => trivial) _ (by
    show _ = AddMonoidHom.mul (_ : BitVec 64) (_ : BitVec 64) + 0
    rw [AddMonoidHom.mul_apply]
    decide)

/-- **C30.** With malicious security and a correct triple an honest product is never aborted; its value is the product. -/
theorem C30_honest [DecidableEq A] [DecidableEq B] [DecidableEq C] {env : Env} {s : Session} (hs : s.Three env)
    {KA : RingKit A} {KB : RingKit B} {KC : RingKit C} {SA : RingSem KA.ops RA} {SB : RingSem KB.ops RB}
    (SC : RingSem KC.ops RC) (hK : KitSem KC SC) {P : Product A B C} {β : RA →+ RB →+ RC} (hP : ProdSem SA SB SC P β)
    {x : RMPC A} {y : RMPC B} {q : Nat} {c c' : Config} {v : RA} {w : RB} (hx : x.Is SA s q c v) (hy : y.Is SB s q c' w)
    {k : OpKind} (hop : getOp q P.opStr = .ok k) (rnd : MulRand A B C) (hm : ZeroMask SC rnd.mask)
    (ht : TripleErr SA SB SC β s q rnd.triple 0) (c'' : Config) :
    ∃ z, Falcon.mulMalicious KA KB KC env P rnd s q c'' x y = .ok z ∧ z.Is SC s q (RST.initConfig c'' q) (β v w) := by
  obtain ⟨z, h1, h2⟩ := C29_product hs SC hP hx hy hop rnd.mask hm q c''
  refine ⟨z, ?_, h2⟩
  unfold Falcon.mulMalicious
  rw [h1, ok_bind]
  exact (C31_verification hs SC hK hP hx hy h2 hop _ 0 ht).1 (sub_self _)

/-- the tensor in the session with another security type -/
def RMPC.withSecurity (x : RMPC E) (sec : Security) : RMPC E :=
  { x with session := { x.session with protocol := { x.session.protocol with security := sec } } }

theorem mulShares_security (IC : RingOps C) (env : Env) (P : Product A B C) (mask : Nat → C) (x : RMPC A) (y : RMPC B)
    (sec : Security) :
    Falcon.mulShares IC env P mask (x.withSecurity sec).session (x.withSecurity sec) (y.withSecurity sec)
      = Falcon.mulShares IC env P mask x.session x y := rfl

/-- **C30**, the other half: with a correct triple the malicious protocol returns, share by share, what the semi-honest
protocol returns for the same randomness, also for scaled tensors. -/
theorem C30_same_shares [DecidableEq A] [DecidableEq B] [DecidableEq C] {env : Env} {s : Session} (hs : s.Three env)
    {KA : RingKit A} {KB : RingKit B} {KC : RingKit C} {SA : RingSem KA.ops RA} {SB : RingSem KB.ops RB}
    (SC : RingSem KC.ops RC) (hK : KitSem KC SC) {P : Product A B C} {β : RA →+ RB →+ RC} (hP : ProdSem SA SB SC P β)
    {x : RMPC A} {y : RMPC B} {c c' : Config} {v : RA} {w : RB} (hx : x.Is SA s KC.size c v) (hy : y.Is SB s KC.size c' w)
    {k : OpKind} (hop : getOp KC.size P.opStr = .ok k) (rnd : MulRand A B C) (hm : ZeroMask SC rnd.mask)
    (ht : TripleErr SA SB SC β s KC.size rnd.triple 0) (hsec : s.protocol.security = .malicious) :
    ∃ z z', Falcon.mulMaster KA KB KC env P rnd x y = .ok z ∧
      Falcon.mulMaster KA KB KC env P rnd (x.withSecurity .semiHonest) (y.withSecurity .semiHonest) = .ok z' ∧
      z.shares = z'.shares := by
  obtain ⟨u0, u1, u2, p0, p1, p2, c0, c1, c2, hu, hcc, e0, e1, e2, r0, r1, r2, n0, n1, n2⟩ := three_unpack hs
  obtain ⟨t, hring⟩ := hK.ring
  obtain ⟨z0, z1, z2, hz, v0, v1, v2, -⟩ := mulShares3 hs SC hP hx hy hop rnd.mask hm.1
  obtain ⟨zr, hr0, hr2⟩ := C29_product hs SC hP hx hy hop rnd.mask hm KC.size c
  have hr1 : Falcon.mulMalicious KA KB KC env P rnd s KC.size c x y = .ok zr := by
    unfold Falcon.mulMalicious
    rw [hr0, ok_bind]
    exact (C31_verification hs SC hK hP hx hy hr2 hop _ 0 ht).1 (sub_self _)
  obtain ⟨ps, hp1, hp2, hp3⟩ := first_share hs hx
  have hxs : x.session = s := hx.choose_spec.1.session
  have hys : y.session = s := hy.choose_spec.1.session
  -- the reshared product
  have hzr : zr = ⟨s, [⟨[z0, z1], some u0, RST.initConfig c KC.size, KC.size⟩,
      ⟨[z1, z2], some u1, RST.initConfig c KC.size, KC.size⟩, ⟨[z2, z0], some u2, RST.initConfig c KC.size, KC.size⟩]⟩ := by
    have hh : Falcon.mulReshare KC.ops env P rnd.mask s KC.size c x y = .ok ⟨s,
        [⟨[z0, z1], some u0, RST.initConfig c KC.size, KC.size⟩, ⟨[z1, z2], some u1, RST.initConfig c KC.size, KC.size⟩,
          ⟨[z2, z0], some u2, RST.initConfig c KC.size, KC.size⟩]⟩ := by
      unfold Falcon.mulReshare
      rw [hz, ok_bind, hxs, distribute3 hs hu, ok_bind, rofShares3 hs]
    rw [hr0] at hh
    exact Except.ok.inj hh
  have hraw : ∃ l, ABY3.truncate KC zr s KC.size c rnd.trunc = .ok ⟨s, l⟩ ∧
      ABY3.truncateRaw KC [z0, z1, z2] (x.withSecurity .semiHonest).session KC.size c rnd.trunc
        = .ok ⟨(x.withSecurity .semiHonest).session, l⟩ := by
    have hd : ∀ a b d : C, RST.distributeShares [a, b, d] (x.withSecurity .semiHonest).session KC.size c
        = RST.distributeShares [a, b, d] s KC.size c := by
      intro a b d
      rw [← hxs]; rfl
    have ho : ∀ l : List (RST C), RMPC.ofShares (x.withSecurity .semiHonest).session l
        = (RMPC.ofShares s l).map fun z => ⟨(x.withSecurity .semiHonest).session, z.shares⟩ := by
      intro l
      rw [← hxs]
      unfold RMPC.ofShares RMPC.withSecurity
      dsimp only
      split
      · rfl
      · split <;> rfl
    have hn : (x.withSecurity .semiHonest).session.nrParties = 3 := by
      show x.session.nrParties = 3
      rw [hxs, hs.three]
    by_cases hq : KC.size = 2 ∨ KC.size = primeNumber
    · refine ⟨[⟨[z0, z1], some u0, RST.initConfig c KC.size, KC.size⟩, ⟨[z1, z2], some u1, RST.initConfig c KC.size, KC.size⟩,
        ⟨[z2, z0], some u2, RST.initConfig c KC.size, KC.size⟩], ?_, ?_⟩
      · unfold ABY3.truncate
        rw [if_neg (by rw [hs.three]; simp), if_pos hq, hzr]
        exact rofShares3 hs _ _ _
      · unfold ABY3.truncateRaw
        rw [if_neg (by rw [hn]; simp), if_pos hq, hd, distribute3 hs hu, ok_bind]
        dsimp only
        rw [ho, rofShares3 hs]
        rfl
    · obtain ⟨t0, ht0⟩ : ∃ t0, t0 = KC.shift c z0 := ⟨_, rfl⟩
      obtain ⟨t1, ht1⟩ : ∃ t1, t1 = KC.ops.sub (KC.shift c (KC.ops.add z1 z2)) rnd.trunc := ⟨_, rfl⟩
      refine ⟨[⟨[t0, t1], some u0, RST.initConfig c KC.size, KC.size⟩,
        ⟨[t1, rnd.trunc], some u1, RST.initConfig c KC.size, KC.size⟩,
        ⟨[rnd.trunc, t0], some u2, RST.initConfig c KC.size, KC.size⟩], ?_, ?_⟩
      · unfold ABY3.truncate
        rw [if_neg (by rw [hs.three]; simp), if_neg hq, hzr]
        simp only [pyGet, List.getElem?_cons_zero, List.getElem?_cons_succ, ok_bind, ABY3.truncationAlgorithm1, hring, ← ht0, ← ht1]
        rw [distribute3 hs hu, ok_bind]
        exact rofShares3 hs _ _ _
      · unfold ABY3.truncateRaw
        rw [if_neg (by rw [hn]; simp), if_neg hq]
        simp only [ABY3.truncationAlgorithm1, hring, ← ht0, ← ht1]
        rw [hd, distribute3 hs hu, ok_bind]
        rw [ho, rofShares3 hs]
        rfl
  obtain ⟨l, hl1, hl2⟩ := hraw
  refine ⟨⟨s, l⟩, ⟨(x.withSecurity .semiHonest).session, l⟩, ?_, ?_, rfl⟩
  · unfold Falcon.mulMaster
    rw [hxs, hys, checkPrivate_self, ok_bind, if_neg (by rw [hcc]; simp), hp1, ok_bind, hsec]
    simp only [hp2, hp3, hr1, ok_bind, hl1]
  · unfold Falcon.mulMaster
    have h1 : MPCTensor.checkPrivate (x.withSecurity .semiHonest).session (y.withSecurity .semiHonest).session = .ok () := by
      have : (y.withSecurity .semiHonest).session = (x.withSecurity .semiHonest).session := by
        unfold RMPC.withSecurity; rw [hxs, hys]
      rw [this, checkPrivate_self]
    have h2 : (x.withSecurity .semiHonest).session.parties = [c0, c1, c2] := by
      show x.session.parties = _
      rw [hxs, hcc]
    have h3 : pyGet (x.withSecurity .semiHonest).shares 0 = .ok ps := hp1
    have h4 : (x.withSecurity .semiHonest).session.protocol.security = .semiHonest := rfl
    rw [h1, ok_bind, if_neg (by rw [h2]; simp), h3, ok_bind, h4]
    dsimp only
    rw [mulShares_security, hxs, hz, ok_bind, hp2, hp3, hl2]

/-- a call of `x * y` with malicious security: the operands and the randomness of the product and of the triple that may
have to be generated -/
structure Falcon.MulCall (A B C : Type) where
  x : RMPC A
  y : RMPC B
  mask : Nat → C
  gen : Falcon.RTripleRand A B C
  config : Config

/-- several calls one after the other, with the stores they leave -/
def Falcon.runCalls [DecidableEq A] [DecidableEq B] [DecidableEq C] (KA : RingKit A) (KB : RingKit B) (KC : RingKit C)
    (env : Env) (P : Product A B C) (s : Session) (q : Nat) :
    List (Falcon.MulCall A B C) → Falcon.Triples A B C → Py (List (RMPC C) × Falcon.Triples A B C)
  | [], st => .ok ([], st)
  | c :: cs, st => do
    let (z, st) ← Falcon.mulMaliciousStore KA KB KC env P c.mask c.gen s q c.config c.x c.y st
    let (zs, st) ← Falcon.runCalls KA KB KC env P s q cs st
    return (z :: zs, st)

/-- **C30** for whole runs with the crypto stores and the generation of triples on demand, starting from empty stores: any
sequence of products of well shared operands, whatever is drawn, is carried out without an abort, and every result is the
product of its operands. -/
theorem C30_runs [DecidableEq A] [DecidableEq B] [DecidableEq C] {env : Env} {s : Session} (hs : s.Three env)
    {KA : RingKit A} {KB : RingKit B} {KC : RingKit C} {SA : RingSem KA.ops RA} {SB : RingSem KB.ops RB}
    (SC : RingSem KC.ops RC) (hK : KitSem KC SC) (hne : KC.NonEmpty) {P : Product A B C} {β : RA →+ RB →+ RC}
    (hP : ProdSem SA SB SC P β) {q : Nat} {k : OpKind} (hop : getOp q P.opStr = .ok k)
    (calls : List (Falcon.MulCall A B C)) (vs : List (RA × RB))
    (hc : List.Forall₂ (fun (c : Falcon.MulCall A B C) (vw : RA × RB) => (∃ cx, c.x.Is SA s q cx vw.1) ∧
      (∃ cy, c.y.Is SB s q cy vw.2) ∧ ZeroMask SC c.mask ∧ c.gen.Ok SA SB SC) calls vs) :
    ∃ zs st, Falcon.runCalls KA KB KC env P s q calls (fun _ => []) = .ok (zs, st) ∧
      List.Forall₂ (fun z vw => ∃ cz, z.Is SC s q cz (β vw.1 vw.2)) zs vs := by
  have hgood : Falcon.Triples.Good SA SB SC β s q (fun _ => []) := ⟨0, fun _ _ => rfl, fun i hi => absurd hi (by omega)⟩
  revert hgood
  generalize (fun _ => [] : Falcon.Triples A B C) = st
  intro hgood
  induction hc generalizing st with
  | nil => exact ⟨[], st, rfl, .nil⟩
  | @cons c vw cs vs h _ ih =>
    obtain ⟨⟨cx, hx⟩, ⟨cy, hy⟩, hm, hg⟩ := h
    obtain ⟨z, st', h1, h2, h3⟩ := malicious_store hs SC hK hne hP hx hy hop hm hg hgood c.config
    obtain ⟨zs, st'', h4, h5⟩ := ih st' h3
    refine ⟨z :: zs, st'', ?_, .cons ⟨_, h2⟩ h5⟩
    simp only [Falcon.runCalls, h1, ok_bind, h4, pure_eq_ok]

/-- two products in the example session, from empty stores: each generates its triple -/
example :
    let call (a b : I64) : Falcon.MulCall I64 I64 I64 :=
      { x := exRep (2 ^ 64) {} a 7 (-7), y := exRep (2 ^ 64) {} 1 (-1) b, mask := fun i => if i = 0 then 2 else -1
        gen := ⟨fun i => BitVec.ofNat 64 (i + 5), fun i => BitVec.ofNat 64 (i * 1000), fun i => if i = 0 then 20 else -10⟩
        config := {} }
    ((Falcon.runCalls (powKit 64) (powKit 64) (powKit 64) exREnv (powKit 64).product exRSession (2 ^ 64)
      [call 3 4, call (-5) 6] (fun _ => [])).toOption.map
      fun o => (o.1.map fun z => (z.reconstruct (powOps 64)).toOption)) = some [some 12, some (-30)] := by decide +kernel

/-! ## C22 -/

/-- **C22**, what the sanity check of triple generation does: it raises `ValueError` exactly if *every* position of `c`
differs from `op(a, b)`.  The claim (raise if *some* position differs) is false, see `C22_wrong_triple_accepted`. -/
theorem C22_check_partial {ι : Type} [Fintype ι] [DecidableEq E] {K : RingKit E} {P : Product A B (ι → E)}
    (hK : ∀ a b, K.neAll a b = true ↔ a ≠ b) {KA : RingKit A} {KB : RingKit B} {as : List (RST A)} {bs : List (RST B)}
    {cs : List (RST (ι → E))} {av : A} {bv : B} {cv : ι → E} (ha : RST.reconstructSemiHonest KA.ops as = .ok av)
    (hb : RST.reconstructSemiHonest KB.ops bs = .ok bv) (hc : RST.reconstructSemiHonest (K.tensor ι).ops cs = .ok cv)
    {q : Nat} {k : OpKind} (hop : getOp q P.opStr = .ok k) :
    ((∀ i, cv i ≠ P.op av bv i) → Falcon.checkTriples KA KB (K.tensor ι) P q as bs cs = .error .valueError) ∧
    (¬ (∀ i, cv i ≠ P.op av bv i) → ∃ ts, Falcon.checkTriples KA KB (K.tensor ι) P q as bs cs = .ok ts) := by
  unfold Falcon.checkTriples
  rw [ha, ok_bind, hb, ok_bind, hc, ok_bind, hop, ok_bind]
  have hne : (K.tensor ι).neAll cv (P.op av bv) = true ↔ ∀ i, cv i ≠ P.op av bv i := by
    show decide (∀ i, K.neAll (cv i) (P.op av bv i) = true) = true ↔ _
    rw [decide_eq_true_iff]
    exact forall_congr' fun i => hK _ _
  constructor
  · intro h; rw [if_pos (hne.mpr h)]; rfl
  · intro h; rw [if_neg (fun h' => h (hne.mp h'))]; exact ⟨_, rfl⟩

/-- **C22** is false for the code: a triple of two-element tensors whose first product is wrong passes the check. -/
theorem C22_wrong_triple_accepted :
    ∃ (as bs cs : List (RST (Fin 2 → I64))) (av bv cv : Fin 2 → I64),
      RST.reconstructSemiHonest ((powOps 64).tensor (Fin 2)) as = .ok av ∧
      RST.reconstructSemiHonest ((powOps 64).tensor (Fin 2)) bs = .ok bv ∧
      RST.reconstructSemiHonest ((powOps 64).tensor (Fin 2)) cs = .ok cv ∧ cv 0 ≠ av 0 * bv 0 ∧
      ∃ ts, Falcon.checkTriples ((powKit 64).tensor (Fin 2)) ((powKit 64).tensor (Fin 2)) ((powKit 64).tensor (Fin 2))
        ((powKit 64).tensor (Fin 2)).product (2 ^ 64) as bs cs = .ok ts := by
  have mk : ∀ v : Fin 2 → I64, ∃ l : List (RST (Fin 2 → I64)),
      RST.reconstructSemiHonest ((powOps 64).tensor (Fin 2)) l = .ok v := by
    intro v
    refine ⟨[⟨[v, 0], none, {}, 2 ^ 64⟩, ⟨[0, 0], none, {}, 2 ^ 64⟩, ⟨[0, v], none, {}, 2 ^ 64⟩], ?_⟩
    show Except.ok _ = _
    congr 1
    funext i
    show (v i + 0) + 0 = v i
    simp
  obtain ⟨as, ha⟩ := mk (fun _ => 2)
  obtain ⟨bs, hb⟩ := mk (fun _ => 3)
  obtain ⟨cs, hc⟩ := mk (fun i => if i = 0 then 7 else 6)
  refine ⟨as, bs, cs, _, _, _, ha, hb, hc, by decide, ?_⟩
  exact (C22_check_partial (P := ((powKit 64).tensor (Fin 2)).product) (K := powKit 64) (fun a b => by
    show (a != b) = true ↔ _; simp) (KA := (powKit 64).tensor (Fin 2)) (KB := (powKit 64).tensor (Fin 2)) ha hb hc
    (q := 2 ^ 64) (k := .torch .mul) rfl).2 (fun h => h 1 (by decide))

/-- **C22**: for a triple with a single element the check is what it should be. -/
theorem C22_single_element {ι : Type} [Fintype ι] [Unique ι] [DecidableEq E] {K : RingKit E} {P : Product A B (ι → E)}
    (hK : ∀ a b, K.neAll a b = true ↔ a ≠ b) {KA : RingKit A} {KB : RingKit B} {as : List (RST A)} {bs : List (RST B)}
    {cs : List (RST (ι → E))} {av : A} {bv : B} {cv : ι → E} (ha : RST.reconstructSemiHonest KA.ops as = .ok av)
    (hb : RST.reconstructSemiHonest KB.ops bs = .ok bv) (hc : RST.reconstructSemiHonest (K.tensor ι).ops cs = .ok cv)
    {q : Nat} {k : OpKind} (hop : getOp q P.opStr = .ok k) (hwrong : cv ≠ P.op av bv) :
    Falcon.checkTriples KA KB (K.tensor ι) P q as bs cs = .error .valueError := by
  refine (C22_check_partial hK ha hb hc hop).1 ?_
  intro i h
  apply hwrong
  funext j
  rw [Unique.eq_default j, ← Unique.eq_default i]
  exact h

/-- **C22**, the honest run: the generated triple is consistent and correct in every position, for every ring, every
bi-additive operation and all draws, provided the result has at least one element. -/
theorem C22_generated {env : Env} {s : Session} (hs : s.Three env)
    {KA : RingKit A} {KB : RingKit B} {KC : RingKit C} {SA : RingSem KA.ops RA} {SB : RingSem KB.ops RB}
    {SC : RingSem KC.ops RC} {P : Product A B C} {β : RA →+ RB →+ RC} (hP : ProdSem SA SB SC P β) (hne : KC.NonEmpty)
    (q : Nat) {k : OpKind} (hop : getOp q P.opStr = .ok k) {rnd : Falcon.RTripleRand A B C} (hr : rnd.Ok SA SB SC) :
    ∃ ts, Falcon.getTriples KA KB KC env P s q rnd = .ok ts ∧ ts.length = 3 ∧
      ∃ t, TripleErr SA SB SC β s q t 0 ∧
        ∀ (r : Nat) u, r < 3 → s.rankToUuid[r]? = some u → t u = pyGet ts r := by
  obtain ⟨u0, u1, u2, p0, p1, p2, c0, c1, c2, hu, -⟩ := three_unpack hs
  obtain ⟨sa, sb, sc, c, va, vb, vc, hg, herr⟩ := getTriples3 hs hu hP hne q hop hr
  have hnd := hs.distinct
  rw [hu] at hnd
  simp only [List.nodup_cons, List.mem_cons, List.not_mem_nil, or_false, not_or, not_false_eq_true, and_true,
    List.nodup_nil] at hnd
  obtain ⟨⟨h01, h02⟩, h12⟩ := hnd
  refine ⟨_, hg, rfl, fun u => if u = u0 then .ok (tripleAt q u0 c sa sb sc 0) else if u = u1 then
    .ok (tripleAt q u1 c sa sb sc 1) else .ok (tripleAt q u2 c sa sb sc 2), ?_, ?_⟩
  · refine ⟨sa, sb, sc, c, c, c, va, vb, vc, ?_, by rw [herr, add_zero]⟩
    intro r hr u hr'
    rw [hu] at hr'
    obtain rfl | rfl | rfl : r = 0 ∨ r = 1 ∨ r = 2 := by omega
    · obtain rfl : u0 = u := by simpa using hr'
      simp only [if_true]; rfl
    · obtain rfl : u1 = u := by simpa using hr'
      simp only [if_true, Ne.symm h01, if_false]; rfl
    · obtain rfl : u2 = u := by simpa using hr'
      simp only [Ne.symm h02, Ne.symm h12, if_false]; rfl
  · intro r u hr hr'
    rw [hu] at hr'
    obtain rfl | rfl | rfl : r = 0 ∨ r = 1 ∨ r = 2 := by omega
    · obtain rfl : u0 = u := by simpa using hr'
      simp only [if_true]; rfl
    · obtain rfl : u1 = u := by simpa using hr'
      simp only [if_true, Ne.symm h01, if_false]; rfl
    · obtain rfl : u2 = u := by simpa using hr'
      simp only [Ne.symm h02, Ne.symm h12, if_false]; rfl

/-- **C22**, the edge: triples with no element at all are always rejected, so products of empty tensors with malicious
security raise. -/
theorem C22_empty_rejected {ι : Type} [Fintype ι] [IsEmpty ι] {K : RingKit E} {P : Product A B (ι → E)} {KA : RingKit A}
    {KB : RingKit B} {as : List (RST A)} {bs : List (RST B)} {cs : List (RST (ι → E))} {av : A} {bv : B} {cv : ι → E}
    (ha : RST.reconstructSemiHonest KA.ops as = .ok av) (hb : RST.reconstructSemiHonest KB.ops bs = .ok bv)
    (hc : RST.reconstructSemiHonest (K.tensor ι).ops cs = .ok cv) {q : Nat} {k : OpKind} (hop : getOp q P.opStr = .ok k) :
    Falcon.checkTriples KA KB (K.tensor ι) P q as bs cs = .error .valueError := by
  unfold Falcon.checkTriples
  rw [ha, ok_bind, hb, ok_bind, hc, ok_bind, hop, ok_bind]
  have : (K.tensor ι).neAll cv (P.op av bv) = true := decide_eq_true_iff.mpr fun i => (IsEmpty.false i).elim
  rw [if_pos this]
  rfl

/-! ## C54 -/

/-- **C54.** `x ^ y` of two shared bits that are not scaled: the opened result is the xor, in every ring (`2 = 0` is asked
of the ring only if its size is 2). -/
theorem C54_private [DecidableEq E] {env : Env} {s : Session} (hs : s.Three env) {K : RingKit E} {S : RingSem K.ops R}
    (hK : KitSem K S) (h2 : K.size = 2 → (2 : R) = 0) {x y : RMPC E} {a b : Bool}
    (hx : x.Plain S s K.size (if a then 1 else 0)) (hy : y.Plain S s K.size (if b then 1 else 0)) {rnd : MulRand E E E}
    (hrnd : rnd.Ok S S S AddMonoidHom.mul s K.size) (r : E) (hr : S.Valid r) :
    ∃ z, RMPC.xorPrivate K env rnd r x y = .ok z ∧ z.reconstruct K.ops = .ok (K.ofBool (a ^^ b)) := by
  obtain ⟨z, h1, h2'⟩ := plain_xor hs hK hx hy hrnd r hr
  obtain ⟨e, h3, h4, h5⟩ := plain_reconstruct hs h2'
  refine ⟨z, h1, ?_⟩
  rw [h3]
  congr 1
  apply S.inj _ _ h4 (hK.ofBool _).1
  rw [h5, (hK.ofBool _).2, xorVal_bits h2]

/-- **C54** with a public bit. -/
theorem C54_public [DecidableEq E] {env : Env} {s : Session} (hs : s.Three env) {K : RingKit E} {S : RingSem K.ops R}
    (hK : KitSem K S) (h2 : K.size = 2 → (2 : R) = 0) {x : RMPC E} {a : Bool}
    (hx : x.Plain S s K.size (if a then 1 else 0)) (b : Bool) :
    ∃ z, RMPC.xorPublic K env x (.int (if b then 1 else 0)) = .ok z ∧ z.reconstruct K.ops = .ok (K.ofBool (a ^^ b)) := by
  have hb : (FixedPointEncoder.Val.int (if b then 1 else 0)).IntIs K.size (if b then 1 else 0) :=
    ⟨.inl rfl, fun _ => by cases b <;> simp⟩
  obtain ⟨z, h1, h2'⟩ := plain_xorPublic hs hK hx hb
  obtain ⟨e, h3, h4, h5⟩ := plain_reconstruct hs h2'
  refine ⟨z, h1, ?_⟩
  rw [h3]
  congr 1
  apply S.inj _ _ h4 (hK.ofBool _).1
  have : ((if b then 1 else 0 : Int) : R) = if b then 1 else 0 := by cases b <;> simp
  rw [h5, (hK.ofBool _).2, this, xorVal_bits h2]

/-- the three kinds of rings meet the hypotheses of C54 -/
example : (2 : ZMod 2) = 0 := by decide
example : KitSem binKit binSem ∧ KitSem primeKit primeSem ∧ KitSem (powKit 64) (powSem 64) :=
  ⟨binKitSem, primeKitSem, powKitSem 64 (by simp)⟩
example : (RMPC.xorPublic primeKit exREnv (exRep 67 { encoderBase := 1, encoderPrecision := 0 } 60 4 4) (.int 1)).toOption.map
    (fun z => (z.reconstruct primeOps).toOption) = some (some 0) := by decide +kernel

/-- **C54** does not extend to scaled tensors: with the default precision of 16 bits, the bit 1 xor the public bit 1 opens
to `2 - 2**33`, not 0 (the product `self * y * 2` of shares is never truncated). -/
theorem C54_scaled_public_wrong :
    (RMPC.xorPublic (powKit 64) exREnv (exRep (2 ^ 64) {} 65536 0 0) (.int 1)).toOption.map
      (fun z => (z.reconstruct (powOps 64)).toOption.map BitVec.toInt) = some (some (2 * 65536 - 2 ^ 33 * 65536)) := by
  decide +kernel

end SyMPC
