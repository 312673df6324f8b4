import Verif.Lemmas.Compare
import Verif.Props.Falcon

/-!
# C33, C34, C35, C36, C42: conversions between bits and numbers, comparison, selection and powers
-/

namespace SyMPC

variable {E R ι : Type} [CommRing R] [Fintype ι]

/-! ## Concrete randomness for the examples -/

/-- zero masks and a triple of zeros -/
def exMul (K : RingKit E) : MulRand E E E where
  mask _ := K.ofBool false
  triple := exTriple K.size (fun _ => K.ofBool false) (fun _ => K.ofBool false) (fun _ => K.ofBool false)
  trunc := K.ofBool false

theorem exMul_ok {K : RingKit E} {S : RingSem K.ops R} (hK : KitSem K S) :
    (exMul K).Ok S S S AddMonoidHom.mul exRSession K.size := by
  have h0 := hK.ofBool false
  have h0' : S.den (K.ofBool false) = 0 := by rw [h0.2]; simp
  exact ⟨⟨fun _ => h0.1, by show S.den (K.ofBool false) + S.den (K.ofBool false) + S.den (K.ofBool false) = 0; simp [h0']⟩,
    h0.1, fun _ => exTriple_err S S S _ K.size _ _ _ (fun _ => h0.1) (fun _ => h0.1) (fun _ => h0.1) 0 (by simp [h0'])⟩

/-! ## C33 -/

/-- **C33.** `ABY3.bit_injection` of a tensor of shared bits into a ring: for all consistent sharings and all masks and
triples of the two products, no step fails, and every element of the opened result is 1 where the bit is set and 0 where it
is not. -/
theorem C33_injection [DecidableEq E] {env : Env} {s : Session} (hs : s.Three env) {K : RingKit E} {S : RingSem K.ops R}
    (hK : KitSem K S) (h2 : K.size = 2 → (2 : R) = 0) {x : RMPC (ι → Bool)} {v : ι → Bool} (hx : x.Bits s v)
    {rnd1 rnd2 : ABY3.XorRand (ι → E)}
    (k1 : rnd1.mul.Ok (S.tensor ι) (S.tensor ι) (S.tensor ι) AddMonoidHom.mul s K.size) (k1' : (S.tensor ι).Valid rnd1.trunc)
    (k2 : rnd2.mul.Ok (S.tensor ι) (S.tensor ι) (S.tensor ι) AddMonoidHom.mul s K.size)
    (k2' : (S.tensor ι).Valid rnd2.trunc) :
    x.reconstruct (binOps.tensor ι) = .ok v ∧
    ∃ z, ABY3.bitInjection (K.tensor ι) (fun t j => K.ofBool (t j)) env rnd1 rnd2 x s = .ok z ∧
      z.reconstruct (K.ops.tensor ι) = .ok (fun j => K.ofBool (v j)) ∧
      z.Plain (S.tensor ι) s K.size (fun j => if v j then 1 else 0) := by
  obtain ⟨z, h3, h4⟩ := injection_bits (env := env) hs hK h2 hx k1 k1' k2 k2'
  obtain ⟨e, h5, h6, h7⟩ := plain_reconstruct hs h4
  refine ⟨bits_reconstruct hs hx, z, h3, ?_, h4⟩
  rw [h5]
  congr 1
  apply (S.tensor ι).inj _ _ h6 (fun j => (hK.ofBool _).1)
  rw [h7]
  funext j
  exact ((hK.ofBool (v j)).2).symm

omit [Fintype ι] in
/-- **C33.** A tensor that is not in the bit ring is refused. -/
theorem C33_not_a_bit [DecidableEq E] (K : RingKit E) (cast : (ι → Bool) → E) (env : Env) (rnd1 rnd2 : ABY3.XorRand E)
    (x : RMPC (ι → Bool)) (s : Session) {p : RST (ι → Bool)} (hp : x.shares[0]? = some p) (hq : p.ringSize ≠ 2) :
    ABY3.bitInjection K cast env rnd1 rnd2 x s = .error .valueError := by
  unfold ABY3.bitInjection
  rw [show pyGet x.shares 0 = .ok p by simp [pyGet, hp], ok_bind, if_pos hq]
  rfl

/-- the rings of the session and the prime ring meet the hypotheses -/
example : KitSem primeKit primeSem ∧ ((powKit 64).size = 2 → (2 : BitVec 64) = 0) ∧ (primeKit.size = 2 → (2 : ZMod 67) = 0) :=
  ⟨primeKitSem, fun h => absurd h (by decide), fun h => absurd h (by decide)⟩
example : ((exMul (primeKit.tensor (Fin 2))).Ok (primeSem.tensor (Fin 2)) (primeSem.tensor (Fin 2)) (primeSem.tensor (Fin 2))
    AddMonoidHom.mul exRSession 67) := exMul_ok (primeKitSem.tensor (Fin 2))
/-- the bits of a two-element tensor, moved to the prime ring -/
example : (ABY3.bitInjection (primeKit.tensor (Fin 2)) (fun t j => primeKit.ofBool (t j)) exREnv
    ⟨exMul (primeKit.tensor (Fin 2)), fun _ => 0⟩ ⟨exMul (primeKit.tensor (Fin 2)), fun _ => 0⟩
    (exRep 2 { encoderBase := 1, encoderPrecision := 0 } (fun j : Fin 2 => j == 0) (fun _ => true) (fun _ => true))
    exRSession).toOption.map (fun z => (z.reconstruct (primeOps.tensor (Fin 2))).toOption.map fun t => (t 0, t 1))
    = some (some (1, 0)) := by decide +kernel

/-! ## C34 -/

/-- **C34.** `ABY3.bit_decomposition` of a shared tensor in the ring of the session, for every ring width `w`, all
consistent sharings and all masks and triples of the products in the two adders: no step fails, there is one shared bit
per bit of the ring, and bit `i` opens to bit `i` of the number the tensor opens to. -/
theorem C34_decomposition {w : Nat} {env : Env} {s : Session} (hs : s.Three env) (hw : s.ringSize = 2 ^ w)
    (hp : ∀ u ∈ s.rankToUuid, ∀ p, env u = some p → p.ringSize = 2 ^ w)
    {rnd1 rnd2 : Nat → MulRand (ι → Bool) (ι → Bool) (ι → Bool) × MulRand (ι → Bool) (ι → Bool) (ι → Bool)}
    (h1 : ∀ i < w, BitRand s (rnd1 i).1 ∧ BitRand s (rnd1 i).2) (h2 : ∀ i < w, BitRand s (rnd2 i).1 ∧ BitRand s (rnd2 i).2)
    {x : RMPC (ι → BitVec w)} {c : Config} {v : ι → BitVec w} (hx : x.Is ((powSem w).tensor ι) s (2 ^ w) c v) :
    x.reconstruct ((powOps w).tensor ι) = .ok v ∧
    ∃ l, ABY3.bitDecomposition env rnd1 rnd2 x s = .ok l ∧ l.length = w ∧
      ∀ i < w, ∃ z, l[i]? = some z ∧ z.reconstruct (binOps.tensor ι) = .ok (fun j => (v j).getLsbD i) := by
  obtain ⟨e, e1, -, e2⟩ := is_reconstruct hs hx
  obtain ⟨l, h3, h4, h5⟩ := decomposition3 hs hw hp h1 h2 hx
  refine ⟨by rw [e1]; exact congrArg _ e2, l, h3, h4, ?_⟩
  intro i hi
  obtain ⟨z, z1, z2⟩ := h5 i hi
  exact ⟨z, z1, bits_reconstruct hs z2⟩

/-- **C34**, refusals: a tensor without a session, and one of a session without exactly three parties, is refused with `ValueError`. -/
theorem C34_refused {ι : Type} {w : Nat} {E : Type} (zero : E) (cast : (ι → Bool) → E) (env : Env) (q : Nat) (x : RST (ι → BitVec w))
    (hx : x.sessionUuid = none ∨ ∃ u p, x.sessionUuid = some u ∧ env u = some p ∧ p.nrParties ≠ 3) :
    ABY3.localDecompositionBits zero cast env q x = .error .valueError := by
  unfold ABY3.localDecompositionBits ABY3.decompositionSession
  rcases hx with h | ⟨u, p, h1, h2, h3⟩
  · rw [h]
    rfl
  · rw [h1]
    dsimp only
    rw [h2]
    dsimp only
    rw [if_pos h3]
    rfl

/-- a tensor without a session, and one of a session with two parties -/
example : (RST.new [fun _ : Fin 1 => 5#64] none {} (2 ^ 64)).sessionUuid = none ∧
    ∃ u p, (RST.new [fun _ : Fin 1 => 5#64] (some 100) {} (2 ^ 64)).sessionUuid = some u ∧
      (fun u => (exREnv u).map fun p => { p with nrParties := 2 } : Env) u = some p ∧ p.nrParties ≠ 3 :=
  ⟨rfl, 100, _, rfl, rfl, by simp⟩

/-- **C34** for the decomposition by a trusted third party (`bit_decomposition_ttp`). -/
theorem C34_ttp {w : Nat} {env : Env} {s : Session} (hs : s.Three env) (hw : s.ringSize = 2 ^ w) (r1 r2 : Nat → ι → Bool)
    {x : RMPC (ι → BitVec w)} {c : Config} {v : ι → BitVec w} (hx : x.Is ((powSem w).tensor ι) s (2 ^ w) c v) :
    x.reconstruct ((powOps w).tensor ι) = .ok v ∧
    ∃ l, ABY3.bitDecompositionTtp r1 r2 x s = .ok l ∧ l.length = w ∧
      ∀ i < w, ∃ z, l[i]? = some z ∧ z.reconstruct (binOps.tensor ι) = .ok (fun j => (v j).getLsbD i) := by
  obtain ⟨e, e1, -, e2⟩ := is_reconstruct hs hx
  obtain ⟨l, h3, h4, h5⟩ := ttp3 hs hw r1 r2 hx
  refine ⟨by rw [e1]; exact congrArg _ e2, l, h3, h4, ?_⟩
  intro i hi
  obtain ⟨z, z1, z2⟩ := h5 i hi
  exact ⟨z, z1, bits_reconstruct hs z2⟩

/-- the example session has the ring 2^64 at every party; a sharing of -3 with a long carry chain -/
example : exRSession.ringSize = 2 ^ 64 ∧ (∀ u ∈ exRSession.rankToUuid, ∀ p, exREnv u = some p → p.ringSize = 2 ^ 64) := by
  refine ⟨rfl, ?_⟩
  intro u hu p hp
  simp [exRSession] at hu
  rcases hu with rfl | rfl | rfl <;> (obtain rfl := Option.some.inj hp; rfl)
example : (ABY3.bitDecompositionTtp (w := 64) (fun i _ => i % 3 == 0) (fun i _ => i % 2 == 0)
    (exRep (2 ^ 64) {} (fun _ : Fin 1 => (-1 : I64)) (fun _ => -1) (fun _ => -1)) exRSession).toOption.map
    (fun l => (l.length, (l.take 4).map fun z => (z.reconstruct (binOps.tensor (Fin 1))).toOption.map fun t => t 0))
    = some (64, [some true, some false, some true, some true]) := by decide +kernel

/-! ## C35 -/

/-- **C35**, what holds.  `Falcon.private_compare(xs, r)` where `xs` are `n ≤ 64` shared bits (lowest first) of a number
`X`, in the prime ring, and `r` is a public tensor: for all consistent sharings and all draws, no step fails, and the
opened bit is `X > r` if they differ (`r` taken modulo `2^n`).  For `X = r` the opened bit is the complement of the drawn
bit; the full claim (the bit is `X >= r` whatever is drawn) is refuted in `C35_depends_on_draw`. -/
theorem C35_compare_partial {env : Env} {s : Session} (hs : s.Three env) {xs : List (RMPC (ι → BitVec 8))}
    (hn0 : 0 < xs.length) (hn : xs.length ≤ 64) {rnd : Falcon.CompareRand (BitVec 8) ι} (hr : rnd.Ok s xs.length)
    {X : ι → Nat} (hX : ∀ j, X j < 2 ^ xs.length) (r : ι → I64)
    (hx : ∀ k < xs.length, ∃ t, xs[k]? = some t ∧
      t.Plain (primeSem.tensor ι) s 67 (fun j => if (X j).testBit k then 1 else 0)) :
    ∃ z t, Falcon.privateCompare primeKit env rnd xs r = .ok z ∧ z.reconstruct (binOps.tensor ι) = .ok t ∧
      ∀ j, ((r j).toNat % 2 ^ xs.length < X j → t j = true) ∧ (X j < (r j).toNat % 2 ^ xs.length → t j = false) ∧
        (X j = (r j).toNat % 2 ^ xs.length → t j = !(rnd.bit 0 j ^^ rnd.bit 1 j ^^ rnd.bit 2 j)) := by
  obtain ⟨z, h1, h2⟩ := compare3 hs hn0 hn hr hX r hx
  refine ⟨z, _, h1, bits_reconstruct hs h2, ?_⟩
  intro j
  refine ⟨fun h => ?_, fun h => ?_, fun h => ?_⟩
  · cases rnd.beta j <;> simp <;> omega
  · cases rnd.beta j <;> simp <;> omega
  · show _ = !rnd.beta j
    cases rnd.beta j <;> simp <;> omega

/-- **C35.** An empty list of bits raises. -/
theorem C35_empty (env : Env) (rnd : Falcon.CompareRand (BitVec 8) ι) (r : ι → I64) :
    Falcon.privateCompare primeKit env rnd [] r = .error .indexError := compare_empty env rnd r

/-- **C35** put together with the decomposition: a shared number of the session's ring, decomposed, its bits injected into
the prime ring one by one, compared with a public tensor; the numbers are compared as unsigned numbers. -/
theorem C35_decomposed_partial {w : Nat} (hw0 : 0 < w) (hw64 : w ≤ 64) {env : Env} {s : Session} (hs : s.Three env)
    (hw : s.ringSize = 2 ^ w) (hp : ∀ u ∈ s.rankToUuid, ∀ p, env u = some p → p.ringSize = 2 ^ w)
    {rnd1 rnd2 : Nat → MulRand (ι → Bool) (ι → Bool) (ι → Bool) × MulRand (ι → Bool) (ι → Bool) (ι → Bool)}
    (h1 : ∀ i < w, BitRand s (rnd1 i).1 ∧ BitRand s (rnd1 i).2) (h2 : ∀ i < w, BitRand s (rnd2 i).1 ∧ BitRand s (rnd2 i).2)
    {inj1 inj2 : Nat → ABY3.XorRand (ι → BitVec 8)}
    (k1 : ∀ i, (inj1 i).mul.Ok (primeSem.tensor ι) (primeSem.tensor ι) (primeSem.tensor ι) AddMonoidHom.mul s 67 ∧
      (primeSem.tensor ι).Valid (inj1 i).trunc)
    (k2 : ∀ i, (inj2 i).mul.Ok (primeSem.tensor ι) (primeSem.tensor ι) (primeSem.tensor ι) AddMonoidHom.mul s 67 ∧
      (primeSem.tensor ι).Valid (inj2 i).trunc)
    {rnd : Falcon.CompareRand (BitVec 8) ι} (hr : rnd.Ok s w)
    {x : RMPC (ι → BitVec w)} {c : Config} {v : ι → BitVec w} (hx : x.Is ((powSem w).tensor ι) s (2 ^ w) c v) (r : ι → I64) :
    ∃ t : ι → Bool, (do
        let bits ← ABY3.bitDecomposition env rnd1 rnd2 x s
        let xs ← (List.range w).mapM fun i => do
          ABY3.bitInjection (primeKit.tensor ι) (fun (t : ι → Bool) j => primeKit.ofBool (t j)) env (inj1 i) (inj2 i) (← pyGet bits i) s
        let z ← Falcon.privateCompare primeKit env rnd xs r
        z.reconstruct (binOps.tensor ι)) = .ok t ∧
      ∀ j, ((r j).toNat % 2 ^ w < (v j).toNat → t j = true) ∧ ((v j).toNat < (r j).toNat % 2 ^ w → t j = false) := by
  obtain ⟨l, l1, l2, l3⟩ := decomposition3 hs hw hp h1 h2 hx
  have hinj : ∀ i : Nat, ∃ z, i < w → (pyGet l i >>= fun b => ABY3.bitInjection (primeKit.tensor ι)
      (fun t j => primeKit.ofBool (t j)) env (inj1 i) (inj2 i) b s) = .ok z ∧
      z.Plain (primeSem.tensor ι) s 67 (fun j => if (v j).toNat.testBit i then 1 else 0) := by
    intro i
    by_cases hi : i < w
    · obtain ⟨b, b1, b2⟩ := l3 i hi
      obtain ⟨z, z1, z2⟩ := injection_bits (env := env) (K := primeKit) hs primeKitSem (fun h => absurd h (by decide)) b2
        (k1 i).1 (k1 i).2 (k2 i).1 (k2 i).2
      exact ⟨z, fun _ => ⟨by rw [show pyGet l i = .ok b by simp [pyGet, b1], ok_bind, z1], z2⟩⟩
    · exact ⟨⟨s, []⟩, fun h => absurd h hi⟩
  choose zs hzs using hinj
  have hlen : ((List.range w).map zs).length = w := by simp
  obtain ⟨z, t, z1, z2, z3⟩ := C35_compare_partial (xs := (List.range w).map zs) hs (by rw [hlen]; exact hw0)
    (by rw [hlen]; exact hw64) (by rw [hlen]; exact hr) (X := fun j => (v j).toNat)
    (fun j => by rw [hlen]; exact (v j).isLt) r (fun k hk => by
      rw [hlen] at hk
      exact ⟨zs k, by simp [hk], (hzs k hk).2⟩)
  rw [hlen] at z3
  refine ⟨t, ?_, fun j => ⟨(z3 j).1, (z3 j).2.1⟩⟩
  rw [l1, ok_bind, mapM_ok _ zs _ (fun i hi => (hzs i (by simpa using hi)).1), ok_bind, z1, ok_bind]
  exact z2

theorem prime_valid {a : BitVec 8} (h : a.toNat < 67) : primeSem.Valid a := h

/-- draws for the comparison of one-element tensors; the two parts of the random bit are `b` and 0, the multiplier is 1 -/
def exCompare (b : Bool) : Falcon.CompareRand (BitVec 8) (Fin 1) where
  bit i _ := i == 0 && b
  inj1 := ⟨exMul (primeKit.tensor (Fin 1)), fun _ => 0⟩
  inj2 := ⟨exMul (primeKit.tensor (Fin 1)), fun _ => 0⟩
  group := [⟨fun i => if i = 0 then 1 else 0, fun _ => exMul (primeKit.tensor (Fin 1))⟩]
  round _ := ⟨fun _ => 0, fun _ => 0, exMul (primeKit.tensor (Fin 1)), fun _ => exMul (primeKit.tensor (Fin 1)),
    exMul (primeKit.tensor (Fin 1))⟩

theorem exCompare_ok (b : Bool) (n : Nat) : (exCompare b).Ok exRSession n where
  inj1 := exMul_ok (primeKitSem.tensor (Fin 1))
  inj1' := fun _ => prime_valid (a := 0) (by decide)
  inj2 := exMul_ok (primeKitSem.tensor (Fin 1))
  inj2' := fun _ => prime_valid (a := 0) (by decide)
  group g hg := by
    obtain rfl : g = ⟨fun i => if i = 0 then 1 else 0, fun _ => exMul (primeKit.tensor (Fin 1))⟩ := by simpa [exCompare] using hg
    exact ⟨fun i => by dsimp only; split <;> exact prime_valid (by decide), fun _ => exMul_ok (primeKitSem.tensor (Fin 1))⟩
  nonzero := ⟨_, List.mem_singleton.mpr rfl, by decide⟩
  round k _ := ⟨fun _ => prime_valid (a := 0) (by decide), fun _ => prime_valid (a := 0) (by decide), exMul_ok (primeKitSem.tensor (Fin 1)),
    fun _ => exMul_ok (primeKitSem.tensor (Fin 1)), exMul_ok (primeKitSem.tensor (Fin 1))⟩

/-- a shared bit of the prime ring -/
def exPrimeBit (b : Bool) : RMPC (Fin 1 → BitVec 8) :=
  exRep 67 { encoderBase := 1, encoderPrecision := 0 } (fun _ => if b then 41 else 40) (fun _ => 20) (fun _ => 7)

theorem exPrimeBit_plain (b : Bool) : (exPrimeBit b).Plain (primeSem.tensor (Fin 1)) exRSession 67
    (fun _ => if b then 1 else 0) := by
  refine ⟨{ encoderBase := 1, encoderPrecision := 0 }, .inr (.inr rfl), ?_⟩
  have h := exRep_is (primeSem.tensor (Fin 1)) 67 { encoderBase := 1, encoderPrecision := 0 }
    (fun _ => if b then 41 else 40) (fun _ => 20) (fun _ => 7) 
    (fun _ => by cases b; exacts [prime_valid (a := 40) (by decide), prime_valid (a := 41) (by decide)])
    (fun _ => prime_valid (a := 20) (by decide)) (fun _ => prime_valid (a := 7) (by decide))
  have e : (fun _ : Fin 1 => if b then (1 : ZMod 67) else 0) = (primeSem.tensor (Fin 1)).den (fun _ => if b then 41 else 40)
      + (primeSem.tensor (Fin 1)).den (fun _ => 20) + (primeSem.tensor (Fin 1)).den (fun _ => 7) := by
    funext j
    show _ = primeSem.den (if b then 41 else 40) + primeSem.den 20 + primeSem.den 7
    cases b <;> decide
  exact e ▸ h

/-- The claim of **C35** does not hold for `x = r`: with the same shared bits of the number 1 and the same public number 1,
two draws of the random bit, which both meet the conditions on the randomness, give different results. -/
theorem C35_depends_on_draw :
    (exCompare false).Ok exRSession 2 ∧ (exCompare true).Ok exRSession 2 ∧
    (Falcon.privateCompare primeKit exREnv (exCompare false) [exPrimeBit true, exPrimeBit false] (fun _ => 1)).toOption.map
      (fun z => (z.reconstruct (binOps.tensor (Fin 1))).toOption.map fun t => t 0) = some (some true) ∧
    (Falcon.privateCompare primeKit exREnv (exCompare true) [exPrimeBit true, exPrimeBit false] (fun _ => 1)).toOption.map
      (fun z => (z.reconstruct (binOps.tensor (Fin 1))).toOption.map fun t => t 0) = some (some false) := by
  have hx : ∀ k < 2, ∃ t, [exPrimeBit true, exPrimeBit false][k]? = some t ∧
      t.Plain (primeSem.tensor (Fin 1)) exRSession 67 (fun _ => if (1 : Nat).testBit k then 1 else 0) := by
    intro k hk
    obtain rfl | rfl : k = 0 ∨ k = 1 := by omega
    · exact ⟨_, rfl, exPrimeBit_plain true⟩
    · exact ⟨_, rfl, exPrimeBit_plain false⟩
  refine ⟨exCompare_ok false 2, exCompare_ok true 2, ?_, ?_⟩
  · obtain ⟨z, t, h1, h2, h3⟩ := C35_compare_partial exRThree (xs := [exPrimeBit true, exPrimeBit false]) (by decide) (by decide)
      (exCompare_ok false 2) (X := fun _ => 1) (fun _ => by decide) (fun _ => 1) hx
    rw [h1]
    simp only [Except.toOption, Option.map_some, h2]
    rw [(h3 0).2.2 (by decide)]
    rfl
  · obtain ⟨z, t, h1, h2, h3⟩ := C35_compare_partial exRThree (xs := [exPrimeBit true, exPrimeBit false]) (by decide) (by decide)
      (exCompare_ok true 2) (X := fun _ => 1) (fun _ => by decide) (fun _ => 1) hx
    rw [h1]
    simp only [Except.toOption, Option.map_some, h2]
    rw [(h3 0).2.2 (by decide)]
    rfl

/-! ## C36 -/

/-- **C36.** `Falcon.select_shares(x, y, b)` in the ring of the session: for all consistent sharings of tensors `x`, `y`
(with any scale) and of a bit tensor `b`, and all draws, no step fails, and each element of the opened result is the element
of `y` where the bit is set and the element of `x` where it is not; the scale of the result is that of `x`. -/
theorem C36_select [DecidableEq E] {env : Env} {s : Session} (hs : s.Three env) {K : RingKit E} {S : RingSem K.ops R}
    (hK : KitSem K S) (h2 : K.size = 2 → (2 : R) = 0) {rnd : Falcon.SelectRand E ι} (hr : rnd.Ok S s)
    {x y : RMPC (ι → E)} {c c' : Config} {v w : ι → E} (hv : (S.tensor ι).Valid v) (hw : (S.tensor ι).Valid w)
    (hx : x.Is (S.tensor ι) s K.size c ((S.tensor ι).den v)) (hy : y.Is (S.tensor ι) s K.size c' ((S.tensor ι).den w))
    {b : RMPC (ι → Bool)} {sel : ι → Bool} (hb : b.Bits s sel) :
    x.reconstruct (K.ops.tensor ι) = .ok v ∧ y.reconstruct (K.ops.tensor ι) = .ok w ∧
    b.reconstruct (binOps.tensor ι) = .ok sel ∧
    ∃ z, Falcon.selectShares K env rnd x y b = .ok z ∧
      z.reconstruct (K.ops.tensor ι) = .ok (fun j => if sel j then w j else v j) ∧
      ∀ p ∈ z.shares, p.config = RST.initConfig c K.size ∧ p.ringSize = K.size := by
  have open_ : ∀ {x : RMPC (ι → E)} {c : Config} {v : ι → E}, (S.tensor ι).Valid v →
      x.Is (S.tensor ι) s K.size c ((S.tensor ι).den v) → x.reconstruct (K.ops.tensor ι) = .ok v := by
    intro x c v hv hx
    obtain ⟨e, e1, e2, e3⟩ := is_reconstruct hs hx
    rw [e1]
    exact congrArg _ ((S.tensor ι).inj _ _ e2 hv e3)
  obtain ⟨z, z1, z2⟩ := select3 (env := env) hs hK h2 hr hx hy hb
  refine ⟨open_ hv hx, open_ hw hy, bits_reconstruct hs hb, z, z1, ?_, ?_⟩
  · refine open_ (c := RST.initConfig c K.size) (fun j => ?_) ?_
    · show S.Valid (if sel j then w j else v j); split; exacts [hw j, hv j]
    · have : (fun j => if sel j then (S.tensor ι).den w j else (S.tensor ι).den v j)
          = (S.tensor ι).den (fun j => if sel j then w j else v j) := by
        funext j; show _ = S.den (if sel j then w j else v j); split <;> rfl
      rw [← this]; exact z2
  · obtain ⟨u0, u1, u2, p0, p1, p2, c0, c1, c2, hu, -⟩ := three_unpack hs
    obtain ⟨a, b, d, rfl, -⟩ := is_unpack hu z2
    simp

/-- **C36.** A selector that is not in the bit ring is refused. -/
theorem C36_selector_ring [DecidableEq E] (K : RingKit E) (env : Env) (rnd : Falcon.SelectRand E ι) (x y : RMPC (ι → E))
    (b : RMPC (ι → Bool)) {p : RST (ι → Bool)} (hp : b.shares[0]? = some p) (hq : p.ringSize ≠ 2) :
    Falcon.selectShares K env rnd x y b = .error .valueError := by
  unfold Falcon.selectShares
  rw [show pyGet b.shares 0 = .ok p by simp [pyGet, hp], ok_bind, if_pos hq]
  rfl

/-- draws of a selection -/
def exSelect (K : RingKit E) : Falcon.SelectRand E (Fin 2) where
  bit i j := i == 1 && j == 0
  inj1 := ⟨exMul (K.tensor (Fin 2)), fun _ => K.ofBool false⟩
  inj2 := ⟨exMul (K.tensor (Fin 2)), fun _ => K.ofBool false⟩
  m1 _ := K.ofBool true
  m2 _ := K.ofBool true
  m3 _ := K.ofBool false
  mul := exMul (K.tensor (Fin 2))

example : (exSelect (powKit 64)).Ok (K := powKit 64) (powSem 64) exRSession where
  inj1 := exMul_ok ((powKitSem 64 (by simp)).tensor (Fin 2))
  inj1' := fun _ => trivial
  inj2 := exMul_ok ((powKitSem 64 (by simp)).tensor (Fin 2))
  inj2' := fun _ => trivial
  m1 := fun _ => trivial
  m2 := fun _ => trivial
  m3 := fun _ => trivial
  mul := exMul_ok ((powKitSem 64 (by simp)).tensor (Fin 2))
example : (Falcon.selectShares (powKit 64) exREnv (exSelect (powKit 64))
    (exRep (2 ^ 64) {} (fun j : Fin 2 => if j = 0 then 5 else 6) (fun _ => -100) (fun _ => 100))
    (exRep (2 ^ 64) {} (fun j : Fin 2 => if j = 0 then 7 else 8) (fun _ => -10) (fun _ => 10))
    (exRep 2 { encoderBase := 1, encoderPrecision := 0 } (fun j : Fin 2 => j == 0) (fun _ => true) (fun _ => true))).toOption.map
    (fun z => (z.reconstruct ((powOps 64).tensor (Fin 2))).toOption.map fun t => (t 0, t 1)) = some (some (7, 6)) := by
  decide +kernel

/-! ## C42 -/

/-- **C42** for replicated sharing: `x ** n` with `n > 0` of a tensor that is not scaled opens to the `n`-fold product, for
all sharings and all masks and triples of the products. -/
theorem C42_replicated_partial [DecidableEq E] {env : Env} {s : Session} (hs : s.Three env) {K : RingKit E}
    {S : RingSem K.ops R} (hK : KitSem K S) {x : RMPC E} {v : R} (hx : x.Plain S s K.size v) {rnd : Nat → MulRand E E E}
    (hr : ∀ k, (rnd k).Ok S S S AddMonoidHom.mul s K.size) {n : Nat} (hn : 0 < n) :
    ∃ z e, Term.pow K env rnd x n = .ok (.mpc z) ∧ z.reconstruct K.ops = .ok e ∧ S.den e = v ^ n := by
  obtain ⟨t, h1, -, h2⟩ := term_pow (env := env) hs hK hx hr n
  obtain ⟨z, rfl, h3⟩ := h2 hn
  obtain ⟨e, e1, -, e2⟩ := plain_reconstruct hs h3
  exact ⟨z, e, h1, e1, e2⟩

/-- **C42.** Negative powers raise. -/
theorem C42_negative [DecidableEq E] (K : RingKit E) (env : Env) (rnd : Nat → MulRand E E E) (x : RMPC E) {n : Int}
    (hn : n < 0) : Term.pow K env rnd x n = .error .runtimeError := by rw [Term.pow, if_pos hn]

/-- The claim of **C42** does not hold for exponent 0: `x ** 0` is the Python number 1, not a secret that could be
reconstructed. -/
theorem C42_zero_not_secret [DecidableEq E] (K : RingKit E) (env : Env) (rnd : Nat → MulRand E E E) (x : RMPC E) :
    Term.pow K env rnd x 0 = .ok (.int 1) := by
  rw [Term.pow, if_neg (by omega), Term.powLoop]
  rfl

/-- 3 ** 5 in the example session -/
example : (Term.pow (powKit 64) exREnv (fun _ => exMul (powKit 64)) (exRep (2 ^ 64) { encoderPrecision := 0 } 10 (-8) 1) 5).toOption.map
    (fun t => match t with | .int _ => none | .mpc z => (z.reconstruct (powOps 64)).toOption) = some (some 243) := by
  decide +kernel

end SyMPC
