import Verif.Spec.RProgram
import Verif.Lemmas.FalconStore
import Verif.Lemmas.Share
import Verif.Lemmas.Program

/-!
# Runs of programs on replicated shares, in closed form
-/

namespace SyMPC.RProgram

variable {P T : Type} [CommRing T] [PubEnc P T]

/-- the tensor shared by three tensors -/
def rep (s : Session) (q : Nat) (c : Config) (x : Fin 3 → T) : RMPC T :=
  ⟨s, [⟨[x 0, x 1], s.rankToUuid[0]?, c, q⟩, ⟨[x 1, x 2], s.rankToUuid[1]?, c, q⟩, ⟨[x 2, x 0], s.rankToUuid[2]?, c, q⟩]⟩

omit [CommRing T] in
theorem rep_eq {s : Session} {u0 u1 u2 : Nat} (hu : s.rankToUuid = [u0, u1, u2]) (q : Nat) (c : Config) (x : Fin 3 → T) :
    rep s q c x = ⟨s, [⟨[x 0, x 1], some u0, c, q⟩, ⟨[x 1, x 2], some u1, c, q⟩, ⟨[x 2, x 0], some u2, c, q⟩]⟩ := by
  unfold rep; rw [hu]; rfl

/-- the value -/
def val (x : Fin 3 → T) : T := x 0 + x 1 + x 2

section
variable {K : RingKit T} {S : RingSem K.ops T} (hK : Std K S)
include hK

theorem std_add (a b : T) : K.ops.add a b = a + b := by
  have := (S.add a b (hK.valid a) (hK.valid b)).2
  simpa only [hK.den] using this

theorem std_sub (a b : T) : K.ops.sub a b = a - b := by
  have := (S.sub a b (hK.valid a) (hK.valid b)).2
  simpa only [hK.den] using this

theorem std_mul (a b : T) : K.ops.mul a b = a * b := by
  have := (S.mul a b (hK.valid a) (hK.valid b)).2
  simpa only [hK.den] using this

theorem std_sum3 (a b c : T) : K.ops.sum [a, b, c] = .ok (a + b + c) := by
  obtain ⟨e, h1, -, h3⟩ := sum3 S a b c (hK.valid a) (hK.valid b) (hK.valid c)
  rw [h1]
  simp only [hK.den] at h3
  rw [h3]

theorem std_lin (o : MPCTensor.LinOp) (a b : T) : RST.lin K.ops o a b = LinOp.den o a b := by
  cases o
  · exact std_add hK a b
  · exact std_sub hK a b

theorem std_config (c : Config) : RST.initConfig c K.size = c := by
  unfold RST.initConfig; rw [if_neg hK.size]

theorem rep_is {s : Session} (q : Nat) {u0 u1 u2 : Nat} (hu : s.rankToUuid = [u0, u1, u2]) (c : Config) (x : Fin 3 → T) :
    (rep s q c x).Is S s q c (val x) := by
  rw [rep_eq hu]
  exact is_of_list S hu q c _ _ _ (hK.valid _) (hK.valid _) (hK.valid _) _ (by simp only [hK.den, val])

theorem lin_rep {env : Env} {s : Session} (hs : s.Three env) (o : MPCTensor.LinOp) (c : Config) (x y : Fin 3 → T) :
    RMPC.privateLin K.ops o (rep s K.size c x) (rep s K.size c y)
      = .ok (rep s K.size c fun i => LinOp.den o (x i) (y i)) := by
  obtain ⟨u0, u1, u2, p0, p1, p2, c0, c1, c2, hu, hc, e0, e1, e2, r0, r1, r2, n0, n1, n2⟩ := three_unpack hs
  rw [rep_eq hu, rep_eq hu, rep_eq hu]
  simp only [RMPC.privateLin, checkPrivate_self, ok_bind, List.zip_cons_cons, List.zip_nil_right, List.mapM_cons, List.mapM_nil,
    RST.privateOp, RST.checkPrivate, RST.new, List.zipWith_cons_cons, List.zipWith_nil_right, pure_eq_ok]
  simp [ok_bind, rofShares3 hs, std_lin hK, std_config hK]

theorem linPublic_rep {env : Env} {s : Session} (hs : s.Three env) (o : MPCTensor.LinOp) (c : Config) (x : Fin 3 → T) (e : Config → T) :
    RMPC.linEnc K.ops env o (rep s K.size c x) e
      = .ok (rep s K.size c fun i => if i = 0 then LinOp.den o (x 0) (e c) else x i) := by
  obtain ⟨u0, u1, u2, p0, p1, p2, c0, c1, c2, hu, hc, e0, e1, e2, r0, r1, r2, n0, n1, n2⟩ := three_unpack hs
  rw [rep_eq hu, rep_eq hu]
  simp [RMPC.linEnc, RST.publicOp, RST.sessionOf, e0, e1, e2, r0, r1, r2, n0, n1, n2, ok_bind, pure_eq_ok, pyGet,
      RST.new, rofShares3 hs, std_lin hK, std_config hK]

theorem method_rep {env : Env} {s : Session} (hs : s.Three env) (f : T → T) (c : Config) (x : Fin 3 → T) :
    RMPC.hookMethod f (rep s K.size c x) = .ok (rep s K.size c fun i => f (x i)) := by
  obtain ⟨u0, u1, u2, p0, p1, p2, c0, c1, c2, hu, hc, e0, e1, e2, r0, r1, r2, n0, n1, n2⟩ := three_unpack hs
  rw [rep_eq hu, rep_eq hu]
  simp [RMPC.hookMethod, RST.hookMethod, RST.new, rofShares3 hs, std_config hK]

theorem publicMul_rep {env : Env} {s : Session} (hs : s.Three env) (c : Config) (x : Fin 3 → T) (e : T) :
    RMPC.publicMul K.ops (rep s K.size c x) e = .ok (rep s K.size c fun i => x i * e) := by
  obtain ⟨u0, u1, u2, p0, p1, p2, c0, c1, c2, hu, hc, e0, e1, e2, r0, r1, r2, n0, n1, n2⟩ := three_unpack hs
  rw [rep_eq hu, rep_eq hu]
  simp [RMPC.publicMul, RST.publicMul, RST.new, rofShares3 hs, std_config hK, std_mul hK]

/-- the shares after the truncation -/
def cut (K : RingKit T) (c : Config) (z : Fin 3 → T) (r : T) : Fin 3 → T := ![K.shift c (z 0), K.shift c (z 1 + z 2) - r, r]

theorem truncate_rep {env : Env} {s : Session} (hs : s.Three env) (c : Config) (x : Fin 3 → T) (r : T) :
    ABY3.truncate K (rep s K.size c x) s K.size c r = .ok (rep s K.size c (cut K c x r)) := by
  obtain ⟨u0, u1, u2, p0, p1, p2, c0, c1, c2, hu, hc, e0, e1, e2, r0, r1, r2, n0, n1, n2⟩ := three_unpack hs
  obtain ⟨t, ht⟩ := hK.kit.ring
  rw [rep_eq hu, rep_eq hu]
  simp only [ABY3.truncate, hs.three, hK.size, ne_eq, not_true_eq_false, if_false, ok_bind, ABY3.truncationAlgorithm1, ht,
      distribute3 hs hu, rofShares3 hs, pyGet, List.getElem?_cons_zero, List.getElem?_cons_succ, std_config hK, std_add hK, std_sub hK, cut]
  rfl

theorem truncateRaw_rep {env : Env} {s : Session} (hs : s.Three env) (c : Config) (x : Fin 3 → T) (r : T) :
    ABY3.truncateRaw K [x 0, x 1, x 2] s K.size c r = .ok (rep s K.size c (cut K c x r)) := by
  obtain ⟨u0, u1, u2, p0, p1, p2, c0, c1, c2, hu, hc, e0, e1, e2, r0, r1, r2, n0, n1, n2⟩ := three_unpack hs
  obtain ⟨t, ht⟩ := hK.kit.ring
  rw [rep_eq hu]
  simp only [ABY3.truncateRaw, hs.three, hK.size, ne_eq, not_true_eq_false, if_false, ok_bind, ABY3.truncationAlgorithm1, ht,
      distribute3 hs hu, rofShares3 hs, std_config hK, std_add hK, std_sub hK, cut]
  rfl

theorem mulEnc_rep {env : Env} {s : Session} (hs : s.Three env) (c : Config) (x : Fin 3 → T) (e : Config → T) (r : T) :
    RMPC.mulEnc K (rep s K.size c x) e r = .ok (rep s K.size c (cut K c (fun i => x i * e c) r)) := by
  have h := publicMul_rep hK hs c x (e c)
  unfold RMPC.publicMul at h
  unfold RMPC.mulEnc
  have h' : (rep s K.size c x).shares.map (fun s => RST.publicMul K.ops s (e s.config))
      = (rep s K.size c x).shares.map (fun s => RST.publicMul K.ops s (e c)) := by simp [rep]
  rw [h', h, ok_bind]
  exact truncate_rep hK hs c _ r

/-- the shares of a product before the truncation -/
def prod3 (x y : Fin 3 → T) (i : Fin 3) : T := x i * y i + x (i + 1) * y i + x i * y (i + 1)

/-- with the masks -/
def masked (x y f : Fin 3 → T) (i : Fin 3) : T := prod3 x y i + (f i - f (i + 1))

theorem mulShares_rep {env : Env} {s : Session} (hs : s.Three env) (q : Nat) {k : OpKind} (hop : getOp q .mul = .ok k) (c c' : Config) (x y f : Fin 3 → T) :
    Falcon.mulShares K.ops env K.product (zeroShare K f) s (rep s q c x) (rep s q c' y)
      = .ok [masked x y f 0, masked x y f 1, masked x y f 2] := by
  obtain ⟨u0, u1, u2, p0, p1, p2, c0, c1, c2, hu, hc, e0, e1, e2, r0, r1, r2, n0, n1, n2⟩ := three_unpack hs
  rw [rep_eq hu, rep_eq hu]
  simp [Falcon.mulShares, parallelExecution, hc, Falcon.computeZvalueAndAddMask, RST.getSession, e0, e1, e2, r0, r1, r2, ok_bind,
      Falcon.multiplicationProtocol, hop, pyGet, pure_eq_ok, hs.ptrs, RingKit.product, std_sum3 hK, std_add hK, std_mul hK, std_sub hK, masked, prod3,
      zeroShare, at3]
  exact congrArg f rfl

omit hK in
theorem masked_val (x y f : Fin 3 → T) : val (masked x y f) = val x * val y := by
  simp only [val, masked, prod3, Fin.isValue, zero_add, Fin.reduceAdd]
  ring

theorem getOp_mul : ∃ k, getOp K.size .mul = .ok k := getOp_ok hK.kit.ring (by simp)

theorem mul_rep_semi [DecidableEq T] {env : Env} {s : Session} (hs : s.Three env) (hsec : s.protocol.security = .semiHonest) (c : Config)
    (x y f : Fin 3 → T) (tr : Nat → Py (RTriple T T T)) (r : T) :
    RMPC.mulPrivate K env ⟨zeroShare K f, tr, r⟩ (rep s K.size c x) (rep s K.size c y)
      = .ok (rep s K.size c (cut K c (masked x y f) r)) := by
  obtain ⟨k, hk⟩ := getOp_mul hK
  have hl : s.parties.length = 3 := by rw [hs.parties, hs.three]
  unfold RMPC.mulPrivate Falcon.mulMaster
  rw [show (rep s K.size c x).session = s from rfl, show (rep s K.size c y).session = s from rfl, checkPrivate_self, ok_bind,
    if_neg (by rw [hl]; simp)]
  simp only [hsec]
  rw [show pyGet (rep s K.size c x).shares 0 = .ok ⟨[x 0, x 1], s.rankToUuid[0]?, c, K.size⟩ from rfl, ok_bind,
    mulShares_rep hK hs K.size hk, ok_bind]
  exact truncateRaw_rep hK hs c (masked x y f) r

/-- the configuration of triples -/
abbrev noScale : Config := { encoderPrecision := 0 }

theorem random_rep {env : Env} {s : Session} (hs : s.Three env) (a : Fin 3 → T) :
    RMPC.random env s K.size (at3 a) = .ok (rep s K.size noScale a) := by
  obtain ⟨u0, u1, u2, p0, p1, p2, c0, c1, c2, hu, hc, e0, e1, e2, r0, r1, r2, n0, n1, n2⟩ := three_unpack hs
  obtain ⟨q0, q1, q2, hp, rfl, rfl, rfl⟩ := ptrs3 hs hu
  rw [rep_eq hu]
  unfold RMPC.random
  rw [hp]
  simp [e0, e1, e2, r0, r1, r2, n0, n1, n2, RST.new, at3, pure_eq_ok, ok_bind, rofShares3 hs, std_config hK]
  exact congrArg a rfl

theorem mulReshare_rep {env : Env} {s : Session} (hs : s.Three env) (c c' c'' : Config) (x y f : Fin 3 → T) :
    Falcon.mulReshare K.ops env K.product (zeroShare K f) s K.size c'' (rep s K.size c x) (rep s K.size c' y)
      = .ok (rep s K.size c'' (masked x y f)) := by
  obtain ⟨u0, u1, u2, p0, p1, p2, c0, c1, c2, hu, hc, e0, e1, e2, r0, r1, r2, n0, n1, n2⟩ := three_unpack hs
  obtain ⟨k, hk⟩ := getOp_mul hK
  unfold Falcon.mulReshare
  rw [mulShares_rep hK hs K.size hk, ok_bind, show (rep s K.size c x).session = s from rfl, distribute3 hs hu, ok_bind, rofShares3 hs,
    std_config hK, rep_eq hu]

/-- what party `r` holds of a triple -/
def tripleOf (s : Session) (q : Nat) (a b g : Fin 3 → T) (r : Nat) : RTriple T T T :=
  ⟨⟨[at3 a r, at3 a (r + 1)], s.rankToUuid[r]?, noScale, q⟩, ⟨[at3 b r, at3 b (r + 1)], s.rankToUuid[r]?, noScale, q⟩,
    ⟨[at3 (masked a b g) r, at3 (masked a b g) (r + 1)], s.rankToUuid[r]?, noScale, q⟩⟩

omit hK [CommRing T] in
theorem at3_zero (a : Fin 3 → T) : at3 a 0 = a 0 := rfl
omit hK [CommRing T] in
theorem at3_one (a : Fin 3 → T) : at3 a 1 = a 1 := rfl
omit hK [CommRing T] in
theorem at3_two (a : Fin 3 → T) : at3 a 2 = a 2 := rfl
omit hK [CommRing T] in
theorem at3_three (a : Fin 3 → T) : at3 a 3 = a 0 := rfl

theorem getTriples_rep {env : Env} {s : Session} (hs : s.Three env) (a b g : Fin 3 → T) :
    Falcon.getTriples K K K env K.product s K.size ⟨at3 a, at3 b, zeroShare K g⟩
      = .ok [tripleOf s K.size a b g 0, tripleOf s K.size a b g 1, tripleOf s K.size a b g 2] := by
  obtain ⟨u0, u1, u2, p0, p1, p2, c0, c1, c2, hu, hc, e0, e1, e2, r0, r1, r2, n0, n1, n2⟩ := three_unpack hs
  obtain ⟨k, hk⟩ := getOp_mul hK
  unfold Falcon.getTriples
  dsimp only
  rw [random_rep hK hs, ok_bind, random_rep hK hs, ok_bind, mulReshare_rep hK hs, ok_bind]
  unfold Falcon.checkTriples
  have hv := masked_val a b g
  unfold val at hv
  simp only [rep, RST.reconstructSemiHonest, pyGet, List.getElem?_cons_zero, List.getElem?_cons_succ, ok_bind, std_sum3 hK]
  rw [show K.product.opStr = .mul from rfl, hk, ok_bind, show K.product.op (a 0 + a 1 + a 2) (b 0 + b 1 + b 2) = masked a b g 0 + masked a b g 1 + masked a b g 2 by
    rw [hv]; exact std_mul hK _ _, hK.nonEmpty]
  rfl

theorem front_rep {env : Env} {s : Session} (hs : s.Three env) (a b g : Fin 3 → T) :
    ∃ st, Falcon.generate K K K env K.product s K.size ⟨at3 a, at3 b, zeroShare K g⟩ (fun _ => []) = .ok st ∧
      ∀ r < 3, ∀ u, s.rankToUuid[r]? = some u → Falcon.front st u = .ok (tripleOf s K.size a b g r) := by
  obtain ⟨u0, u1, u2, p0, p1, p2, c0, c1, c2, hu, hc, e0, e1, e2, r0, r1, r2, n0, n1, n2⟩ := three_unpack hs
  obtain ⟨st, h1, h2, h3, h4, -⟩ := generate3 hs hu K.size (getTriples_rep hK hs a b g) fun _ => []
  refine ⟨st, h1, ?_⟩
  intro r hr u hu'
  rw [hu] at hu'
  obtain rfl | rfl | rfl : r = 0 ∨ r = 1 ∨ r = 2 := by omega
  all_goals
    simp only [List.getElem?_cons_zero, List.getElem?_cons_succ, Option.some.injEq] at hu'
    subst hu'
    unfold Falcon.front
  · rw [h2]; rfl
  · rw [h3]; rfl
  · rw [h4]; rfl

theorem mask_rep [DecidableEq T] {env : Env} {s : Session} (hs : s.Three env) (c : Config) (x y a b g : Fin 3 → T)
    (tr : Nat → Py (RTriple T T T)) (ht : ∀ r < 3, ∀ u, s.rankToUuid[r]? = some u → tr u = .ok (tripleOf s K.size a b g r)) :
    ∃ m, parallelExecution s.parties (fun (x, y) => Falcon.falconMask K.ops K.ops env tr x y)
        ((rep s K.size c x).shares.zip (rep s K.size c y).shares) = .ok m ∧
      RST.reconstruct K.ops (m.map (·.1)) .semiHonest = .ok (val x - val a) ∧
      RST.reconstruct K.ops (m.map (·.2)) .semiHonest = .ok (val y - val b) := by
  obtain ⟨u0, u1, u2, p0, p1, p2, c0, c1, c2, hu, hc, e0, e1, e2, r0, r1, r2, n0, n1, n2⟩ := three_unpack hs
  have t0 := ht 0 (by omega) u0 (by rw [hu]; rfl)
  have t1 := ht 1 (by omega) u1 (by rw [hu]; rfl)
  have t2 := ht 2 (by omega) u2 (by rw [hu]; rfl)
  simp only [tripleOf, hu, List.getElem?_cons_zero, List.getElem?_cons_succ, Nat.zero_add, Nat.reduceAdd, at3_zero, at3_one, at3_two, at3_three]
    at t0 t1 t2
  refine ⟨[(⟨[x 0 - a 0, x 1 - a 1], some u0, c, K.size⟩, ⟨[y 0 - b 0, y 1 - b 1], some u0, c, K.size⟩),
    (⟨[x 1 - a 1, x 2 - a 2], some u1, c, K.size⟩, ⟨[y 1 - b 1, y 2 - b 2], some u1, c, K.size⟩),
    (⟨[x 2 - a 2, x 0 - a 0], some u2, c, K.size⟩, ⟨[y 2 - b 2, y 0 - b 0], some u2, c, K.size⟩)], ?_, ?_, ?_⟩
  · rw [rep_eq hu, rep_eq hu]
    simp [parallelExecution, hc, Falcon.falconMask, RST.getSession, e0, e1, e2, ok_bind, t0, t1, t2, RST.privateOp, RST.checkPrivate,
      RST.new, pure_eq_ok, RST.lin, std_sub hK, std_config hK]
  · simp only [RST.reconstruct, List.map_cons, List.map_nil, reduceCtorEq, if_false, RST.reconstructSemiHonest, pyGet, List.getElem?_cons_zero,
      List.getElem?_cons_succ, ok_bind, std_sum3 hK, val]
    congr 1
    ring
  · simp only [RST.reconstruct, List.map_cons, List.map_nil, reduceCtorEq, if_false, RST.reconstructSemiHonest, pyGet, List.getElem?_cons_zero,
      List.getElem?_cons_succ, ok_bind, std_sum3 hK, val]
    congr 1
    ring

theorem mul_rep_malicious [DecidableEq T] {env : Env} {s : Session} (hs : s.Three env) (hsec : s.protocol.security = .malicious) (c : Config)
    (x y f a b g : Fin 3 → T) (tr : Nat → Py (RTriple T T T))
    (ht : ∀ r < 3, ∀ u, s.rankToUuid[r]? = some u → tr u = .ok (tripleOf s K.size a b g r)) (r : T) :
    RMPC.mulPrivate K env ⟨zeroShare K f, tr, r⟩ (rep s K.size c x) (rep s K.size c y)
      = .ok (rep s K.size c (cut K c (masked x y f) r)) := by
  obtain ⟨u0, u1, u2, p0, p1, p2, c0, c1, c2, hu, hc, e0, e1, e2, r0, r1, r2, n0, n1, n2⟩ := three_unpack hs
  obtain ⟨k, hk⟩ := getOp_mul hK
  have hl : s.parties.length = 3 := by rw [hs.parties, hs.three]
  have htr : TripleErr S S S AddMonoidHom.mul s K.size tr 0 := by
    refine ⟨at3 a, at3 b, at3 (masked a b g), noScale, noScale, noScale, fun _ => hK.valid _, fun _ => hK.valid _, fun _ => hK.valid _, ?_, ?_⟩
    · intro r hr u hu'
      rw [ht r hr u hu']
      have : ∀ z : Fin 3 → T, at3 z ((r + 1) % 3) = at3 z (r + 1) := by
        intro z
        obtain rfl | rfl | rfl : r = 0 ∨ r = 1 ∨ r = 2 := by omega
        all_goals rfl
      unfold tripleOf
      simp only [this, hu']
    · have := masked_val a b g
      simp only [hK.den, at3_zero, at3_one, at3_two]
      rw [add_zero]
      exact this
  have hv := verify3 hs S hK.kit (product_sem S) (rep_is hK K.size hu c x) (rep_is hK K.size hu c y)
    (rep_is hK K.size hu c (masked x y f)) hk tr 0 htr
  rw [if_pos (by rw [add_zero, masked_val]; rfl)] at hv
  unfold RMPC.mulPrivate Falcon.mulMaster
  rw [show (rep s K.size c x).session = s from rfl, show (rep s K.size c y).session = s from rfl, checkPrivate_self, ok_bind,
    if_neg (by rw [hl]; simp)]
  simp only [hsec]
  rw [show pyGet (rep s K.size c x).shares 0 = .ok ⟨[x 0, x 1], s.rankToUuid[0]?, c, K.size⟩ from rfl, ok_bind]
  unfold Falcon.mulMalicious
  rw [mulReshare_rep hK hs, ok_bind, hv, ok_bind]
  exact truncate_rep hK hs c (masked x y f) r

end

/-! ## Programs without sessions -/

/-- what party `h` sees of a product -/
def shown (sec : Security) (c : Config) (K : RingKit T) (x y f a b g : Fin 3 → T) (r : T) (h : Fin 3) : List T :=
  match sec with
  | .semiHonest => [f h, f (h + 1), cut K c (masked x y f) r h, cut K c (masked x y f) r (h + 1)]
  | .malicious => [f h, f (h + 1), g h, g (h + 1), a h, a (h + 1), b h, b (h + 1), masked a b g h, masked a b g (h + 1),
      val x - val a, val y - val b, masked x y f h, masked x y f (h + 1),
      cut K c (masked x y f) r h, cut K c (masked x y f) r (h + 1)]

/-- the shares of the new tensor and what is seen of a statement -/
def step (K : RingKit T) (sec : Security) (c : Config) (X : List (Fin 3 → T)) :
    Program.Cmd P T → Option (Draw T) → Option ((Fin 3 → T) × Option (Event T))
  | .secret v, some (.sharing d0 d1) =>
    let x : Fin 3 → T := ![d0, d1 - d0, PubEnc.enc c v - d1]
    some (x, some ⟨(List.finRange 3).map fun h => [x h, x (h + 1)], [x 0, x 1, x 2]⟩)
  | .mul i j, some (.product f r a b g) =>
    let x := X.getD i 0
    let y := X.getD j 0
    some (cut K c (masked x y f) r, some ⟨(List.finRange 3).map (shown sec c K x y f a b g r), [masked x y f 0, masked x y f 1, masked x y f 2]⟩)
  | .mulPublic i v, some (.trunc r) =>
    let z : Fin 3 → T := fun k => X.getD i 0 k * PubEnc.enc c v
    some (cut K c z r, some ⟨(List.finRange 3).map fun h => [cut K c z r h, cut K c z r (h + 1)], [z 0, z 1, z 2]⟩)
  | .lin o i j, none => some (fun k => LinOp.den o (X.getD i 0 k) (X.getD j 0 k), none)
  | .linPublic o i v, none => some (fun k => if k = 0 then LinOp.den o (X.getD i 0 0) (PubEnc.enc c v) else X.getD i 0 k, none)
  | .method f i, none => some (fun k => f (X.getD i 0 k), none)
  | _, _ => none

/-- a program -/
def go (K : RingKit T) (sec : Security) (c : Config) : List (Program.Cmd P T) → List (Draw T) → List (Fin 3 → T) → List (Event T) →
    Option (List (Fin 3 → T) × List (Event T))
  | [], [], X, L => some (X, L)
  | [], _ :: _, _, _ => none
  | cmd :: cs, tape, X, L =>
    match kindOf cmd, tape with
    | none, tape => (step K sec c X cmd none).bind fun (x, e) => go K sec c cs tape (X ++ [x]) (L ++ e.toList)
    | some _, [] => none
    | some _, d :: tape => (step K sec c X cmd (some d)).bind fun (x, e) => go K sec c cs tape (X ++ [x]) (L ++ e.toList)

section
variable [DecidableEq T] {K : RingKit T} {S : RingSem K.ops T} (hK : Std K S)
include hK

omit [DecidableEq T] in
theorem share_rep {env : Env} {s : Session} (hs : s.Three env) (hr : s.ringSize = K.size) (v : P) (d0 d1 : T) (X : List (Fin 3 → T))
    (L : List (Event T)) :
    share env s v d0 d1 ⟨X.map (rep s K.size s.config), L⟩
      = .ok ⟨(X ++ [![d0, d1 - d0, PubEnc.enc s.config v - d1]]).map (rep s K.size s.config),
          L ++ [⟨[[d0, d1 - d0], [d1 - d0, PubEnc.enc s.config v - d1], [PubEnc.enc s.config v - d1, d0]],
            [d0, d1 - d0, PubEnc.enc s.config v - d1]⟩]⟩ := by
  obtain ⟨u0, u1, u2, p0, p1, p2, c0, c1, c2, hu, hc, e0, e1, e2, r0, r1, r2, n0, n1, n2⟩ := three_unpack hs
  unfold share
  have hp : ¬ s.sessionPtrs.length = 0 := by
    obtain ⟨q0, q1, q2, hp, -⟩ := ptrs3 hs hu
    simp [hp]
  rw [if_neg hp]
  have hty : ShareTensor.ofPublic (T := T) v s.config (2 ^ 64) = .ok ⟨PubEnc.enc s.config v, none, s.config, 2 ^ 64⟩ := rfl
  simp only [pure_eq_ok, ok_bind, hty, hs.three]
  rw [generateShares_eq env _ rfl 1, ok_bind]
  have hl : (sharesOf (⟨PubEnc.enc s.config v, none, s.config, 2 ^ 64⟩ : ShareTensor T) 1 fun k => if k = 0 then d0 else d1).map (·.tensor)
      = [d0, d1 - d0, PubEnc.enc s.config v - d1] := rfl
  rw [hl]
  unfold RMPC.ofAdditive
  rw [if_neg hp, if_neg (by simp), hr]
  simp only [pure_eq_ok, ok_bind, distribute3 hs hu, std_config hK, List.map_append, List.map_cons, List.map_nil]
  rw [rep_eq hu]
  rfl

omit [DecidableEq T] hK in
theorem getD_rep {s : Session} (X : List (Fin 3 → T)) (i : Nat) (hi : i < X.length) :
    pyGet (X.map (rep s K.size s.config)) i = .ok (rep s K.size s.config (X.getD i 0)) := by
  rw [pyGet_ok (by simpa using hi)]
  simp [hi]

omit [DecidableEq T] in
theorem mulPublic_rep {env : Env} {s : Session} (hs : s.Three env) (i : Nat) (v : P) (r : T) (X : List (Fin 3 → T))
    (L : List (Event T)) (hi : i < X.length) :
    mulPublic K s i v r ⟨X.map (rep s K.size s.config), L⟩
      = .ok ⟨(X ++ [cut K s.config (fun k => X.getD i 0 k * PubEnc.enc s.config v) r]).map (rep s K.size s.config),
          L ++ [⟨(List.finRange 3).map fun h => [cut K s.config (fun k => X.getD i 0 k * PubEnc.enc s.config v) r h,
              cut K s.config (fun k => X.getD i 0 k * PubEnc.enc s.config v) r (h + 1)],
            [X.getD i 0 0 * PubEnc.enc s.config v, X.getD i 0 1 * PubEnc.enc s.config v, X.getD i 0 2 * PubEnc.enc s.config v]⟩]⟩ := by
  unfold mulPublic
  rw [getD_rep X i hi, ok_bind, publicMul_rep hK hs, ok_bind, mulEnc_rep hK hs, ok_bind]
  simp only [pure_eq_ok, List.map_append, List.map_cons, List.map_nil]
  rfl

theorem product_rep {env : Env} {s : Session} (hs : s.Three env) (i j : Nat) (f : Fin 3 → T) (r : T) (a b g : Fin 3 → T) (X : List (Fin 3 → T))
    (L : List (Event T)) (hi : i < X.length) (hj : j < X.length) :
    product K env s i j f r a b g ⟨X.map (rep s K.size s.config), L⟩
      = .ok ⟨(X ++ [cut K s.config (masked (X.getD i 0) (X.getD j 0) f) r]).map (rep s K.size s.config),
          L ++ [⟨(List.finRange 3).map (shown s.protocol.security s.config K (X.getD i 0) (X.getD j 0) f a b g r),
            [masked (X.getD i 0) (X.getD j 0) f 0, masked (X.getD i 0) (X.getD j 0) f 1, masked (X.getD i 0) (X.getD j 0) f 2]⟩]⟩ := by
  obtain ⟨k, hk⟩ := getOp_mul hK
  unfold product
  rw [getD_rep X i hi, ok_bind, getD_rep X j hj, ok_bind, mulShares_rep hK hs K.size hk, ok_bind]
  cases hsec : s.protocol.security with
  | semiHonest =>
    dsimp only
    rw [mul_rep_semi hK hs hsec, ok_bind]
    simp only [pure_eq_ok, List.map_append, List.map_cons, List.map_nil]
    rfl
  | malicious =>
    dsimp only
    obtain ⟨st, h1, h2⟩ := front_rep hK hs a b g
    obtain ⟨m, h3, h4, h5⟩ := mask_rep hK hs s.config (X.getD i 0) (X.getD j 0) a b g _ h2
    obtain ⟨u0, u1, u2, p0, p1, p2, c0, c1, c2, hu, hc, e0, e1, e2, r0, r1, r2, n0, n1, n2⟩ := three_unpack hs
    have hts : s.rankToUuid.mapM (Falcon.front st) = .ok [tripleOf s K.size a b g 0, tripleOf s K.size a b g 1, tripleOf s K.size a b g 2] := by
      rw [hu]
      simp [h2 0 (by omega) u0 (by rw [hu]; rfl), h2 1 (by omega) u1 (by rw [hu]; rfl), h2 2 (by omega) u2 (by rw [hu]; rfl), ok_bind, pure_eq_ok]
    rw [h1, ok_bind, hts, ok_bind, h3, ok_bind, h4, ok_bind, h5, ok_bind, mul_rep_malicious hK hs hsec _ _ _ f a b g _ h2, ok_bind]
    simp only [pure_eq_ok, List.map_append, List.map_cons, List.map_nil]
    rfl

omit [DecidableEq T] in
theorem plain_rep {env : Env} {s : Session} (hs : s.Three env) (cmd : Program.Cmd P T) (hk : kindOf cmd = none) (X : List (Fin 3 → T))
    (L : List (Event T)) (hv : Program.Valid X.length cmd) :
    ∃ x, step K s.protocol.security s.config X cmd none = some (x, none) ∧
      plain K env ⟨X.map (rep s K.size s.config), L⟩ cmd = .ok ⟨(X ++ [x]).map (rep s K.size s.config), L⟩ := by
  cases cmd with
  | secret v => cases hk
  | mul i j => cases hk
  | mulPublic i v => cases hk
  | lin o i j =>
    refine ⟨_, rfl, ?_⟩
    unfold plain
    simp only [getD_rep X i hv.1, getD_rep X j hv.2, ok_bind, lin_rep hK hs, pure_eq_ok, List.map_append, List.map_cons, List.map_nil]
  | linPublic o i v =>
    refine ⟨_, rfl, ?_⟩
    unfold plain
    simp only [getD_rep X i hv, ok_bind, linPublic_rep hK hs, pure_eq_ok, List.map_append, List.map_cons, List.map_nil]
  | method f i =>
    refine ⟨_, rfl, ?_⟩
    unfold plain
    simp only [getD_rep X i hv, ok_bind, method_rep hK hs, pure_eq_ok, List.map_append, List.map_cons, List.map_nil]

theorem run_eq {env : Env} {s : Session} (hs : s.Three env) (hr : s.ringSize = K.size) (prog : List (Program.Cmd P T)) (tape : List (Draw T))
    (X : List (Fin 3 → T)) (L : List (Event T)) (hv : Program.ValidProg X.length prog) :
    run K env s prog tape ⟨X.map (rep s K.size s.config), L⟩
      = match go K s.protocol.security s.config prog tape X L with
        | some (X, L) => .ok ⟨X.map (rep s K.size s.config), L⟩
        | none => .error .runtimeError := by
  induction prog generalizing tape X L with
  | nil => cases tape <;> rfl
  | cons cmd cs ih =>
    have ih' := fun tape x L => ih tape (X ++ [x]) L (by simpa using hv.2)
    by_cases hk : kindOf cmd = none
    · obtain ⟨x, h1, h2⟩ := plain_rep hK hs cmd hk X L hv.1
      have h3 : run K env s (cmd :: cs) tape ⟨X.map (rep s K.size s.config), L⟩
          = plain K env ⟨X.map (rep s K.size s.config), L⟩ cmd >>= fun S => run K env s cs tape S := by
        cases cmd <;> first | (cases tape <;> rfl) | exact absurd hk (by simp [kindOf])
      rw [h3, h2, ok_bind, ih']
      simp only [go, hk, h1, Option.bind_some, Option.toList_none, List.append_nil]
    · cases cmd <;> first | exact (hk rfl).elim | skip
      all_goals
        rcases tape with _ | ⟨d, tape⟩
        · rfl
        cases d <;> try rfl
      case secret.cons.sharing v d0 d1 =>
        show (share env s v d0 d1 _ >>= fun S => run K env s cs tape S) = _
        rw [share_rep hK hs hr, ok_bind, ih']
        rfl
      case mul.cons.product i j f r a b g =>
        show (product K env s i j f r a b g _ >>= fun S => run K env s cs tape S) = _
        rw [product_rep hK hs i j f r a b g X L hv.1.1 hv.1.2, ok_bind, ih']
        rfl
      case mulPublic.cons.trunc i v r =>
        show (mulPublic K s i v r _ >>= fun S => run K env s cs tape S) = _
        rw [mulPublic_rep hK hs i v r X L hv.1, ok_bind, ih']
        rfl

end

/-! ## Values -/

theorem cut_val (K : RingKit T) (c : Config) (hc : ∀ t, K.shift c t = t) (z : Fin 3 → T) (r : T) : val (cut K c z r) = val z := by
  simp only [val, cut, hc, Matrix.cons_val]
  ring

theorem getD_val (X : List (Fin 3 → T)) (i : Nat) : (X.map val).getD i 0 = val (X.getD i 0) := by
  simp only [List.getD_eq_getElem?_getD, List.getElem?_map]
  cases X[i]? <;> simp [val]

theorem step_val (K : RingKit T) (sec : Security) (c : Config) (hc : ∀ t, K.shift c t = t) (X : List (Fin 3 → T)) (cmd : Program.Cmd P T)
    (ha : Program.Additive cmd) (d : Option (Draw T)) (x : Fin 3 → T) (e : Option (Event T)) (h : step K sec c X cmd d = some (x, e)) :
    val x = Program.evalCmd c (· * ·) (X.map val) cmd := by
  cases cmd <;> rcases d with _ | d
  all_goals try cases d
  all_goals try cases h
  all_goals simp only [Program.evalCmd, getD_val]
  · simp only [val, Matrix.cons_val]; ring
  · rename_i o i j
    cases o <;> simp only [val, LinOp.den] <;> ring
  · rename_i o i v
    cases o <;> simp [val, LinOp.den] <;> ring
  · rw [cut_val K c hc]; simp only [val]; ring
  · have ha : ∀ a b, _ = _ := ha
    simp only [val, ha]
  · rw [cut_val K c hc, masked_val]

theorem go_val (K : RingKit T) (sec : Security) (c : Config) (hc : ∀ t, K.shift c t = t) (prog : List (Program.Cmd P T))
    (ha : ∀ cmd ∈ prog, Program.Additive cmd) (tape : List (Draw T)) (X Y : List (Fin 3 → T)) (L M : List (Event T))
    (h : go K sec c prog tape X L = some (Y, M)) : Y.map val = Program.eval c (· * ·) (X.map val) prog := by
  induction prog generalizing tape X L with
  | nil =>
    cases tape with
    | nil => cases h; rfl
    | cons => cases h
  | cons cmd cs ih =>
    have key : ∀ d tape, (step K sec c X cmd d).bind (fun (x, e) => go K sec c cs tape (X ++ [x]) (L ++ e.toList)) = some (Y, M) →
        Y.map val = Program.eval c (· * ·) (X.map val) (cmd :: cs) := by
      intro d tape h
      obtain ⟨⟨x, e⟩, h1, h2⟩ := Option.bind_eq_some_iff.mp h
      rw [ih (fun c hc => ha c (by simp [hc])) tape _ _ h2]
      simp only [Program.eval, List.map_append, List.map_cons, List.map_nil]
      rw [step_val K sec c hc X cmd (ha cmd (by simp)) d x e h1]
    cases hk : kindOf cmd with
    | none =>
      simp only [go, hk] at h
      exact key none tape h
    | some k =>
      rcases tape with _ | ⟨d, tape⟩ <;> simp only [go, hk] at h
      · cases h
      · exact key (some d) tape h

theorem go_some (K : RingKit T) (sec : Security) (c : Config) (prog : List (Program.Cmd P T)) (tape : List (Draw T)) (hf : Fits prog tape)
    (X : List (Fin 3 → T)) (L : List (Event T)) : ∃ Y M, go K sec c prog tape X L = some (Y, M) ∧ Y.length = X.length + prog.length := by
  induction prog generalizing tape X L with
  | nil =>
    have : tape = [] := by simpa [Fits] using hf
    subst this
    exact ⟨X, L, rfl, rfl⟩
  | cons cmd cs ih =>
    cases hk : kindOf cmd with
    | none =>
      obtain ⟨x, h1⟩ : ∃ x, step K sec c X cmd none = some (x, none) := by cases cmd <;> first | exact ⟨_, rfl⟩ | cases hk
      obtain ⟨Y, M, h2, h3⟩ := ih tape (by simpa [Fits, List.filterMap_cons, hk] using hf) (X ++ [x]) (L ++ (none : Option (Event T)).toList)
      refine ⟨Y, M, by simp only [go, hk, h1, Option.bind_some, h2], by rw [h3]; simp; omega⟩
    | some k =>
      rcases tape with _ | ⟨d, tape⟩
      · simp [Fits, hk] at hf
      · have hf' : d.kind = k ∧ Fits cs tape := by simpa [Fits, List.filterMap_cons, hk] using hf
        obtain ⟨x, e, h1⟩ : ∃ x e, step K sec c X cmd (some d) = some (x, e) := by
          have := hf'.1
          cases cmd <;> cases hk <;> cases d <;> first | exact ⟨_, _, rfl⟩ | cases this
        obtain ⟨Y, M, h2, h3⟩ := ih tape hf'.2 (X ++ [x]) (L ++ e.toList)
        refine ⟨Y, M, by simp only [go, hk, h1, Option.bind_some, h2], by rw [h3]; simp; omega⟩

/-! ## Views -/

/-- party `h` holds the same -/
def Agree (h : Fin 3) (x y : Fin 3 → T) : Prop := x h = y h ∧ x (h + 1) = y (h + 1)

/-- one number changed -/
def bump (k : Fin 3) (d : T) (a : Fin 3 → T) : Fin 3 → T := fun i => if i = k then a i + d else a i

theorem bump_bump (k : Fin 3) (d e : T) (hde : d + e = 0) (a : Fin 3 → T) : bump k e (bump k d a) = a := by
  funext i
  unfold bump
  split
  · rw [add_assoc, hde, add_zero]
  · rfl

/-- a bijection of tapes, from bijections of what is drawn first and of the rest -/
def consEquiv (adj : Draw T ≃ Draw T) (ed : Draw T → List (Draw T) ≃ List (Draw T)) : List (Draw T) ≃ List (Draw T) where
  toFun
    | [] => []
    | d :: t => adj d :: ed d t
  invFun
    | [] => []
    | d :: t => adj.symm d :: (ed (adj.symm d)).symm t
  left_inv t := by cases t <;> simp
  right_inv t := by cases t <;> simp

section
variable (K : RingKit T) (c : Config) (h : Fin 3)

/-- the change of the mask of a truncation -/
def shiftR (z z' : Fin 3 → T) : T := if h = 0 then K.shift c (z' 1 + z' 2) - K.shift c (z 1 + z 2) else 0

/-- the changed draws of a product -/
def moveProduct (x y x' y' f : Fin 3 → T) (r : T) (a b g : Fin 3 → T) : Draw T :=
  let f' := bump (h + 2) (prod3 x' y' (h + 1) - prod3 x y (h + 1)) f
  let a' := bump (h + 2) (x' (h + 2) - x (h + 2)) a
  let b' := bump (h + 2) (y' (h + 2) - y (h + 2)) b
  .product f' (r + shiftR K c h (masked x y f) (masked x' y' f')) a' b' (bump (h + 2) (prod3 a' b' (h + 1) - prod3 a b (h + 1)) g)

/-- the changed draws: for secrets that differ by `d`, factors `x`, `y` and `x'`, `y'`, and products with public values `z`, `z'` -/
def move (d : T) (x y x' y' z z' : Fin 3 → T) : Draw T → Draw T
  | .sharing d0 d1 => .sharing (if h = 1 then d0 + d else d0) (if h = 0 then d1 else d1 + d)
  | .product f r a b g => moveProduct K c h x y x' y' f r a b g
  | .trunc r => .trunc (r + shiftR K c h z z')

theorem shiftR_symm (z z' : Fin 3 → T) : shiftR K c h z z' + shiftR K c h z' z = 0 := by
  unfold shiftR
  split <;> ring

theorem move_move (d : T) (x y x' y' z z' : Fin 3 → T) (D : Draw T) :
    move K c h (-d) x' y' x y z' z (move K c h d x y x' y' z z' D) = D := by
  cases D with
  | sharing d0 d1 => simp only [move]; split <;> split <;> simp
  | trunc r => simp only [move, add_assoc, shiftR_symm, add_zero]
  | product f r a b g =>
    have e1 : ∀ u v : T, (u - v) + (v - u) = 0 := fun u v => by ring
    simp only [move, moveProduct]
    simp only [bump_bump _ _ _ (e1 _ _), add_assoc, shiftR_symm, add_zero]

/-- the changes are a bijection -/
def moveEquiv (d : T) (x y x' y' z z' : Fin 3 → T) : Draw T ≃ Draw T where
  toFun := move K c h d x y x' y' z z'
  invFun := move K c h (-d) x' y' x y z' z
  left_inv D := move_move K c h d x y x' y' z z' D
  right_inv D := by
    have := move_move K c h (-d) x' y' x y z' z D
    rwa [neg_neg] at this

theorem move_kind (d : T) (x y x' y' z z' : Fin 3 → T) (D : Draw T) : (moveEquiv K c h d x y x' y' z z' D).kind = D.kind := by
  cases D <;> rfl

theorem masked_agree (x y x' y' f : Fin 3 → T) (hx : Agree h x x') (hy : Agree h y y') :
    Agree h (masked x y f) (masked x' y' (bump (h + 2) (prod3 x' y' (h + 1) - prod3 x y (h + 1)) f)) := by
  obtain ⟨x0, x1⟩ := hx
  obtain ⟨y0, y1⟩ := hy
  fin_cases h <;>
    simp only [Fin.isValue, Fin.zero_eta, Fin.mk_one, Fin.reduceFinMk, zero_add, Fin.reduceAdd] at x0 x1 y0 y1 <;>
    simp [Agree, masked, prod3, bump, x0, x1, y0, y1] <;> ring

theorem cut_agree (z z' : Fin 3 → T) (hz : Agree h z z') (r : T) : Agree h (cut K c z r) (cut K c z' (r + shiftR K c h z z')) := by
  obtain ⟨z0, z1⟩ := hz
  fin_cases h <;>
    simp only [Fin.isValue, Fin.zero_eta, Fin.mk_one, Fin.reduceFinMk, zero_add, Fin.reduceAdd] at z0 z1 <;>
    simp [Agree, cut, shiftR, z0, z1]
  ring

theorem shown_agree (sec : Security) (x y x' y' f : Fin 3 → T) (r : T) (a b g f' : Fin 3 → T) (r' : T) (a' b' g' : Fin 3 → T) (hx : Agree h x x')
    (hy : Agree h y y') (hm : moveProduct K c h x y x' y' f r a b g = .product f' r' a' b' g') :
    Agree h (cut K c (masked x y f) r) (cut K c (masked x' y' f') r') ∧
      shown sec c K x y f a b g r h = shown sec c K x' y' f' a' b' g' r' h := by
  simp only [moveProduct, Draw.product.injEq] at hm
  obtain ⟨rfl, rfl, rfl, rfl, rfl⟩ := hm
  have h1 := masked_agree h x y x' y' f hx hy
  have h2 := cut_agree K c h _ _ h1 r
  have ha : Agree h a (bump (h + 2) (x' (h + 2) - x (h + 2)) a) := by fin_cases h <;> simp [Agree, bump]
  have hb : Agree h b (bump (h + 2) (y' (h + 2) - y (h + 2)) b) := by fin_cases h <;> simp [Agree, bump]
  have h3 := masked_agree h a b _ _ g ha hb
  have hf : ∀ (d : T) (u : Fin 3 → T), bump (h + 2) d u h = u h ∧ bump (h + 2) d u (h + 1) = u (h + 1) := by
    intro d u
    fin_cases h <;> simp [bump]
  have hval : ∀ u u' w : Fin 3 → T, Agree h u u' → val u' - val (bump (h + 2) (u' (h + 2) - u (h + 2)) w) = val u - val w := by
    rintro u u' w ⟨e0, e1⟩
    fin_cases h <;>
      simp only [Fin.isValue, Fin.zero_eta, Fin.mk_one, Fin.reduceFinMk, zero_add, Fin.reduceAdd] at e0 e1 <;>
      simp [val, bump, e0, e1] <;> ring
  refine ⟨h2, ?_⟩
  cases sec with
  | semiHonest => simp only [shown, (hf _ _).1, (hf _ _).2, h2.1, h2.2]
  | malicious => simp only [shown, (hf _ _).1, (hf _ _).2, h2.1, h2.2, h1.1, h1.2, h3.1, h3.2, hval x x' a hx, hval y y' b hy]

/-- two results that look the same -/
def Alike : Option ((Fin 3 → T) × Option (Event T)) → Option ((Fin 3 → T) × Option (Event T)) → Prop
  | none, none => True
  | some (x, e), some (x', e') => Agree h x x' ∧ seen h e.toList = seen h e'.toList
  | _, _ => False

theorem step_agree (sec : Security) (X X' : List (Fin 3 → T)) (hX : ∀ i, Agree h (X.getD i 0) (X'.getD i 0)) (cmd cmd' : Program.Cmd P T)
    (hc : Program.SameBut cmd cmd') :
    ∃ E : Draw T ≃ Draw T, (∀ D, (E D).kind = D.kind) ∧
      ∀ d : Option (Draw T), Alike h (step K sec c X cmd d) (step K sec c X' cmd' (d.map E)) := by
  have get : ∀ g : Fin 3 → List T, ((List.finRange 3).map g)[(h : Nat)]? = some (g h) := by
    intro g
    fin_cases h <;> rfl
  cases cmd with
  | secret v =>
    cases cmd' <;> try cases hc
    rename_i v'
    refine ⟨moveEquiv K c h (PubEnc.enc c v' - PubEnc.enc c v) 0 0 0 0 0 0, fun _ => move_kind .., fun d => ?_⟩
    rcases d with _ | d
    · trivial
    cases d <;> try trivial
    rename_i d0 d1
    have e1 : PubEnc.enc c v - d1 = PubEnc.enc c v' - (d1 + (PubEnc.enc c v' - PubEnc.enc c v)) := by ring
    have key : Agree h ![d0, d1 - d0, PubEnc.enc c v - d1]
        ![if h = 1 then d0 + (PubEnc.enc c v' - PubEnc.enc c v) else d0,
          (if h = 0 then d1 else d1 + (PubEnc.enc c v' - PubEnc.enc c v)) - (if h = 1 then d0 + (PubEnc.enc c v' - PubEnc.enc c v) else d0),
          PubEnc.enc c v' - (if h = 0 then d1 else d1 + (PubEnc.enc c v' - PubEnc.enc c v))] := by
      fin_cases h <;> simp [Agree, e1]
    refine ⟨key, ?_⟩
    simp only [seen, Option.toList_some, List.map_cons, List.map_nil, get]
    rw [key.1, key.2]
  | mul i j =>
    cases cmd' <;> cases hc
    refine ⟨moveEquiv K c h 0 (X.getD i 0) (X.getD j 0) (X'.getD i 0) (X'.getD j 0) 0 0, fun _ => move_kind .., fun d => ?_⟩
    rcases d with _ | d
    · trivial
    cases d <;> try trivial
    rename_i f r a b g
    obtain ⟨k1, k2⟩ := shown_agree K c h sec _ _ _ _ f r a b g _ _ _ _ _ (hX i) (hX j) rfl
    refine ⟨k1, ?_⟩
    simp only [seen, Option.toList_some, List.map_cons, List.map_nil, get]
    rw [k2]
  | mulPublic i v =>
    cases cmd' <;> cases hc
    refine ⟨moveEquiv K c h 0 0 0 0 0 (fun k => X.getD i 0 k * PubEnc.enc c v) (fun k => X'.getD i 0 k * PubEnc.enc c v), fun _ => move_kind .., fun d => ?_⟩
    rcases d with _ | d
    · trivial
    cases d <;> try trivial
    rename_i r
    have key := cut_agree K c h (fun k => X.getD i 0 k * PubEnc.enc c v) (fun k => X'.getD i 0 k * PubEnc.enc c v)
      ⟨by simp only [(hX i).1], by simp only [(hX i).2]⟩ r
    refine ⟨key, ?_⟩
    simp only [seen, Option.toList_some, List.map_cons, List.map_nil, get]
    rw [key.1, key.2]
  | lin o i j =>
    cases cmd' <;> cases hc
    refine ⟨Equiv.refl _, fun _ => rfl, fun d => ?_⟩
    rcases d with _ | d
    · exact ⟨⟨by simp only [(hX i).1, (hX j).1], by simp only [(hX i).2, (hX j).2]⟩, rfl⟩
    · trivial
  | linPublic o i v =>
    cases cmd' <;> cases hc
    refine ⟨Equiv.refl _, fun _ => rfl, fun d => ?_⟩
    rcases d with _ | d
    · refine ⟨?_, rfl⟩
      have := hX i
      fin_cases h <;>
        simp only [Agree, Fin.isValue, Fin.zero_eta, Fin.mk_one, Fin.reduceFinMk, zero_add, Fin.reduceAdd] at this <;>
        simp [Agree, this.1, this.2]
    · trivial
  | method f i =>
    cases cmd' <;> cases hc
    refine ⟨Equiv.refl _, fun _ => rfl, fun d => ?_⟩
    rcases d with _ | d
    · exact ⟨⟨by simp only [(hX i).1], by simp only [(hX i).2]⟩, rfl⟩
    · trivial

theorem agree_append (X X' : List (Fin 3 → T)) (hl : X.length = X'.length) (hX : ∀ i, Agree h (X.getD i 0) (X'.getD i 0)) (x x' : Fin 3 → T)
    (hx : Agree h x x') (i : Nat) : Agree h ((X ++ [x]).getD i 0) ((X' ++ [x']).getD i 0) := by
  have := hX i
  simp only [List.getD_eq_getElem?_getD] at this ⊢
  rcases lt_trichotomy i X.length with hi | hi | hi
  · rw [List.getElem?_append_left hi, List.getElem?_append_left (by omega)]
    exact this
  · subst hi
    rw [List.getElem?_concat_length, hl, List.getElem?_concat_length]
    exact hx
  · rw [List.getElem?_eq_none (by simp; omega), List.getElem?_eq_none (by simp; omega)]
    exact ⟨rfl, rfl⟩

theorem go_agree (sec : Security) (prog prog' : List (Program.Cmd P T)) (hp : List.Forall₂ Program.SameBut prog prog') (X X' : List (Fin 3 → T))
    (L L' : List (Event T)) (hl : X.length = X'.length) (hX : ∀ i, Agree h (X.getD i 0) (X'.getD i 0)) (hL : seen h L = seen h L') :
    ∃ E : List (Draw T) ≃ List (Draw T), (∀ t, (E t).map Draw.kind = t.map Draw.kind) ∧
      ∀ t Y M, go K sec c prog t X L = some (Y, M) →
        ∃ Y' M', go K sec c prog' (E t) X' L' = some (Y', M') ∧ Y.length = Y'.length ∧ (∀ i, Agree h (Y.getD i 0) (Y'.getD i 0)) ∧
          seen h M = seen h M' := by
  induction hp generalizing X X' L L' with
  | nil =>
    refine ⟨Equiv.refl _, fun _ => rfl, ?_⟩
    intro t Y M ht
    cases t with
    | nil => cases ht; exact ⟨X', L', rfl, hl, hX, hL⟩
    | cons => cases ht
  | @cons cmd cmd' cs cs' hc hcs ih =>
    obtain ⟨E, hE, hs⟩ := step_agree K c h sec X X' hX cmd cmd' hc
    have hkind : kindOf cmd = kindOf cmd' := by cases cmd <;> cases cmd' <;> first | rfl | cases hc
    have rest : ∀ d : Option (Draw T), ∃ F : List (Draw T) ≃ List (Draw T), (∀ t, (F t).map Draw.kind = t.map Draw.kind) ∧
        ∀ t Y M, (step K sec c X cmd d).bind (fun (x, e) => go K sec c cs t (X ++ [x]) (L ++ e.toList)) = some (Y, M) →
          ∃ Y' M', (step K sec c X' cmd' (d.map E)).bind (fun (x, e) => go K sec c cs' (F t) (X' ++ [x]) (L' ++ e.toList)) = some (Y', M') ∧
            Y.length = Y'.length ∧ (∀ i, Agree h (Y.getD i 0) (Y'.getD i 0)) ∧ seen h M = seen h M' := by
      intro d
      have hd := hs d
      rcases h1 : step K sec c X cmd d with _ | ⟨x, e⟩
      · exact ⟨Equiv.refl _, fun _ => rfl, by simp⟩
      rcases h2 : step K sec c X' cmd' (d.map E) with _ | ⟨x', e'⟩ <;> rw [h1, h2] at hd
      · exact hd.elim
      obtain ⟨F, hF, hg⟩ := ih (X ++ [x]) (X' ++ [x']) (L ++ e.toList) (L' ++ e'.toList) (by simp [hl])
        (agree_append h X X' hl hX x x' hd.1) (by
          have hd2 := hd.2
          simp only [seen, List.map_append] at hL hd2 ⊢
          rw [hL, hd2])
      exact ⟨F, hF, fun t Y M ht => hg t Y M ht⟩
    cases hk : kindOf cmd with
    | none =>
      obtain ⟨F, hF, hg⟩ := rest none
      refine ⟨F, hF, fun t Y M ht => ?_⟩
      simp only [go, hk, ← hkind] at ht ⊢
      exact hg t Y M ht
    | some k =>
      choose F hF hg using fun d : Draw T => rest (some d)
      refine ⟨consEquiv E F, ?_, ?_⟩
      · intro t
        cases t with
        | nil => rfl
        | cons d t => simp only [consEquiv, Equiv.coe_fn_mk, List.map_cons, hE, hF]
      · intro t Y M ht
        cases t with
        | nil => simp [go, hk] at ht
        | cons d t =>
          simp only [consEquiv, Equiv.coe_fn_mk]
          simp only [go, hk, ← hkind] at ht ⊢
          exact hg d t Y M ht

end

end SyMPC.RProgram
