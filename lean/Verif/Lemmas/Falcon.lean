import Verif.Spec.Falcon
import Verif.Lemmas.Py
import Verif.Lemmas.Rst
import Verif.Lemmas.Ring
import Mathlib.Tactic.LinearCombination
import Mathlib.Tactic.Abel

namespace SyMPC

variable {E R A B C RA RB RC : Type} [CommRing R] [CommRing RA] [CommRing RB] [CommRing RC]

/-- the three parties, spelled out -/
theorem three_unpack {env : Env} {s : Session} (h : s.Three env) :
    ∃ u0 u1 u2 p0 p1 p2 c0 c1 c2, s.rankToUuid = [u0, u1, u2] ∧ s.parties = [c0, c1, c2] ∧
      env u0 = some p0 ∧ env u1 = some p1 ∧ env u2 = some p2 ∧
      p0.rank = 0 ∧ p1.rank = 1 ∧ p2.rank = 2 ∧ p0.nrParties = 3 ∧ p1.nrParties = 3 ∧ p2.nrParties = 3 := by
  have h1 := h.ranks
  have h2 := h.parties
  rw [h.three] at h1 h2
  obtain ⟨u0, u1, u2, hu⟩ : ∃ u0 u1 u2, s.rankToUuid = [u0, u1, u2] := by
    rcases hl : s.rankToUuid with _ | ⟨u0, _ | ⟨u1, _ | ⟨u2, _ | ⟨u3, l⟩⟩⟩⟩ <;> rw [hl] at h1 <;> simp at h1
    exact ⟨u0, u1, u2, rfl⟩
  obtain ⟨c0, c1, c2, hc⟩ : ∃ u0 u1 u2, s.parties = [u0, u1, u2] := by
    rcases hl : s.parties with _ | ⟨u0, _ | ⟨u1, _ | ⟨u2, _ | ⟨u3, l⟩⟩⟩⟩ <;> rw [hl] at h2 <;> simp at h2
    exact ⟨u0, u1, u2, rfl⟩
  have hr := h.ranked
  obtain ⟨p0, e0, r0, n0⟩ := hr 0 u0 (by rw [hu]; rfl)
  obtain ⟨p1, e1, r1, n1⟩ := hr 1 u1 (by rw [hu]; rfl)
  obtain ⟨p2, e2, r2, n2⟩ := hr 2 u2 (by rw [hu]; rfl)
  rw [h.three] at n0 n1 n2
  exact ⟨u0, u1, u2, p0, p1, p2, c0, c1, c2, hu, hc, e0, e1, e2, by simpa using r0, by simpa using r1,
    by simpa using r2, n0, n1, n2⟩

theorem rep3_list {s : Session} {u0 u1 u2 : Nat} (hu : s.rankToUuid = [u0, u1, u2]) {x : RMPC E} {q : Nat} {c : Config}
    {sh : Nat → E} (h : x.Rep3 s q c sh) :
    x = ⟨s, [⟨[sh 0, sh 1], some u0, c, q⟩, ⟨[sh 1, sh 2], some u1, c, q⟩, ⟨[sh 2, sh 0], some u2, c, q⟩]⟩ := by
  obtain ⟨xs, xl⟩ := x
  have h1 := h.session
  have h2 := h.shares
  dsimp at h1 h2
  subst h1
  rw [h2, hu]
  rfl

theorem rep3_of_list {s : Session} {u0 u1 u2 : Nat} (hu : s.rankToUuid = [u0, u1, u2]) (q : Nat) (c : Config)
    (a b d : E) :
    (⟨s, [⟨[a, b], some u0, c, q⟩, ⟨[b, d], some u1, c, q⟩, ⟨[d, a], some u2, c, q⟩]⟩ : RMPC E).Rep3 s q c
      (fun i => if i = 0 then a else if i = 1 then b else d) := by
  refine ⟨rfl, ?_⟩
  rw [hu]
  rfl

theorem rofShares3 {env : Env} {s : Session} (h : s.Three env) (a b c : RST E) :
    RMPC.ofShares s [a, b, c] = .ok ⟨s, [a, b, c]⟩ := by
  unfold RMPC.ofShares
  rw [if_neg (by simpa using h.ptrs), if_neg (by simp)]

theorem is_of_list {I : RingOps E} (S : RingSem I R) {s : Session} {u0 u1 u2 : Nat} (hu : s.rankToUuid = [u0, u1, u2])
    (q : Nat) (c : Config) (a b d : E) (ha : S.Valid a) (hb : S.Valid b) (hd : S.Valid d) (v : R)
    (hv : S.den a + S.den b + S.den d = v) :
    (⟨s, [⟨[a, b], some u0, c, q⟩, ⟨[b, d], some u1, c, q⟩, ⟨[d, a], some u2, c, q⟩]⟩ : RMPC E).Is S s q c v :=
  ⟨_, rep3_of_list hu q c a b d, by intro i; show S.Valid (if _ then _ else _); split <;> [exact ha; split] <;> assumption, by simpa using hv⟩

/-- a sharing, spelled out -/
theorem is_unpack {I : RingOps E} {S : RingSem I R} {s : Session} {u0 u1 u2 : Nat} (hu : s.rankToUuid = [u0, u1, u2])
    {x : RMPC E} {q : Nat} {c : Config} {v : R} (h : x.Is S s q c v) :
    ∃ a b d, x = ⟨s, [⟨[a, b], some u0, c, q⟩, ⟨[b, d], some u1, c, q⟩, ⟨[d, a], some u2, c, q⟩]⟩ ∧
      S.Valid a ∧ S.Valid b ∧ S.Valid d ∧ S.den a + S.den b + S.den d = v := by
  obtain ⟨sh, h1, h2, h3⟩ := h
  exact ⟨sh 0, sh 1, sh 2, rep3_list hu h1, h2 0, h2 1, h2 2, h3⟩

theorem checkPrivate_self (s : Session) : MPCTensor.checkPrivate s s = .ok () := by
  simp [MPCTensor.checkPrivate]

theorem is_privateLin {env : Env} {s : Session} (hs : s.Three env) {I : RingOps E} (S : RingSem I R) (op : MPCTensor.LinOp)
    {x y : RMPC E} {q : Nat} {c c' : Config} {v w : R} (hx : x.Is S s q c v) (hy : y.Is S s q c' w) :
    ∃ z, RMPC.privateLin I op x y = .ok z ∧ z.Is S s q (RST.initConfig c q) (LinOp.den op v w) := by
  obtain ⟨u0, u1, u2, p0, p1, p2, c0, c1, c2, hu, hc, e0, e1, e2, r0, r1, r2, n0, n1, n2⟩ := three_unpack hs
  obtain ⟨a, b, d, rfl, ha, hb, hd, hv⟩ := is_unpack hu hx
  obtain ⟨a', b', d', rfl, ha', hb', hd', hw⟩ := is_unpack hu hy
  have key : ∀ a a', S.Valid a → S.Valid a' →
      S.Valid (RST.lin I op a a') ∧ S.den (RST.lin I op a a') = LinOp.den op (S.den a) (S.den a') := by
    intro a a' h h'
    cases op
    · exact S.add a a' h h'
    · exact S.sub a a' h h'
  refine ⟨⟨s, [⟨[RST.lin I op a a', RST.lin I op b b'], some u0, RST.initConfig c q, q⟩,
    ⟨[RST.lin I op b b', RST.lin I op d d'], some u1, RST.initConfig c q, q⟩,
    ⟨[RST.lin I op d d', RST.lin I op a a'], some u2, RST.initConfig c q, q⟩]⟩, ?_, ?_⟩
  · simp only [RMPC.privateLin, checkPrivate_self, ok_bind, List.zip_cons_cons, List.zip_nil_right, List.mapM_cons, List.mapM_nil,
      RST.privateOp, RST.checkPrivate, RST.new, List.zipWith_cons_cons, List.zipWith_nil_right, pure_eq_ok]
    simp [ok_bind, rofShares3 hs]
  · apply is_of_list S hu _ _ _ _ _ (key a a' ha ha').1 (key b b' hb hb').1 (key d d' hd hd').1
    rw [(key a a' ha ha').2, (key b b' hb hb').2, (key d d' hd hd').2, ← hv, ← hw]
    cases op <;> simp only [LinOp.den] <;> ring

theorem is_linEnc {env : Env} {s : Session} (hs : s.Three env) {I : RingOps E} (S : RingSem I R) (op : MPCTensor.LinOp)
    {x : RMPC E} {q : Nat} {c : Config} {v : R} (hx : x.Is S s q c v) (e : Config → E)
    (hp : S.Valid (e c)) :
    ∃ z, RMPC.linEnc I env op x e = .ok z ∧
      z.Is S s q (RST.initConfig c q) (LinOp.den op v (S.den (e c))) := by
  obtain ⟨u0, u1, u2, p0, p1, p2, c0, c1, c2, hu, hc, e0, e1, e2, r0, r1, r2, n0, n1, n2⟩ := three_unpack hs
  obtain ⟨a, b, d, rfl, ha, hb, hd, hv⟩ := is_unpack hu hx
  have key : S.Valid (RST.lin I op a (e c)) ∧
      S.den (RST.lin I op a (e c)) = LinOp.den op (S.den a) (S.den (e c)) := by
    cases op
    · exact S.add a _ ha hp
    · exact S.sub a _ ha hp
  refine ⟨⟨s, [⟨[RST.lin I op a (e c), b], some u0, RST.initConfig c q, q⟩,
    ⟨[b, d], some u1, RST.initConfig c q, q⟩,
    ⟨[d, RST.lin I op a (e c)], some u2, RST.initConfig c q, q⟩]⟩, ?_, ?_⟩
  · simp [RMPC.linEnc, RST.publicOp, RST.sessionOf, e0, e1, e2, r0, r1, r2, n0, n1, n2, ok_bind, pure_eq_ok, pyGet,
      RST.new, rofShares3 hs]
  · apply is_of_list S hu _ _ _ _ _ key.1 hb hd
    rw [key.2, ← hv]
    cases op <;> simp only [LinOp.den] <;> ring

theorem distribute3 {env : Env} {s : Session} (hs : s.Three env) {u0 u1 u2 : Nat} (hu : s.rankToUuid = [u0, u1, u2])
    (a b d : E) (q : Nat) (c : Config) :
    RST.distributeShares [a, b, d] s q c = .ok
      [⟨[a, b], some u0, RST.initConfig c q, q⟩, ⟨[b, d], some u1, RST.initConfig c q, q⟩,
        ⟨[d, a], some u2, RST.initConfig c q, q⟩] := by
  obtain ⟨u0, u1, u2, p0, p1, p2, c0, c1, c2, hu', hc, e0, e1, e2, r0, r1, r2, n0, n1, n2⟩ := three_unpack hs
  rw [hu] at hu'
  obtain ⟨rfl, rfl, rfl⟩ : _ ∧ _ ∧ _ := by simpa using hu'
  unfold RST.distributeShares
  rw [hs.three, if_neg (by simp), show List.range 3 = [0, 1, 2] from rfl]
  simp only [List.mapM_cons, List.mapM_nil, RST.distributeToParty, hc, hs.three, hu]
  rfl

theorem sum3 {I : RingOps E} (S : RingSem I R) (a b d : E) (ha : S.Valid a) (hb : S.Valid b) (hd : S.Valid d) :
    ∃ e, I.sum [a, b, d] = .ok e ∧ S.Valid e ∧ S.den e = S.den a + S.den b + S.den d := by
  obtain ⟨e, h1, h2, h3⟩ := S.sum [a, b, d] (by simp) (by
    intro x hx; simp at hx; rcases hx with rfl | rfl | rfl <;> assumption)
  exact ⟨e, h1, h2, by rw [h3]; simp [add_assoc]⟩

theorem sum2 {I : RingOps E} (S : RingSem I R) (a b : E) (ha : S.Valid a) (hb : S.Valid b) :
    ∃ e, I.sum [a, b] = .ok e ∧ S.Valid e ∧ S.den e = S.den a + S.den b := by
  obtain ⟨e, h1, h2, h3⟩ := S.sum [a, b] (by simp) (by
    intro x hx; simp at hx; rcases hx with rfl | rfl <;> assumption)
  exact ⟨e, h1, h2, by rw [h3]; simp⟩

/-- both ways of opening three consistent shares -/
theorem reconstruct3 [DecidableEq E] {I : RingOps E} (S : RingSem I R) (a b d : E) (ha : S.Valid a) (hb : S.Valid b)
    (hd : S.Valid d) (t0 t1 t2 : Option Nat) (c0 c1 c2 : Config) (q0 q1 q2 : Nat) (sec : Security) :
    ∃ e, RST.reconstruct I [⟨[a, b], t0, c0, q0⟩, ⟨[b, d], t1, c1, q1⟩, ⟨[d, a], t2, c2, q2⟩] sec = .ok e ∧ S.Valid e ∧
      S.den e = S.den a + S.den b + S.den d := by
  obtain ⟨e, h1, h2, h3⟩ := sum3 S a b d ha hb hd
  refine ⟨e, ?_, h2, h3⟩
  unfold RST.reconstruct
  rw [if_neg (by simp)]
  cases sec with
  | semiHonest => exact h1
  | malicious =>
    obtain ⟨e1, k1, k2, k3⟩ := sum3 S b d a hb hd ha
    obtain ⟨e2, m1, m2, m3⟩ := sum3 S d a b hd ha hb
    have hk : e1 = e := S.inj _ _ k2 h2 (by rw [k3, h3]; ring)
    have hm : e2 = e := S.inj _ _ m2 h2 (by rw [m3, h3]; ring)
    simp only [RST.reconstructMalicious]
    rw [openLoop_ok I _ e _ ?_ none (.inl rfl) (.inl (by simp))]
    · rfl
    · intro r hr
      have hr := List.mem_range.mp hr
      simp only [List.length_cons, List.length_nil] at hr
      have : r = 0 ∨ r = 1 ∨ r = 2 := by omega
      rcases this with rfl | rfl | rfl
      · exact h1
      · rw [hk] at k1; exact k1
      · rw [hm] at m1; simpa [RST.openAt, pyGet, ok_bind] using m1

theorem is_reconstruct [DecidableEq E] {env : Env} {s : Session} (hs : s.Three env) {I : RingOps E} {S : RingSem I R}
    {x : RMPC E} {q : Nat} {c : Config} {v : R} (hx : x.Is S s q c v) :
    ∃ e, x.reconstruct I = .ok e ∧ S.Valid e ∧ S.den e = v := by
  obtain ⟨u0, u1, u2, p0, p1, p2, c0, c1, c2, hu, hc, e0, e1, e2, r0, r1, r2, n0, n1, n2⟩ := three_unpack hs
  obtain ⟨a, b, d, rfl, ha, hb, hd, hv⟩ := is_unpack hu hx
  obtain ⟨e, h1, h2, h3⟩ := reconstruct3 S a b d ha hb hd (some u0) (some u1) (some u2) c c c q q q s.protocol.security
  exact ⟨e, h1, h2, by rw [h3, hv]⟩

/-- the shares of a product -/
theorem mulShares3 {env : Env} {s : Session} (hs : s.Three env) {IA : RingOps A} {IB : RingOps B} {IC : RingOps C}
    {SA : RingSem IA RA} {SB : RingSem IB RB} (SC : RingSem IC RC) {P : Product A B C} {β : RA →+ RB →+ RC}
    (hP : ProdSem SA SB SC P β) {x : RMPC A} {y : RMPC B} {q q' : Nat} {c c' : Config} {v : RA} {w : RB}
    (hx : x.Is SA s q c v) (hy : y.Is SB s q' c' w) {k : OpKind} (hop : getOp q P.opStr = .ok k) (mask : Nat → C)
    (hm : ∀ i, SC.Valid (mask i)) :
    ∃ z0 z1 z2, Falcon.mulShares IC env P mask s x y = .ok [z0, z1, z2] ∧ SC.Valid z0 ∧ SC.Valid z1 ∧ SC.Valid z2 ∧
      SC.den z0 + SC.den z1 + SC.den z2 = β v w + (SC.den (mask 0) + SC.den (mask 1) + SC.den (mask 2)) := by
  obtain ⟨u0, u1, u2, p0, p1, p2, c0, c1, c2, hu, hc, e0, e1, e2, r0, r1, r2, n0, n1, n2⟩ := three_unpack hs
  obtain ⟨a, b, d, rfl, ha, hb, hd, hv⟩ := is_unpack hu hx
  obtain ⟨a', b', d', rfl, ha', hb', hd', hw⟩ := is_unpack hu hy
  have party : ∀ x0 x1 y0 y1, SA.Valid x0 → SA.Valid x1 → SB.Valid y0 → SB.Valid y1 →
      ∃ z, IC.sum [P.op x0 y0, P.op x1 y0, P.op x0 y1] = .ok z ∧ SC.Valid z ∧
        SC.den z = β (SA.den x0) (SB.den y0) + β (SA.den x1) (SB.den y0) + β (SA.den x0) (SB.den y1) := by
    intro x0 x1 y0 y1 h0 h1 k0 k1
    obtain ⟨z, hz1, hz2, hz3⟩ := sum3 SC _ _ _ (hP x0 y0 h0 k0).1 (hP x1 y0 h1 k0).1 (hP x0 y1 h0 k1).1
    exact ⟨z, hz1, hz2, by rw [hz3, (hP x0 y0 h0 k0).2, (hP x1 y0 h1 k0).2, (hP x0 y1 h0 k1).2]⟩
  obtain ⟨z0, s0, t0, d0⟩ := party a b a' b' ha hb ha' hb'
  obtain ⟨z1, s1, t1, d1⟩ := party b d b' d' hb hd hb' hd'
  obtain ⟨z2, s2, t2, d2⟩ := party d a d' a' hd ha hd' ha'
  have m0 := SC.add z0 (mask 0) t0 (hm 0)
  have m1 := SC.add z1 (mask 1) t1 (hm 1)
  have m2 := SC.add z2 (mask 2) t2 (hm 2)
  refine ⟨_, _, _, ?_, m0.1, m1.1, m2.1, ?_⟩
  · simp [Falcon.mulShares, parallelExecution, hc, Falcon.computeZvalueAndAddMask, RST.getSession, e0, e1, e2, r0, r1, r2, ok_bind,
      Falcon.multiplicationProtocol, hop, pyGet, s0, s1, s2, pure_eq_ok, hs.ptrs]
  · rw [m0.2, m1.2, m2.2, d0, d1, d2, ← hv, ← hw]
    simp only [map_add, AddMonoidHom.add_apply]
    abel

theorem mulReshare3 {env : Env} {s : Session} (hs : s.Three env) {IA : RingOps A} {IB : RingOps B} {IC : RingOps C}
    {SA : RingSem IA RA} {SB : RingSem IB RB} (SC : RingSem IC RC) {P : Product A B C} {β : RA →+ RB →+ RC}
    (hP : ProdSem SA SB SC P β) {x : RMPC A} {y : RMPC B} {q q' : Nat} {c c' : Config} {v : RA} {w : RB}
    (hx : x.Is SA s q c v) (hy : y.Is SB s q' c' w) {k : OpKind} (hop : getOp q P.opStr = .ok k) (mask : Nat → C)
    (hm : ∀ i, SC.Valid (mask i)) (q'' : Nat) (c'' : Config) :
    ∃ z, Falcon.mulReshare IC env P mask s q'' c'' x y = .ok z ∧ z.Is SC s q'' (RST.initConfig c'' q'')
      (β v w + (SC.den (mask 0) + SC.den (mask 1) + SC.den (mask 2))) := by
  obtain ⟨u0, u1, u2, p0, p1, p2, c0, c1, c2, hu, hc, e0, e1, e2, r0, r1, r2, n0, n1, n2⟩ := three_unpack hs
  obtain ⟨z0, z1, z2, h1, k0, k1, k2, h2⟩ := mulShares3 hs SC hP hx hy hop mask hm
  have hxs : x.session = s := hx.choose_spec.1.session
  refine ⟨_, ?_, is_of_list SC hu _ _ z0 z1 z2 k0 k1 k2 _ h2⟩
  rw [Falcon.mulReshare, h1, ok_bind, hxs, distribute3 hs hu, ok_bind, rofShares3 hs]

/-- what one party computes in the verification of a product -/
theorem verification_party {env : Env} {IC : RingOps C} {P : Product A B C}
    (triple : Nat → Py (RTriple A B C)) (u : Nat) (p : PartySession) (he : env u = some p) (a0 a1 : A) (b0 b1 : B) (k0 k1 : C)
    (ca cb cc c : Config) (q : Nat) (ht : triple u = .ok ⟨⟨[a0, a1], some u, ca, q⟩, ⟨[b0, b1], some u, cb, q⟩,
      ⟨[k0, k1], some u, cc, q⟩⟩) {k : OpKind} (hop : getOp q P.opStr = .ok k) (eps : A) (delta : B) (z0 z1 w0 w1 : C)
    (h0 : (if p.rank = 0 then IC.sum [IC.add (IC.add k0 (P.op a0 delta)) (P.op eps b0), P.op eps delta]
      else .ok (IC.add (IC.add k0 (P.op a0 delta)) (P.op eps b0))) = .ok w0)
    (h1 : (if p.rank = 2 then IC.sum [IC.add (IC.add k1 (P.op a1 delta)) (P.op eps b1), P.op eps delta]
      else .ok (IC.add (IC.add k1 (P.op a1 delta)) (P.op eps b1))) = .ok w1) :
    Falcon.tripleVerification IC env P triple eps delta ⟨[z0, z1], some u, c, q⟩
      = .ok ⟨[IC.sub z0 w0, IC.sub z1 w1], some u, RST.initConfig c q, q⟩ := by
  by_cases hr0 : p.rank = 0
  · have hr2 : ¬ p.rank = 2 := by omega
    rw [if_pos hr0] at h0
    rw [if_neg hr2] at h1
    cases h1
    simp [Falcon.tripleVerification, RST.getSession, he, ok_bind, ht, hop, pyGet, RST.privateOp, RST.checkPrivate, RST.new,
      pure_eq_ok, hr0, Falcon.addAt, RST.lin, h0]
  · by_cases hr2 : p.rank = 2
    · rw [if_neg hr0] at h0
      rw [if_pos hr2] at h1
      cases h0
      simp [Falcon.tripleVerification, RST.getSession, he, ok_bind, ht, hop, pyGet, RST.privateOp, RST.checkPrivate, RST.new,
        pure_eq_ok, hr2, Falcon.addAt, RST.lin, h1]
    · rw [if_neg hr0] at h0
      rw [if_neg hr2] at h1
      cases h0; cases h1
      simp [Falcon.tripleVerification, RST.getSession, he, ok_bind, ht, hop, pyGet, RST.privateOp, RST.checkPrivate, RST.new,
        pure_eq_ok, hr0, hr2, RST.lin]

theorem pyGet3 {α : Type} (a b c : α) : (List.range 3).mapM (pyGet [a, b, c]) = .ok [a, b, c] := rfl

open Classical in
/-- the verification of a product accepts exactly the values with the triple's error -/
theorem verify3 [DecidableEq A] [DecidableEq B] [DecidableEq C] {env : Env} {s : Session} (hs : s.Three env)
    {KA : RingKit A} {KB : RingKit B} {KC : RingKit C} {SA : RingSem KA.ops RA} {SB : RingSem KB.ops RB}
    (SC : RingSem KC.ops RC) (hK : KitSem KC SC) {P : Product A B C} {β : RA →+ RB →+ RC} (hP : ProdSem SA SB SC P β)
    {x : RMPC A} {y : RMPC B} {z : RMPC C} {q : Nat} {c c' c'' : Config} {v : RA} {w : RB} {vz : RC}
    (hx : x.Is SA s q c v) (hy : y.Is SB s q c' w) (hz : z.Is SC s q c'' vz) {k : OpKind} (hop : getOp q P.opStr = .ok k)
    (triple : Nat → Py (RTriple A B C)) (err : RC) (ht : TripleErr SA SB SC β s q triple err) :
    Falcon.verifyProduct KA KB KC env P triple s x y z = if vz = β v w + err then .ok z else .error .valueError := by
  obtain ⟨u0, u1, u2, p0, p1, p2, c0, c1, c2, hu, hc, e0, e1, e2, r0, r1, r2, n0, n1, n2⟩ := three_unpack hs
  obtain ⟨a, b, d, rfl, ha, hb, hd, hv⟩ := is_unpack hu hx
  obtain ⟨a', b', d', rfl, ha', hb', hd', hw⟩ := is_unpack hu hy
  obtain ⟨f, g, h, rfl, hf, hg, hh, hvz⟩ := is_unpack hu hz
  obtain ⟨sa, sb, sc, ca, cb, cc, va, vb, vc, hT, herr⟩ := ht
  have t0 := hT 0 (by omega) u0 (by rw [hu]; rfl)
  have t1 := hT 1 (by omega) u1 (by rw [hu]; rfl)
  have t2 := hT 2 (by omega) u2 (by rw [hu]; rfl)
  simp only [show (0 + 1) % 3 = 1 from rfl, show (1 + 1) % 3 = 2 from rfl, show (2 + 1) % 3 = 0 from rfl] at t0 t1 t2
  have sA : ∀ a a', SA.Valid a → SA.Valid a' → _ := SA.sub
  obtain ⟨eps, q1, q2, q3⟩ := reconstruct3 SA (KA.ops.sub a (sa 0)) (KA.ops.sub b (sa 1)) (KA.ops.sub d (sa 2))
    (SA.sub _ _ ha (va 0)).1 (SA.sub _ _ hb (va 1)).1 (SA.sub _ _ hd (va 2)).1 (some u0) (some u1) (some u2)
    (RST.initConfig c q) (RST.initConfig c q) (RST.initConfig c q) q q q .semiHonest
  obtain ⟨delta, m1, m2, m3⟩ := reconstruct3 SB (KB.ops.sub a' (sb 0)) (KB.ops.sub b' (sb 1)) (KB.ops.sub d' (sb 2))
    (SB.sub _ _ ha' (vb 0)).1 (SB.sub _ _ hb' (vb 1)).1 (SB.sub _ _ hd' (vb 2)).1 (some u0) (some u1) (some u2)
    (RST.initConfig c' q) (RST.initConfig c' q) (RST.initConfig c' q) q q q .semiHonest
  rw [(SA.sub _ _ ha (va 0)).2, (SA.sub _ _ hb (va 1)).2, (SA.sub _ _ hd (va 2)).2] at q3
  rw [(SB.sub _ _ ha' (vb 0)).2, (SB.sub _ _ hb' (vb 1)).2, (SB.sub _ _ hd' (vb 2)).2] at m3
  -- the three shares of `c + delta * a + eps * b`
  have loc : ∀ i, SC.Valid (KC.ops.add (KC.ops.add (sc i) (P.op (sa i) delta)) (P.op eps (sb i))) ∧
      SC.den (KC.ops.add (KC.ops.add (sc i) (P.op (sa i) delta)) (P.op eps (sb i)))
        = SC.den (sc i) + β (SA.den (sa i)) (SB.den delta) + β (SA.den eps) (SB.den (sb i)) := by
    intro i
    have k1 := hP (sa i) delta (va i) m2
    have k2 := hP eps (sb i) q2 (vb i)
    have k3 := SC.add _ _ (vc i) k1.1
    have k4 := SC.add _ _ k3.1 k2.1
    exact ⟨k4.1, by rw [k4.2, k3.2, k1.2, k2.2]⟩
  have ed := hP eps delta q2 m2
  obtain ⟨w0, s1, s2, s3⟩ := sum2 SC _ _ (loc 0).1 ed.1
  have w1 := loc 1
  have w2 := loc 2
  generalize hw1 : KC.ops.add (KC.ops.add (sc 1) (P.op (sa 1) delta)) (P.op eps (sb 1)) = o1 at w1
  generalize hw2 : KC.ops.add (KC.ops.add (sc 2) (P.op (sa 2) delta)) (P.op eps (sb 2)) = o2 at w2
  have v0 := verification_party triple u0 p0 e0 _ _ _ _ _ _ ca cb cc c'' q t0 hop eps delta f g w0 o1
    (by rw [if_pos r0]; exact s1) (by rw [if_neg (by omega), hw1])
  have v1 := verification_party triple u1 p1 e1 _ _ _ _ _ _ ca cb cc c'' q t1 hop eps delta g h o1 o2
    (by rw [if_neg (by omega), hw1]) (by rw [if_neg (by omega), hw2])
  have v2 := verification_party triple u2 p2 e2 _ _ _ _ _ _ ca cb cc c'' q t2 hop eps delta h f o2 w0
    (by rw [if_neg (by omega), hw2]) (by rw [if_pos r2]; exact s1)
  have x0 := SC.sub f w0 hf s2
  have x1 := SC.sub g o1 hg w1.1
  have x2 := SC.sub h o2 hh w2.1
  obtain ⟨r, l1, l2, l3⟩ := reconstruct3 SC _ _ _ x0.1 x1.1 x2.1 (some u0) (some u1) (some u2) (RST.initConfig c'' q)
    (RST.initConfig c'' q) (RST.initConfig c'' q) q q q s.protocol.security
  have hz : (KC.isZero r = true) ↔ vz = β v w + err := by
    rw [hK.isZero r l2, l3, x0.2, x1.2, x2.2, s3, (loc 0).2, w1.2, w2.2, ed.2, q3, m3, ← hvz, ← hv, ← hw]
    have hsc : SC.den (sc 0) = β (SA.den (sa 0) + SA.den (sa 1) + SA.den (sa 2)) (SB.den (sb 0) + SB.den (sb 1) + SB.den (sb 2))
        + err - SC.den (sc 1) - SC.den (sc 2) := by rw [← herr]; ring
    rw [hsc, ← sub_eq_zero (a := SC.den f + SC.den g + SC.den h)]
    simp only [map_add, map_sub, AddMonoidHom.add_apply, AddMonoidHom.sub_apply]
    constructor <;> intro h <;> rw [← h] <;> abel
  have hmask : parallelExecution s.parties (fun (a, b) => Falcon.falconMask KA.ops KB.ops env triple a b)
      (List.zip [⟨[a, b], some u0, c, q⟩, ⟨[b, d], some u1, c, q⟩, ⟨[d, a], some u2, c, q⟩]
        [⟨[a', b'], some u0, c', q⟩, ⟨[b', d'], some u1, c', q⟩, ⟨[d', a'], some u2, c', q⟩])
      = .ok [(⟨[KA.ops.sub a (sa 0), KA.ops.sub b (sa 1)], some u0, RST.initConfig c q, q⟩,
          ⟨[KB.ops.sub a' (sb 0), KB.ops.sub b' (sb 1)], some u0, RST.initConfig c' q, q⟩),
        (⟨[KA.ops.sub b (sa 1), KA.ops.sub d (sa 2)], some u1, RST.initConfig c q, q⟩,
          ⟨[KB.ops.sub b' (sb 1), KB.ops.sub d' (sb 2)], some u1, RST.initConfig c' q, q⟩),
        (⟨[KA.ops.sub d (sa 2), KA.ops.sub a (sa 0)], some u2, RST.initConfig c q, q⟩,
          ⟨[KB.ops.sub d' (sb 2), KB.ops.sub a' (sb 0)], some u2, RST.initConfig c' q, q⟩)] := by
    simp [parallelExecution, hc, Falcon.falconMask, RST.getSession, e0, e1, e2, ok_bind, t0, t1, t2, RST.privateOp, RST.checkPrivate,
      RST.new, pure_eq_ok, RST.lin]
  have hver : parallelExecution s.parties (Falcon.tripleVerification KC.ops env P triple eps delta)
      [⟨[f, g], some u0, c'', q⟩, ⟨[g, h], some u1, c'', q⟩, ⟨[h, f], some u2, c'', q⟩]
      = .ok [⟨[KC.ops.sub f w0, KC.ops.sub g o1], some u0, RST.initConfig c'' q, q⟩,
        ⟨[KC.ops.sub g o1, KC.ops.sub h o2], some u1, RST.initConfig c'' q, q⟩,
        ⟨[KC.ops.sub h o2, KC.ops.sub f w0], some u2, RST.initConfig c'' q, q⟩] := by
    simp [parallelExecution, hc, v0, v1, v2, ok_bind, pure_eq_ok]
  unfold Falcon.verifyProduct
  dsimp only
  rw [hmask, ok_bind, hs.three]
  rw [pyGet3, ok_bind]
  simp only [List.map_cons, List.map_nil]
  rw [q1, ok_bind, m1, ok_bind, hver, ok_bind, rofShares3 hs, ok_bind]
  simp only [RMPC.reconstruct]
  rw [l1, ok_bind]
  by_cases hcond : vz = β v w + err
  · rw [if_pos (hz.mpr hcond), if_pos hcond]; rfl
  · rw [if_neg (fun h => hcond (hz.mp h)), if_neg hcond]; rfl

/-! ## Truncation -/

theorem RST.initConfig_idem' (c : Config) (q : Nat) : RST.initConfig (RST.initConfig c q) q = RST.initConfig c q := by
  unfold RST.initConfig; split <;> simp

theorem unscaled_init {q : Nat} {c : Config} (h : Unscaled q c) : Unscaled q (RST.initConfig c q) := by
  unfold RST.initConfig
  split
  · rename_i h'; rcases h' with h' | h' <;> simp [Unscaled, h']
  · exact h

theorem getOp_ok {q : Nat} {op : OpStr} (h : ∃ t, getTypeFromRing q = .ok t) (hop : op ≠ .matmul) : ∃ k, getOp q op = .ok k := by
  obtain ⟨t, h⟩ := h
  unfold getOp
  by_cases h2 : q = 2
  · rw [if_pos h2]; cases op <;> first | exact absurd rfl hop | exact ⟨_, rfl⟩
  · rw [if_neg h2]
    by_cases h3 : q = primeNumber
    · rw [if_pos h3]; cases op <;> first | exact absurd rfl hop | exact ⟨_, rfl⟩
    · rw [if_neg h3, h]; exact ⟨_, rfl⟩

/-- the truncation of plain tensors, in every ring -/
theorem truncateRaw3 {env : Env} {s : Session} (hs : s.Three env) {K : RingKit E} {S : RingSem K.ops R} (hK : KitSem K S)
    (z0 z1 z2 : E) (h0 : S.Valid z0) (h1 : S.Valid z1) (h2 : S.Valid z2) (c : Config) (r : E) (hr : S.Valid r) :
    ∃ z, ABY3.truncateRaw K [z0, z1, z2] s K.size c r = .ok z ∧ z.Is S s K.size (RST.initConfig c K.size)
      (if K.size = 2 ∨ K.size = primeNumber then S.den z0 + S.den z1 + S.den z2
        else S.den (K.shift c z0) + S.den (K.shift c (K.ops.add z1 z2))) := by
  obtain ⟨u0, u1, u2, p0, p1, p2, c0, c1, c2, hu, hc, e0, e1, e2, r0, r1, r2, n0, n1, n2⟩ := three_unpack hs
  obtain ⟨t, ht⟩ := hK.ring
  by_cases hq : K.size = 2 ∨ K.size = primeNumber
  · refine ⟨_, ?_, is_of_list S hu _ _ z0 z1 z2 h0 h1 h2 _ (by rw [if_pos hq])⟩
    simp only [ABY3.truncateRaw, hs.three, hq, if_true, ne_eq, not_true_eq_false, if_false, ok_bind, distribute3 hs hu, rofShares3 hs]
  · have k1 := hK.shiftValid c z0 h0
    have k2 := hK.shiftValid c _ (S.add z1 z2 h1 h2).1
    have k3 := S.sub _ _ k2 hr
    refine ⟨_, ?_, is_of_list S hu _ _ (K.shift c z0) (K.ops.sub (K.shift c (K.ops.add z1 z2)) r) r k1 k3.1 hr _
      (by rw [if_neg hq, k3.2]; ring)⟩
    simp only [ABY3.truncateRaw, hs.three, hq, ne_eq, not_true_eq_false, if_false, ok_bind, ABY3.truncationAlgorithm1, ht,
      distribute3 hs hu, rofShares3 hs]

/-- the truncation of a replicated tensor -/
theorem truncate3 {env : Env} {s : Session} (hs : s.Three env) {K : RingKit E} {S : RingSem K.ops R} (hK : KitSem K S)
    {x : RMPC E} {c : Config} {sh : Nat → E} (hx : x.Rep3 s K.size c sh) (hv : ∀ i, S.Valid (sh i)) (c' : Config) (r : E)
    (hr : S.Valid r) :
    ∃ z, ABY3.truncate K x s K.size c' r = .ok z ∧
      if K.size = 2 ∨ K.size = primeNumber then z = x
      else z.Is S s K.size c' (S.den (K.shift c' (sh 0)) + S.den (K.shift c' (K.ops.add (sh 1) (sh 2)))) := by
  obtain ⟨u0, u1, u2, p0, p1, p2, c0, c1, c2, hu, hc, e0, e1, e2, r0, r1, r2, n0, n1, n2⟩ := three_unpack hs
  obtain ⟨t, ht⟩ := hK.ring
  have hx := rep3_list hu hx
  subst hx
  by_cases hq : K.size = 2 ∨ K.size = primeNumber
  · refine ⟨_, ?_, by rw [if_pos hq]⟩
    simp only [ABY3.truncate, hs.three, hq, if_true, ne_eq, not_true_eq_false, if_false, rofShares3 hs]
  · have k1 := hK.shiftValid c' _ (hv 0)
    have k2 := hK.shiftValid c' _ (S.add _ _ (hv 1) (hv 2)).1
    have k3 := S.sub _ _ k2 hr
    have hi : RST.initConfig c' K.size = c' := by unfold RST.initConfig; rw [if_neg hq]
    have := is_of_list S hu K.size c' (K.shift c' (sh 0)) (K.ops.sub (K.shift c' (K.ops.add (sh 1) (sh 2))) r) r k1 k3.1 hr
      (S.den (K.shift c' (sh 0)) + S.den (K.shift c' (K.ops.add (sh 1) (sh 2)))) (by rw [k3.2]; ring)
    refine ⟨_, ?_, by rw [if_neg hq]; exact this⟩
    simp only [ABY3.truncate, hs.three, hq, ne_eq, not_true_eq_false, if_false, ok_bind, ABY3.truncationAlgorithm1, ht,
      distribute3 hs hu, rofShares3 hs, pyGet, List.getElem?_cons_zero, List.getElem?_cons_succ, hi]

theorem unscaled_shift {K : RingKit E} {S : RingSem K.ops R} (hK : KitSem K S) {c : Config} (h : Unscaled K.size c)
    (hq : ¬ (K.size = 2 ∨ K.size = primeNumber)) (a : E) (ha : S.Valid a) : K.shift c a = a := by
  refine hK.shift c a ?_ ha
  rcases h with h | h | h
  · exact absurd (.inl h) hq
  · exact absurd (.inr h) hq
  · exact h

/-- without scaling, truncation keeps the value -/
theorem truncate_plain {env : Env} {s : Session} (hs : s.Three env) {K : RingKit E} {S : RingSem K.ops R} (hK : KitSem K S)
    {x : RMPC E} {c c' : Config} {v : R} (hx : x.Is S s K.size c v) (hc : Unscaled K.size c) (hc' : Unscaled K.size c') (r : E)
    (hr : S.Valid r) : ∃ z, ABY3.truncate K x s K.size c' r = .ok z ∧ z.Plain S s K.size v := by
  have hx0 := hx
  obtain ⟨sh, h1, h2, h3⟩ := hx
  obtain ⟨z, h4, h5⟩ := truncate3 hs hK h1 h2 c' r hr
  refine ⟨z, h4, ?_⟩
  split at h5
  · subst h5; exact ⟨c, hc, hx0⟩
  · rename_i hq
    refine ⟨c', hc', ?_⟩
    rw [unscaled_shift hK hc' hq _ (h2 0), unscaled_shift hK hc' hq _ (S.add _ _ (h2 1) (h2 2)).1, (S.add _ _ (h2 1) (h2 2)).2,
      ← add_assoc, h3] at h5
    exact h5

/-- the product before truncation: the shares it is computed from, and the master's result -/
theorem mulMaster_plain [DecidableEq A] [DecidableEq B] [DecidableEq C] {env : Env} {s : Session} (hs : s.Three env)
    {KA : RingKit A} {KB : RingKit B} {KC : RingKit C} {SA : RingSem KA.ops RA} {SB : RingSem KB.ops RB}
    {SC : RingSem KC.ops RC} (hK : KitSem KC SC) {P : Product A B C} {β : RA →+ RB →+ RC} (hP : ProdSem SA SB SC P β)
    {x : RMPC A} {y : RMPC B} {c c' : Config} {v : RA} {w : RB} (hx : x.Is SA s KC.size c v) (hy : y.Is SB s KC.size c' w)
    (hc : Unscaled KC.size c) {k : OpKind} (hop : getOp KC.size P.opStr = .ok k) {rnd : MulRand A B C}
    (hr : rnd.Ok SA SB SC β s KC.size) :
    ∃ z, Falcon.mulMaster KA KB KC env P rnd x y = .ok z ∧ z.Plain SC s KC.size (β v w) := by
  obtain ⟨u0, u1, u2, p0, p1, p2, c0, c1, c2, hu, hp, e0, e1, e2, r0, r1, r2, n0, n1, n2⟩ := three_unpack hs
  have hxs : x.session = s := hx.choose_spec.1.session
  have hys : y.session = s := hy.choose_spec.1.session
  have hx0 : ∃ p, pyGet x.shares 0 = .ok p ∧ p.ringSize = KC.size ∧ p.config = c := by
    obtain ⟨a, b, d, rfl, _⟩ := is_unpack hu hx
    exact ⟨_, rfl, rfl, rfl⟩
  obtain ⟨p, hp0, hpq, hpc⟩ := hx0
  unfold Falcon.mulMaster
  rw [hxs, hys, checkPrivate_self, ok_bind, hp]
  simp only [List.length_cons, List.length_nil, Nat.zero_add, Nat.reduceAdd, ne_eq, not_true_eq_false, if_false, ok_bind, hp0, hpq, hpc]
  cases hsec : s.protocol.security with
  | semiHonest =>
    obtain ⟨z0, z1, z2, h1, h2, h3, h4, h5⟩ := mulShares3 hs SC hP hx hy hop rnd.mask hr.mask.1
    obtain ⟨z, h6, h7⟩ := truncateRaw3 hs hK z0 z1 z2 h2 h3 h4 c rnd.trunc hr.trunc
    refine ⟨z, by simp only [h1, ok_bind, h6], _, unscaled_init hc, ?_⟩
    rw [hr.mask.2, add_zero] at h5
    split at h7
    · rwa [h5] at h7
    · rename_i hq
      rw [unscaled_shift hK hc hq _ h2, unscaled_shift hK hc hq _ (SC.add _ _ h3 h4).1, (SC.add _ _ h3 h4).2,
        ← add_assoc, h5] at h7
      exact h7
  | malicious =>
    obtain ⟨z, h1, h2⟩ := mulReshare3 hs SC hP hx hy hop rnd.mask hr.mask.1 KC.size c
    rw [hr.mask.2, add_zero] at h2
    obtain ⟨z', h3, h4⟩ := truncate_plain hs hK h2 (unscaled_init hc) hc rnd.trunc hr.trunc
    refine ⟨z', ?_, h4⟩
    have := verify3 hs SC hK hP hx hy h2 hop rnd.triple 0 (hr.triple hsec)
    rw [if_pos (by rw [add_zero])] at this
    simp only [Falcon.mulMalicious, h1, ok_bind, this, h3]

/-! ## Operations without scaling -/

theorem product_sem {K : RingKit E} (S : RingSem K.ops R) : ProdSem S S S K.product AddMonoidHom.mul :=
  fun a b ha hb => S.mul a b ha hb

theorem plain_mul [DecidableEq E] {env : Env} {s : Session} (hs : s.Three env) {K : RingKit E} {S : RingSem K.ops R}
    (hK : KitSem K S) {x y : RMPC E} {v w : R} (hx : x.Plain S s K.size v) (hy : y.Plain S s K.size w) {rnd : MulRand E E E}
    (hr : rnd.Ok S S S AddMonoidHom.mul s K.size) :
    ∃ z, RMPC.mulPrivate K env rnd x y = .ok z ∧ z.Plain S s K.size (v * w) := by
  obtain ⟨c, hc, hx⟩ := hx
  obtain ⟨c', _, hy⟩ := hy
  obtain ⟨k, hk⟩ := getOp_ok (op := .mul) hK.ring (by decide)
  exact mulMaster_plain hs hK (product_sem S) hx hy hc hk hr

theorem plain_lin {env : Env} {s : Session} (hs : s.Three env) {I : RingOps E} {S : RingSem I R} (op : MPCTensor.LinOp)
    {x y : RMPC E} {q : Nat} {v w : R} (hx : x.Plain S s q v) (hy : y.Plain S s q w) :
    ∃ z, RMPC.privateLin I op x y = .ok z ∧ z.Plain S s q (LinOp.den op v w) := by
  obtain ⟨c, hc, hx⟩ := hx
  obtain ⟨c', _, hy⟩ := hy
  obtain ⟨z, h1, h2⟩ := is_privateLin hs S op hx hy
  exact ⟨z, h1, _, unscaled_init hc, h2⟩

/-- public values that keep their integer value in the ring -/
def FixedPointEncoder.Val.IntIs (q : Nat) (p : FixedPointEncoder.Val) (k : Int) : Prop :=
  (p = .int k ∨ ∃ t : I64, p = .long t ∧ t.toInt = k) ∧ (q = 2 → k = -1 ∨ k = 0 ∨ k = 1)

theorem enc_int {K : RingKit E} {S : RingSem K.ops R} (hK : KitSem K S) {c : Config} (hc : Unscaled K.size c)
    {p : FixedPointEncoder.Val} {k : Int} (hp : p.IntIs K.size k) : S.Valid (K.enc c p) ∧ S.den (K.enc c p) = (k : R) := by
  obtain ⟨rfl | ⟨t, rfl, rfl⟩, h2⟩ := hp
  · exact hK.encInt c k hc h2
  · exact hK.encLong c t hc h2

/-- a public tensor that is encoded as `v` by every configuration without scaling -/
def PubIs {I : RingOps E} (S : RingSem I R) (q : Nat) (e : Config → E) (v : R) : Prop :=
  ∀ c, Unscaled q c → S.Valid (e c) ∧ S.den (e c) = v

theorem pub_int {K : RingKit E} {S : RingSem K.ops R} (hK : KitSem K S) {p : FixedPointEncoder.Val} {k : Int}
    (hp : p.IntIs K.size k) : PubIs S K.size (fun c => K.enc c p) (k : R) := fun _ hc => enc_int hK hc hp

theorem plain_linEnc {env : Env} {s : Session} (hs : s.Three env) {I : RingOps E} {S : RingSem I R}
    (op : MPCTensor.LinOp) {x : RMPC E} {q : Nat} {v w : R} (hx : x.Plain S s q v) {e : Config → E} (he : PubIs S q e w) :
    ∃ z, RMPC.linEnc I env op x e = .ok z ∧ z.Plain S s q (LinOp.den op v w) := by
  obtain ⟨c, hc, hx⟩ := hx
  obtain ⟨h1, h2⟩ := he c hc
  obtain ⟨z, h3, h4⟩ := is_linEnc hs S op hx e h1
  rw [h2] at h4
  exact ⟨z, h3, _, unscaled_init hc, h4⟩

theorem plain_linPublic {env : Env} {s : Session} (hs : s.Three env) {K : RingKit E} {S : RingSem K.ops R} (hK : KitSem K S)
    (op : MPCTensor.LinOp) {x : RMPC E} {v : R} (hx : x.Plain S s K.size v) {p : FixedPointEncoder.Val} {k : Int}
    (hp : p.IntIs K.size k) : ∃ z, RMPC.linPublic K env op x p = .ok z ∧ z.Plain S s K.size (LinOp.den op v (k : R)) :=
  plain_linEnc hs op hx (pub_int hK hp)

theorem is_publicMul {env : Env} {s : Session} (hs : s.Three env) {K : RingKit E} {S : RingSem K.ops R}
    {x : RMPC E} {q : Nat} {c : Config} {v : R} (hx : x.Is S s q c v) (e : Config → E) (hp : S.Valid (e c)) :
    ∃ z, RMPC.ofShares x.session (x.shares.map fun s => RST.publicMul K.ops s (e s.config)) = .ok z ∧
      z.Is S s q (RST.initConfig c q) (v * S.den (e c)) := by
  obtain ⟨u0, u1, u2, p0, p1, p2, c0, c1, c2, hu, hc, e0, e1, e2, r0, r1, r2, n0, n1, n2⟩ := three_unpack hs
  obtain ⟨a, b, d, rfl, ha, hb, hd, hv⟩ := is_unpack hu hx
  have k1 := S.mul _ _ ha hp
  have k2 := S.mul _ _ hb hp
  have k3 := S.mul _ _ hd hp
  refine ⟨_, ?_, is_of_list S hu q (RST.initConfig c q) _ _ _ k1.1 k2.1 k3.1 _ ?_⟩
  · simp only [List.map_cons, List.map_nil, RST.publicMul, RST.new]
    exact rofShares3 hs _ _ _
  · rw [k1.2, k2.2, k3.2, ← hv]; ring

theorem first_share {env : Env} {s : Session} (hs : s.Three env) {I : RingOps E} {S : RingSem I R} {x : RMPC E} {q : Nat}
    {c : Config} {v : R} (hx : x.Is S s q c v) : ∃ p, pyGet x.shares 0 = .ok p ∧ p.ringSize = q ∧ p.config = c := by
  obtain ⟨u0, u1, u2, p0, p1, p2, c0, c1, c2, hu, hc, e0, e1, e2, r0, r1, r2, n0, n1, n2⟩ := three_unpack hs
  obtain ⟨a, b, d, rfl, _⟩ := is_unpack hu hx
  exact ⟨_, rfl, rfl, rfl⟩

theorem plain_mulEnc {env : Env} {s : Session} (hs : s.Three env) {K : RingKit E} {S : RingSem K.ops R} (hK : KitSem K S)
    {x : RMPC E} {v w : R} (hx : x.Plain S s K.size v) {e : Config → E} (he : PubIs S K.size e w) (r : E)
    (hr : S.Valid r) : ∃ z, RMPC.mulEnc K x e r = .ok z ∧ z.Plain S s K.size (v * w) := by
  obtain ⟨c, hc, hx⟩ := hx
  obtain ⟨h1, h2⟩ := he c hc
  obtain ⟨z, h3, h4⟩ := is_publicMul hs hx e h1
  obtain ⟨p0, h5, h6, h7⟩ := first_share hs hx
  have hxs : x.session = s := hx.choose_spec.1.session
  rw [h2] at h4
  obtain ⟨z', h8, h9⟩ := truncate_plain hs hK h4 (unscaled_init hc) hc r hr
  refine ⟨z', ?_, h9⟩
  rw [RMPC.mulEnc, h3, ok_bind, h5, ok_bind, h6, h7, hxs, h8]

theorem plain_mulPublic {env : Env} {s : Session} (hs : s.Three env) {K : RingKit E} {S : RingSem K.ops R} (hK : KitSem K S)
    {x : RMPC E} {v : R} (hx : x.Plain S s K.size v) {p : FixedPointEncoder.Val} {k : Int} (hp : p.IntIs K.size k) (r : E)
    (hr : S.Valid r) : ∃ z, RMPC.mulPublic K x p r = .ok z ∧ z.Plain S s K.size (v * (k : R)) :=
  plain_mulEnc hs hK hx (pub_int hK hp) r hr

theorem plain_rsubEnc {env : Env} {s : Session} (hs : s.Three env) {K : RingKit E} {S : RingSem K.ops R} (hK : KitSem K S)
    {x : RMPC E} {v w : R} (hx : x.Plain S s K.size v) {e : Config → E} (he : PubIs S K.size e w) (r : E)
    (hr : S.Valid r) : ∃ z, RMPC.rsubEnc K env x e r = .ok z ∧ z.Plain S s K.size (w - v) := by
  obtain ⟨z, h1, h2⟩ := plain_linEnc hs .sub hx he
  obtain ⟨z', h3, h4⟩ := plain_mulPublic hs hK h2 (p := .int (-1)) (k := -1) ⟨.inl rfl, fun _ => .inl rfl⟩ r hr
  refine ⟨z', by simp only [RMPC.rsubEnc, h1, ok_bind]; exact h3, ?_⟩
  have : LinOp.den .sub v w * ((-1 : Int) : R) = w - v := by
    simp only [LinOp.den]; push_cast; ring
  rwa [this] at h4

theorem plain_rsub {env : Env} {s : Session} (hs : s.Three env) {K : RingKit E} {S : RingSem K.ops R} (hK : KitSem K S)
    {x : RMPC E} {v : R} (hx : x.Plain S s K.size v) {p : FixedPointEncoder.Val} {k : Int} (hp : p.IntIs K.size k) (r : E)
    (hr : S.Valid r) : ∃ z, RMPC.rsubPublicTrunc K env x p r = .ok z ∧ z.Plain S s K.size ((k : R) - v) :=
  plain_rsubEnc hs hK hx (pub_int hK hp) r hr

/-- xor as the code computes it -/
def xorVal (q : Nat) (v w : R) : R := if q = 2 then v + w else v + w - v * w * 2

theorem plain_xor [DecidableEq E] {env : Env} {s : Session} (hs : s.Three env) {K : RingKit E} {S : RingSem K.ops R}
    (hK : KitSem K S) {x y : RMPC E} {v w : R} (hx : x.Plain S s K.size v) (hy : y.Plain S s K.size w) {rnd : MulRand E E E}
    (hrnd : rnd.Ok S S S AddMonoidHom.mul s K.size) (r : E) (hr : S.Valid r) :
    ∃ z, RMPC.xorPrivate K env rnd r x y = .ok z ∧ z.Plain S s K.size (xorVal K.size v w) := by
  have hxs : x.session = s := hx.choose_spec.2.choose_spec.1.session
  have hys : y.session = s := hy.choose_spec.2.choose_spec.1.session
  obtain ⟨a, a1, a2⟩ := plain_lin hs .add hx hy
  obtain ⟨c, hc, hx'⟩ := hx
  obtain ⟨p0, h5, h6, h7⟩ := first_share hs hx'
  unfold RMPC.xorPrivate
  rw [hxs, hys, checkPrivate_self, ok_bind, h5, ok_bind, h6]
  by_cases hq : K.size = 2
  · rw [if_pos hq]
    exact ⟨a, a1, by rw [xorVal, if_pos hq]; exact a2⟩
  · rw [if_neg hq, a1, ok_bind]
    obtain ⟨m, m1, m2⟩ := plain_mul hs hK ⟨c, hc, hx'⟩ hy hrnd
    obtain ⟨t, t1, t2⟩ := plain_mulPublic hs hK m2 (p := .int 2) (k := 2) ⟨.inl rfl, fun h => absurd h hq⟩ r hr
    obtain ⟨z, z1, z2⟩ := plain_lin hs .sub a2 t2
    rw [m1, ok_bind, t1, ok_bind, z1]
    refine ⟨z, rfl, ?_⟩
    rw [xorVal, if_neg hq]
    simpa [LinOp.den] using z2

/-- xor of two bits in a ring where the code's formula is right -/
theorem xorVal_bits {q : Nat} (h2 : q = 2 → (2 : R) = 0) (a b : Bool) :
    xorVal q (if a then (1 : R) else 0) (if b then 1 else 0) = if a ^^ b then 1 else 0 := by
  unfold xorVal
  split
  · rename_i h
    have := h2 h
    cases a <;> cases b <;> simp
    rw [one_add_one_eq_two, this]
  · cases a <;> cases b <;> simp
    ring

theorem plain_reconstruct [DecidableEq E] {env : Env} {s : Session} (hs : s.Three env) {I : RingOps E} {S : RingSem I R}
    {x : RMPC E} {q : Nat} {v : R} (hx : x.Plain S s q v) : ∃ e, x.reconstruct I = .ok e ∧ S.Valid e ∧ S.den e = v :=
  is_reconstruct hs hx.choose_spec.2

theorem plain_xorEnc {env : Env} {s : Session} (hs : s.Three env) {K : RingKit E} {S : RingSem K.ops R} (hK : KitSem K S)
    {x : RMPC E} {v w : R} (hx : x.Plain S s K.size v) {e : Config → E} (he : PubIs S K.size e w) :
    ∃ z, RMPC.xorEnc K env x e = .ok z ∧ z.Plain S s K.size (xorVal K.size v w) := by
  by_cases hq : K.size = 2
  · obtain ⟨z, h1, h2⟩ := plain_linEnc hs .add hx he
    refine ⟨z, ?_, by rw [xorVal, if_pos hq]; exact h2⟩
    rw [← h1]
    obtain ⟨u0, u1, u2, p0, p1, p2, c0, c1, c2, hu, -⟩ := three_unpack hs
    obtain ⟨c, hc, hx'⟩ := hx
    obtain ⟨a, b, d, rfl, -⟩ := is_unpack hu hx'
    simp only [RMPC.xorEnc, RMPC.linEnc, RST.publicXor, hq, if_true, List.mapM_cons, List.mapM_nil]
  · obtain ⟨c, hc, hx'⟩ := hx
    have hc' := unscaled_init hc
    have hy := he c hc
    have h2 := enc_int hK hc (p := .int 2) (k := 2) ⟨.inl rfl, fun h => absurd h hq⟩
    obtain ⟨u0, u1, u2, p0, p1, p2, c0, c1, c2, hu, hcc, e0, e1, e2, r0, r1, r2, n0, n1, n2⟩ := three_unpack hs
    obtain ⟨t, ht⟩ := hK.ring
    obtain ⟨a, b, d, rfl, ha, hb, hd, hv⟩ := is_unpack hu hx'
    obtain ⟨y, hyE⟩ : ∃ y, y = e c := ⟨_, rfl⟩
    obtain ⟨two, htE⟩ : ∃ two, two = K.enc c (.int 2) := ⟨_, rfl⟩
    rw [← hyE] at hy
    rw [← htE] at h2
    have m : ∀ e, S.Valid e → S.Valid (K.ops.mul (K.ops.mul e y) two) ∧
        S.den (K.ops.mul (K.ops.mul e y) two) = S.den e * S.den y * S.den two := by
      intro e he
      have k1 := S.mul e y he hy.1
      have k2 := S.mul _ two k1.1 h2.1
      exact ⟨k2.1, by rw [k2.2, k1.2]⟩
    have k0 := S.add a y ha hy.1
    have w0 := S.sub _ _ k0.1 (m a ha).1
    have w1 := S.sub _ _ hb (m b hb).1
    have w2 := S.sub _ _ hd (m d hd).1
    refine ⟨⟨s, [⟨[K.ops.sub (K.ops.add a y) (K.ops.mul (K.ops.mul a y) two), K.ops.sub b (K.ops.mul (K.ops.mul b y) two)],
        some u0, RST.initConfig c K.size, K.size⟩,
      ⟨[K.ops.sub b (K.ops.mul (K.ops.mul b y) two), K.ops.sub d (K.ops.mul (K.ops.mul d y) two)], some u1,
        RST.initConfig c K.size, K.size⟩,
      ⟨[K.ops.sub d (K.ops.mul (K.ops.mul d y) two), K.ops.sub (K.ops.add a y) (K.ops.mul (K.ops.mul a y) two)], some u2,
        RST.initConfig c K.size, K.size⟩]⟩, ?_, _, hc', ?_⟩
    · simp [RMPC.xorEnc, RST.publicXor, hq, ht, RST.publicOp, RST.publicMul, RST.privateOp, RST.checkPrivate, RST.sessionOf,
        e0, e1, e2, r0, r1, r2, n0, n1, n2, ok_bind, pure_eq_ok, pyGet, RST.new, rofShares3 hs, RST.lin, ← hyE, ← htE,
        RST.initConfig_idem']
    · apply is_of_list S hu _ _ _ _ _ w0.1 w1.1 w2.1
      rw [w0.2, w1.2, w2.2, k0.2, (m a ha).2, (m b hb).2, (m d hd).2, hy.2, h2.2, ← hv, xorVal, if_neg hq]
      push_cast
      ring

theorem plain_xorPublic {env : Env} {s : Session} (hs : s.Three env) {K : RingKit E} {S : RingSem K.ops R} (hK : KitSem K S)
    {x : RMPC E} {v : R} (hx : x.Plain S s K.size v) {p : FixedPointEncoder.Val} {k : Int} (hp : p.IntIs K.size k) :
    ∃ z, RMPC.xorPublic K env x p = .ok z ∧ z.Plain S s K.size (xorVal K.size v (k : R)) :=
  plain_xorEnc hs hK hx (pub_int hK hp)

/-! ## The supported rings -/

theorem binKitSem : KitSem binKit binSem where
  ring := ⟨.bool, rfl⟩
  isZero a _ := by
    have : ∀ a : Bool, ((!a) = true ↔ binDen a = 0) := by decide
    exact this a
  ofBool b := ⟨trivial, by revert b; show ∀ b : Bool, binDen b = if b = true then 1 else 0; decide⟩
  encInt := by
    intro c z _ h
    refine ⟨trivial, ?_⟩
    show binDen (RST.encBin (.int z)) = _
    rcases h rfl with rfl | rfl | rfl <;> decide
  encLong := by
    intro c t _ h
    refine ⟨trivial, ?_⟩
    show binDen (decide (t ≠ 0)) = _
    have h0 : t = 0 ↔ t.toInt = 0 := ⟨fun h => by rw [h]; rfl, fun h => BitVec.eq_of_toInt_eq (by rw [h]; rfl)⟩
    rcases h rfl with h | h | h <;> simp only [ne_eq, h0, h] <;> decide
  shift _ _ _ _ := rfl
  shiftValid _ _ h := h

theorem primeEnc (z : Int) : (BitVec.ofInt 8 (z % 67)).toNat < 67 ∧
    (((BitVec.ofInt 8 (z % 67)).toNat : Nat) : ZMod 67) = (z : ZMod 67) := by
  have h0 := Int.emod_nonneg z (by norm_num : (67 : Int) ≠ 0)
  have h1 := Int.emod_lt_of_pos z (by norm_num : (0 : Int) < 67)
  obtain ⟨n, hn⟩ := Int.eq_ofNat_of_zero_le h0
  have hlt : n < 67 := by omega
  have hnat : (BitVec.ofInt 8 (z % 67)).toNat = n := by
    rw [hn, BitVec.ofInt_natCast, BitVec.toNat_ofNat]; omega
  refine ⟨by omega, ?_⟩
  rw [hnat]
  have : ((z % 67 : Int) : ZMod 67) = (z : ZMod 67) := by
    rw [show (67 : Int) = ((67 : Nat) : Int) from rfl, ZMod.intCast_mod]
  rw [← this, hn]; simp

theorem primeKitSem : KitSem primeKit primeSem where
  ring := ⟨.uint8, rfl⟩
  isZero := by
    intro a ha
    show (a == 0) = true ↔ ((a.toNat : Nat) : ZMod 67) = 0
    rw [beq_iff_eq]
    constructor
    · rintro rfl; rfl
    · intro h
      exact primeSem.inj a 0 ha (by show (0 : BitVec 8).toNat < 67; decide) (by show ((a.toNat : Nat) : ZMod 67) = _; rw [h]; rfl)
  ofBool := by intro b; cases b <;> exact ⟨by show BitVec.toNat _ < 67; decide, by show ((BitVec.toNat _ : Nat) : ZMod 67) = _; rfl⟩
  encInt c z _ _ := primeEnc z
  encLong c t _ _ := primeEnc t.toInt
  shift _ _ _ _ := rfl
  shiftValid _ _ h := h

theorem setWidth_ofInt (w : Nat) (hw : w ≤ 64) (z : Int) : (BitVec.ofInt 64 z).setWidth w = (z : BitVec w) := by
  show _ = BitVec.ofInt w z
  apply BitVec.eq_of_toNat_eq
  rw [BitVec.toNat_setWidth, BitVec.toNat_ofInt, BitVec.toNat_ofInt]
  simp only [Nat.cast_pow, Nat.cast_ofNat]
  have h : (2 : Int) ^ w ∣ 2 ^ 64 := pow_dvd_pow 2 hw
  have h0 := Int.emod_nonneg z (by positivity : (2 : Int) ^ 64 ≠ 0)
  have h1 := Int.emod_nonneg z (by positivity : (2 : Int) ^ w ≠ 0)
  apply Int.natCast_inj.mp
  simp only [Int.natCast_emod, Nat.cast_pow, Nat.cast_ofNat]
  rw [Int.toNat_of_nonneg h0, Int.toNat_of_nonneg h1, Int.emod_emod_of_dvd z h]

theorem powEnc (w : Nat) (hw : w = 8 ∨ w = 16 ∨ w = 32 ∨ w = 64) (c : Config) (h : Unscaled (2 ^ w) c) (z : Int) :
    BitVec.setWidth w (BitVec.ofInt 64 (z * ((c.encoderBase ^ c.encoderPrecision : Nat) : Int))) = (z : BitVec w) := by
  have hscale : c.encoderBase ^ c.encoderPrecision = 1 := by
    rcases h with h | h | h
    · rcases hw with rfl | rfl | rfl | rfl <;> norm_num at h
    · rcases hw with rfl | rfl | rfl | rfl <;> norm_num [primeNumber] at h
    · exact h
  rw [hscale]
  simp only [Nat.cast_one, mul_one]
  exact setWidth_ofInt w (by omega) z

theorem powKitSem (w : Nat) (hw : w = 8 ∨ w = 16 ∨ w = 32 ∨ w = 64) : KitSem (powKit w) (powSem w) where
  ring := by rcases hw with rfl | rfl | rfl | rfl <;> exact ⟨_, rfl⟩
  isZero := by
    intro a _
    show (a == 0) = true ↔ a = 0
    rw [beq_iff_eq]
  ofBool := by intro b; exact ⟨trivial, by cases b <;> rfl⟩
  encInt := by
    intro c z h _
    exact ⟨trivial, powEnc w hw c h z⟩
  encLong := by
    intro c t h _
    exact ⟨trivial, powEnc w hw c h t.toInt⟩
  shift := by
    intro c a h _
    show shiftPow w c a = a
    unfold shiftPow
    split
    · rename_i hb
      rw [hb] at h
      have : c.encoderPrecision = 0 := by
        by_contra hne
        have := Nat.one_lt_two_pow hne
        omega
      rw [this]; simp
    · rw [h]
      exact BitVec.sdiv_one
  shiftValid _ _ _ := trivial

end SyMPC
