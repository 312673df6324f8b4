import Verif.Lemmas.Falcon

/-!
# Generation of replicated triples, stores, tensors
-/

namespace SyMPC

variable {E R A B C RA RB RC : Type} [CommRing R] [CommRing RA] [CommRing RB] [CommRing RC]

theorem KitSem.tensor {K : RingKit E} {S : RingSem K.ops R} (h : KitSem K S) (ι : Type) [Fintype ι] :
    KitSem (K.tensor ι) (S.tensor ι) where
  ring := h.ring
  isZero := by
    intro a ha
    show decide (∀ i, K.isZero (a i) = true) = true ↔ (fun i => S.den (a i)) = 0
    rw [decide_eq_true_iff]
    constructor
    · intro h0; funext i; exact (h.isZero _ (ha i)).mp (h0 i)
    · intro h0 i; exact (h.isZero _ (ha i)).mpr (congrFun h0 i)
  ofBool b := by
    refine ⟨fun i => (h.ofBool b).1, funext fun i => ?_⟩
    show S.den (K.ofBool b) = _
    rw [(h.ofBool b).2]; cases b <;> rfl
  encInt c z hc hz := ⟨fun _ => (h.encInt c z hc hz).1, funext fun _ => (h.encInt c z hc hz).2⟩
  encLong c t hc ht := ⟨fun _ => (h.encLong c t hc ht).1, funext fun _ => (h.encLong c t hc ht).2⟩
  shift c a hc ha := funext fun i => h.shift c (a i) hc (ha i)
  shiftValid c a ha i := h.shiftValid c (a i) (ha i)

theorem binKit_nonEmpty : binKit.NonEmpty := by intro a; show (a != a) = false; simp
theorem primeKit_nonEmpty : primeKit.NonEmpty := by intro a; show (a != a) = false; simp
theorem powKit_nonEmpty (w : Nat) : (powKit w).NonEmpty := by intro a; show (a != a) = false; simp

theorem RingKit.NonEmpty.tensor {K : RingKit E} (h : K.NonEmpty) (ι : Type) [Fintype ι] [Nonempty ι] :
    (K.tensor ι).NonEmpty := by
  intro a
  show decide (∀ i, K.neAll (a i) (a i) = true) = false
  rw [decide_eq_false_iff_not]
  intro hall
  obtain ⟨i⟩ := (inferInstance : Nonempty ι)
  have := hall i
  rw [h (a i)] at this
  simp at this

theorem ptrs3 {env : Env} {s : Session} (h : s.Three env) {u0 u1 u2 : Nat} (hu : s.rankToUuid = [u0, u1, u2]) :
    ∃ q0 q1 q2 : PartySession, s.sessionPtrs = [q0, q1, q2] ∧ q0.uuid = u0 ∧ q1.uuid = u1 ∧ q2.uuid = u2 := by
  have hp := h.pointers
  rw [hu] at hp
  rcases hl : s.sessionPtrs with _ | ⟨q0, _ | ⟨q1, _ | ⟨q2, _ | ⟨q3, l⟩⟩⟩⟩ <;> rw [hl] at hp <;> simp at hp
  exact ⟨q0, q1, q2, rfl, hp.1, hp.2.1, hp.2.2⟩

/-- random shares are a consistent sharing -/
theorem random3 {env : Env} {s : Session} (h : s.Three env) {I : RingOps E} (S : RingSem I R) (q : Nat) (draw : Nat → E)
    (hd : ∀ i, S.Valid (draw i)) :
    ∃ x c, RMPC.random env s q draw = .ok x ∧ x.Rep3 s q (RST.initConfig { encoderPrecision := 0 } q)
      (fun i => if i = 0 then draw 0 else if i = 1 then draw 1 else draw 2) ∧ Unscaled q c ∧
      x.Is S s q c (S.den (draw 0) + S.den (draw 1) + S.den (draw 2)) := by
  obtain ⟨u0, u1, u2, p0, p1, p2, c0, c1, c2, hu, hc, e0, e1, e2, r0, r1, r2, n0, n1, n2⟩ := three_unpack h
  obtain ⟨q0, q1, q2, hp, rfl, rfl, rfl⟩ := ptrs3 h hu
  refine ⟨⟨s, [⟨[draw 0, draw 1], some q0.uuid, RST.initConfig { encoderPrecision := 0 } q, q⟩,
    ⟨[draw 1, draw 2], some q1.uuid, RST.initConfig { encoderPrecision := 0 } q, q⟩,
    ⟨[draw 2, draw 0], some q2.uuid, RST.initConfig { encoderPrecision := 0 } q, q⟩]⟩,
    RST.initConfig { encoderPrecision := 0 } q, ?_, rep3_of_list hu _ _ _ _ _, ?_,
    is_of_list S hu _ _ _ _ _ (hd 0) (hd 1) (hd 2) _ rfl⟩
  · unfold RMPC.random
    rw [hp]
    simp only [List.mapM_cons, List.mapM_nil, e0, e1, e2, ok_bind, pure_eq_ok]
    rw [r0, r1, r2, n0, n1, n2, rofShares3 h]
    rfl
  · exact unscaled_init (Or.inr (Or.inr (by simp)))

theorem semiHonest3 {I : RingOps E} (S : RingSem I R) (a b d : E) (ha : S.Valid a) (hb : S.Valid b) (hd : S.Valid d)
    (p0 p2 : RST E) (t1 : Option Nat) (c1 : Config) (q1 : Nat) (hp : pyGet p0.shares 0 = .ok a) :
    ∃ e, RST.reconstructSemiHonest I [p0, ⟨[b, d], t1, c1, q1⟩, p2] = .ok e ∧ S.Valid e ∧
      S.den e = S.den a + S.den b + S.den d := by
  obtain ⟨e, h1, h2, h3⟩ := sum3 S a b d ha hb hd
  refine ⟨e, ?_, h2, h3⟩
  unfold RST.reconstructSemiHonest
  rw [pyGet_ok (by simp : 0 < _), pyGet_ok (by simp : 1 < _)]
  simp only [ok_bind, List.getElem_cons_zero, List.getElem_cons_succ, hp, h1]

/-- the triple of one party in the list that generation returns -/
def tripleAt (q u : Nat) (c : Config) (sa : Nat → A) (sb : Nat → B) (sc : Nat → C) (r : Nat) : RTriple A B C :=
  ⟨⟨[sa r, sa ((r + 1) % 3)], some u, c, q⟩, ⟨[sb r, sb ((r + 1) % 3)], some u, c, q⟩,
    ⟨[sc r, sc ((r + 1) % 3)], some u, c, q⟩⟩

/-- generation never fails and returns a correct, consistently shared triple -/
theorem getTriples3 {env : Env} {s : Session} (hs : s.Three env) {u0 u1 u2 : Nat} (hu : s.rankToUuid = [u0, u1, u2])
    {KA : RingKit A} {KB : RingKit B} {KC : RingKit C} {SA : RingSem KA.ops RA} {SB : RingSem KB.ops RB}
    {SC : RingSem KC.ops RC} {P : Product A B C} {β : RA →+ RB →+ RC} (hP : ProdSem SA SB SC P β) (hne : KC.NonEmpty)
    (q : Nat) {k : OpKind} (hop : getOp q P.opStr = .ok k) {rnd : Falcon.RTripleRand A B C} (hr : rnd.Ok SA SB SC) :
    ∃ (sa : Nat → A) (sb : Nat → B) (sc : Nat → C) (c : Config),
      (∀ i, SA.Valid (sa i)) ∧ (∀ i, SB.Valid (sb i)) ∧ (∀ i, SC.Valid (sc i)) ∧
      Falcon.getTriples KA KB KC env P s q rnd
        = .ok [tripleAt q u0 c sa sb sc 0, tripleAt q u1 c sa sb sc 1, tripleAt q u2 c sa sb sc 2] ∧
      SC.den (sc 0) + SC.den (sc 1) + SC.den (sc 2)
        = β (SA.den (sa 0) + SA.den (sa 1) + SA.den (sa 2)) (SB.den (sb 0) + SB.den (sb 1) + SB.den (sb 2)) := by
  obtain ⟨x, cx, hx, hx1, -, hx2⟩ := random3 hs SA q rnd.a hr.a
  obtain ⟨y, cy, hy, hy1, -, hy2⟩ := random3 hs SB q rnd.b hr.b
  obtain ⟨z, hz, hz2⟩ := mulReshare3 hs SC hP hx2 hy2 hop rnd.mask hr.mask.1 q { encoderPrecision := 0 }
  rw [hr.mask.2, add_zero] at hz2
  obtain ⟨sc, hz3, hz4, hz5⟩ := hz2
  refine ⟨fun i => if i = 0 then rnd.a 0 else if i = 1 then rnd.a 1 else rnd.a 2,
    fun i => if i = 0 then rnd.b 0 else if i = 1 then rnd.b 1 else rnd.b 2, sc,
    RST.initConfig { encoderPrecision := 0 } q, ?_, ?_, hz4, ?_, hz5⟩
  · intro i; show SA.Valid (if _ then _ else _); split
    · exact hr.a 0
    · split
      · exact hr.a 1
      · exact hr.a 2
  · intro i; show SB.Valid (if _ then _ else _); split
    · exact hr.b 0
    · split
      · exact hr.b 1
      · exact hr.b 2
  · have hxl := rep3_list hu hx1
    have hyl := rep3_list hu hy1
    have hzl := rep3_list hu hz3
    obtain ⟨av, ha1, ha2, ha3⟩ := semiHonest3 SA _ _ _ (hr.a 0) (hr.a 1) (hr.a 2)
      ⟨[rnd.a 0, rnd.a 1], some u0, RST.initConfig { encoderPrecision := 0 } q, q⟩
      ⟨[rnd.a 2, rnd.a 0], some u2, RST.initConfig { encoderPrecision := 0 } q, q⟩ (some u1)
      (RST.initConfig { encoderPrecision := 0 } q) q rfl
    obtain ⟨bv, hb1, hb2, hb3⟩ := semiHonest3 SB _ _ _ (hr.b 0) (hr.b 1) (hr.b 2)
      ⟨[rnd.b 0, rnd.b 1], some u0, RST.initConfig { encoderPrecision := 0 } q, q⟩
      ⟨[rnd.b 2, rnd.b 0], some u2, RST.initConfig { encoderPrecision := 0 } q, q⟩ (some u1)
      (RST.initConfig { encoderPrecision := 0 } q) q rfl
    obtain ⟨cv, hc1, hc2, hc3⟩ := semiHonest3 SC _ _ _ (hz4 0) (hz4 1) (hz4 2)
      ⟨[sc 0, sc 1], some u0, RST.initConfig { encoderPrecision := 0 } q, q⟩
      ⟨[sc 2, sc 0], some u2, RST.initConfig { encoderPrecision := 0 } q, q⟩ (some u1)
      (RST.initConfig { encoderPrecision := 0 } q) q rfl
    have heq : cv = P.op av bv := by
      apply SC.inj _ _ hc2 (hP _ _ ha2 hb2).1
      rw [(hP _ _ ha2 hb2).2, hc3, hz5, ha3, hb3]
    unfold Falcon.getTriples
    rw [hx, ok_bind, hy, ok_bind, hz, ok_bind, hxl, hyl, hzl]
    unfold Falcon.checkTriples
    simp only [if_true, if_false, one_ne_zero, OfNat.ofNat_ne_zero, OfNat.ofNat_ne_one] at ha1 hb1 hc1 ⊢
    rw [ha1, ok_bind, hb1, ok_bind, hc1, ok_bind, hop, ok_bind, heq, hne]
    rfl

/-- the stores after generation: the same triple, shared, at the end of each -/
theorem generate3 {env : Env} {s : Session} (hs : s.Three env) {u0 u1 u2 : Nat} (hu : s.rankToUuid = [u0, u1, u2])
    {KA : RingKit A} {KB : RingKit B} {KC : RingKit C} {P : Product A B C} (q : Nat) {rnd : Falcon.RTripleRand A B C}
    {t0 t1 t2 : RTriple A B C} (hg : Falcon.getTriples KA KB KC env P s q rnd = .ok [t0, t1, t2])
    (st : Falcon.Triples A B C) :
    ∃ st', Falcon.generate KA KB KC env P s q rnd st = .ok st' ∧ st' u0 = st u0 ++ [t0] ∧ st' u1 = st u1 ++ [t1] ∧
      st' u2 = st u2 ++ [t2] ∧ ∀ u, u ∉ s.rankToUuid → st' u = st u := by
  obtain ⟨q0, q1, q2, hp, rfl, rfl, rfl⟩ := ptrs3 hs hu
  have hnd := hs.distinct
  rw [hu] at hnd
  simp only [List.nodup_cons, List.mem_cons, List.not_mem_nil, or_false, not_or, not_false_eq_true, and_true,
    List.nodup_nil] at hnd
  obtain ⟨⟨h01, h02⟩, h12⟩ := hnd
  refine ⟨([t0, t1, t2].zip [q0, q1, q2]).foldl (fun st (t, p) u => if u = p.uuid then st u ++ [t] else st u) st,
    ?_, ?_, ?_, ?_, ?_⟩
  · unfold Falcon.generate
    rw [hg, ok_bind, hp]
    rfl
  · simp only [List.zip_cons_cons, List.zip_nil_right, List.foldl_cons, List.foldl_nil, if_true, h01, h02, if_false]
  · simp only [List.zip_cons_cons, List.zip_nil_right, List.foldl_cons, List.foldl_nil, if_true, Ne.symm h01, h12, if_false]
  · simp only [List.zip_cons_cons, List.zip_nil_right, List.foldl_cons, List.foldl_nil, if_true, Ne.symm h02, Ne.symm h12, if_false]
  · intro u hu'
    rw [hu] at hu'
    simp only [List.mem_cons, List.not_mem_nil, or_false, not_or] at hu'
    simp only [List.zip_cons_cons, List.zip_nil_right, List.foldl_cons, List.foldl_nil, hu'.1, hu'.2.1, hu'.2.2, if_false]

theorem verify_masks [DecidableEq A] [DecidableEq B] [DecidableEq C] {env : Env} {s : Session} {KA : RingKit A}
    {KB : RingKit B} {KC : RingKit C} {P : Product A B C} {triple : Nat → Py (RTriple A B C)} {x : RMPC A} {y : RMPC B}
    {z z' : RMPC C} (h : Falcon.verifyProduct KA KB KC env P triple s x y z = .ok z') :
    ∃ m, parallelExecution s.parties (fun (a, b) => Falcon.falconMask KA.ops KB.ops env triple a b) (x.shares.zip y.shares)
      = .ok m := by
  unfold Falcon.verifyProduct at h
  cases hm : parallelExecution s.parties (fun (a, b) => Falcon.falconMask KA.ops KB.ops env triple a b)
    (x.shares.zip y.shares) with
  | ok m => exact ⟨m, rfl⟩
  | error e => rw [hm, error_bind] at h; simp at h

/-- the first triples of good stores are a correct triple -/
theorem Good.front {IA : RingOps A} {IB : RingOps B} {IC : RingOps C} {SA : RingSem IA RA} {SB : RingSem IB RB}
    {SC : RingSem IC RC} {β : RA →+ RB →+ RC} {s : Session} {q : Nat} {st : Falcon.Triples A B C} {n : Nat} (hn : 0 < n)
    (hl : ∀ u ∈ s.rankToUuid, (st u).length = n)
    (h : ∀ i < n, TripleErr SA SB SC β s q (fun u => pyGet (st u) i) 0) :
    TripleErr SA SB SC β s q (Falcon.front st) 0 := by
  obtain ⟨sa, sb, sc, ca, cb, cc, va, vb, vc, ht, he⟩ := h 0 hn
  refine ⟨sa, sb, sc, ca, cb, cc, va, vb, vc, ?_, he⟩
  intro r hr u hu
  rw [← ht r hr u hu]
  unfold Falcon.front
  have := hl u (List.mem_of_getElem? hu)
  cases hst : st u with
  | nil => rw [hst] at this; simp at this; omega
  | cons t l =>
    show _ = pyGet (st u) 0
    rw [hst]; rfl

theorem Good.tail {IA : RingOps A} {IB : RingOps B} {IC : RingOps C} {SA : RingSem IA RA} {SB : RingSem IB RB}
    {SC : RingSem IC RC} {β : RA →+ RB →+ RC} {s : Session} {q : Nat} {st : Falcon.Triples A B C}
    (h : st.Good SA SB SC β s q) :
    Falcon.Triples.Good SA SB SC β s q (fun u => if u ∈ s.rankToUuid then (st u).tail else st u) := by
  obtain ⟨n, hl, h⟩ := h
  refine ⟨n - 1, ?_, ?_⟩
  · intro u hu
    simp only [if_pos hu, List.length_tail, hl u hu]
  · intro i hi
    obtain ⟨sa, sb, sc, ca, cb, cc, va, vb, vc, ht, he⟩ := h (i + 1) (by omega)
    refine ⟨sa, sb, sc, ca, cb, cc, va, vb, vc, ?_, he⟩
    intro r hr u hu
    rw [← ht r hr u hu]
    have hm := List.mem_of_getElem? hu
    have := hl u hm
    simp only [if_pos hm]
    rw [pyGet_ok (by rw [List.length_tail]; omega), pyGet_ok (by omega), List.getElem_tail]

/-- A product with malicious security on a session whose stores are good: it is never aborted, its value is the product,
and the stores are good again. -/
theorem malicious_store [DecidableEq A] [DecidableEq B] [DecidableEq C] {env : Env} {s : Session} (hs : s.Three env)
    {KA : RingKit A} {KB : RingKit B} {KC : RingKit C} {SA : RingSem KA.ops RA} {SB : RingSem KB.ops RB}
    (SC : RingSem KC.ops RC) (hK : KitSem KC SC) (hne : KC.NonEmpty) {P : Product A B C} {β : RA →+ RB →+ RC}
    (hP : ProdSem SA SB SC P β) {x : RMPC A} {y : RMPC B} {q : Nat} {c c' : Config} {v : RA} {w : RB}
    (hx : x.Is SA s q c v) (hy : y.Is SB s q c' w) {k : OpKind} (hop : getOp q P.opStr = .ok k) {mask : Nat → C}
    (hm : ZeroMask SC mask) {gen : Falcon.RTripleRand A B C} (hg : gen.Ok SA SB SC) {st : Falcon.Triples A B C}
    (hst : st.Good SA SB SC β s q) (c'' : Config) :
    ∃ z st', Falcon.mulMaliciousStore KA KB KC env P mask gen s q c'' x y st = .ok (z, st') ∧
      z.Is SC s q (RST.initConfig c'' q) (β v w) ∧ st'.Good SA SB SC β s q := by
  obtain ⟨z, hz, hz2⟩ := mulReshare3 hs SC hP hx hy hop mask hm.1 q c''
  rw [hm.2, add_zero] at hz2
  have hver : ∀ st, TripleErr SA SB SC β s q (Falcon.front st) 0 →
      Falcon.verifyProduct KA KB KC env P (Falcon.front st) s x y z = .ok z := by
    intro st h
    rw [verify3 hs SC hK hP hx hy hz2 hop _ 0 h, add_zero, if_pos rfl]
  obtain ⟨n, hl, hn⟩ := id hst
  unfold Falcon.mulMaliciousStore
  rw [hz, ok_bind]
  by_cases h0 : n = 0
  · subst h0
    obtain ⟨u0, u1, u2, p0, p1, p2, c0, c1, c2, hu, hc, e0, e1, e2, -⟩ := three_unpack hs
    have hempty : parallelExecution s.parties (fun (a, b) => Falcon.falconMask KA.ops KB.ops env (Falcon.front st) a b)
        (x.shares.zip y.shares) = .error .emptyStore := by
      obtain ⟨a, b, d, rfl, ha, hb, hd, hv⟩ := is_unpack hu hx
      obtain ⟨a', b', d', rfl, ha', hb', hd', hw⟩ := is_unpack hu hy
      have : st u0 = [] := List.eq_nil_of_length_eq_zero (hl u0 (by rw [hu]; simp))
      simp [parallelExecution, hc, Falcon.falconMask, RST.getSession, e0, ok_bind, Falcon.front, this, error_bind]
    obtain ⟨sa, sb, sc, cg, va, vb, vc, hgen, herr⟩ := getTriples3 hs hu hP hne q hop hg
    obtain ⟨st', g1, g2, g3, g4, g5⟩ := generate3 hs hu q hgen st
    have e0' : st u0 = [] := List.eq_nil_of_length_eq_zero (hl u0 (by rw [hu]; simp))
    have e1' : st u1 = [] := List.eq_nil_of_length_eq_zero (hl u1 (by rw [hu]; simp))
    have e2' : st u2 = [] := List.eq_nil_of_length_eq_zero (hl u2 (by rw [hu]; simp))
    rw [e0', List.nil_append] at g2
    rw [e1', List.nil_append] at g3
    rw [e2', List.nil_append] at g4
    have hgood : st'.Good SA SB SC β s q := by
      refine ⟨1, ?_, ?_⟩
      · intro u hu'
        rw [hu] at hu'
        simp only [List.mem_cons, List.not_mem_nil, or_false] at hu'
        rcases hu' with rfl | rfl | rfl
        · rw [g2]; rfl
        · rw [g3]; rfl
        · rw [g4]; rfl
      · intro i hi
        obtain rfl : i = 0 := by omega
        refine ⟨sa, sb, sc, cg, cg, cg, va, vb, vc, ?_, by rw [herr, add_zero]⟩
        intro r hr u hr'
        rw [hu] at hr'
        obtain rfl | rfl | rfl : r = 0 ∨ r = 1 ∨ r = 2 := by omega
        · obtain rfl : u0 = u := by simpa using hr'
          show pyGet (st' u0) 0 = _
          rw [g2]; rfl
        · obtain rfl : u1 = u := by simpa using hr'
          show pyGet (st' u1) 0 = _
          rw [g3]; rfl
        · obtain rfl : u2 = u := by simpa using hr'
          show pyGet (st' u2) 0 = _
          rw [g4]; rfl
    obtain ⟨n', hl', hn'⟩ := id hgood
    have hn0 : 0 < n' := by
      rw [← hl' u0 (by rw [hu]; simp), g2]; simp
    have hf := Good.front hn0 hl' hn'
    refine ⟨z, _, ?_, hz2, Good.tail hgood⟩
    rw [hempty]
    simp only [g1, ok_bind, hver st' hf, pure_eq_ok]
  · have hf := Good.front (by omega) hl hn
    obtain ⟨m, hmk⟩ := verify_masks (hver st hf)
    refine ⟨z, _, ?_, hz2, Good.tail hst⟩
    rw [hmk]
    simp only [ok_bind, hver st hf, pure_eq_ok]

end SyMPC
