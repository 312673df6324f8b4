import Verif.Model.Dispatch
import Verif.Model.Przs
import Verif.Model.Registry
import Verif.Props.Share

/-!
# C44, C45, C46, C47, C57, C58: sessions, registry, cache
-/

namespace SyMPC

/-! ## C44 -/

/-- C44: every binary operation between tensors of different sessions or share types is refused: never a result. -/
theorem C44_mixing_refused (sx sy : Session) (ring : Nat) (op : BinOp) :
    (sx.protocol.shareClass ≠ sy.protocol.shareClass → routePrivate sx sy ring op = .error .typeError) ∧
    (sx.protocol.shareClass = sy.protocol.shareClass → sx.uuid ≠ sy.uuid →
      routePrivate sx sy ring op = .error .valueError) := by
  constructor
  · intro h
    simp [routePrivate, MPCTensor.checkPrivate, h, error_bind]
  · intro h1 h2
    simp [routePrivate, MPCTensor.checkPrivate, h1, Ne.symm h2, error_bind]

/-- C44: with a public operand no convolution is accepted; sums of additive shares take place at one party only, everything
else at all parties. -/
theorem C44_public_route (s : Session) (op : BinOp) :
    (routePublic s op = .error .attributeError ↔ op = .conv2d ∨ op = .convTranspose2d) ∧
    (routePublic s op = .ok .firstShare ↔ s.protocol.shareClass = .additive ∧ (op = .add ∨ op = .sub ∨ op = .xor)) ∧
    ((∃ r, routePublic s op = .ok r) ∨ routePublic s op = .error .attributeError) := by
  unfold routePublic
  cases op <;> cases s.protocol.shareClass <;> simp

/-- C44: tensors of one session are accepted, and the protocol run is the one of their share type; xor of additive
shares and convolutions of replicated shares are refused. -/
theorem C44_same_session (sx sy : Session) (ring : Nat) (op : BinOp)
    (h1 : sx.protocol.shareClass = sy.protocol.shareClass) (h2 : sx.uuid = sy.uuid) :
    routePrivate sx sy ring op = match sx.protocol.shareClass, op with
      | _, .add | _, .sub => .ok .zip
      | .additive, .xor => .error .attributeError
      | .additive, _ => .ok .spdz
      | .replicated, .mul | .replicated, .matmul => .ok .falcon
      | .replicated, .xor => .ok (if ring = 2 then .xorAdd else .xorPoly)
      | .replicated, _ => .error .notImplemented := by
  simp only [routePrivate, MPCTensor.checkPrivate, h1, h2]
  cases sy.protocol.shareClass <;> cases op <;> simp [BinOp.truncated, ok_bind, pure_eq_ok, throw_eq_error]
  split <;> rfl

example : routePrivate exSession { exSession with uuid := some 7 } 0 .mul = .error .valueError ∧
    routePrivate exSession exSession 0 .mul = .ok .spdz := by decide

/-- C44: a sum or difference of tensors is an error as soon as one pair of shares belongs to different party
sessions, even if the orchestrator's sessions agree. -/
theorem C44_shares_of_different_sessions {P T : Type} [Add T] [Sub T] [PubEnc P T] (env : Env) (op : MPCTensor.LinOp)
    (x y : MPCTensor T) (i : Nat) (a b : ShareTensor T) (u v : Nat) (ha : x.shares[i]? = some a)
    (hb : y.shares[i]? = some b) (hu : a.sessionUuid = some u) (hv : b.sessionUuid = some v) (huv : u ≠ v) :
    (MPCTensor.shareOp (P := P) env op a (.inr b) = .error .valueError) ∧
    ∃ e, MPCTensor.applyPrivateLin (P := P) env op x y = .error e := by
  have h1 : MPCTensor.shareOp (P := P) env op a (.inr b) = .error .valueError := by
    cases op <;>
    simp [MPCTensor.shareOp, ShareTensor.add, ShareTensor.sub, ShareTensor.sanityChecks, hu, hv, Ne.symm huv,
      error_bind]
  refine ⟨h1, ?_⟩
  have hmem : (a, b) ∈ x.shares.zip y.shares := by
    rw [List.mem_iff_getElem?]
    exact ⟨i, by simp [List.getElem?_zip_eq_some, ha, hb]⟩
  obtain ⟨e, he⟩ := mapM_error (fun (p : ShareTensor T × ShareTensor T) => MPCTensor.shareOp (P := P) env op p.1 (.inr p.2))
    _ _ hmem _ h1
  unfold MPCTensor.applyPrivateLin
  cases MPCTensor.checkPrivate x.session y.session with
  | error e' => exact ⟨e', rfl⟩
  | ok _ => rw [ok_bind, he]; exact ⟨e, rfl⟩

example : (match MPCTensor.shareOp (P := FixedPointEncoder.Val) exEnv .add
    (⟨1, some 100, {}, 2 ^ 64⟩ : ShareTensor I64) (.inr ⟨2, some 101, {}, 2 ^ 64⟩) with
    | .error .valueError => true | _ => false) = true := by decide

/-! ## C45 -/

theorem sessionNew_inv {registered : List String} {parties : Option (List Nat)} {ring : Nat} {config : Option Config}
    {protocol : Option Protocol} {s : Session} (hs : Session.new registered parties ring config protocol = .ok s) :
    ∃ p t, getTypeFromRing ring = .ok t ∧ s =
      { uuid := none, parties := parties.getD [], nrParties := (parties.getD []).length, protocol := p,
        config := config.getD {}, ringSize := ring, tensorType := t,
        minValue := (-(ring : Int)).fdiv 2, maxValue := ((ring : Int) - 1).fdiv 2,
        rankToUuid := [], sessionPtrs := [], autogradActive := false } := by
  unfold Session.new at hs
  simp only at hs
  cases hx : resolveProtocol registered protocol with
  | error e => rw [hx, error_bind] at hs; cases hs
  | ok p =>
    rw [hx, ok_bind] at hs
    split at hs
    · cases hs
    · cases ht : getTypeFromRing ring with
      | error e => rw [ht, error_bind] at hs; cases hs
      | ok t => rw [ht, ok_bind, pure_eq_ok] at hs; cases hs; exact ⟨p, t, rfl, rfl⟩

/-- C45: a session is created exactly when the protocol is registered (or the default is taken), the ring is
supported and malicious security has at least three parties (or none yet); the refusals are `ValueError`. -/
theorem C45_session_guards (registered : List String) (parties : Option (List Nat)) (ring : Nat) (config : Option Config)
    (protocol : Option Protocol) :
    ((∃ s, Session.new registered parties ring config protocol = .ok s) ↔
      (∀ p, protocol = some p → p.name ∈ registered ∧
        (p.security = .malicious → (parties.getD []).length = 0 ∨ 3 ≤ (parties.getD []).length)) ∧
      ring ∈ [2, 67, 2 ^ 8, 2 ^ 16, 2 ^ 32, 2 ^ 64]) ∧
    (∀ e, Session.new registered parties ring config protocol = .error e → e = .valueError) := by
  have hring : (∃ t, getTypeFromRing ring = .ok t ∧ ring ∈ [2, 67, 2 ^ 8, 2 ^ 16, 2 ^ 32, 2 ^ 64]) ∨
      (getTypeFromRing ring = .error .valueError ∧ ring ∉ [2, 67, 2 ^ 8, 2 ^ 16, 2 ^ 32, 2 ^ 64]) := by
    unfold getTypeFromRing
    split_ifs <;> simp_all
  generalize ([2, 67, 2 ^ 8, 2 ^ 16, 2 ^ 32, 2 ^ 64] : List Nat) = L at hring ⊢
  generalize hps : parties.getD [] = ps
  have hlen : (ps ≠ [] ∧ ps.length < 3) ↔ ¬ (ps.length = 0 ∨ 3 ≤ ps.length) := by
    rw [List.length_eq_zero_iff]; constructor
    · rintro ⟨h1, h2⟩ (h | h)
      · exact h1 h
      · omega
    · intro h; push Not at h; exact h
  unfold Session.new
  simp only [hps]
  cases protocol with
  | none =>
    simp only [resolveProtocol, ok_bind]
    have : ¬ (ps ≠ [] ∧ ps.length < 3 ∧ fssProtocol.security = .malicious) := by simp [fssProtocol]
    simp only [this, if_false]
    rcases hring with ⟨t, h1, h2⟩ | ⟨h1, h2⟩
    · simp [h1, h2, ok_bind, pure_eq_ok]
    · rw [h1]; simp [h2]
  | some p =>
    by_cases hreg : p.name ∈ registered
    · simp only [resolveProtocol, hreg, if_true, ok_bind]
      by_cases hm : ps ≠ [] ∧ ps.length < 3 ∧ p.security = .malicious
      · have h3 := hlen.mp ⟨hm.1, hm.2.1⟩
        rw [if_pos hm]
        simp only [throw_eq_error, error_bind]
        refine ⟨⟨fun ⟨s, hs⟩ => by (cases hs), fun h => ?_⟩, fun e he => by cases he; rfl⟩
        exact absurd ((h.1 p rfl).2 hm.2.2) h3
      · have h3 : p.security = .malicious → (ps.length = 0 ∨ 3 ≤ ps.length) := by
          intro h
          by_contra hc
          exact hm ⟨(hlen.mpr hc).1, (hlen.mpr hc).2, h⟩
        rw [if_neg hm]
        rcases hring with ⟨t, h1, h2⟩ | ⟨h1, h2⟩
        · rw [h1]
          simp only [ok_bind, pure_eq_ok]
          refine ⟨⟨fun _ => ⟨fun q hq => ?_, h2⟩, fun _ => ⟨_, rfl⟩⟩, fun e he => by cases he⟩
          cases hq; exact ⟨hreg, h3⟩
        · rw [h1]; simp [h2]
    · simp [resolveProtocol, hreg, error_bind]

example : (∃ s, Session.new ["FSS", "Falcon"] (some [1, 2, 3]) (2 ^ 32) none
      (some ⟨"Falcon", .replicated, .malicious⟩) = .ok s) ∧
    Session.new ["FSS", "Falcon"] (some [1, 2]) (2 ^ 64) none (some ⟨"Falcon", .replicated, .malicious⟩)
      = .error .valueError := ⟨⟨_, rfl⟩, by decide⟩

/-- C45: before `setup_mpc` no secret tensor can be made, from a secret, from shares or from a remote secret. -/
theorem C45_before_setup {P T : Type} [AddCommGroup T] [PubEnc P T] (registered : List String)
    (parties : Option (List Nat)) (ring : Nat) (config : Option Config) (protocol : Option Protocol) (s : Session)
    (hs : Session.new registered parties ring config protocol = .ok s) (env : Env) (v : P) (draws : Nat → T)
    (shares : List (ShareTensor T)) (holder : Nat) (b : Bool) (zeros : List T) :
    MPCTensor.ofSecret (T := T) env s v draws = .error .valueError ∧
    MPCTensor.ofShares s shares = .error .valueError ∧
    ofRemote env s holder v b zeros = .error .valueError := by
  obtain ⟨p, t, _, rfl⟩ := sessionNew_inv hs
  refine ⟨?_, ?_, ?_⟩
  · simp [MPCTensor.ofSecret, throw_eq_error, error_bind]
  · simp [MPCTensor.ofShares]
  · simp [ofRemote, throw_eq_error, error_bind]

/-- C45: a session made with at least two parties and set up once is ready for use (this is what the other theorems
assume of a session). -/
theorem C45_setup_ready (registered : List String) (ps : List Nat) (hps : 2 ≤ ps.length) (ring : Nat)
    (config : Option Config) (protocol : Option Protocol) (s : Session)
    (hs : Session.new registered (some ps) ring config protocol = .ok s) (fresh : Nat → Nat)
    (hfresh : ∀ i j, fresh i = fresh j → i = j) (env : Env) :
    (s.setupSessions fresh).Ready (env.register (s.setupSessions fresh).sessionPtrs) ∧
      (s.setupSessions fresh).parties = ps := by
  obtain ⟨hptr, hpar, hnr, hring⟩ : s.sessionPtrs = [] ∧ s.parties = ps ∧ s.nrParties = ps.length ∧
      ∃ t, getTypeFromRing s.ringSize = .ok t := by
    obtain ⟨p, t, ht, rfl⟩ := sessionNew_inv hs
    exact ⟨rfl, rfl, rfl, t, ht⟩
  -- looking a registered session up
  have hreg : ∀ (l : List PartySession) (e : Env) (p : PartySession), p ∈ l →
      (∀ q ∈ l, q.uuid = p.uuid → q = p) → e.register l p.uuid = some p := by
    intro l
    induction l with
    | nil => intro e p hp; simp at hp
    | cons a l ih =>
      intro e p hp huniq
      change (Env.register (e.set a) l) p.uuid = some p
      by_cases hpl : p ∈ l
      · exact ih _ p hpl (fun q hq => huniq q (by simp [hq]))
      · have hap : a = p := by
          rcases List.mem_cons.mp hp with h | h
          · exact h.symm
          · exact absurd h hpl
        subst hap
        have hnot : ∀ (l : List PartySession) (e : Env), (∀ q ∈ l, q.uuid ≠ a.uuid) → e.register l a.uuid = e a.uuid := by
          intro l
          induction l with
          | nil => intro e _; rfl
          | cons b l ih2 =>
            intro e hb
            change (Env.register (e.set b) l) a.uuid = _
            rw [ih2 _ (fun q hq => hb q (by simp [hq]))]
            simp [Env.set, Ne.symm (hb b (by simp))]
        rw [hnot l _ (fun q hq hqa => hpl (huniq q (by simp [hq]) hqa ▸ hq))]
        simp [Env.set]
  refine ⟨⟨?_, ?_, ?_, ?_, ?_, ?_⟩, hpar⟩
  · intro h0
    have := congrArg List.length h0
    simp [Session.setupSessions, hptr, hpar] at this
    rw [this] at hps; simp at hps
  · simpa [Session.setupSessions, hnr] using hps
  · simp [Session.setupSessions, hnr, hpar]
  · simp [Session.setupSessions, hnr, hpar]
  · exact hring
  · intro u hu
    simp only [Session.setupSessions, List.map_map, List.mem_map] at hu
    obtain ⟨⟨c, r⟩, hcr, hu⟩ := hu
    refine ⟨s.copy r (fresh r), ?_, rfl, rfl⟩
    have hu' : u = (s.copy r (fresh r)).uuid := hu.symm
    rw [hu']
    apply hreg
    · simp only [Session.setupSessions, hptr, List.nil_append, List.mem_map]
      exact ⟨(c, r), hcr, rfl⟩
    · intro q hq hqu
      simp only [Session.setupSessions, hptr, List.nil_append, List.mem_map] at hq
      obtain ⟨⟨c', r'⟩, _, rfl⟩ := hq
      have : r' = r := hfresh _ _ hqu
      subst this; rfl

example : ∃ s, Session.new ["FSS"] (some [10, 11, 12]) (2 ^ 64) none none = .ok s ∧ ∀ i j, (i + 100 : Nat) = j + 100 → i = j :=
  ⟨_, rfl, by intro i j h; omega⟩

/-! ## C46 -/

/-- C46 (partial): the first `setup_mpc` of a session gives one remote session per party, with the party's rank, and
generators that form a ring.  What is missing: a second call, see `C46_second_setup_fails`. -/
theorem C46_first_setup_partial {Seed St Req Raw : Type} (G : Gen Seed St Req Raw) (s : Session) (fresh : Nat → Nat)
    (seed : Nat → Seed) (hp : s.sessionPtrs = []) (hn : s.nrParties = s.parties.length) :
    let (s', g) := setupMpc G s fresh seed
    s'.sessionPtrs.map (·.rank) = (List.range s.parties.length).map Int.ofNat ∧
    s'.rankToUuid = s'.sessionPtrs.map (·.uuid) ∧
    g = .ok ((List.range s.parties.length).map fun r =>
      (G.init (seed r), G.init (seed ((r + 1) % s.parties.length)))) := by
  simp only [setupMpc, Session.setupSessions, hp, List.nil_append]
  refine ⟨?_, trivial, ?_⟩
  · apply List.ext_getElem
    · simp
    · intro i h1 h2; simp [Session.copy]
  · unfold setupPrzs
    simp only [List.length_map, List.length_zipIdx, hn]
    apply mapM_ok
    intro r hr
    rw [List.mem_range] at hr
    have h1 : (r + 1) % s.parties.length < s.parties.length := Nat.mod_lt _ (by omega)
    rw [pyGet_ok (by simpa using hr), pyGet_ok (by simpa using h1), ok_bind, ok_bind]
    simp [initGenerators, pure_eq_ok]

example : (setupMpc (⟨fun (s : Nat) => s, fun s (_ : Unit) => (s, s + 1)⟩ : Gen Nat Nat Unit Nat)
      { exSession with sessionPtrs := [] } (· + 50) (· * 7)).2 = .ok [(0, 7), (7, 14), (14, 0)] := by decide

/-- C46 fails for the code: setting a session up again raises `IndexError` and leaves it with more remote sessions
than parties. -/
theorem C46_second_setup_fails {Seed St Req Raw : Type} (G : Gen Seed St Req Raw) (s : Session) (fresh fresh' : Nat → Nat)
    (seed seed' : Nat → Seed) (hp : s.sessionPtrs = []) (hn : s.nrParties = s.parties.length) (h1 : 1 ≤ s.parties.length) :
    let s' := (setupMpc G s fresh seed).1
    let (s'', g) := setupMpc G s' fresh' seed'
    (∃ e, g = .error e) ∧ s''.sessionPtrs.length = 2 * s.parties.length ∧ s''.parties = s.parties := by
  simp only [setupMpc, Session.setupSessions, hp, List.nil_append]
  refine ⟨?_, by simp; omega, trivial⟩
  unfold setupPrzs
  apply mapM_error _ _ s.parties.length (by simp; omega) .indexError
  rw [pyGet_error (by simp [hn]), error_bind]

/-! ## C57 -/

/-- C57 (partial): the copy sent to a party has the session's number of parties, ring size, configuration and
protocol; tensor type and value range are right for the ring `2**64`.  What is missing: the other rings, see
`C57_copy_wrong_type`. -/
theorem C57_copy_partial (registered : List String) (parties : Option (List Nat)) (ring : Nat) (config : Option Config)
    (protocol : Option Protocol) (s : Session) (hs : Session.new registered parties ring config protocol = .ok s)
    (rank : Int) (uuid : Nat) :
    let c := s.copy rank uuid
    c.nrParties = s.nrParties ∧ c.ringSize = s.ringSize ∧ c.config = s.config ∧ c.protocol = s.protocol ∧
    c.rank = rank ∧ c.uuid = uuid ∧
    (ring = 2 ^ 64 ↔ (c.tensorType = s.tensorType ∧ c.minValue = s.minValue ∧ c.maxValue = s.maxValue)) := by
  refine ⟨rfl, rfl, rfl, rfl, rfl, rfl, ?_⟩
  obtain ⟨p, t, ht, rfl⟩ := sessionNew_inv hs
  unfold getTypeFromRing at ht
  constructor
  · intro h
    subst h
    simp at ht
    subst ht
    exact ⟨rfl, rfl, rfl⟩
  · rintro ⟨h, _, _⟩
    simp only [Session.copy] at h
    subst h
    by_contra hne
    split_ifs at ht <;> cases ht

/-- C57 fails for the code: with the ring `2**32` a party's copy has the tensor type and the value range of `2**64`. -/
theorem C57_copy_wrong_type : ∃ s, Session.new ["FSS"] (some [1, 2]) (2 ^ 32) none none = .ok s ∧
    (s.copy 0 7).ringSize = s.ringSize ∧ (s.copy 0 7).tensorType = .int64 ∧ s.tensorType = .int32 ∧
    (s.copy 0 7).maxValue = 2 ^ 63 - 1 ∧ s.maxValue = 2 ^ 31 - 1 :=
  ⟨_, rfl, by decide⟩

/-! ## C58 -/

/-- Run a sequence of class definitions. -/
def Registry.runAll (reg : Registry) : List ClassDef → Registry
  | [] => reg
  | c :: cs => Registry.runAll (reg.register c).1 cs

/-- C58: one registration: it succeeds exactly if both attributes are present and the name is free; then the name is
found; otherwise it is a `ValueError` and nothing changes. -/
theorem C58_register (reg : Registry) (c : ClassDef) :
    (((reg.register c).2 = .ok c ∧ (reg.register c).1 = reg ++ [(c.name, c)]) ∧
        c.shareClass ≠ none ∧ c.securityLevels ≠ none ∧ c.name ∉ reg.map (·.1)) ∨
    (((reg.register c).2 = .error .valueError ∧ (reg.register c).1 = reg) ∧
        (c.shareClass = none ∨ c.securityLevels = none ∨ c.name ∈ reg.map (·.1))) := by
  unfold Registry.register
  split
  · right; simp [*]
  · split
    · right; simp [*]
    · split
      · right; simp_all
      · left; simp_all

/-- C58: over every sequence of registrations from the empty registry, names are unique, and a name keeps the class
it was first registered with. -/
theorem C58_registry_invariant (cs ds : List ClassDef) :
    ((Registry.runAll [] cs).map (·.1)).Nodup ∧
    (∀ e ∈ Registry.runAll [] cs, e ∈ Registry.runAll (Registry.runAll [] cs) ds) ∧
    (∀ e ∈ Registry.runAll [] cs, e.2.name = e.1 ∧ e.2.shareClass ≠ none ∧ e.2.securityLevels ≠ none ∧ e.2 ∈ cs) := by
  have nodup : ∀ (cs : List ClassDef) (reg : Registry), (reg.map (·.1)).Nodup →
      ((Registry.runAll reg cs).map (·.1)).Nodup := by
    intro cs
    induction cs with
    | nil => intro reg h; exact h
    | cons c cs ih =>
      intro reg h
      apply ih
      rcases C58_register reg c with ⟨⟨_, h2⟩, _, _, h3⟩ | ⟨⟨_, h2⟩, _⟩
      · rw [h2, List.map_append, List.nodup_append]
        refine ⟨h, by simp, ?_⟩
        intro a ha b hb
        simp only [List.map_cons, List.map_nil, List.mem_singleton] at hb
        rintro rfl
        rw [hb] at ha
        exact h3 ha
      · rw [h2]; exact h
  have mono : ∀ (cs : List ClassDef) (reg : Registry), ∀ e ∈ reg, e ∈ Registry.runAll reg cs := by
    intro cs
    induction cs with
    | nil => intro reg e h; exact h
    | cons c cs ih =>
      intro reg e h
      apply ih
      rcases C58_register reg c with ⟨⟨_, h2⟩, _⟩ | ⟨⟨_, h2⟩, _⟩ <;> rw [h2]
      · simp [h]
      · exact h
  have prov : ∀ (cs : List ClassDef) (reg : Registry), ∀ e ∈ Registry.runAll reg cs, e ∈ reg ∨
      (e.2.name = e.1 ∧ e.2.shareClass ≠ none ∧ e.2.securityLevels ≠ none ∧ e.2 ∈ cs) := by
    intro cs
    induction cs with
    | nil => intro reg e h; exact Or.inl h
    | cons c cs ih =>
      intro reg e h
      rcases ih _ e h with h' | ⟨h1, h2, h3, h4⟩
      · rcases C58_register reg c with ⟨⟨_, hr⟩, ha, hb, _⟩ | ⟨⟨_, hr⟩, _⟩
        · rw [hr, List.mem_append, List.mem_singleton] at h'
          rcases h' with h' | rfl
          · exact Or.inl h'
          · exact Or.inr ⟨rfl, ha, hb, by simp⟩
        · rw [hr] at h'; exact Or.inl h'
      · exact Or.inr ⟨h1, h2, h3, by simp [h4]⟩
  refine ⟨nodup cs [] (by simp), fun e he => mono ds _ e he, fun e he => ?_⟩
  rcases prov cs [] e he with h | h
  · simp at h
  · exact h

example : (Registry.runAll [] [⟨"A", some .additive, some [.semiHonest]⟩, ⟨"B", none, some []⟩,
    ⟨"A", some .replicated, some []⟩]).map (·.1) = ["A"] := by decide

/-- C58: a registered class can be instantiated exactly with its security levels. -/
theorem C58_instantiate (cs : List ClassDef) (e : String × ClassDef) (he : e ∈ Registry.runAll [] cs) (t : Security) :
    (∃ p, e.2.instantiate t = .ok p ∧ p.name = e.1 ∧ p.security = t) ↔ ∃ l, e.2.securityLevels = some l ∧ t ∈ l := by
  obtain ⟨h1, h2, h3, _⟩ := (C58_registry_invariant cs []).2.2 e he
  obtain ⟨sc, hsc⟩ := Option.ne_none_iff_exists'.mp h2
  obtain ⟨l, hl⟩ := Option.ne_none_iff_exists'.mp h3
  unfold ClassDef.instantiate
  rw [hsc, hl]
  by_cases ht : t ∈ l <;> simp [ht, h1]

/-! ## C47 -/

/-- A history of calls of `share`. -/
def runShares (setup : List Nat → Session) (cache : Cache) : List (List Nat × List Kw) → Cache
  | [] => cache
  | (ps, ks) :: h => runShares setup (share setup cache ps ks).1 h

theorem setAttrs_parties (s : Session) (ks : List Kw) : (setAttrs s ks).1.parties = s.parties := by
  induction ks generalizing s with
  | nil => rfl
  | cons k ks ih =>
    cases k with
    | config c => exact ih _
    | ringSize n => exact ih _
    | requiresGrad b => rfl
    | other => rfl

/-- C47 (partial): after every history of calls, a call of `share` that succeeds uses a session between exactly the
given parties (as a set).  What is missing: the keyword arguments, see `C47_history_dependent` and
`C47_poisoned_session`. -/
theorem C47_parties_partial (setup : List Nat → Session) (hset : ∀ ps, (setup ps).parties = ps)
    (hist : List (List Nat × List Kw)) (ps : List Nat) (ks : List Kw) (s : Session) (rg : Bool)
    (h : (share setup (runShares setup (fun _ => none) hist) ps ks).2 = .ok (s, rg)) :
    s.parties.toFinset = ps.toFinset := by
  have inv : ∀ (hist : List (List Nat × List Kw)) (cache : Cache),
      (∀ k s, cache k = some s → s.parties.toFinset = k) →
      ∀ k s, runShares setup cache hist k = some s → s.parties.toFinset = k := by
    intro hist
    induction hist with
    | nil => intro cache hc; exact hc
    | cons c hist ih =>
      intro cache hc
      obtain ⟨qs, ks⟩ := c
      apply ih
      intro k s hk
      unfold share at hk
      simp only at hk
      split at hk
      · exact hc k s hk
      · simp only at hk
        split at hk
        · rename_i hkey
          have hs : (setAttrs (setup qs) ks).1 = s := by simpa using hk
          rw [← hs, setAttrs_parties, hset, hkey]
        · exact hc k s hk
  have hcache := inv hist (fun _ => none) (by simp)
  generalize runShares setup (fun _ => none) hist = cache at h hcache
  unfold share at h
  simp only at h
  split at h
  · rename_i s' hs'
    cases hb : bindKw ks with
    | error e => rw [hb, error_bind] at h; cases h
    | ok b =>
      rw [hb, ok_bind] at h; cases h
      exact hcache _ _ hs'
  · simp only at h
    cases hr : (setAttrs (setup ps) ks).2 with
    | error e => rw [hr, error_bind] at h; cases h
    | ok _ =>
      rw [hr, ok_bind] at h
      cases hb : bindKw ks with
      | error e => rw [hb, error_bind] at h; cases h
      | ok b =>
        rw [hb, ok_bind] at h; cases h
        rw [setAttrs_parties, hset]

example : (share (fun ps => { exSession with parties := ps }) (fun _ => none) [1, 2] []).2
    = .ok ({ exSession with parties := [1, 2] }, false) := rfl

/-- C47 fails for the code: the first `share(parties=P, requires_grad=True)` raises `AttributeError`, the same call
repeated succeeds. -/
theorem C47_history_dependent (setup : List Nat → Session) (ps : List Nat) (b : Bool) :
    let first := share setup (fun _ => none) ps [.requiresGrad b]
    let second := share setup first.1 ps [.requiresGrad b]
    first.2 = .error .attributeError ∧ ∃ s, second.2 = .ok (s, b) := by
  simp [share, setAttrs, bindKw, error_bind, ok_bind, pure_eq_ok]

/-- C47 fails for the code: `share(parties=P, config=c)` raises `TypeError`, but every later `share(parties=P)` uses a
session whose configuration is `c` while the parties' sessions were made with the old configuration. -/
theorem C47_poisoned_session (setup : List Nat → Session) (ps : List Nat) (c : Config) :
    let first := share setup (fun _ => none) ps [.config c]
    let second := share setup first.1 ps []
    first.2 = .error .typeError ∧
    second.2 = .ok ({ setup ps with config := c }, false) := by
  simp [share, setAttrs, bindKw, error_bind, ok_bind, pure_eq_ok]

/-- C47: which calls of `share(parties=P, ...)` succeed and what the others raise.  For parties that have a session, `requires_grad` is
the only keyword accepted, and its first value counts; for new parties no keyword is, and which exception is raised depends on the
first one that is not an attribute of a session. -/
theorem C47_accepted (setup : List Nat → Session) (cache : Cache) (ps : List Nat) (ks : List Kw) :
    (∀ s, cache ps.toFinset = some s →
      (share setup cache ps ks).1 = cache ∧
      ((∃ k ∈ ks, ∀ b, k ≠ .requiresGrad b) → (share setup cache ps ks).2 = .error .typeError) ∧
      (∀ bs : List Bool, ks = bs.map .requiresGrad → (share setup cache ps ks).2 = .ok (s, bs.headD false))) ∧
    (cache ps.toFinset = none →
      (ks = [] → (share setup cache ps ks).2 = .ok (setup ps, false)) ∧
      ((∃ k ∈ ks, (∃ b, k = .requiresGrad b) ∨ k = .other) → (share setup cache ps ks).2 = .error .attributeError) ∧
      (ks ≠ [] → (∀ k ∈ ks, (∃ c, k = .config c) ∨ ∃ n, k = .ringSize n) → (share setup cache ps ks).2 = .error .typeError)) := by
  have hbad : ∀ ks : List Kw, (∃ k ∈ ks, ∀ b, k ≠ .requiresGrad b) → bindKw ks = .error .typeError := by
    intro ks
    induction ks with
    | nil => simp
    | cons k ks ih =>
      rintro ⟨k', hk', h⟩
      cases k with
      | requiresGrad b =>
        have : ∃ k ∈ ks, ∀ b, k ≠ Kw.requiresGrad b := by
          rcases List.mem_cons.mp hk' with rfl | hm
          · exact absurd rfl (h b)
          · exact ⟨k', hm, h⟩
        rw [bindKw, ih this, error_bind]
      | _ => rfl
  have hgood : ∀ bs : List Bool, bindKw (bs.map .requiresGrad) = .ok (bs.headD false) := by
    intro bs
    induction bs with
    | nil => rfl
    | cons b bs ih => rw [List.map_cons, bindKw, ih]; rfl
  have hattr : ∀ (ks : List Kw) (s : Session), (∃ k ∈ ks, (∃ b, k = .requiresGrad b) ∨ k = .other) →
      (setAttrs s ks).2 = .error .attributeError := by
    intro ks
    induction ks with
    | nil => simp
    | cons k ks ih =>
      rintro s ⟨k', hk', h⟩
      rcases List.mem_cons.mp hk' with rfl | hm
      · rcases h with ⟨b, rfl⟩ | rfl <;> rfl
      · cases k with
        | config c => exact ih _ ⟨k', hm, h⟩
        | ringSize n => exact ih _ ⟨k', hm, h⟩
        | requiresGrad b => rfl
        | other => rfl
  have hset : ∀ (ks : List Kw) (s : Session), (∀ k ∈ ks, (∃ c, k = .config c) ∨ ∃ n, k = .ringSize n) → (setAttrs s ks).2 = .ok () := by
    intro ks
    induction ks with
    | nil => intro s _; rfl
    | cons k ks ih =>
      intro s h
      rcases h k List.mem_cons_self with ⟨c, rfl⟩ | ⟨n, rfl⟩
      · exact ih _ fun k' hk' => h k' (List.mem_cons_of_mem _ hk')
      · exact ih _ fun k' hk' => h k' (List.mem_cons_of_mem _ hk')
  constructor
  · intro s hs
    simp only [share, hs]
    refine ⟨trivial, fun h => by rw [hbad ks h, error_bind], ?_⟩
    rintro bs rfl
    rw [hgood, ok_bind]
    rfl
  · intro hn
    simp only [share, hn]
    refine ⟨?_, fun h => by rw [hattr ks _ h, error_bind], fun hne h => ?_⟩
    · rintro rfl
      rfl
    · rw [hset ks _ h, ok_bind, hbad ks, error_bind]
      obtain ⟨k, ks, rfl⟩ := List.exists_cons_of_ne_nil hne
      refine ⟨k, List.mem_cons_self, fun b hb => ?_⟩
      subst hb
      rcases h _ List.mem_cons_self with ⟨c, h⟩ | ⟨n, h⟩ <;> simp at h

/-- all four outcomes occur -/
example : (share (fun ps => { exSession with parties := ps }) (fun _ => none) [1, 2] [.other]).2 = .error .attributeError ∧
    (share (fun ps => { exSession with parties := ps }) (fun _ => some exSession) [1, 2] [.other]).2 = .error .typeError ∧
    (share (fun ps => { exSession with parties := ps }) (fun _ => some exSession) [1, 2] [.requiresGrad true]).2 = .ok (exSession, true) ∧
    (share (fun ps => { exSession with parties := ps }) (fun _ => none) [1, 2] [.ringSize 2]).2 = .error .typeError :=
  ⟨rfl, rfl, rfl, rfl⟩

end SyMPC
