import Verif.Model.Machine
import Verif.Spec.Algo
import Verif.Props.Derived
import Verif.Props.Sort

/-!
# The operators of a two-party session are sound
-/

namespace SyMPC

open FixedPointEncoder (Val)

/-! ## Multiplication with and without truncation -/

section
variable {K Kw : Type} [DecidableEq K] {A B C : K → Type}
  [∀ k, AddCommGroup (A k)] [∀ k, AddCommGroup (B k)] [∀ k, AddCommGroup (C k)]

/-- a share with its tensor changed -/
def ShareTensor.onTensor {T : Type} (f : T → T) (x : ShareTensor T) : ShareTensor T := { x with tensor := f x.tensor }

omit [∀ k, AddCommGroup (A k)] [∀ k, AddCommGroup (B k)] in
theorem mulAll_trunc (env : Env) (k : K) (op : A k → B k → C k) (trunc : Config → C k → C k) (c : Config) (eps : A k)
    (delta : B k) (us : List Nat) (hus : ∀ u ∈ us, ∀ p, env u = some p → p.nrParties = 2 ∧ p.config = c) :
    ∀ (w w' : World K A B C) (zs : List (ShareTensor (C k) × Nat)),
    mulAll env k op (fun _ z => z) eps delta us w = .ok (zs, w') →
    mulAll env k op trunc eps delta us w = .ok (zs.map fun z => (z.1.onTensor (trunc c), z.2), w') := by
  induction us with
  | nil =>
    intro w w' zs h
    cases h
    rfl
  | cons u us ih =>
    intro w w' zs h
    unfold mulAll at h ⊢
    unfold mulParties at h ⊢
    cases he : env u with
    | none => simp [he, error_bind] at h
    | some p =>
      obtain ⟨h2, hc⟩ := hus u (by simp) p he
      simp only [he, ok_bind, h2, if_true] at h ⊢
      cases hg : (w.stores u).get k true with
      | error e => simp [hg, error_bind] at h
      | ok v =>
        simp only [hg, ok_bind, pure_eq_ok, hc] at h ⊢
        cases hr : mulAll env k op (fun _ z => z) eps delta us
            { w with stores := fun v_1 => if v_1 = u then v.2 else w.stores v_1 } with
        | error e => simp [hr, error_bind] at h
        | ok r =>
          rw [hr, ok_bind] at h
          rw [ih (fun u hu => hus u (by simp [hu])) _ r.2 r.1 hr, ok_bind]
          cases h
          rfl

theorem mulMaster_trunc (env : Env) (op : (k : K) → Kw → A k → B k → C k) (trunc : (k : K) → Config → C k → C k)
    (rnd : (k : K) → Nat → TripleRand (A k) (B k) (C k)) (k : K) (kw : Kw) (w w' : World K A B C) (x : MPCTensor (A k))
    (y : MPCTensor (B k)) (raw : MulOut (A k) (B k) (C k)) (c : Config)
    (hus : ∀ u ∈ x.session.rankToUuid, ∀ p, env u = some p → p.nrParties = 2 ∧ p.config = c)
    (h : mulMaster env op (fun _ _ z => z) rnd k kw w x y = .ok (raw, w')) :
    ∃ out, mulMaster env op trunc rnd k kw w x y = .ok (out, w') ∧
      out.result = ⟨raw.result.session, raw.result.shares.map (ShareTensor.onTensor (trunc k c))⟩ := by
  unfold mulMaster at h ⊢
  cases h1 : maskOrGenerate env op rnd k kw w x y with
  | error e => simp [h1, error_bind] at h
  | ok m =>
    simp only [h1, ok_bind] at h ⊢
    cases h2 : (List.range x.session.nrParties).mapM (pyGet m.1) with
    | error e => simp [h2, error_bind] at h
    | ok l =>
      simp only [h2, ok_bind] at h ⊢
      cases h3 : ShareTensor.reconstruct (l.map (·.1)) with
      | error e => simp [h3, error_bind] at h
      | ok eps =>
        simp only [h3, ok_bind] at h ⊢
        cases h4 : ShareTensor.reconstruct (l.map (·.2.1)) with
        | error e => simp [h4, error_bind] at h
        | ok delta =>
          simp only [h4, ok_bind] at h ⊢
          cases h5 : mulAll env k (op k kw) (fun _ z => z) eps delta x.session.rankToUuid m.2 with
          | error e => simp [h5, error_bind] at h
          | ok zs =>
            rw [mulAll_trunc env k (op k kw) (trunc k) c eps delta _ hus _ zs.2 zs.1 h5]
            simp only [h5, ok_bind] at h ⊢
            unfold MPCTensor.ofShares at h ⊢
            by_cases g1 : x.session.sessionPtrs.length = 0
            · simp [g1] at h
            · by_cases g2 : zs.1.map (·.1) = []
              · simp only [g1, g2, if_true, if_false, error_bind] at h
                cases h
              · have g3 : ¬ (zs.1.map fun z => (z.1.onTensor (trunc k c), z.2)).map (·.1) = [] := by simpa using g2
                rw [if_neg g1, if_neg g2, ok_bind] at h
                rw [if_neg g1, if_neg g3, ok_bind]
                cases h
                refine ⟨_, rfl, ?_⟩
                simp [Function.comp_def]
end

/-- the two quotients miss that of the sum by less than two, and are exact for the divisor one -/
theorem tdiv_add_le (a b d : Int) (hd : 0 < d) : |(a.tdiv d + b.tdiv d) * d - (a + b)| ≤ 2 * (d - 1) := by
  obtain ⟨ra, ha, ha1, ha2⟩ := tdiv_rem a d hd
  obtain ⟨rb, hb, hb1, hb2⟩ := tdiv_rem b d hd
  have : (a.tdiv d + b.tdiv d) * d - (a + b) = -(ra + rb) := by linear_combination -ha - hb
  rw [this, abs_neg, abs_le]
  omega

namespace Machine

variable {Key : Type} {n k : Nat}

/-- What is assumed of a session: it is set up for two parties; the scale is at most `2^33`; one quantum encodes to one
quantum (as with the default base 2 and with decimal encoders, `quantum_base2`, `quantum_base10`); and key generation
gives correct keys, one for each element. -/
structure Fair (M : Machine Key) : Prop where
  pair : M.session.Pair M.env
  base : 0 < M.session.config.encoderBase
  small : M.scale ≤ 2 ^ 33
  one : PubEnc.enc M.session.config (quantum M.session.config) = (1 : I64)
  keys : ∀ r n, (M.keygen r n).length = n ∧ ∀ k ∈ M.keygen r n, KeysCorrect M.sycret SignedLe .comp k

/-- what the stores hold: triples that are products, and no keys left over -/
def Inv (M : Machine Key) (w : MState Key) : Prop :=
  (∃ q kwOf ts, w.triples.Good (Kw := Unit) (fun _ _ a b => a * b) M.session q kwOf ts) ∧
  ∃ B, w.keys.Holds M.session B ∧ ∀ o, Clean (B o)

/-- nothing is stored and no comparison was made -/
def start : MState Key := ⟨World.empty, FssWorld.empty, 0⟩

theorem inv_start (M : Machine Key) : M.Inv start :=
  ⟨⟨_, fun _ => (), fun _ _ _ => ⟨0, ⟨0, none, {}, 0⟩, ⟨0, none, {}, 0⟩, ⟨0, none, {}, 0⟩⟩, good_empty ..⟩,
    _, holds_empty _, fun _ => ⟨rfl, by simp⟩⟩

/-- The guarantees of the programs of a session: no exception, unless one of the recorded events ends the program. -/
def sure (M : Machine Key) : Sure (MachineM Key) where
  sure p P := ∀ w, M.Inv w → p w = .error (.inr ()) ∨ ∃ a w', p w = .ok (a, w') ∧ P a ∧ M.Inv w'
  pure a P h w hw := Or.inr ⟨a, w, rfl, h, hw⟩
  bind p f P Q hp hf w hw := by
    rcases hp w hw with h | ⟨a, w', h, ha, hw'⟩
    · left
      change StateT.bind p f w = _
      unfold StateT.bind
      rw [h]
      rfl
    · rcases hf a ha w' hw' with g | ⟨b, w'', g, hb, hw''⟩
      · left
        change StateT.bind p f w = _
        unfold StateT.bind
        rw [h]
        exact g
      · right
        refine ⟨b, w'', ?_, hb, hw''⟩
        change StateT.bind p f w = _
        unfold StateT.bind
        rw [h]
        exact g
  mono p P Q hp h w hw := by
    rcases hp w hw with h' | ⟨a, w', h', ha, hw'⟩
    · exact Or.inl h'
    · exact Or.inr ⟨a, w', h', h a ha, hw'⟩

theorem sure_lift (M : Machine Key) {α : Type} (p : Py α) (P : α → Prop) (h : ∃ a, p = .ok a ∧ P a) :
    M.sure.sure (lift p) P := by
  obtain ⟨a, rfl, ha⟩ := h
  exact fun w hw => Or.inr ⟨a, w, rfl, ha, hw⟩

/-- a secret of the session -/
def Ok (M : Machine Key) (x : MX n) : Prop := x.WF M.env ∧ x.session = M.session

theorem ofShares_inv {T : Type} {s : Session} {l : List (ShareTensor T)} {z : MPCTensor T}
    (h : MPCTensor.ofShares s l = .ok z) : z.session = s := by
  unfold MPCTensor.ofShares at h
  split at h
  · cases h
  · split at h
    · cases h
    · cases h; rfl

theorem Ok.value {M : Machine Key} {x : MX n} (hx : M.Ok x) : x.reconstruct = .ok x.value := WF.reconstruct hx.1

theorem value_of {M : Machine Key} {x : MX n} (hx : M.Ok x) {a : Fin n → I64} (h : x.reconstruct = .ok a) : x.value = a := by
  rw [hx.value] at h
  exact Except.ok.inj h

/-- sums and differences -/
theorem lin_ok (M : Machine Key) (op : MPCTensor.LinOp) (x y : MX n) (hx : M.Ok x) (hy : M.Ok y) :
    ∃ z, MPCTensor.applyPrivateLin (P := Empty) M.env op x y = .ok z ∧ M.Ok z ∧ z.value = LinOp.den op x.value y.value := by
  obtain ⟨z, h1, h2, h3, h4⟩ := priv_ok (P := Empty) M.env op x y hx.1 hy.1 (by rw [hx.2, hy.2]) _ _ hx.value hy.value
  have hz : M.Ok z := ⟨h3, by rw [h2, hx.2]⟩
  exact ⟨z, h1, hz, value_of hz h4⟩

theorem linP_ok (M : Machine Key) {P : Type} [PubEnc P (Fin n → I64)] (op : MPCTensor.LinOp) (x : MX n) (v : P) (hx : M.Ok x) :
    ∃ z, MPCTensor.applyPublicLin M.env op x v = .ok z ∧ M.Ok z ∧
      z.value = LinOp.den op x.value (PubEnc.enc M.session.config v) := by
  obtain ⟨z, h1, h2, h3, _, h4⟩ := pub_ok M.env op x v hx.1 _ hx.value
  have hz : M.Ok z := ⟨h3, by rw [h2, hx.2]⟩
  rw [hx.2] at h4
  exact ⟨z, h1, hz, value_of hz h4⟩

theorem convert_ok (M : Machine Key) (hM : M.Fair) (c : ℚ) (P : MX n → Prop)
    (hP : ∀ z : MX n, M.Ok z → z.value = (fun _ => M.session.config.encoder.encode (pubVal c)) → P z) :
    M.sure.sure (M.convert n c) P := by
  intro w hw
  obtain ⟨z, h1, h2, h3, h4⟩ := ofSecret_ok (T := Fin n → I64) M.env M.session hM.pair.toReady (fun _ : Fin n => pubVal c)
    fun r _ => M.draw w.round r
  have hz : M.Ok z := ⟨h3, h2⟩
  refine Or.inr ⟨z, w, ?_, hP z hz ?_, hw⟩
  · unfold convert
    rw [h1]
    rfl
  · exact value_of hz h4

theorem mulP_ok (M : Machine Key) (x : MX n) (y : Fin n → Val) (tr : (Fin n → I64) → Fin n → I64) (hx : M.Ok x) :
    ∃ z : MX n, MPCTensor.applyPublicMul M.env (· * ·) tr x y = .ok z ∧ M.Ok z ∧
      z.value = x.value * fun i => M.session.config.encoder.encode (y i) := by
  obtain ⟨z, h1, h2, h3⟩ := C15_public_product_additive (T := Fin n → I64) (U := Fin n → I64) (V := Fin n → I64) M.env
    (· * ·) (fun a b u => add_mul a b u) tr x y hx.1 _ hx.value
  have hs : z.session = M.session := by
    rw [← hx.2]
    unfold MPCTensor.applyPublicMul at h1
    cases h : (x.shares.mapM fun sh => ShareTensor.prod (U := Fin n → I64) (V := Fin n → I64) M.env (· * ·) tr sh (.inl y)) with
    | error e => simp [h, error_bind] at h1
    | ok l =>
      rw [h, ok_bind] at h1
      exact ofShares_inv h1
  have hz : M.Ok z := ⟨h2, hs⟩
  refine ⟨z, h1, hz, ?_⟩
  rw [value_of hz h3, hx.2]
  rfl

theorem hook_ok (M : Machine Key) (f : (Fin n → I64) →+ (Fin k → I64)) (x : MX n) (hx : M.Ok x) :
    ∃ z : MX k, MPCTensor.hookMethod f x = .ok z ∧ M.Ok z ∧ z.value = f x.value := by
  obtain ⟨z, h1, h2, h3⟩ := C16_additive_map M.env f x hx.1 _ hx.value
  have hz : M.Ok z := ⟨h2, by rw [← hx.2]; exact ofShares_inv h1⟩
  exact ⟨z, h1, hz, value_of hz h3⟩

theorem two_shares {M : Machine Key} (hM : M.Fair) {x : MX n} (hx : M.Ok x) : ∃ a b, x.shares = [a, b] :=
  pair_shares (by rw [hx.2]; exact hM.pair) hx.1

/-- padding: the places without element stand for -25 quanta -/
theorem pad_ok (M : Machine Key) (hM : M.Fair) (σ : Fin k → Option (Fin n)) (x : MX n) (hx : M.Ok x) :
    ∃ z : MX k, M.padTensor σ x = .ok z ∧ M.Ok z ∧ z.value = fun j => (σ j).elim (BitVec.ofInt 64 (-25)) x.value := by
  obtain ⟨a, b, hs⟩ := two_shares hM hx
  have htags := hx.1.tags
  rw [hs, hx.2] at htags
  obtain ⟨u0, u1, hu⟩ : ∃ u0 u1, M.session.rankToUuid = [u0, u1] := by
    have h2 := hM.pair.ranks
    rw [hM.pair.pair] at h2
    match M.session.rankToUuid, h2 with
    | [u0, u1], _ => exact ⟨u0, u1, rfl⟩
  rw [hu] at htags
  simp only [List.map_cons, List.map_nil, List.cons.injEq, and_true] at htags
  obtain ⟨p0, e0, r0, -⟩ := hM.pair.ranked 0 u0 (by rw [hu]; rfl)
  obtain ⟨p1, e1, r1, -⟩ := hM.pair.ranked 1 u1 (by rw [hu]; rfl)
  have hptr : x.session.sessionPtrs ≠ [] := hx.1.ready.ptrs
  refine ⟨⟨x.session, [a.hookMethod fun w j => (σ j).elim (BitVec.ofInt 64 (-25)) w, b.hookMethod fun w j => (σ j).elim 0 w]⟩, ?_, ?_, ?_⟩
  · unfold padTensor
    rw [hs]
    simp only [List.mapM_cons, List.mapM_nil, padShare, htags.1, htags.2, Option.bind_some, e0, e1, r0, r1, ok_bind, pure_eq_ok]
    exact ofShares_ok _ _ hptr (by simp)
  · refine ⟨⟨hx.1.ready, ?_⟩, hx.2⟩
    simp [ShareTensor.hookMethod, htags.1, htags.2, hx.2, hu]
  · funext j
    simp only [MPCTensor.value, List.map_cons, List.map_nil, List.sum_cons, List.sum_nil, add_zero, ShareTensor.hookMethod, hs,
      Pi.add_apply]
    cases σ j with
    | none => simp
    | some i => rfl

/-- division of the shares by `d` -/
theorem divide_ok (M : Machine Key) (hM : M.Fair) (x : MX n) (hx : M.Ok x) (d : Nat) (h1 : 0 < d) (h2 : d < 2 ^ 63)
    (P : MX n → Prop) (hP : ∀ z : MX n, M.Ok z → (∀ i, |(z.value i).toInt * d - (x.value i).toInt| ≤ 2 * (d - 1) ∧
      |(z.value i).toInt - (x.value i).toInt.tdiv d| ≤ 1) → P z) :
    M.sure.sure (divide x d) P := by
  obtain ⟨a, b, hs⟩ := two_shares hM hx
  intro w hw
  unfold divide
  by_cases hwr : wrapsAt x.shares
  · left
    rw [if_pos hwr]
    rfl
  · right
    rw [if_neg hwr]
    have hptr : x.session.sessionPtrs ≠ [] := hx.1.ready.ptrs
    rw [ofShares_ok _ _ hptr (by simp [hs])]
    have hz : M.Ok (⟨x.session, x.shares.map (ShareTensor.div (divTensor d))⟩ : MX n) :=
      ⟨⟨hx.1.ready, by simpa [ShareTensor.div, Function.comp_def] using hx.1.tags⟩, hx.2⟩
    refine ⟨_, w, rfl, hP _ hz ?_, hw⟩
    intro i
    rw [hs] at hwr
    simp only [wrapsAt, decide_eq_true_eq, not_exists, not_or, not_lt, not_le] at hwr
    obtain ⟨g1, g2⟩ := hwr i
    have hv : x.value i = a.tensor i + b.tensor i := by simp [MPCTensor.value, hs]
    have hzv : (⟨x.session, x.shares.map (ShareTensor.div (divTensor d))⟩ : MX n).value i
        = floordiv (a.tensor i) (BitVec.ofInt 64 (d : Int)) + floordiv (b.tensor i) (BitVec.ofInt 64 (d : Int)) := by
      simp [MPCTensor.value, hs, ShareTensor.div, divTensor]
    have hvi : (x.value i).toInt = (a.tensor i).toInt + (b.tensor i).toInt := by
      have hc := toInt_add_cases (a.tensor i) (b.tensor i)
      rw [if_neg (by omega), if_neg (by omega)] at hc
      rw [hv, hc]
      ring
    rw [hzv, hvi, two_quotients _ _ (d : Int) (by exact_mod_cast h1) (by exact_mod_cast h2) (Or.inr ⟨g1, g2⟩)]
    exact ⟨tdiv_add_le (a.tensor i).toInt (b.tensor i).toInt d (by exact_mod_cast h1),
      (tdiv_add (a.tensor i).toInt (b.tensor i).toInt d (by exact_mod_cast h1)).1⟩

theorem Fair.pos {M : Machine Key} (hM : M.Fair) : 0 < M.scale := Nat.pow_pos hM.base

theorem mulPublic_ok (M : Machine Key) (hM : M.Fair) (x : MX n) (y : Fin n → Val) (hx : M.Ok x) (P : MX n → Prop)
    (hP : ∀ z : MX n, M.Ok z → (∀ i, |(z.value i).toInt * M.scale
        - (x.value i * M.session.config.encoder.encode (y i)).toInt| ≤ 2 * (M.scale - 1) ∧
      |(z.value i).toInt - (x.value i * M.session.config.encoder.encode (y i)).toInt.tdiv M.scale| ≤ 1) → P z) :
    M.sure.sure (M.mulPublic x y) P := by
  unfold mulPublic
  apply M.sure.bind _ _ (fun z : MX n => M.Ok z ∧ z.value = x.value * fun i => M.session.config.encoder.encode (y i))
  · exact M.sure_lift _ _ (mulP_ok M x y _ hx)
  · rintro z ⟨hz, hv⟩
    apply divide_ok M hM z hz M.scale hM.pos (lt_of_le_of_lt hM.small (by norm_num))
    intro z' hz' h
    apply hP z' hz'
    intro i
    have := h i
    rw [hv] at this
    exact this

theorem mulPrivate_ok (M : Machine Key) (hM : M.Fair) (x y : MX n) (hx : M.Ok x) (hy : M.Ok y) (P : MX n → Prop)
    (hP : ∀ z : MX n, M.Ok z → (∀ i, |(z.value i).toInt * M.scale - (x.value i * y.value i).toInt| ≤ 2 * (M.scale - 1)) → P z) :
    M.sure.sure (M.mulPrivate x y) P := by
  rintro w ⟨⟨q, kwOf, ts, hg⟩, hk⟩
  let op : (k : Nat) → Unit → (Fin k → I64) →+ (Fin k → I64) →+ (Fin k → I64) := fun _ _ => AddMonoidHom.mul
  have hlive : M.session.Live M.env := hM.pair.toLive
  obtain ⟨raw, w', q', kwOf', ts', i, zs, a, b, e1, e2, -, -, -, -, -, -, -, -, -, -, e3, e4, e5, e6, e7⟩ :=
    mul_step M.env M.session hlive op (fun _ _ z => z) M.triples w.triples q kwOf ts hg n () x y hx.1 hy.1 hx.2 hy.2
  have e1' : mulMaster (Kw := Unit) M.env (fun _ _ a b => a * b) (fun _ _ z => z) M.triples n () w.triples x y
      = .ok (raw, w') := e1
  obtain ⟨out, e8, e9⟩ := mulMaster_trunc M.env (fun _ _ a b => a * b)
    (fun _ c => divTensor (c.encoderBase ^ c.encoderPrecision)) M.triples n () w.triples w' x y raw M.session.config (by
      intro u hu p hp
      rw [hx.2] at hu
      obtain ⟨r, hr⟩ := List.getElem?_of_mem hu
      obtain ⟨p', h1, _, h2⟩ := hlive.ranked r u hr
      obtain ⟨p'', h3, h4, _⟩ := hlive.known u hu
      rw [hp] at h1 h3
      cases h1
      cases h3
      exact ⟨by rw [h2, hM.pair.pair], h4⟩) e1'
  have hraw : M.Ok raw.result := ⟨⟨by rw [e3]; exact hlive.toReady, by rw [e4, e3]⟩, e3⟩
  obtain ⟨sa, sb, hs⟩ := two_shares hM hraw
  have e5' : [sa.tensor, sb.tensor] = zs := by
    rw [hs] at e5
    simpa using e5
  have hsum : sa.tensor + sb.tensor = x.value * y.value := by
    have h2 : zs.sum = x.value * y.value := by
      have : zs.sum = x.value * y.value + (a * b - a * b) := e7
      rw [this, sub_self, add_zero]
    rw [← h2, ← e5']
    simp
  by_cases hwr : wrapsAt raw.result.shares
  · left
    simp only [mulPrivate, e8, e1', if_pos hwr]
  · right
    have hz : M.Ok out.result := by
      rw [e9]
      exact ⟨⟨hraw.1.ready, by simpa [ShareTensor.onTensor, Function.comp_def] using hraw.1.tags⟩, e3⟩
    refine ⟨out.result, { w with triples := w' }, ?_, hP _ hz ?_, ⟨⟨q', kwOf', ts', e2⟩, hk⟩⟩
    · simp only [mulPrivate, e8, e1', if_neg hwr]
    · intro i
      rw [hs] at hwr
      simp only [wrapsAt, decide_eq_true_eq, not_exists, not_or, not_lt, not_le] at hwr
      obtain ⟨g1, g2⟩ := hwr i
      have hv : x.value i * y.value i = sa.tensor i + sb.tensor i := by
        rw [← Pi.mul_apply, ← hsum]
        rfl
      have hzv : out.result.value i
          = floordiv (sa.tensor i) (BitVec.ofInt 64 (M.scale : Int)) + floordiv (sb.tensor i) (BitVec.ofInt 64 (M.scale : Int)) := by
        rw [e9, BitVec.ofInt_natCast]
        simp [MPCTensor.value, hs, ShareTensor.onTensor, divTensor, scale]
      have hvi : (x.value i * y.value i).toInt = (sa.tensor i).toInt + (sb.tensor i).toInt := by
        have hc := toInt_add_cases (sa.tensor i) (sb.tensor i)
        rw [if_neg (by omega), if_neg (by omega)] at hc
        rw [hv, hc]
        ring
      rw [hzv, hvi, two_quotients _ _ (M.scale : Int) (by exact_mod_cast hM.pos)
        (by exact_mod_cast lt_of_le_of_lt hM.small (by norm_num)) (Or.inr ⟨g1, g2⟩)]
      exact tdiv_add_le (sa.tensor i).toInt (sb.tensor i).toInt M.scale (by exact_mod_cast hM.pos)

theorem le_ok (M : Machine Key) (hM : M.Fair) (x y : MX n) (hx : M.Ok x) (hy : M.Ok y)
    (h1 : ∀ i, -2 ^ 31 ≤ (x.value i).toInt - (y.value i).toInt) (h2 : ∀ i, (x.value i).toInt - (y.value i).toInt < 2 ^ 31)
    (P : MX n → Prop)
    (hP : ∀ z : MX n, M.Ok z → (∀ i, (z.value i).toInt = if (x.value i).toInt ≤ (y.value i).toInt then (M.scale : Int) else 0) → P z) :
    M.sure.sure (M.le x y) P := by
  rintro w ⟨hg, B, hB, hcl⟩
  have hpair : x.session.Pair M.env := by rw [hx.2]; exact hM.pair
  obtain ⟨hl, hk⟩ := hM.keys w.round n
  obtain ⟨out, w', g1, g2, g3, g4⟩ := (fssOp_spec M.sycret .comp (M.keygen w.round n) x y hpair (by rw [hx.2, hy.2]) hx.1 hy.1
    w.keys B (by rw [hx.2]; exact hB) _ [] ((hcl .comp).push _)).1 (by omega)
  unfold le
  simp only [g1]
  split
  · exact Or.inl rfl
  · rename_i hno
    right
    have hz : M.Ok out.result := ⟨g2, by rw [g3.session, hx.2]⟩
    rw [hx.2] at g4
    refine ⟨_, _, rfl, hP _ hz ?_, hg, _, g4, ?_⟩
    · intro i
      obtain ⟨p, hp⟩ : ∃ p, (M.keygen w.round n)[i.val]? = some p := ⟨_, List.getElem?_eq_getElem (by omega)⟩
      have hnm : NoMinOutput M.sycret .comp (out.opened i) p := by
        by_contra hc
        exact hno ⟨i, p, hp, hc⟩
      rw [g3.bit SignedLe i p hp (hk p (List.mem_of_getElem? hp)) hnm, hx.2]
      have hs := hM.small
      simp only [FixedPointEncoder.encode, FixedPointEncoder.encodeInt]
      have hsc : (M.session.config.encoder.scale : Int) = M.scale := rfl
      rw [hsc]
      simp only [signedLe_iff _ _ _ (h1 i) (h2 i)]
      split
      · have : (1 : I64).toInt = 1 := by decide
        rw [this, one_mul, toInt_ofInt64 (by omega) (by omega)]
      · have : (0 : I64).toInt = 0 := by decide
        rw [this, zero_mul]
        rfl
    · intro o
      split
      · exact ⟨rfl, by simp⟩
      · exact hcl o

/-- the numbers that a secret stands for -/
def val (M : Machine Key) (x : MX n) (i : Fin n) : ℚ := (x.value i).toInt / M.scale

theorem pubVal_int (c : Int) : pubVal (c : ℚ) = .int c := by
  unfold pubVal
  rw [if_pos (Rat.den_intCast c), Rat.num_intCast]

theorem encode_pub (M : Machine Key) (c : Int) :
    M.session.config.encoder.encode (pubVal (c : ℚ)) = BitVec.ofInt 64 (c * M.scale) := by
  rw [pubVal_int]
  rfl

/-- a bound on numbers is one on quanta -/
theorem quanta_le (S : Nat) (hS : 0 < S) (z : Int) (q : ℚ) (h : q = z / S) (B : Int) :
    |q| ≤ (B : ℚ) / S ↔ |z| ≤ B := by
  have hQ : (0 : ℚ) < S := by exact_mod_cast hS
  rw [h, abs_div, abs_of_pos hQ, div_le_div_iff_of_pos_right hQ]
  exact_mod_cast Iff.rfl

/-- an error of less than two quanta after division by the scale -/
theorem quotient_error (S : Nat) (hS : 0 < S) (z p : Int) (h : |z * S - p| ≤ 2 * (S - 1)) (q : ℚ) (hq : q = p / S / S) :
    |(z : ℚ) / S - q| ≤ 2 * (S - 1) / S / S := by
  have hQ : (0 : ℚ) < S := by exact_mod_cast hS
  have h' : |(z : ℚ) * S - p| ≤ 2 * (S - 1) := by exact_mod_cast h
  have e : (z : ℚ) / S - q = (z * S - p) / S / S := by rw [hq]; field_simp
  rw [e, abs_div, abs_div, abs_of_pos hQ, div_le_div_iff_of_pos_right hQ, div_le_div_iff_of_pos_right hQ]
  exact h'

theorem toInt_mul_of {a b : I64} {p : Int} (h : a.toInt * b.toInt = p) (hp : |p| < 2 ^ 63) : (a * b).toInt = p := by
  rw [abs_lt] at hp
  rw [BitVec.toInt_mul, h]
  exact bmod64_eq (by omega) (by omega)

theorem toInt_add_of {a b : I64} {p : Int} (h : a.toInt + b.toInt = p) (hp : |p| < 2 ^ 63) : (a + b).toInt = p := by
  rw [abs_lt] at hp
  rw [BitVec.toInt_add, h]
  exact bmod64_eq (by omega) (by omega)

/-- values as residues: any integer representation of the operands will do -/
theorem toInt_eq_of {a : I64} {p : Int} (h : a = BitVec.ofInt 64 p) (hp : |p| < 2 ^ 63) : a.toInt = p := by
  rw [abs_lt] at hp
  rw [h]
  exact toInt_ofInt64 (by omega) (by omega)

/-- product with the encoding of an integer -/
theorem mul_enc (M : Machine Key) (hM : M.Fair) (a : I64) (c : Int) (h : |a.toInt * c| ≤ 2 ^ 30 - 1) :
    (a * BitVec.ofInt 64 (c * M.scale)).toInt = a.toInt * c * M.scale := by
  apply toInt_eq_of
  · rw [mul_assoc, BitVec.ofInt_mul a.toInt, BitVec.ofInt_toInt]
  · have h1 : (M.scale : Int) ≤ 2 ^ 33 := by exact_mod_cast hM.small
    have h2 : (0 : Int) ≤ M.scale := Int.natCast_nonneg _
    rw [abs_mul, abs_of_nonneg h2]
    calc |a.toInt * c| * (M.scale : Int) ≤ (2 ^ 30 - 1) * 2 ^ 33 := mul_le_mul h h1 h2 (by norm_num)
      _ < 2 ^ 63 := by norm_num

/-- the comparison of two numbers in quanta -/
theorem val_lt (M : Machine Key) (hM : M.Fair) (x y : Int) : (x : ℚ) / M.scale < y / M.scale ↔ x < y := by
  have hQ : (0 : ℚ) < M.scale := by exact_mod_cast hM.pos
  rw [div_lt_div_iff_of_pos_right hQ]
  exact_mod_cast Iff.rfl

theorem val_bit (M : Machine Key) (hM : M.Fair) (z : Int) (p : Prop) [Decidable p] (q : Prop) [Decidable q] (hpq : p ↔ q)
    (h : z = if p then (M.scale : Int) else 0) : (z : ℚ) / M.scale = if q then 1 else 0 := by
  have hQ : (M.scale : ℚ) ≠ 0 := by exact_mod_cast hM.pos.ne'
  simp only [hpq] at h
  split at h
  · rw [h, if_pos (by assumption)]
    push_cast
    exact div_self hQ
  · rw [h, if_neg (by assumption)]
    simp

/-- `x + one` -/
theorem addQuantum_ok (M : Machine Key) (hM : M.Fair) (x : MX n) (hx : M.Ok x) (hb : ∀ i, |(x.value i).toInt| ≤ 2 ^ 30 - 1)
    (P : MX n → Prop) (hP : ∀ z : MX n, M.Ok z → (∀ i, (z.value i).toInt = (x.value i).toInt + 1) → P z) :
    M.sure.sure (M.addQuantum x) P := by
  apply M.sure_lift
  obtain ⟨z, h1, h2, h3⟩ := M.linP_ok .add x (fun _ : Fin n => quantum M.session.config) hx
  refine ⟨z, h1, hP z h2 ?_⟩
  intro i
  have e : z.value i = x.value i + 1 := by
    rw [h3, ← hM.one]
    rfl
  rw [e]
  have := hb i
  rw [abs_le] at this
  exact toInt_add_of (by rw [show (1 : I64).toInt = 1 by decide]) (by rw [abs_lt]; omega)

/-- the value of a secret is at most `B` -/
theorem val_le (M : Machine Key) (hM : M.Fair) (z : Int) : |(z : ℚ) / M.scale| ≤ (2 ^ 30 - 1) / M.scale ↔ |z| ≤ 2 ^ 30 - 1 := by
  have := quanta_le M.scale hM.pos z _ rfl (2 ^ 30 - 1)
  norm_num at this ⊢
  exact this

theorem cast_quanta (M : Machine Key) (hM : M.Fair) (c : Int) : (c : ℚ) = ((c * M.scale : Int) : ℚ) / M.scale := by
  have hQ : (M.scale : ℚ) ≠ 0 := by exact_mod_cast hM.pos.ne'
  push_cast
  field_simp

theorem lin_toInt (op : MPCTensor.LinOp) (a b : I64) (p q : Int) (ha : a = BitVec.ofInt 64 p) (hb : b = BitVec.ofInt 64 q)
    (h : |LinOp.den op p q| ≤ 2 ^ 30 - 1) : (LinOp.den op a b).toInt = LinOp.den op p q := by
  apply toInt_eq_of
  · rw [ha, hb]
    cases op
    · exact (BitVec.ofInt_add _ _).symm
    · simp only [LinOp.den]
      rw [sub_eq_add_neg, sub_eq_add_neg, BitVec.ofInt_add, BitVec.ofInt_neg]
  · exact lt_of_le_of_lt h (by norm_num)

theorem mulT_sound (M : Machine Key) (hM : M.Fair) (x : MX n) (t : Fin n → Int) (hx : M.Ok x)
    (h : ∀ i, |M.val x i * t i| ≤ (2 ^ 30 - 1) / M.scale) :
    M.sure.sure (M.mulPublic x fun i => pubVal (t i)) fun z => M.Ok z ∧ ∀ i, |M.val z i - M.val x i * t i| ≤ 2 * (M.scale - 1) / M.scale / M.scale := by
  apply M.mulPublic_ok hM x _ hx
  intro z hz hv
  refine ⟨hz, fun i => ?_⟩
  have hQ : (M.scale : ℚ) ≠ 0 := by exact_mod_cast hM.pos.ne'
  have e : M.val x i * t i = (((x.value i).toInt * t i : Int) : ℚ) / M.scale := by
    unfold val
    push_cast
    ring
  have hb := h i
  rw [e, M.val_le hM] at hb
  have := (hv i).1
  rw [M.encode_pub, M.mul_enc hM _ _ hb] at this
  apply quotient_error M.scale hM.pos _ _ this
  rw [e]
  push_cast
  field_simp

theorem linP_sound (M : Machine Key) (hM : M.Fair) (op : MPCTensor.LinOp) (x : MX n) (c : Int) (hx : M.Ok x)
    (h : ∀ i, |LinOp.den op (M.val x i) c| ≤ (2 ^ 30 - 1) / M.scale) :
    M.sure.sure (lift (MPCTensor.applyPublicLin M.env op x fun _ : Fin n => pubVal c)) fun z =>
      M.Ok z ∧ ∀ i, M.val z i = LinOp.den op (M.val x i) c := by
  apply M.sure_lift
  obtain ⟨z, h1, h2, h3⟩ := M.linP_ok op x (fun _ : Fin n => pubVal c) hx
  refine ⟨z, h1, h2, fun i => ?_⟩
  have hi : z.value i = LinOp.den op (x.value i) (BitVec.ofInt 64 (c * M.scale)) := by
    rw [h3, ← M.encode_pub]
    cases op <;> rfl
  have e : LinOp.den op (M.val x i) c = ((LinOp.den op (x.value i).toInt (c * M.scale) : Int) : ℚ) / M.scale := by
    have hQ : (M.scale : ℚ) ≠ 0 := by exact_mod_cast hM.pos.ne'
    cases op <;> simp only [LinOp.den, val] <;> push_cast <;> field_simp
  have hb := h i
  rw [e, M.val_le hM] at hb
  rw [e, ← lin_toInt op (x.value i) (BitVec.ofInt 64 (c * M.scale)) _ _ (BitVec.ofInt_toInt).symm rfl hb, ← hi]
  rfl

theorem lin_sound (M : Machine Key) (hM : M.Fair) (op : MPCTensor.LinOp) (x y : MX n) (hx : M.Ok x) (hy : M.Ok y)
    (h : ∀ i, |LinOp.den op (M.val x i) (M.val y i)| ≤ (2 ^ 30 - 1) / M.scale) :
    M.sure.sure (lift (MPCTensor.applyPrivateLin (P := Empty) M.env op x y)) fun z =>
      M.Ok z ∧ ∀ i, M.val z i = LinOp.den op (M.val x i) (M.val y i) := by
  apply M.sure_lift
  obtain ⟨z, h1, h2, h3⟩ := M.lin_ok op x y hx hy
  refine ⟨z, h1, h2, fun i => ?_⟩
  have hi : z.value i = LinOp.den op (x.value i) (y.value i) := by
    rw [h3]
    cases op <;> rfl
  have e : LinOp.den op (M.val x i) (M.val y i) = ((LinOp.den op (x.value i).toInt (y.value i).toInt : Int) : ℚ) / M.scale := by
    cases op <;> simp only [LinOp.den, val] <;> push_cast <;> ring
  have hb := h i
  rw [e, M.val_le hM] at hb
  rw [e, ← lin_toInt op (x.value i) (y.value i) _ _ (BitVec.ofInt_toInt).symm (BitVec.ofInt_toInt).symm hb, ← hi]
  rfl

theorem convert_sound (M : Machine Key) (hM : M.Fair) (c : Int) (hc : |(c : ℚ)| ≤ (2 ^ 30 - 1) / M.scale) (P : MX n → Prop)
    (hP : ∀ z : MX n, M.Ok z → (∀ i, (z.value i).toInt = c * M.scale ∧ |(z.value i).toInt| ≤ 2 ^ 30 - 1) → P z) :
    M.sure.sure (M.convert n (c : ℚ)) P := by
  apply M.convert_ok hM
  intro z hz hv
  apply hP z hz
  intro i
  rw [M.cast_quanta hM, M.val_le hM] at hc
  have e : (z.value i).toInt = c * M.scale := by
    apply toInt_eq_of _ (lt_of_le_of_lt hc (by norm_num))
    rw [hv, M.encode_pub]
  rw [e]
  exact ⟨rfl, hc⟩

/-- the encoding of a number, as an integer -/
theorem encode_pubVal (M : Machine Key) (c : ℚ) : ∃ e : Int, M.session.config.encoder.encode (pubVal c) = BitVec.ofInt 64 e ∧
    |(e : ℚ)| ≤ |c| * M.scale ∧ |c * M.scale - e| < 1 := by
  refine ⟨M.session.config.encoder.encodeInt (pubVal c), rfl, ?_⟩
  have hS : (0 : ℚ) ≤ (M.session.config.encoder.scale : ℚ) := Nat.cast_nonneg _
  have hS' : (M.session.config.encoder.scale : ℚ) = M.scale := rfl
  unfold pubVal
  split
  · rename_i h
    have hc : (c.num : ℚ) = c := Rat.coe_int_num_of_den_eq_one h
    simp only [FixedPointEncoder.encodeInt]
    push_cast
    rw [hc, hS', abs_mul, abs_of_nonneg (a := (M.scale : ℚ)) (by rw [← hS']; exact hS), sub_self]
    simp
  · obtain ⟨h1, h2, -⟩ := truncRat_bounds (c * M.session.config.encoder.scale)
    simp only [FixedPointEncoder.encodeInt]
    rw [abs_mul, abs_of_nonneg hS] at h1
    rw [← hS']
    exact ⟨h1, h2⟩

theorem linF_sound (M : Machine Key) (hM : M.Fair) (op : MPCTensor.LinOp) (x : MX n) (c : ℚ) (hx : M.Ok x)
    (h : ∀ i, |LinOp.den op (M.val x i) c| + 1 / M.scale ≤ (2 ^ 30 - 1) / M.scale) :
    M.sure.sure (lift (MPCTensor.applyPublicLin M.env op x fun _ : Fin n => pubVal c)) fun z =>
      M.Ok z ∧ ∀ i, |M.val z i - LinOp.den op (M.val x i) c| ≤ 1 / M.scale := by
  have hQ : (0 : ℚ) < M.scale := by exact_mod_cast hM.pos
  obtain ⟨e, e1, -, e3⟩ := M.encode_pubVal c
  apply M.sure_lift
  obtain ⟨z, h1, h2, h3⟩ := M.linP_ok op x (fun _ : Fin n => pubVal c) hx
  refine ⟨z, h1, h2, fun i => ?_⟩
  have hi : z.value i = LinOp.den op (x.value i) (BitVec.ofInt 64 e) := by
    rw [h3, ← e1]
    cases op <;> rfl
  have hq : |((LinOp.den op (x.value i).toInt e : Int) : ℚ) / M.scale - LinOp.den op (M.val x i) c| ≤ 1 / M.scale := by
    have key : |(e : ℚ) / M.scale - c| ≤ 1 / M.scale := by
      have : (e : ℚ) / M.scale - c = -((c * M.scale - e) / M.scale) := by field_simp; ring
      rw [this, abs_neg, abs_div, abs_of_pos hQ, div_le_div_iff_of_pos_right hQ]
      exact e3.le
    cases op
    · simp only [LinOp.den, val]
      push_cast
      have : ((x.value i).toInt + (e : ℚ)) / M.scale - ((x.value i).toInt / M.scale + c) = e / M.scale - c := by ring
      rw [this]
      exact key
    · simp only [LinOp.den, val]
      push_cast
      have : ((x.value i).toInt - (e : ℚ)) / M.scale - ((x.value i).toInt / M.scale - c) = -(e / M.scale - c) := by ring
      rw [this, abs_neg]
      exact key
  have hb : |((LinOp.den op (x.value i).toInt e : Int) : ℚ) / M.scale| ≤ (2 ^ 30 - 1) / M.scale := by
    refine le_trans ?_ (h i)
    have := abs_add_le (((LinOp.den op (x.value i).toInt e : Int) : ℚ) / M.scale - LinOp.den op (M.val x i) c) (LinOp.den op (M.val x i) c)
    rw [sub_add_cancel] at this
    linarith
  rw [M.val_le hM] at hb
  have hv : M.val z i = ((LinOp.den op (x.value i).toInt e : Int) : ℚ) / M.scale := by
    rw [← lin_toInt op (x.value i) (BitVec.ofInt 64 e) _ _ (BitVec.ofInt_toInt).symm rfl hb, ← hi]
    rfl
  rw [hv]
  exact hq

theorem mulF_sound (M : Machine Key) (hM : M.Fair) (x : MX n) (c : ℚ) (hx : M.Ok x)
    (h : ∀ i, |M.val x i * c| ≤ (2 ^ 30 - 1) / M.scale) :
    M.sure.sure (M.mulPublic x fun _ => pubVal c) fun z => M.Ok z ∧
      ∀ i, |M.val z i - M.val x i * c| ≤ |M.val x i| * (1 / M.scale) + 2 * (M.scale - 1) / M.scale / M.scale := by
  have hQ : (0 : ℚ) < M.scale := by exact_mod_cast hM.pos
  obtain ⟨e, e1, e2, e3⟩ := M.encode_pubVal c
  apply M.mulPublic_ok hM x _ hx
  intro z hz hv
  refine ⟨hz, fun i => ?_⟩
  have hb : |(x.value i).toInt * e| < 2 ^ 63 := by
    have h1 := h i
    unfold val at h1
    have h2 : |((x.value i).toInt : ℚ) * e| ≤ (2 ^ 30 - 1) * M.scale := by
      rw [abs_mul]
      refine le_trans (mul_le_mul_of_nonneg_left e2 (abs_nonneg _)) ?_
      rw [abs_mul, abs_div, abs_of_pos hQ, div_mul_eq_mul_div, div_le_div_iff_of_pos_right hQ] at h1
      rw [← mul_assoc]
      exact mul_le_mul_of_nonneg_right h1 hQ.le
    have h3 : |(x.value i).toInt * e| ≤ (2 ^ 30 - 1) * (M.scale : Int) := by exact_mod_cast h2
    have h4 : (M.scale : Int) ≤ 2 ^ 33 := by exact_mod_cast hM.small
    omega
  have hp : (x.value i * M.session.config.encoder.encode (pubVal c)).toInt = (x.value i).toInt * e := by
    apply toInt_eq_of _ hb
    rw [e1, BitVec.ofInt_mul, BitVec.ofInt_toInt]
  have hk := (hv i).1
  rw [hp] at hk
  have k1 := quotient_error M.scale hM.pos _ _ hk _ rfl
  have k2 : |(((x.value i).toInt * e : Int) : ℚ) / M.scale / M.scale - M.val x i * c| ≤ |M.val x i| * (1 / M.scale) := by
    have : (((x.value i).toInt * e : Int) : ℚ) / M.scale / M.scale - M.val x i * c
        = -(M.val x i * ((c * M.scale - e) / M.scale)) := by
      unfold val
      push_cast
      field_simp
      ring
    rw [this, abs_neg, abs_mul, abs_div, abs_of_pos hQ]
    refine mul_le_mul_of_nonneg_left ?_ (abs_nonneg _)
    rw [div_le_div_iff_of_pos_right hQ]
    exact e3.le
  have := abs_sub_le (M.val z i) ((((x.value i).toInt * e : Int) : ℚ) / M.scale / M.scale) (M.val x i * c)
  have k1' : |M.val z i - (((x.value i).toInt * e : Int) : ℚ) / M.scale / M.scale| ≤ 2 * (M.scale - 1) / M.scale / M.scale := k1
  linarith

/-- The operators of a two-party session with Beaver triples and function secret sharing are sound: numbers up to
`(2^30 - 1)` quanta, products off by less than two quanta (exact if
the scale is one). -/
def sound (M : Machine Key) (hM : M.Fair) : Sound M.ops M.sure where
  Ok := M.Ok
  val := M.val
  B := (2 ^ 30 - 1) / M.scale
  δ := 2 * (M.scale - 1) / M.scale / M.scale
  δd := 2 / M.scale
  δc := 1 / M.scale
  padding := -25 / M.scale
  add x y hx hy h := M.lin_sound hM .add x y hx hy h
  sub x y hx hy h := M.lin_sound hM .sub x y hx hy h
  mul x y hx hy h := by
    apply M.mulPrivate_ok hM x y hx hy
    intro z hz hv
    refine ⟨hz, fun i => ?_⟩
    have hQ : (0 : ℚ) < M.scale := by exact_mod_cast hM.pos
    have h' := h i
    have e : M.val x i * M.val y i = (((x.value i).toInt * (y.value i).toInt : Int) : ℚ) / M.scale / M.scale := by
      unfold val
      push_cast
      field_simp
    have hb : |(x.value i).toInt * (y.value i).toInt| < 2 ^ 63 := by
      rw [e, abs_div, abs_of_pos hQ, div_le_div_iff_of_pos_right hQ, abs_div, abs_of_pos hQ, div_le_iff₀ hQ] at h'
      have h1 : |(x.value i).toInt * (y.value i).toInt| ≤ (2 ^ 30 - 1) * (M.scale : Int) := by exact_mod_cast h'
      have h2 : (M.scale : Int) ≤ 2 ^ 33 := by exact_mod_cast hM.small
      omega
    have := hv i
    rw [toInt_mul_of rfl hb] at this
    exact quotient_error M.scale hM.pos _ _ this _ e
  addP x c hx h := M.linP_sound hM .add x c hx h
  subP x c hx h := M.linP_sound hM .sub x c hx h
  rsubP c x hx h := by
    have h' : ∀ i, |M.val x i - c| ≤ (2 ^ 30 - 1) / M.scale := by
      intro i
      rw [abs_sub_comm]
      exact h i
    apply M.sure.bind _ _ _ _ (M.linP_sound hM .sub x c hx h')
    rintro z ⟨hz, hv⟩
    have key := M.mulT_sound hM z (fun _ => -1) hz (by
      intro i
      rw [hv i]
      simpa [LinOp.den] using h i)
    rw [show (fun _ => Val.int (-1)) = fun i : Fin _ => pubVal (((fun _ => -1 : Fin _ → Int) i : Int) : ℚ) from
      funext fun i => (pubVal_int (-1)).symm]
    apply M.sure.mono _ _ _ key
    rintro z' ⟨hz', hv'⟩
    refine ⟨hz', fun i => ?_⟩
    have := hv' i
    rw [hv i] at this
    have e : (c : ℚ) - M.val x i = (M.val x i - c) * ((-1 : Int) : ℚ) := by
      push_cast
      ring
    rw [e]
    exact this
  mulP x c hx h := M.mulT_sound hM x (fun _ => c) hx h
  divP x d hx h1 h2 := by
    have hQ : (0 : ℚ) < M.scale := by exact_mod_cast hM.pos
    have hd : (0 : ℚ) < d := by exact_mod_cast h1
    have hS1 : (1 : ℚ) ≤ M.scale := by exact_mod_cast hM.pos
    have hlt : d < 2 ^ 63 := by
      have h3 : (d : ℚ) ≤ 2 ^ 30 - 1 := h2.trans (div_le_self (by norm_num) hS1)
      have : (d : ℚ) < 2 ^ 63 := by linarith
      exact_mod_cast this
    refine M.divide_ok hM x hx d h1 hlt _ fun z hz hv => ⟨hz, fun i => ?_⟩
    have h4 : |((z.value i).toInt : ℚ) * d - (x.value i).toInt| ≤ 2 * (d - 1) := by exact_mod_cast (hv i).1
    have e : M.val z i - M.val x i / d = (((z.value i).toInt : ℚ) * d - (x.value i).toInt) / d / M.scale := by
      unfold val
      field_simp
    rw [e, abs_div, abs_of_pos hQ, div_le_div_iff_of_pos_right hQ, abs_div, abs_of_pos hd, div_le_iff₀ hd]
    linarith
  addF x c hx h := M.linF_sound hM .add x c hx h
  subF x c hx h := M.linF_sound hM .sub x c hx h
  rsubF c x hx h := by
    have hQ : (0 : ℚ) < M.scale := by exact_mod_cast hM.pos
    have h' : ∀ i, |M.val x i - c| + 1 / M.scale ≤ (2 ^ 30 - 1) / M.scale := by
      intro i
      rw [abs_sub_comm]
      exact h i
    apply M.sure.bind _ _ _ _ (M.linF_sound hM .sub x c hx h')
    rintro z ⟨hz, hv⟩
    have key := M.mulT_sound hM z (fun _ => -1) hz (by
      intro i
      have h1 := hv i
      have h2 := h' i
      change |M.val z i - (M.val x i - c)| ≤ _ at h1
      have h3 := abs_add_le (M.val z i - (M.val x i - c)) (M.val x i - c)
      rw [sub_add_cancel] at h3
      push_cast
      rw [mul_neg_one, abs_neg]
      linarith)
    rw [show (fun _ => Val.int (-1)) = fun i : Fin _ => pubVal (((fun _ => -1 : Fin _ → Int) i : Int) : ℚ) from
      funext fun i => (pubVal_int (-1)).symm]
    apply M.sure.mono _ _ _ key
    rintro z' ⟨hz', hv'⟩
    refine ⟨hz', fun i => ?_⟩
    have h1 := hv' i
    have h2 := hv i
    change |M.val z i - (M.val x i - c)| ≤ _ at h2
    push_cast at h1
    rw [mul_neg_one] at h1
    rw [abs_le] at *
    constructor <;> linarith [h1.1, h1.2, h2.1, h2.2]
  mulF x c hx h := M.mulF_sound hM x c hx h
  gt x y hx hy bx by_ := by
    have bx' : ∀ i, |(x.value i).toInt| ≤ 2 ^ 30 - 1 := fun i => (M.val_le hM _).mp (bx i)
    have by' : ∀ i, |(y.value i).toInt| ≤ 2 ^ 30 - 1 := fun i => (M.val_le hM _).mp (by_ i)
    apply M.sure.bind _ _ (fun z => M.Ok z ∧ ∀ i, (z.value i).toInt = (y.value i).toInt + 1)
    · exact M.addQuantum_ok hM y hy by' _ fun z hz h => ⟨hz, h⟩
    · rintro z ⟨hz, hv⟩
      apply M.le_ok hM z x hz hx
      · intro i
        have := bx' i; have := by' i
        rw [abs_le] at *
        rw [hv]
        omega
      · intro i
        have := bx' i; have := by' i
        rw [abs_le] at *
        rw [hv]
        omega
      · intro r hr hb
        refine ⟨hr, fun i => M.val_bit hM _ _ _ ?_ (hb i)⟩
        rw [hv, gt_iff_lt, val, val, M.val_lt hM]
        omega
  gtP x c hx bx bc := by
    have bx' : ∀ i, |(x.value i).toInt| ≤ 2 ^ 30 - 1 := fun i => (M.val_le hM _).mp (bx i)
    apply M.sure.bind _ _ (fun z => M.Ok z ∧ ∀ i, (z.value i).toInt = c * M.scale ∧ |(z.value i).toInt| ≤ 2 ^ 30 - 1) _
      (M.convert_sound hM c bc _ fun z hz h => ⟨hz, h⟩)
    rintro y ⟨hy, hyv⟩
    apply M.sure.bind _ _ (fun z => M.Ok z ∧ ∀ i, (z.value i).toInt = (y.value i).toInt + 1)
    · exact M.addQuantum_ok hM y hy (fun i => (hyv i).2) _ fun z hz h => ⟨hz, h⟩
    · rintro z ⟨hz, hv⟩
      apply M.le_ok hM z x hz hx
      · intro i
        have := bx' i; have := (hyv i).2
        rw [abs_le] at *
        rw [hv]
        omega
      · intro i
        have := bx' i; have := (hyv i).2
        rw [abs_le] at *
        rw [hv]
        omega
      · intro r hr hb
        refine ⟨hr, fun i => M.val_bit hM _ _ _ ?_ (hb i)⟩
        rw [hv, gt_iff_lt, val, M.cast_quanta hM c, M.val_lt hM, ← (hyv i).1]
        omega
  ltP x c hx bx bc := by
    have bx' : ∀ i, |(x.value i).toInt| ≤ 2 ^ 30 - 1 := fun i => (M.val_le hM _).mp (bx i)
    apply M.sure.bind _ _ (fun z => M.Ok z ∧ ∀ i, (z.value i).toInt = c * M.scale ∧ |(z.value i).toInt| ≤ 2 ^ 30 - 1) _
      (M.convert_sound hM c bc _ fun z hz h => ⟨hz, h⟩)
    rintro y ⟨hy, hyv⟩
    apply M.sure.bind _ _ (fun z => M.Ok z ∧ ∀ i, (z.value i).toInt = (x.value i).toInt + 1)
    · exact M.addQuantum_ok hM x hx bx' _ fun z hz h => ⟨hz, h⟩
    · rintro z ⟨hz, hv⟩
      apply M.le_ok hM z y hz hy
      · intro i
        have := bx' i; have := (hyv i).2
        rw [abs_le] at *
        rw [hv]
        omega
      · intro i
        have := bx' i; have := (hyv i).2
        rw [abs_le] at *
        rw [hv]
        omega
      · intro r hr hb
        refine ⟨hr, fun i => M.val_bit hM _ _ _ ?_ (hb i)⟩
        rw [hv, val, M.cast_quanta hM c, M.val_lt hM, ← (hyv i).1]
        omega
  geP x c hx bx bc := by
    have bx' : ∀ i, |(x.value i).toInt| ≤ 2 ^ 30 - 1 := fun i => (M.val_le hM _).mp (bx i)
    apply M.sure.bind _ _ (fun z => M.Ok z ∧ ∀ i, (z.value i).toInt = c * M.scale ∧ |(z.value i).toInt| ≤ 2 ^ 30 - 1) _
      (M.convert_sound hM c bc _ fun z hz h => ⟨hz, h⟩)
    rintro y ⟨hy, hyv⟩
    apply M.le_ok hM y x hy hx
    · intro i
      have := bx' i; have := (hyv i).2
      rw [abs_le] at *
      omega
    · intro i
      have := bx' i; have := (hyv i).2
      rw [abs_le] at *
      omega
    · intro r hr hb
      refine ⟨hr, fun i => M.val_bit hM _ _ _ ?_ (hb i)⟩
      rw [ge_iff_le, val, M.cast_quanta hM c, ← not_lt (a := (_ : ℚ)), M.val_lt hM, ← (hyv i).1]
      omega
  mulT x t hx h := M.mulT_sound hM x t hx h
  view σ x hx := by
    apply M.sure_lift
    obtain ⟨z, h1, h2, h3⟩ := M.hook_ok
      { toFun := fun (w : Fin _ → I64) j => w (σ j), map_zero' := rfl, map_add' := fun _ _ => rfl } x hx
    exact ⟨z, h1, h2, fun j => by unfold val; rw [h3]; rfl⟩
  pad σ x hx := by
    apply M.sure_lift
    obtain ⟨z, h1, h2, h3⟩ := M.pad_ok hM σ x hx
    refine ⟨z, h1, h2, fun j => ?_⟩
    unfold val
    rw [h3]
    beta_reduce
    cases σ j with
    | none =>
      simp only [Option.elim_none]
      rw [show (BitVec.ofInt 64 (-25)).toInt = -25 by decide]
      push_cast
      rfl
    | some i => rfl
  sums f x hx h := by
    apply M.sure_lift
    obtain ⟨z, h1, h2, h3⟩ := M.hook_ok
      { toFun := fun (w : Fin _ → I64) j => ((f j).map w).sum, map_zero' := by funext j; exact List.sum_map_zero,
        map_add' := fun a b => by funext j; exact List.sum_map_add } x hx
    refine ⟨z, h1, h2, fun j => ?_⟩
    have hv : z.value j = ((f j).map x.value).sum := by rw [h3]; rfl
    have hb := h j
    have e1 : ∀ l : List (Fin _), (l.map fun i => |M.val x i|).sum = (((l.map fun i => |(x.value i).toInt|).sum : Int) : ℚ) / M.scale := by
      intro l
      have hQ : (0 : ℚ) < M.scale := by exact_mod_cast hM.pos
      induction l with
      | nil => simp
      | cons i l ih =>
        simp only [List.map_cons, List.sum_cons, ih]
        unfold val
        rw [abs_div, abs_of_pos hQ]
        push_cast
        ring
    have e2 : ∀ l : List (Fin _), (l.map (M.val x)).sum = (((l.map fun i => (x.value i).toInt).sum : Int) : ℚ) / M.scale := by
      intro l
      induction l with
      | nil => simp
      | cons i l ih =>
        simp only [List.map_cons, List.sum_cons, ih]
        unfold val
        push_cast
        ring
    have e3 : ∀ l : List (Fin _), (l.map x.value).sum = BitVec.ofInt 64 ((l.map fun i => (x.value i).toInt).sum) := by
      intro l
      induction l with
      | nil => simp
      | cons i l ih =>
        simp only [List.map_cons, List.sum_cons, ih, BitVec.ofInt_add, BitVec.ofInt_toInt]
    have e4 : ∀ l : List (Fin _), |(l.map fun i => (x.value i).toInt).sum| ≤ (l.map fun i => |(x.value i).toInt|).sum := by
      intro l
      induction l with
      | nil => simp
      | cons i l ih =>
        simp only [List.map_cons, List.sum_cons]
        exact (abs_add_le _ _).trans (by omega)
    rw [e1] at hb
    have hb' : |(f j |>.map fun i => |(x.value i).toInt|).sum| ≤ 2 ^ 30 - 1 := by
      rw [← M.val_le hM, abs_of_nonneg]
      · exact hb
      · apply div_nonneg
        · have := (abs_nonneg _).trans (e4 (f j))
          exact_mod_cast this
        · exact_mod_cast Nat.zero_le _
    have hb2 := (e4 (f j)).trans ((le_abs_self _).trans hb')
    rw [e2]
    unfold val
    rw [toInt_eq_of (hv.trans (e3 _)) (lt_of_le_of_lt hb2 (by norm_num))]
  reconstruct x hx := by
    apply M.sure.bind _ _ (fun v => v = x.value)
    · exact M.sure_lift _ _ ⟨_, hx.value, rfl⟩
    · rintro v rfl
      exact M.sure.pure _ _ rfl

end Machine

end SyMPC
