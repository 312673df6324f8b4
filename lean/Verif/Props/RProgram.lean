import Verif.Lemmas.RProgram
import Verif.Props.Falcon
import Verif.Props.Program
import Verif.Props.Session

/-!
# C75, C76: whole computations on replicated shares

Every straight-line program of secrets, sums, public operands, products and forwarded methods, with three parties, semi-honest and
malicious security.
-/

namespace SyMPC.RProgram

open Program (Cmd ValidProg Additive SameBut Arith eval evalInt ofInts eval_ofInts)

variable {P T : Type} [CommRing T] [DecidableEq T] [PubEnc P T] {K : RingKit T} {S : RingSem K.ops T}

/-- C75: Every program of secrets, sums, public operands, products and additive methods on replicated shares runs without an
exception, with semi-honest and with malicious security and whatever is drawn, and when the scale is 1, every one of its tensors
reconstructs to the value that the same program has on the encoded numbers. -/
theorem C75_programs (hK : Std K S) {env : Env} {s : Session} (hs : s.Three env) (hr : s.ringSize = K.size) (prog : List (Cmd P T))
    (hv : ValidProg 0 prog) (tape : List (Draw T)) (hf : Fits prog tape) :
    ∃ R, run K env s prog tape State.empty = .ok R ∧ R.tensors.length = prog.length ∧
      ((∀ t, K.shift s.config t = t) → (∀ c ∈ prog, Additive c) →
        R.tensors.mapM (RMPC.reconstruct K.ops) = .ok (eval s.config (· * ·) [] prog)) := by
  obtain ⟨u0, u1, u2, p0, p1, p2, c0, c1, c2, hu, -⟩ := three_unpack hs
  have h1 := run_eq hK hs hr prog tape [] [] hv
  obtain ⟨Y, M, h2, h3⟩ := go_some K s.protocol.security s.config prog tape hf [] []
  rw [h2] at h1
  refine ⟨_, h1, by simp [h3], fun hc ha => ?_⟩
  have h4 := go_val K s.protocol.security s.config hc prog ha tape [] Y [] M h2
  rw [show eval s.config (fun x y => x * y) [] prog = Y.map val from h4.symm]
  dsimp only
  rw [mapM_ok (g := fun x : RMPC T => ((x.shares.map fun r => r.shares.getD 0 0).sum)) _ _ ?_]
  · rw [List.map_map]
    congr 1
    refine List.map_congr_left fun x _ => ?_
    simp [rep, val, add_assoc]
  · intro x hx
    obtain ⟨y, -, rfl⟩ := List.mem_map.mp hx
    obtain ⟨e, k1, -, k2⟩ := is_reconstruct hs (rep_is hK K.size hu s.config y)
    rw [k1, ← hK.den e, k2]
    simp [rep, val, add_assoc]

/-- C76 (partial): what one party draws and receives in a run says nothing about the secrets, with semi-honest and with malicious
security and with any scale: of two programs that differ in their secrets only, the tapes of the one correspond one to one to those of
the other so that the party sees the same and holds the same of every tensor; and where a result is the same, the shares of all
parties are, so that opening it shows nothing else.  Missing: the code draws the tensors from half of the ring, see
`C04_half_range_leaks`. -/
theorem C76_views_partial (hK : Std K S) {env : Env} {s : Session} (hs : s.Three env) (hr : s.ringSize = K.size) (h : Fin 3)
    (prog prog' : List (Cmd P T)) (hp : List.Forall₂ SameBut prog prog') (hv : ValidProg 0 prog) :
    ∃ E : List (Draw T) ≃ List (Draw T), (∀ t, (E t).map Draw.kind = t.map Draw.kind) ∧
      ∀ t, Fits prog t → ∃ R R', run K env s prog t State.empty = .ok R ∧ run K env s prog' (E t) State.empty = .ok R' ∧
        seen h R.log = seen h R'.log ∧ R.tensors.length = R'.tensors.length ∧
        ∀ (k : Nat) (x x' : RMPC T), R.tensors[k]? = some x → R'.tensors[k]? = some x' →
          (x.shares[(h : Nat)]?).map (·.shares) = (x'.shares[(h : Nat)]?).map (·.shares) ∧
          (x.reconstruct K.ops = x'.reconstruct K.ops → x = x') := by
  obtain ⟨u0, u1, u2, p0, p1, p2, c0, c1, c2, hu, -⟩ := three_unpack hs
  obtain ⟨E, hE, hg⟩ := go_agree K s.config h s.protocol.security prog prog' hp [] [] [] [] rfl (fun _ => ⟨rfl, rfl⟩) rfl
  refine ⟨E, hE, fun t ht => ?_⟩
  obtain ⟨Y, M, h1, -⟩ := go_some K s.protocol.security s.config prog t ht [] []
  obtain ⟨Y', M', h2, h3, h4, h5⟩ := hg t Y M h1
  have r1 := run_eq hK hs hr prog t [] [] hv
  have r2 := run_eq hK hs hr prog' (E t) [] [] (Program.sameBut_valid prog prog' hp 0 hv)
  rw [h1] at r1
  rw [h2] at r2
  refine ⟨_, _, r1, r2, h5, by simp [h3], ?_⟩
  intro k x x' hx hx'
  simp only [List.getElem?_map, Option.map_eq_some_iff] at hx hx'
  obtain ⟨y, hy, rfl⟩ := hx
  obtain ⟨y', hy', rfl⟩ := hx'
  have h6 := h4 k
  simp only [List.getD_eq_getElem?_getD, hy, hy', Option.getD_some] at h6
  obtain ⟨e0, e1⟩ := h6
  refine ⟨?_, fun hrec => ?_⟩
  · fin_cases h <;>
      simp only [Fin.isValue, Fin.zero_eta, Fin.mk_one, Fin.reduceFinMk, zero_add, Fin.reduceAdd] at e0 e1 <;>
      simp [rep, e0, e1]
  · obtain ⟨e, k1, -, k2⟩ := is_reconstruct hs (rep_is hK K.size hu s.config y)
    obtain ⟨e', k1', -, k2'⟩ := is_reconstruct hs (rep_is hK K.size hu s.config y')
    rw [k1, k1'] at hrec
    cases hrec
    have hval : val y = val y' := k2.symm.trans k2'
    congr 1
    funext i
    unfold val at hval
    fin_cases h <;>
      simp only [Fin.isValue, Fin.zero_eta, Fin.mk_one, Fin.reduceFinMk, zero_add, Fin.reduceAdd] at e0 e1 <;>
      simp only [e0, e1, add_left_inj, add_right_inj] at hval <;>
      fin_cases i <;> simp [e0, e1, hval]

omit [DecidableEq T] in
/-- the last product of a program, without sessions -/
theorem go_last (c : Config) (sec : Security) (i j : Nat) (prog : List (Cmd P T)) (tape : List (Draw T)) (X Y : List (Fin 3 → T)) (L M : List (Event T))
    (hi : i < X.length + prog.length) (hj : j < X.length + prog.length) (h : go K sec c (prog ++ [.mul i j]) tape X L = some (Y, M)) :
    ∃ e, M.getLast? = some e ∧ e.coordinator.sum = val (Y.getD i 0) * val (Y.getD j 0) := by
  induction prog generalizing tape X L with
  | nil =>
    rcases tape with _ | ⟨d, tape⟩
    · cases h
    cases d <;> try cases h
    rename_i f r a b g
    rcases tape with _ | ⟨d, tape⟩
    · cases h
      have get : ∀ k < X.length, ∀ x : Fin 3 → T, (X ++ [x]).getD k 0 = X.getD k 0 := by
        intro k hk x
        simp [List.getD_eq_getElem?_getD, List.getElem?_append_left hk]
      refine ⟨_, List.getLast?_concat .., ?_⟩
      rw [get i hi, get j hj, ← masked_val _ _ f]
      simp [val, add_assoc]
    · cases h
  | cons cmd cs ih =>
    have key : ∀ d tape, (step K sec c X cmd d).bind (fun (x, e) => go K sec c (cs ++ [.mul i j]) tape (X ++ [x]) (L ++ e.toList)) = some (Y, M) →
        ∃ e, M.getLast? = some e ∧ e.coordinator.sum = val (Y.getD i 0) * val (Y.getD j 0) := by
      intro d tape h
      obtain ⟨⟨x, e⟩, -, h2⟩ := Option.bind_eq_some_iff.mp h
      simp only [List.length_cons] at hi hj
      exact ih tape _ _ (by simp; omega) (by simp; omega) h2
    rw [List.cons_append] at h
    cases hk : kindOf cmd with
    | none =>
      simp only [go, hk] at h
      exact key none tape h
    | some k =>
      rcases tape with _ | ⟨d, tape⟩ <;> simp only [go, hk] at h
      · cases h
      · exact key (some d) tape h

/-- C76 (the code violates the claim for the coordinator of the session): whatever the program, for each product the coordinator
collects tensors whose sum is the product of the two secret values, before any result is opened. -/
theorem C76_coordinator_sees_products (hK : Std K S) {env : Env} {s : Session} (hs : s.Three env) (hr : s.ringSize = K.size) (prog : List (Cmd P T))
    (i j : Nat) (hv : ValidProg 0 (prog ++ [.mul i j])) (hi : i < prog.length) (hj : j < prog.length) (tape : List (Draw T))
    (hf : Fits (prog ++ [.mul i j]) tape) :
    ∃ R x y v w e, run K env s (prog ++ [.mul i j]) tape State.empty = .ok R ∧ R.tensors[i]? = some x ∧ R.tensors[j]? = some y ∧
      x.reconstruct K.ops = .ok v ∧ y.reconstruct K.ops = .ok w ∧ R.log.getLast? = some e ∧ e.coordinator.sum = v * w := by
  obtain ⟨u0, u1, u2, p0, p1, p2, c0, c1, c2, hu, -⟩ := three_unpack hs
  obtain ⟨Y, M, h1, h2⟩ := go_some K s.protocol.security s.config _ tape hf [] []
  have r1 := run_eq hK hs hr _ tape [] [] hv
  rw [h1] at r1
  obtain ⟨e, h3, h4⟩ := go_last s.config s.protocol.security i j prog tape [] Y [] M (by simpa using hi) (by simpa using hj) h1
  simp at h2
  have get : ∀ k < prog.length, ∃ x, (Y.map (rep s K.size s.config))[k]? = some x ∧ x.reconstruct K.ops = .ok (val (Y.getD k 0)) := by
    intro k hk
    have hk' : k < Y.length := by omega
    refine ⟨rep s K.size s.config Y[k], by simp [hk'], ?_⟩
    obtain ⟨e, k1, -, k2⟩ := is_reconstruct hs (rep_is hK K.size hu s.config Y[k])
    rw [k1, ← hK.den e, k2]
    simp [hk']
  obtain ⟨x, g1, g2⟩ := get i hi
  obtain ⟨y, g3, g4⟩ := get j hj
  exact ⟨_, x, y, _, _, e, r1, g1, g3, g2, g4, h3, h4⟩

/-! ## Integers -/

/-- the rings of torch are such rings -/
theorem powStd : Std (powKit 64) (powSem 64) where
  kit := powKitSem 64 (by simp)
  valid _ := trivial
  den _ := rfl
  size := by decide
  nonEmpty := powKit_nonEmpty 64

/-- tensors of them as well -/
theorem tensorStd (ι : Type) [Fintype ι] [Nonempty ι] : Std ((powKit 64).tensor ι) ((powSem 64).tensor ι) where
  kit := (powKitSem 64 (by simp)).tensor ι
  valid _ _ := trivial
  den _ := rfl
  size := by show ¬ (2 ^ 64 = 2 ∨ 2 ^ 64 = 67); decide
  nonEmpty := (powKit_nonEmpty 64).tensor ι

theorem shift_zero (c : Config) (hc : c.encoderPrecision = 0) (t : I64) : shiftPow 64 c t = t := by
  unfold shiftPow
  rw [hc, pow_zero]
  split
  · simp
  · exact Program.floordiv_one t

/-- C75: with precision 0 programs of arithmetic on replicated shares compute with integers: with semi-honest and with malicious
security and whatever is drawn, a tensor whose true integer values are in the range of int64 decodes to exactly these, even if earlier
results were out of range. -/
theorem C75_integer_programs {ι : Type} [Fintype ι] [Nonempty ι] {env : Env} {s : Session} (hs : s.Three env)
    (hr : s.ringSize = 2 ^ 64) (hc : s.config.encoderPrecision = 0) (prog : List (Cmd (ι → FixedPointEncoder.Val) (ι → I64)))
    (hv : ValidProg 0 prog) (ha : ∀ c ∈ prog, Arith c) (tape : List (Draw (ι → I64))) (hf : Fits prog tape) :
    ∃ R, run ((powKit 64).tensor ι) env s prog tape State.empty = .ok R ∧ R.tensors.length = prog.length ∧
      ∀ (k : Nat) (v : ι → ℤ), (evalInt [] prog)[k]? = some v → (∀ i, -2 ^ 63 ≤ v i ∧ v i < 2 ^ 63) →
        ∃ x w, R.tensors[k]? = some x ∧ x.reconstruct ((powKit 64).tensor ι).ops = .ok w ∧
          ∀ i, s.config.encoder.decode (.long (w i)) = .ok (v i : ℚ) := by
  have hprec : s.config.encoder.precision = 0 := hc
  obtain ⟨R, h1, h2, h3⟩ := C75_programs (tensorStd ι) hs hr prog hv tape hf
  have h3 := h3 (fun t => funext fun k => shift_zero s.config hc (t k)) (by
    intro c hcm
    have := ha c hcm
    cases c <;> trivial)
  rw [show eval s.config (fun x y => x * y) [] prog = (evalInt [] prog).map ofInts from eval_ofInts s.config hc prog ha []] at h3
  refine ⟨R, h1, h2, ?_⟩
  intro k v hk hb
  rw [mapM_ok_iff, List.forall₂_iff_get] at h3
  obtain ⟨hl, hall⟩ := h3
  have hk' : k < (evalInt [] prog).length := (List.getElem?_eq_some_iff.mp hk).1
  have hk'' : k < R.tensors.length := by rw [hl, List.length_map]; exact hk'
  have hx : R.tensors[k]? = some R.tensors[k] := by simp [hk'']
  have hx' := hall k hk'' (by rw [← hl]; exact hk'')
  have hv' : (evalInt [] prog)[k] = v := by simpa [hk'] using hk
  simp only [List.get_eq_getElem, List.getElem_map, hv'] at hx'
  generalize R.tensors[k] = x at hx hx'
  refine ⟨x, _, hx, hx', fun i => ?_⟩
  simp only [FixedPointEncoder.decode, hprec, if_true, ofInts]
  rw [toInt_ofInt64 (hb i).1 (hb i).2]

/-! ## Concrete cases -/

/-- `exRSession` with precision 0 -/
def exRSession0 (sec : Security) : Session :=
  { exRSession with
    config := { encoderPrecision := 0 }, protocol := { exRSession.protocol with security := sec }
    sessionPtrs := exRSession.sessionPtrs.map fun p => { p with config := { encoderPrecision := 0 } } }

def exREnv0 (sec : Security) : Env := Env.register (fun _ => none) (exRSession0 sec).sessionPtrs

theorem exRThree0 (sec : Security) : (exRSession0 sec).Three (exREnv0 sec) where
  ptrs := by simp [exRSession0, exRSession]
  two := by simp [exRSession0, exRSession]
  parties := by rfl
  ranks := by rfl
  ring := ⟨.int64, rfl⟩
  known := by
    have : ∀ u ∈ (exRSession0 sec).rankToUuid, (∃ p ∈ (exRSession0 sec).sessionPtrs, exREnv0 sec u = some p) := by
      intro u hu
      simp [exRSession0, exRSession] at hu
      rcases hu with rfl | rfl | rfl
      · exact ⟨_, List.mem_of_getElem? (i := 0) rfl, rfl⟩
      · exact ⟨_, List.mem_of_getElem? (i := 1) rfl, rfl⟩
      · exact ⟨_, List.mem_of_getElem? (i := 2) rfl, rfl⟩
    intro u hu
    obtain ⟨p, hp, h⟩ := this u hu
    refine ⟨p, h, ?_⟩
    simp [exRSession0, exRSession] at hp
    obtain ⟨a, ha, rfl⟩ := hp
    exact ⟨rfl, rfl⟩
  ranked := by
    intro r u h
    have hr : r < 3 := by
      have := (List.getElem?_eq_some_iff.mp h).1
      simpa [exRSession0, exRSession] using this
    have hcase : r = 0 ∨ r = 1 ∨ r = 2 := by omega
    rcases hcase with rfl | rfl | rfl <;> (simp [exRSession0, exRSession] at h; subst h; exact ⟨_, rfl, rfl, rfl⟩)
  distinct := by simp [exRSession0, exRSession]
  pointers := by rfl
  three := rfl

open Program (exProg)

/-- the draws for three secrets, a product and a product with a public number -/
def exRTape : List (Draw I64) :=
  [.sharing 7 0x8000000000000001#64, .sharing 3 4, .sharing (-9) 5, .product ![1, 2, 3] 9 ![4, 5, 6] ![7, 8, -9] ![10, 11, 12], .trunc 17]

example : ValidProg 0 (exProg 1 2 3) ∧ Fits (exProg 1 2 3) exRTape ∧ (∀ c ∈ exProg 1 2 3, Additive c) ∧
    (∀ t, (powKit 64).shift (exRSession0 .malicious).config t = t) ∧ (exRSession0 .malicious).ringSize = (powKit 64).size := by
  refine ⟨by simp [exProg, ValidProg, Program.Valid], rfl, ?_, fun t => shift_zero (exRSession0 .malicious).config rfl t, rfl⟩
  simp [exProg, Program.Additive]

/-- the values: `(20 - 50) * 4 + 5 * 20 = -20`, and 1 more, with both kinds of security -/
example : ∀ sec, (match run (powKit 64) (exREnv0 sec) (exRSession0 sec) (exProg 20 50 4) exRTape State.empty with
    | .ok R => R.tensors.map (RMPC.reconstruct (powOps 64))
    | .error _ => []) = [.ok 20, .ok 50, .ok 4, .ok (-30), .ok (-120), .ok 100, .ok (-20), .ok (-19)] := by
  intro sec
  cases sec <;> decide +kernel

/-- two secrets and a product: what the first party sees, and the same with other secrets, 100 and 0, and other draws -/
example :
    (match run (powKit 64) (exREnv0 .malicious) (exRSession0 .malicious)
        ([.secret (.int 6), .secret (.int 7), .mul 0 1] : List (Cmd FixedPointEncoder.Val I64))
        [.sharing 7 1, .sharing 3 4, .product ![1, 2, 3] 9 ![4, 5, 6] ![7, 8, -9] ![10, 11, 12]] State.empty with
      | .ok R => seen 0 R.log
      | .error _ => []) =
    [some [7, -6], some [3, 1], some [1, 2, 10, 11, 4, 5, 7, 8, 94, 42, -9, 1, 9, -20, 9, 24]] ∧
    (match run (powKit 64) (exREnv0 .malicious) (exRSession0 .malicious)
        ([.secret (.int 100), .secret (.int 0), .mul 0 1] : List (Cmd FixedPointEncoder.Val I64))
        [.sharing 7 1, .sharing 3 4, .product ![1, 2, 139] (-33) ![4, 5, 100] ![7, 8, -16] ![10, 11, 729]] State.empty with
      | .ok R => seen 0 R.log
      | .error _ => []) =
    [some [7, -6], some [3, 1], some [1, 2, 10, 11, 4, 5, 7, 8, 94, 42, -9, 1, 9, -20, 9, 24]] := by
  decide +kernel

/-- C45, replicated shares: before `setup_mpc` no secret tensor can be made, from a secret, from additive or from replicated shares; and no
tensor is made of an empty list of shares. -/
theorem C45_before_setup_replicated {P T : Type} [CommRing T] [DecidableEq T] [PubEnc P T] (registered : List String)
    (parties : Option (List Nat)) (ring : Nat) (config : Option Config) (protocol : Option Protocol) (s : Session)
    (hs : Session.new registered parties ring config protocol = .ok s) (env : Env) (v : P) (d0 d1 : T) (S : State T)
    (shares : List (RST T)) (adds : List T) :
    share env s v d0 d1 S = .error .valueError ∧ RMPC.ofShares s shares = .error .valueError ∧
    RMPC.ofAdditive s adds = .error .valueError ∧
    (∀ t : Session, t.sessionPtrs ≠ [] → RMPC.ofShares t ([] : List (RST T)) = .error .indexError ∧
      RMPC.ofAdditive t ([] : List T) = .error .indexError) := by
  obtain ⟨p, t, _, rfl⟩ := sessionNew_inv hs
  refine ⟨?_, ?_, ?_, fun t ht => ?_⟩
  · simp [share, throw_eq_error, error_bind]
  · simp [RMPC.ofShares]
  · simp [RMPC.ofAdditive, throw_eq_error, error_bind]
  · simp [RMPC.ofShares, RMPC.ofAdditive, ht, throw_eq_error, error_bind, pure_eq_ok]

example : ∃ s, Session.new ["FSS", "Falcon"] (some [1, 2, 3]) (2 ^ 64) none (some ⟨"Falcon", .replicated, .malicious⟩) = .ok s ∧
    exRSession.sessionPtrs ≠ [] := ⟨_, rfl, by decide⟩

end SyMPC.RProgram
