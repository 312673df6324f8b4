import Verif.Spec.Program
import Verif.Props.Spdz
import Verif.Props.ShareOps

/-!
# Lemmas for whole computations
-/

namespace SyMPC.Program

variable {P T : Type}

/-- the share of party `r` in a triple, given by what was drawn -/
def tripleOf [AddCommGroup T] (op : T → T → T) (n serial : Nat) (rnd : TripleRand T T T) (r : Nat) : Triple T T T :=
  ⟨serial, ⟨shareTensorOf rnd.a n rnd.da r, none, { encoderPrecision := 0 }, 2 ^ 64⟩,
    ⟨shareTensorOf rnd.b n rnd.db r, none, { encoderPrecision := 0 }, 2 ^ 64⟩,
    ⟨shareTensorOf (op rnd.a rnd.b) n rnd.dc r, none, { encoderPrecision := 0 }, 2 ^ 64⟩⟩

theorem getTriples_eq [AddCommGroup T] (env : Env) (op : T → T → T) (n serial : Nat) (rnd : TripleRand T T T) :
    getTriples env op (n + 2) serial rnd = .ok ((List.range (n + 2)).map fun r => [tripleOf op n serial rnd r]) := by
  unfold getTriples
  dsimp only
  rw [generateShares_eq env ⟨rnd.a, none, _, _⟩ rfl, ok_bind, generateShares_eq env ⟨rnd.b, none, _, _⟩ rfl, ok_bind,
    generateShares_eq env ⟨op rnd.a rnd.b, none, _, _⟩ rfl, ok_bind, pure_eq_ok]
  simp only [sharesOf, ite_self]
  rw [List.zip_map', List.zip_map', List.map_map]
  rfl

abbrev W (T : Type) := World Unit (fun _ => T) (fun _ => T) fun _ => T

/-- what the parties hold after a triple was generated for empty stores -/
theorem generate_held [AddCommGroup T] (env : Env) (s : Session) (hs : s.Live env) (n : Nat) (hn : s.nrParties = n + 2)
    (op : T → T → T) (rnd : TripleRand T T T) (w w' : W T)
    (hw : ∀ u ∈ s.rankToUuid, (w.stores u ()).getD [] = [])
    (hgen : generatePrimitives (K := Unit) (Kw := Unit) (A := fun _ => T) (B := fun _ => T) (C := fun _ => T) env s (fun _ _ => op)
      (fun _ _ => rnd) () () w = .ok w') (r : Nat) (u : Nat) (hu : s.rankToUuid[r]? = some u) :
    (w'.stores u ()).getD [] = [(tripleOf op n w.serial rnd r).tag u] := by
  let U : Nat → Nat := fun r => s.rankToUuid.getD r 0
  have hU : s.rankToUuid = (List.range (n + 2)).map U := list_eq_map_range 0 _ _ (by rw [hs.ranks, hn])
  have hr : r < n + 2 := by
    have := (List.getElem?_eq_some_iff.mp hu).1
    rw [hs.ranks, hn] at this
    exact this
  have huU : u = U r := by simp [U, List.getD_eq_getElem?_getD, hu]
  have htag : tagAll s.rankToUuid ((List.range (n + 2)).map fun r => [tripleOf op n w.serial rnd r])
      = (List.range (n + 2)).map fun r => [(tripleOf op n w.serial rnd r).tag (U r)] := by
    rw [tagAll_eq _ _ (by rw [hs.ranks, hn]; simp), hU, List.zipWith_map, List.zipWith_self]
    rfl
  have hplen : s.sessionPtrs.length = n + 2 := by
    have := congrArg List.length hs.pointers
    rw [hs.ranks, hn] at this
    simpa using this
  let l : List (List (Triple T T T) × PartySession) :=
    ((List.range (n + 2)).map fun r => [(tripleOf op n w.serial rnd r).tag (U r)]).zip s.sessionPtrs
  obtain ⟨_, hst⟩ := foldl_populate (K := Unit) (A := fun _ => T) (B := fun _ => T) (C := fun _ => T) () l
    ({ w with serial := w.serial + 1 } : W T) (by
      have : l.map (fun e => e.2.uuid) = s.sessionPtrs.map (·.uuid) := by
        have h2 : l.map Prod.snd = s.sessionPtrs := List.map_snd_zip (by simp [hplen])
        calc l.map (fun e => e.2.uuid) = (l.map Prod.snd).map (·.uuid) := by rw [List.map_map]; rfl
          _ = _ := by rw [h2]
      rw [this, hs.pointers]
      exact hs.distinct)
  have hw' : w' = l.foldl (fun w e => World.populate w e.2.uuid () e.1) ({ w with serial := w.serial + 1 } : W T) := by
    unfold generatePrimitives at hgen
    rw [hn, getTriples_eq, ok_bind, htag] at hgen
    unfold transferPrimitives at hgen
    rw [if_neg (by simp [hplen])] at hgen
    exact (Except.ok.inj hgen).symm
  have hp : r < s.sessionPtrs.length := by omega
  have huu : s.sessionPtrs[r].uuid = u := by
    have h1 : (s.sessionPtrs.map (·.uuid))[r]? = some (s.sessionPtrs[r].uuid) := by simp [hp]
    rw [hs.pointers, hu] at h1
    exact (Option.some.inj h1).symm
  have := hst ([(tripleOf op n w.serial rnd r).tag (U r)], s.sessionPtrs[r]) (by
    rw [List.mem_iff_getElem?]
    refine ⟨r, ?_⟩
    rw [List.getElem?_zip_eq_some]
    exact ⟨by simp [hr], by simp⟩)
  rw [← hw'] at this
  simp only [huu] at this
  rw [this, Store.add_same, hw u (List.mem_of_getElem? hu), ← huU]
  rfl

/-! ## One statement -/

theorem ofSecret_tensors [AddCommGroup T] [PubEnc P T] (env : Env) (s : Session) (hs : s.Ready env) (n : Nat) (hn : s.nrParties = n + 2)
    (v : P) (draws : Nat → T) (x : MPCTensor T) (hx : MPCTensor.ofSecret env s v draws = .ok x) :
    x.shares.map (·.tensor) = (List.range (n + 2)).map (shareTensorOf (PubEnc.enc s.config v) n draws) := by
  let sec : ShareTensor T := ⟨PubEnc.enc s.config v, none, s.config, 2 ^ 64⟩
  have hpub : ShareTensor.ofPublic (T := T) v s.config (2 ^ 64) = .ok sec := rfl
  have hne : sharesOf sec n draws ≠ [] := by simp [sharesOf]
  have hlen : (sharesOf sec n draws).length = s.rankToUuid.length := by
    rw [hs.ranks, hn]; simp [sharesOf]
  have htens : (List.zipWith (fun (sh : ShareTensor T) u => { sh with sessionUuid := some u }) (sharesOf sec n draws)
      s.rankToUuid).map (·.tensor) = (sharesOf sec n draws).map (·.tensor) := by
    rw [List.map_zipWith]
    apply List.ext_getElem
    · simp [hlen]
    · intro i h1 h2; simp
  unfold MPCTensor.ofSecret at hx
  have : ¬ s.sessionPtrs.length = 0 := by simp [hs.ptrs]
  simp only [this, if_false, hpub, ok_bind, hn, pure_eq_ok,
      generateShares_eq env sec rfl, hne, distributeShares_eq s _ hlen (by rw [hs.parties, hs.ranks])] at hx
  cases hx
  rw [htens]
  simp [sharesOf, shareTensorOf, Function.comp_def, sec]

/-- All tensors are tensors of the session, and no triples are left over. -/
structure Sane [AddCommGroup T] (env : Env) (s : Session) (op : T → T → T) (S : State T) : Prop where
  wf : ∀ x ∈ S.tensors, x.WF env
  sess : ∀ x ∈ S.tensors, x.session = s
  good : ∃ kwOf ts, S.world.Good (Kw := Unit) (fun _ _ a b => op a b) s (fun _ => []) kwOf ts

theorem Sane.empty [AddCommGroup T] (env : Env) (s : Session) (op : T → T → T) : Sane env s op State.empty :=
  ⟨by simp [State.empty], by simp [State.empty],
    fun _ => (), fun _ _ _ => ⟨0, ⟨0, none, {}, 0⟩, ⟨0, none, {}, 0⟩, ⟨0, none, {}, 0⟩⟩, good_empty ..⟩

/-- the numbers the tensors stand for -/
def values [AddCommGroup T] (S : State T) : List T := S.tensors.map MPCTensor.value

/-- the shares of the tensors -/
def shareLists (S : State T) : List (List T) := S.tensors.map fun x => x.shares.map (·.tensor)

theorem wf_value [AddCommGroup T] {env : Env} {x : MPCTensor T} (h : x.WF env) : x.reconstruct = .ok x.value := WF.reconstruct h

/-- a secret -/
theorem share_step [AddCommGroup T] [PubEnc P T] (env : Env) (s : Session) (hs : s.Live env) (n : Nat) (hn : s.nrParties = n + 2)
    (op : T → T → T) (S : State T) (hS : Sane env s op S) (v : P) (d : Fin (n + 1) → T) :
    ∃ S', share env s v d S = .ok S' ∧ Sane env s op S' ∧ values S' = values S ++ [PubEnc.enc s.config v] ∧
      S'.log = S.log ++ [.shared ((List.range (n + 2)).map (shareTensorOf (PubEnc.enc s.config v) n (extend d)))] ∧
      shareLists S' = shareLists S ++ [(List.range (n + 2)).map (shareTensorOf (PubEnc.enc s.config v) n (extend d))] := by
  obtain ⟨x, h1, h2, h3, h4⟩ := ofSecret_ok env s hs.toReady v (extend d)
  have h5 := ofSecret_tensors env s hs.toReady n hn v (extend d) x h1
  have hv : x.value = PubEnc.enc s.config v := by
    rw [wf_value h3] at h4
    exact Except.ok.inj h4
  refine ⟨{ S.push x with log := S.log ++ [.shared (x.shares.map (·.tensor))] }, ?_, ⟨?_, ?_, hS.good⟩, ?_, ?_, ?_⟩
  · unfold share
    rw [h1]
    rfl
  · intro z hz
    simp only [State.push, List.mem_append, List.mem_singleton] at hz
    rcases hz with hz | rfl
    · exact hS.wf z hz
    · exact h3
  · intro z hz
    simp only [State.push, List.mem_append, List.mem_singleton] at hz
    rcases hz with hz | rfl
    · exact hS.sess z hz
    · exact h2
  · simp [values, State.push, hv]
  · simp [h5]
  · simp [shareLists, State.push, h5]

/-- the shares of a triple, as the parties hold them -/
def triplesOf [AddCommGroup T] (op : T → T → T) (n : Nat) (a b : T) (da db dc : Nat → T) : List (T × T × T) :=
  (List.range (n + 2)).map fun r => (shareTensorOf a n da r, shareTensorOf b n db r, shareTensorOf (op a b) n dc r)

/-- the share of a product, from what party `r` holds of the triple -/
def prodShare [AddCommGroup T] (op : T → T → T) (eps delta : T) (t : T × T × T) (r : Nat) : T :=
  if r = 0 then t.2.2 + op eps t.2.1 + op t.1 delta + op eps delta else t.2.2 + op eps t.2.1 + op t.1 delta

/-- a product of secrets -/
theorem product_step [AddCommGroup T] (env : Env) (s : Session) (hs : s.Live env) (n : Nat) (hn : s.nrParties = n + 2)
    (op : T →+ T →+ T) (trunc : Config → T → T) (S : State T) (hS : Sane env s (fun a b => op a b) S) (i j : Nat)
    (x y : MPCTensor T) (hi : S.tensors[i]? = some x) (hj : S.tensors[j]? = some y)
    (a b : T) (da db dc : Fin (n + 1) → T) :
    ∃ S' zs z, product env s (fun a b => op a b) trunc i j a b da db dc S = .ok S' ∧ Sane env s (fun a b => op a b) S' ∧
      S'.log = S.log ++ [.product (x.value - a) (y.value - b)
        (triplesOf (fun a b => op a b) n a b (extend da) (extend db) (extend dc))] ∧
      S'.tensors = S.tensors ++ [z] ∧ z.shares.map (·.tensor) = (if n = 0 then zs.map (trunc s.config) else zs) ∧
      zs.length = n + 2 ∧ zs.sum = op x.value y.value ∧
      zs = (List.range (n + 2)).map fun r => prodShare (fun a b => op a b) (x.value - a) (y.value - b)
        (shareTensorOf a n (extend da) r, shareTensorOf b n (extend db) r, shareTensorOf (op a b) n (extend dc) r) r := by
  have hx : x ∈ S.tensors := List.mem_of_getElem? hi
  have hy : y ∈ S.tensors := List.mem_of_getElem? hj
  obtain ⟨kwOf, ts, hg⟩ := hS.good
  let op' : Unit → Unit → T →+ T →+ T := fun _ _ => op
  let rnd : Unit → Nat → TripleRand T T T := fun _ _ => ⟨a, b, extend da, extend db, extend dc⟩
  obtain ⟨w1, ts1, hgen, hser1, hg1, hts, hsa, hsb⟩ := generate_good env s hs (fun k kw a b => op' k kw a b) rnd () () S.world _ kwOf ts hg
  have hheld := generate_held env s hs n hn (fun a b => op a b) ⟨a, b, extend da, extend db, extend dc⟩ S.world w1 (by
    intro u hu
    obtain ⟨r, hr⟩ := List.mem_iff_getElem?.mp hu
    rw [hg.stores r u hr]
    rfl) hgen
  have hmog : ∀ m, maskAll env w1 () x y = .ok m →
      maskOrGenerate env (fun k kw a b => op' k kw a b) rnd () () S.world x y = .ok (m, w1) := by
    intro m hm
    unfold maskOrGenerate
    rw [maskAll_empty env s hs _ S.world _ kwOf ts hg () x y (hS.wf x hx) (hS.wf y hy) (hS.sess x hx) (hS.sess y hy) rfl]
    dsimp only
    rw [hS.sess x hx, hgen, ok_bind, hm]
    rfl
  obtain ⟨out, w', zs, h1, h2, h3, h4, h5, h6, h7, h8, h9, h10, h11, h12, h13⟩ := mul_core env s hs op' (fun _ => trunc) rnd w1 _ _ ts1 hg1 () () x y
    (hS.wf x hx) (hS.wf y hy) (hS.sess x hx) (hS.sess y hy) S.world.serial [] (by simp) S.world hmog
  have hmo : ∃ m, maskOrGenerate env (fun k kw a b => op' k kw a b) rnd () () S.world x y = .ok (m, w1) := by
    have h1' := h1
    unfold mulMaster at h1'
    cases hm : maskAll env w1 () x y with
    | ok m => exact ⟨m, hmog m hm⟩
    | error e =>
      exfalso
      unfold maskOrGenerate at h1'
      rw [maskAll_empty env s hs _ S.world _ kwOf ts hg () x y (hS.wf x hx) (hS.wf y hy) (hS.sess x hx) (hS.sess y hy) rfl] at h1'
      dsimp only at h1'
      rw [hS.sess x hx, hgen, ok_bind, hm] at h1'
      cases h1'
  obtain ⟨m, hm⟩ := hmo
  have htr : heldTriples s w1 = .ok (triplesOf (fun a b => op a b) n a b (extend da) (extend db) (extend dc)) := by
    unfold heldTriples
    rw [mapM_ok_iff, List.forall₂_iff_get]
    have hlen := hs.ranks
    rw [hn] at hlen
    refine ⟨by simp [triplesOf, hlen], ?_⟩
    intro r hr hr'
    have hu : s.rankToUuid[r]? = some (s.rankToUuid.get ⟨r, hr⟩) := by simp
    rw [Store.get_cons _ _ _ _ _ (hheld r _ hu), ok_bind]
    simp [triplesOf, tripleOf, Triple.tag, pure_eq_ok]
  refine ⟨⟨S.tensors ++ [out.result], w', S.log ++ [.product out.eps out.delta
    (triplesOf (fun a b => op a b) n a b (extend da) (extend db) (extend dc))]⟩, zs, out.result, ?_, ⟨?_, ?_, ?_⟩, ?_, rfl, ?_, ?_, ?_, ?_⟩
  · unfold product
    rw [show pyGet S.tensors i = .ok x by simp [pyGet, hi], show pyGet S.tensors j = .ok y by simp [pyGet, hj], ok_bind, ok_bind]
    dsimp only
    rw [hm, ok_bind]
    dsimp only
    rw [htr, ok_bind, h1, ok_bind]
    rfl
  · intro z hz
    simp only [List.mem_append, List.mem_singleton] at hz
    rcases hz with hz | rfl
    · exact hS.wf z hz
    · exact ⟨by rw [h8]; exact hs.toReady, by rw [h8]; exact h9⟩
  · intro z hz
    simp only [List.mem_append, List.mem_singleton] at hz
    rcases hz with hz | rfl
    · exact hS.sess z hz
    · exact h8
  · refine ⟨Function.update kwOf S.world.serial (), ts1, ?_⟩
    have : (Function.update (Function.update (fun _ : Unit => ([] : List Nat)) () ([] ++ [S.world.serial])) () []) = fun _ => [] := by
      funext k
      simp
    rw [← this]
    exact h3
  · rw [h6, h7, hsa, hsb]
  · rw [h10, hn]
    simp
  · rw [h11, hn]
  · rw [h12, hsa, hsb]
    simp [op']
  · rw [h13, hn, h6, h7, hsa, hsb]
    apply List.map_congr_left
    intro r hr
    have hlen := hs.ranks
    rw [hn] at hlen
    have hr' : r < s.rankToUuid.length := by rw [hlen]; exact List.mem_range.mp hr
    have hu : s.rankToUuid[r]? = some s.rankToUuid[r] := by simp
    have e1 := hheld r _ hu
    rw [hg1.stores r _ hu] at e1
    simp only [List.nil_append, Function.update_self, List.map_cons, List.map_nil, List.cons.injEq, and_true] at e1
    rw [e1]
    rfl

/-- a statement that needs no random numbers -/
def IsPlain : Cmd P T → Prop
  | .secret _ => False
  | .mul _ _ => False
  | _ => True

theorem values_getD [AddCommGroup T] (S : State T) (i : Nat) (x : MPCTensor T) (h : S.tensors[i]? = some x) :
    (values S).getD i 0 = x.value := by
  simp [values, List.getD_eq_getElem?_getD, h]

theorem hookMethod_ok [AddCommGroup T] (env : Env) (f : T → T) (x : MPCTensor T) (hx : x.WF env) :
    ∃ z, MPCTensor.hookMethod f x = .ok z ∧ z.session = x.session ∧ z.WF env ∧ z.shares.map (·.tensor) = x.shares.map fun sh => f sh.tensor := by
  have hwf : MPCTensor.WF env ⟨x.session, x.shares.map (ShareTensor.hookMethod f)⟩ :=
    ⟨hx.ready, by simpa [ShareTensor.hookMethod, Function.comp_def] using hx.tags⟩
  refine ⟨⟨x.session, x.shares.map (ShareTensor.hookMethod f)⟩, ?_, rfl, hwf, ?_⟩
  · unfold MPCTensor.hookMethod
    rw [ofShares_ok _ _ hx.ready.ptrs (WF.nonempty hwf)]
  · simp [ShareTensor.hookMethod]

theorem publicMul_session [PubEnc P T] (env : Env) (op : T → T → T) (trunc : T → T) (x z : MPCTensor T) (y : P)
    (h : MPCTensor.applyPublicMul env op trunc x y = .ok z) : z.session = x.session := by
  unfold MPCTensor.applyPublicMul at h
  cases h1 : x.shares.mapM (fun sh => ShareTensor.prod env op trunc sh (.inl y)) with
  | error e => rw [h1] at h; cases h
  | ok zs =>
    rw [h1, ok_bind] at h
    unfold MPCTensor.ofShares at h
    split at h <;> first | cases h | skip
    split at h <;> cases h
    all_goals rfl

/-- the shares that a statement without random numbers makes, from the shares of the earlier tensors -/
def plainShares [AddCommGroup T] [PubEnc P T] (c : Config) (op : T → T → T) (vs : List (List T)) : Cmd P T → List T
  | .lin o i j => List.zipWith (LinOp.den o) (vs.getD i []) (vs.getD j [])
  | .linPublic o i v => (vs.getD i []).modifyHead fun t => LinOp.den o t (PubEnc.enc c v)
  | .mulPublic i v => (vs.getD i []).map fun t => op t (PubEnc.enc c v)
  | .method f i => (vs.getD i []).map f
  | _ => []

theorem shareLists_getD (S : State T) (i : Nat) (x : MPCTensor T) (h : S.tensors[i]? = some x) :
    (shareLists S).getD i [] = x.shares.map (·.tensor) := by
  simp [shareLists, List.getD_eq_getElem?_getD, h]

theorem priv_tensors [AddCommGroup T] [PubEnc P T] (env : Env) (op : MPCTensor.LinOp) (x y z : MPCTensor T)
    (hx : x.WF env) (hy : y.WF env) (hs : y.session = x.session) (h : MPCTensor.applyPrivateLin (P := P) env op x y = .ok z) :
    z.shares.map (·.tensor) = List.zipWith (LinOp.den op) (x.shares.map (·.tensor)) (y.shares.map (·.tensor)) := by
  have hty : y.shares.map (·.sessionUuid) = x.session.rankToUuid.map some := hs ▸ hy.tags
  obtain ⟨zs, h1, h2, h3⟩ := priv_shares (P := P) env op _ x.shares y.shares hx.tags hty
    (fun u hu => let ⟨p, hp, _⟩ := hx.ready.known u hu; ⟨p, hp⟩)
  have hwf : MPCTensor.WF env ⟨x.session, zs⟩ := ⟨hx.ready, h2⟩
  unfold MPCTensor.applyPrivateLin MPCTensor.checkPrivate at h
  rw [hs] at h
  simp only [ne_eq, not_true_eq_false, if_false, ok_bind] at h
  rw [h1, ok_bind, ofShares_ok _ _ hx.ready.ptrs (WF.nonempty hwf)] at h
  cases h
  exact h3

theorem pub_tensors [AddCommGroup T] [PubEnc P T] (env : Env) (op : MPCTensor.LinOp) (x z : MPCTensor T) (v : P)
    (hx : x.WF env) (h : MPCTensor.applyPublicLin env op x v = .ok z) :
    z.shares.map (·.tensor) = (x.shares.map (·.tensor)).modifyHead fun t => LinOp.den op t (PubEnc.enc x.session.config v) := by
  obtain ⟨z', h1, _, h3, h4, h5⟩ := pub_ok env op x v hx _ (wf_value hx)
  rw [h] at h1
  cases h1
  rw [wf_value h3] at h5
  have h5 := Except.ok.inj h5
  unfold MPCTensor.value at h5
  have hz := WF.nonempty h3
  have hx' := WF.nonempty hx
  cases hzs : z.shares with
  | nil => exact absurd hzs hz
  | cons z0 zr =>
    cases hxs : x.shares with
    | nil => exact absurd hxs hx'
    | cons x0 xr =>
      rw [hzs, hxs] at h4 h5
      simp only [List.tail_cons] at h4
      subst h4
      simp only [List.map_cons, List.sum_cons, List.modifyHead_cons, List.cons.injEq, and_true] at h5 ⊢
      cases op <;> simp only [LinOp.den] at h5 ⊢
      · have : z0.tensor = z0.tensor + (zr.map (·.tensor)).sum - (zr.map (·.tensor)).sum := by abel
        rw [this, h5]
        abel
      · have : z0.tensor = z0.tensor + (zr.map (·.tensor)).sum - (zr.map (·.tensor)).sum := by abel
        rw [this, h5]
        abel

theorem mulPublic_tensors [AddCommGroup T] [PubEnc P T] (env : Env) (op : T → T → T) (trunc : T → T) (x z : MPCTensor T) (v : P)
    (hx : x.WF env) (h : MPCTensor.applyPublicMul env op trunc x v = .ok z) :
    z.shares.map (·.tensor) = (x.shares.map (·.tensor)).map fun t => op t (PubEnc.enc x.session.config v) := by
  obtain ⟨zs, h1, h2, h3⟩ := mapM_tagged x.session.rankToUuid x.shares
    (fun sh => ShareTensor.prod env op trunc sh (.inl v)) (fun t => op t (PubEnc.enc x.session.config v)) hx.tags (by
      intro sh _ u hu hsh
      obtain ⟨p, hp, hc, hr⟩ := hx.ready.known u hu
      refine ⟨p.config, p.ringSize, ?_⟩
      rw [prod_pub env op trunc sh v u p hsh hp (by rw [hr]; exact hx.ready.ring), hc])
  have hwf : MPCTensor.WF env ⟨x.session, zs⟩ := ⟨hx.ready, h2⟩
  unfold MPCTensor.applyPublicMul at h
  rw [h1, ok_bind, ofShares_ok _ _ hx.ready.ptrs (WF.nonempty hwf)] at h
  cases h
  rw [h3, List.map_map]
  rfl

/-- a statement without random numbers -/
theorem plain_step [AddCommGroup T] [PubEnc P T] (env : Env) (s : Session) (op : T →+ T →+ T) (trunc : Config → T → T) (S : State T)
    (hS : Sane env s (fun a b => op a b) S) (c : Cmd P T) (hv : Valid S.tensors.length c) (hp : IsPlain c) :
    ∃ S' z, plain env (fun a b => op a b) trunc S c = .ok S' ∧ Sane env s (fun a b => op a b) S' ∧ S'.log = S.log ∧
      S'.tensors = S.tensors ++ [z] ∧ (Additive c → z.value = evalCmd s.config (fun a b => op a b) (values S) c) ∧
      z.shares.map (·.tensor) = plainShares s.config (fun a b => op a b) (shareLists S) c := by
  have fin : ∀ z : MPCTensor T, z.session = s → z.WF env → Sane env s (fun a b => op a b) (S.push z) := by
    intro z h1 h2
    refine ⟨?_, ?_, hS.good⟩ <;> intro y hy <;> simp only [State.push, List.mem_append, List.mem_singleton] at hy <;>
      rcases hy with hy | rfl
    · exact hS.wf y hy
    · exact h2
    · exact hS.sess y hy
    · exact h1
  have get : ∀ i < S.tensors.length, ∃ x, S.tensors[i]? = some x ∧ pyGet S.tensors i = .ok x ∧ x.WF env ∧ x.session = s ∧
      (values S).getD i 0 = x.value ∧ (shareLists S).getD i [] = x.shares.map (·.tensor) := by
    intro i hi
    have h : S.tensors[i]? = some S.tensors[i] := by simp [hi]
    have hm : S.tensors[i] ∈ S.tensors := List.getElem_mem hi
    exact ⟨_, h, by simp [pyGet, h], hS.wf _ hm, hS.sess _ hm, values_getD S i _ h, shareLists_getD S i _ h⟩
  cases c with
  | secret v => exact hp.elim
  | mul i j => exact hp.elim
  | lin o i j =>
    obtain ⟨x, _, hx1, hx2, hx3, hx4, hx5⟩ := get i hv.1
    obtain ⟨y, _, hy1, hy2, hy3, hy4, hy5⟩ := get j hv.2
    obtain ⟨z, h1, h2, h3, h4⟩ := priv_ok (P := P) env o x y hx2 hy2 (by rw [hx3, hy3]) _ _ (wf_value hx2) (wf_value hy2)
    refine ⟨S.push z, z, ?_, fin z (by rw [h2, hx3]) h3, rfl, rfl, fun _ => ?_, ?_⟩
    · simp only [plain, hx1, hy1, ok_bind, h1, pure_eq_ok]
    · rw [wf_value h3] at h4
      simp only [evalCmd, hx4, hy4]
      exact Except.ok.inj h4
    · rw [priv_tensors (P := P) env o x y z hx2 hy2 (by rw [hx3, hy3]) h1, plainShares, hx5, hy5]
  | linPublic o i v =>
    obtain ⟨x, _, hx1, hx2, hx3, hx4, hx5⟩ := get i hv
    obtain ⟨z, h1, h2, h3, _, h4⟩ := pub_ok env o x v hx2 _ (wf_value hx2)
    refine ⟨S.push z, z, ?_, fin z (by rw [h2, hx3]) h3, rfl, rfl, fun _ => ?_, ?_⟩
    · simp only [plain, hx1, ok_bind, h1, pure_eq_ok]
    · rw [wf_value h3, hx3] at h4
      simp only [evalCmd, hx4]
      exact Except.ok.inj h4
    · rw [pub_tensors env o x z v hx2 h1, plainShares, hx5, hx3]
  | mulPublic i v =>
    obtain ⟨x, _, hx1, hx2, hx3, hx4, hx5⟩ := get i hv
    obtain ⟨z, h1, h3, h4⟩ := C15_public_product_additive env (fun a b => op a b) (fun a b u => by simp) (trunc x.session.config) x v hx2 _
      (wf_value hx2)
    refine ⟨S.push z, z, ?_, fin z (by rw [publicMul_session _ _ _ _ _ _ h1, hx3]) h3, rfl, rfl, fun _ => ?_, ?_⟩
    · simp only [plain, hx1, ok_bind, h1, pure_eq_ok]
    · rw [wf_value h3, hx3] at h4
      simp only [evalCmd, hx4]
      exact Except.ok.inj h4
    · rw [mulPublic_tensors env _ _ x z v hx2 h1, plainShares, hx5, hx3]
  | method f i =>
    obtain ⟨x, _, hx1, hx2, hx3, hx4, hx5⟩ := get i hv
    obtain ⟨z, h1, h2, h3, h4⟩ := hookMethod_ok env f x hx2
    refine ⟨S.push z, z, ?_, fin z (by rw [h2, hx3]) h3, rfl, rfl, fun hf => ?_, ?_⟩
    · simp only [plain, hx1, ok_bind, h1, pure_eq_ok]
    · simp only [evalCmd, hx4]
      unfold MPCTensor.value
      rw [h4]
      have := map_list_sum (AddMonoidHom.mk' f hf) (x.shares.map (·.tensor))
      rw [List.map_map] at this
      exact this.symm
    · rw [h4, plainShares, hx5, List.map_map]
      rfl

/-! ## Runs -/

section
variable [AddCommGroup T] [PubEnc P T] (env : Env) (s : Session) (op : T → T → T) (trunc : Config → T → T)

theorem run_plain {m : Nat} (c : Cmd P T) (hp : IsPlain c) (cs : List (Cmd P T)) (tape : List (Draw m T)) (S : State T) :
    run env s op trunc (c :: cs) tape S = (plain env op trunc S c >>= fun S => run env s op trunc cs tape S) := by
  cases c <;> first | exact hp.elim | (cases tape <;> rfl)

theorem plain_log (S S' : State T) (c : Cmd P T) (h : plain env op trunc S c = .ok S') : S'.log = S.log := by
  unfold plain at h
  cases c with
  | secret v => cases h
  | mul i j => cases h
  | lin o i j =>
    dsimp only at h
    cases h1 : pyGet S.tensors i with
    | error e => rw [h1] at h; cases h
    | ok x =>
    cases h2 : pyGet S.tensors j with
    | error e => rw [h1, h2] at h; cases h
    | ok y =>
    cases h3 : MPCTensor.applyPrivateLin (P := P) env o x y with
    | error e => rw [h1, h2, ok_bind, ok_bind, h3] at h; cases h
    | ok z => rw [h1, h2, ok_bind, ok_bind, h3] at h; cases h; rfl
  | linPublic o i v =>
    dsimp only at h
    cases h1 : pyGet S.tensors i with
    | error e => rw [h1] at h; cases h
    | ok x =>
    cases h3 : MPCTensor.applyPublicLin env o x v with
    | error e => rw [h1, ok_bind, h3] at h; cases h
    | ok z => rw [h1, ok_bind, h3] at h; cases h; rfl
  | mulPublic i v =>
    dsimp only at h
    cases h1 : pyGet S.tensors i with
    | error e => rw [h1] at h; cases h
    | ok x =>
    cases h3 : MPCTensor.applyPublicMul env op (trunc x.session.config) x v with
    | error e => rw [h1, ok_bind, h3] at h; cases h
    | ok z => rw [h1, ok_bind, h3] at h; cases h; rfl
  | method f i =>
    dsimp only at h
    cases h1 : pyGet S.tensors i with
    | error e => rw [h1] at h; cases h
    | ok x =>
    cases h3 : MPCTensor.hookMethod f x with
    | error e => rw [h1, ok_bind, h3] at h; cases h
    | ok z => rw [h1, ok_bind, h3] at h; cases h; rfl

theorem bind_ok {α β : Type} {x : Py α} {f : α → Py β} {b : β} (h : (x >>= f) = .ok b) : ∃ a, x = .ok a ∧ f a = .ok b := by
  cases x with
  | error e => cases h
  | ok a => exact ⟨a, rfl, h⟩

theorem share_log {m : Nat} (v : P) (d : Fin m → T) (S S' : State T) (h : share env s v d S = .ok S') : ∃ e, S'.log = S.log ++ [e] := by
  unfold share at h
  obtain ⟨x, _, h⟩ := bind_ok h
  cases h
  exact ⟨_, rfl⟩

theorem product_log {m : Nat} (i j : Nat) (a b : T) (da db dc : Fin m → T) (S S' : State T)
    (h : product env s op trunc i j a b da db dc S = .ok S') : ∃ e, S'.log = S.log ++ [e] := by
  unfold product at h
  obtain ⟨x, _, h⟩ := bind_ok h
  obtain ⟨y, _, h⟩ := bind_ok h
  dsimp only at h
  obtain ⟨m, _, h⟩ := bind_ok h
  obtain ⟨ts, _, h⟩ := bind_ok h
  obtain ⟨r, _, h⟩ := bind_ok h
  cases h
  exact ⟨_, rfl⟩

/-- what was seen stays seen -/
theorem run_log {m : Nat} (prog : List (Cmd P T)) (tape : List (Draw m T)) (S S' : State T)
    (h : run env s op trunc prog tape S = .ok S') : ∃ l, S'.log = S.log ++ l := by
  induction prog generalizing tape S with
  | nil =>
    cases tape with
    | nil => cases h; exact ⟨[], by simp⟩
    | cons => cases h
  | cons c cs ih =>
    by_cases hp : IsPlain c
    · rw [run_plain env s op trunc c hp] at h
      obtain ⟨S1, h1, h⟩ := bind_ok h
      obtain ⟨l, hl⟩ := ih tape S1 h
      exact ⟨l, by rw [hl, plain_log env op trunc S S1 c h1]⟩
    · cases c <;> first | exact (hp trivial).elim | skip
      · cases tape with
        | nil => cases h
        | cons d tape =>
          cases d with
          | triple => cases h
          | sharing d =>
            obtain ⟨S1, h1, h⟩ := bind_ok (show (share env s _ d S >>= fun S => run env s op trunc cs tape S) = _ from h)
            obtain ⟨e, he⟩ := share_log env s _ d S S1 h1
            obtain ⟨l, hl⟩ := ih tape S1 h
            exact ⟨e :: l, by rw [hl, he]; simp⟩
      · cases tape with
        | nil => cases h
        | cons d tape =>
          cases d with
          | sharing => cases h
          | triple a b da db dc =>
            obtain ⟨S1, h1, h⟩ := bind_ok (show (product env s op trunc _ _ a b da db dc S >>= fun S => run env s op trunc cs tape S) = _ from h)
            obtain ⟨e, he⟩ := product_log env s op trunc _ _ a b da db dc S S1 h1
            obtain ⟨l, hl⟩ := ih tape S1 h
            exact ⟨e :: l, by rw [hl, he]; simp⟩

end

/-! ## Views determine draws -/

theorem erase_iff {α : Type} (m h : Nat) (hh : h < m + 1) (f : Nat → α) (l : List α) (hl : l.length = m) :
    ((List.range (m + 1)).map f).eraseIdx h = l ↔ ∀ i < m + 1, i ≠ h → l[if i < h then i else i - 1]? = some (f i) := by
  constructor
  · rintro rfl i hi hne
    rw [List.getElem?_eraseIdx]
    by_cases h1 : i < h
    · simp [h1, hi]
    · have h2 : ¬ i - 1 < h := by omega
      rw [if_neg h1, if_neg h2, show i - 1 + 1 = i by omega]
      simp [hi]
  · intro H
    apply List.ext_getElem?
    intro k
    rw [List.getElem?_eraseIdx]
    by_cases hk : k < m
    · by_cases h1 : k < h
      · have := H k (by omega) (by omega)
        rw [if_pos h1] at this
        rw [if_pos h1, this]
        simp [show k < m + 1 by omega]
      · have := H (k + 1) (by omega) (by omega)
        rw [if_neg (by omega), Nat.add_sub_cancel] at this
        rw [if_neg h1, this]
        simp [hk]
    · rw [List.getElem?_eq_none (show l.length ≤ k by omega)]
      split <;> simp <;> omega

/-- for every view of all parties but one there is exactly one choice of the random tensors of a sharing -/
theorem draws_unique [AddCommGroup T] (env : Env) (secret : T) (n h : Nat) (hh : h < n + 2) (l : List T) (hl : l.length = n + 1) :
    ∃! d : Fin (n + 1) → T, ((List.range (n + 2)).map (shareTensorOf secret n (extend d))).eraseIdx h = l := by
  obtain ⟨d, h1, h2⟩ := C04_views_independent_partial env secret n h hh (fun i => l.getD (if i < h then i else i - 1) 0)
  have key : ∀ d : Fin (n + 1) → T, ((List.range (n + 2)).map (shareTensorOf secret n (extend d))).eraseIdx h = l ↔
      ∀ i < n + 2, i ≠ h → shareValues env secret (n + 2) d i = some (l.getD (if i < h then i else i - 1) 0) := by
    intro d
    rw [erase_iff (n + 1) h hh _ l hl]
    refine forall_congr' fun i => forall_congr' fun hi => forall_congr' fun hne => ?_
    have hlt : (if i < h then i else i - 1) < l.length := by split <;> omega
    have hv : shareValues env secret (n + 2) d i = some (shareTensorOf secret n (extend d) i) := shareValues_eq env secret n d i hi
    rw [hv, List.getD_eq_getElem?_getD, List.getElem?_eq_getElem hlt]
    simp only [Option.getD_some, Option.some.injEq]
    exact eq_comm
  exact ⟨d, (key d).mpr h1, fun d' hd' => h2 d' ((key d').mp hd')⟩

theorem eraseIdx_map {α β : Type} (f : α → β) (l : List α) (h : Nat) : (l.eraseIdx h).map f = (l.map f).eraseIdx h := by
  induction l generalizing h with
  | nil => rfl
  | cons a l ih => cases h <;> simp [ih]

theorem triple_ext {α β γ : Type} (l l' : List (α × β × γ)) :
    l = l' ↔ l.map (·.1) = l'.map (·.1) ∧ l.map (·.2.1) = l'.map (·.2.1) ∧ l.map (·.2.2) = l'.map (·.2.2) := by
  constructor
  · rintro rfl; exact ⟨rfl, rfl, rfl⟩
  · induction l generalizing l' with
    | nil => cases l' <;> simp
    | cons a l ih =>
      cases l' with
      | nil => simp
      | cons a' l' =>
        simp only [List.map_cons, List.cons.injEq]
        rintro ⟨⟨h1, h1'⟩, ⟨h2, h2'⟩, h3, h3'⟩
        exact ⟨Prod.ext h1 (Prod.ext h2 h3), ih l' ⟨h1', h2', h3'⟩⟩

/-- what all parties but one hold of a triple determines the random tensors, and every holding is possible -/
theorem triple_unique [AddCommGroup T] (env : Env) (op : T → T → T) (a b : T) (n h : Nat) (hh : h < n + 2) (l : List (T × T × T))
    (hl : l.length = n + 1) :
    ∃! d : (Fin (n + 1) → T) × (Fin (n + 1) → T) × (Fin (n + 1) → T),
      (triplesOf op n a b (extend d.1) (extend d.2.1) (extend d.2.2)).eraseIdx h = l := by
  obtain ⟨da, ha, ha'⟩ := draws_unique env a n h hh (l.map (·.1)) (by simpa using hl)
  obtain ⟨db, hb, hb'⟩ := draws_unique env b n h hh (l.map (·.2.1)) (by simpa using hl)
  obtain ⟨dc, hc, hc'⟩ := draws_unique env (op a b) n h hh (l.map (·.2.2)) (by simpa using hl)
  have key : ∀ da db dc : Fin (n + 1) → T, (triplesOf op n a b (extend da) (extend db) (extend dc)).eraseIdx h = l ↔
      ((List.range (n + 2)).map (shareTensorOf a n (extend da))).eraseIdx h = l.map (·.1) ∧
      ((List.range (n + 2)).map (shareTensorOf b n (extend db))).eraseIdx h = l.map (·.2.1) ∧
      ((List.range (n + 2)).map (shareTensorOf (op a b) n (extend dc))).eraseIdx h = l.map (·.2.2) := by
    intro da db dc
    rw [triple_ext, eraseIdx_map, eraseIdx_map, eraseIdx_map]
    simp only [triplesOf, List.map_map, Function.comp_def]
  refine ⟨(da, db, dc), (key _ _ _).mpr ⟨ha, hb, hc⟩, ?_⟩
  rintro ⟨da', db', dc'⟩ hd
  obtain ⟨h1, h2, h3⟩ := (key _ _ _).mp hd
  rw [ha' da' h1, hb' db' h2, hc' dc' h3]

/-! ## The shares of the others follow from what they see -/

theorem eraseIdx_zipWith {α β γ : Type} (f : α → β → γ) (a : List α) (b : List β) (h : Nat) :
    (List.zipWith f a b).eraseIdx h = List.zipWith f (a.eraseIdx h) (b.eraseIdx h) := by
  induction a generalizing b h with
  | nil => simp
  | cons x a ih =>
    cases b with
    | nil => simp
    | cons y b => cases h <;> simp [ih]

theorem eraseIdx_modifyHead {α : Type} (f : α → α) (a : List α) (h : Nat) :
    (a.modifyHead f).eraseIdx h = if h = 0 then a.eraseIdx h else (a.eraseIdx h).modifyHead f := by
  cases a with
  | nil => simp
  | cons x a => cases h <;> simp

theorem getD_erase {α : Type} (vs : List (List α)) (i h : Nat) :
    (vs.getD i []).eraseIdx h = (vs.map (·.eraseIdx h)).getD i [] := by
  simp only [List.getD_eq_getElem?_getD, List.getElem?_map]
  cases vs[i]? <;> simp

/-- the shares of all parties but one, for every tensor -/
def others (h : Nat) (S : State T) : List (List T) := (shareLists S).map (·.eraseIdx h)

theorem plain_others [AddCommGroup T] [PubEnc P T] (c : Config) (op : T → T → T) (h : Nat) (vs ws : List (List T))
    (hvw : vs.map (·.eraseIdx h) = ws.map (·.eraseIdx h)) (cmd : Cmd P T) :
    (plainShares c op vs cmd).eraseIdx h = (plainShares c op ws cmd).eraseIdx h := by
  cases cmd <;> simp only [plainShares, eraseIdx_zipWith, eraseIdx_modifyHead, ← eraseIdx_map, getD_erase, hvw]

theorem erase_congr {α : Type} (m h : Nat) (hh : h < m + 1) (f g : Nat → α) :
    ((List.range (m + 1)).map f).eraseIdx h = ((List.range (m + 1)).map g).eraseIdx h ↔ ∀ i < m + 1, i ≠ h → f i = g i := by
  have hl : (((List.range (m + 1)).map g).eraseIdx h).length = m := by
    rw [List.length_eraseIdx_of_lt (by simpa using hh)]
    simp
  rw [erase_iff m h hh f _ hl]
  have := (erase_iff m h hh g _ hl).mp rfl
  constructor
  · intro H i hi hne
    have := (this i hi hne).symm.trans (H i hi hne)
    exact (Option.some.inj this).symm
  · intro H i hi hne
    rw [this i hi hne, H i hi hne]

/-- two runs of programs that differ only in secrets, with the same view of all parties but one: these parties hold the same -/
theorem others_same [AddCommGroup T] [PubEnc P T] (env : Env) (s : Session) (hs : s.Live env) (n : Nat) (hn : s.nrParties = n + 2)
    (op : T →+ T →+ T) (trunc : Config → T → T) (h : Nat) (hh : h < n + 2) (p1 p2 : List (Cmd P T)) (hp : List.Forall₂ SameBut p1 p2)
    (t1 t2 : List (Draw (n + 1) T)) (S1 S2 S1' S2' : State T)
    (h1 : Sane env s (fun a b => op a b) S1) (h2 : Sane env s (fun a b => op a b) S2)
    (hv : ValidProg S1.tensors.length p1) (ho : others h S1 = others h S2)
    (hlog : S1.log.map (hide h) = S2.log.map (hide h)) (r1 : run env s (fun a b => op a b) trunc p1 t1 S1 = .ok S1')
    (r2 : run env s (fun a b => op a b) trunc p2 t2 S2 = .ok S2') (hlog' : S1'.log.map (hide h) = S2'.log.map (hide h)) :
    others h S1' = others h S2' := by
  induction hp generalizing t1 t2 S1 S2 with
  | nil =>
    cases t1 with
    | cons => cases r1
    | nil =>
    cases t2 with
    | cons => cases r2
    | nil =>
    cases r1
    cases r2
    exact ho
  | @cons c c' cs cs' hc hcs ih =>
    have hlen : S1.tensors.length = S2.tensors.length := by
      have := congrArg List.length ho
      simpa [others, shareLists] using this
    by_cases hpl : IsPlain c
    · have hcc : c' = c := by cases c <;> cases c' <;> first | exact hpl.elim | exact hc.symm
      subst hcc
      obtain ⟨T1, z1, a1, a2, a3, a4, _, a6⟩ := plain_step env s op trunc S1 h1 c' hv.1 hpl
      obtain ⟨T2, z2, b1, b2, b3, b4, _, b6⟩ := plain_step env s op trunc S2 h2 c' (hlen ▸ hv.1) hpl
      rw [run_plain _ _ _ _ c' hpl, a1, ok_bind] at r1
      rw [run_plain _ _ _ _ c' hpl, b1, ok_bind] at r2
      refine ih t1 t2 T1 T2 a2 b2 (by rw [a4, List.length_append]; exact hv.2) ?_ (by rw [a3, b3, hlog]) r1 r2
      have := plain_others s.config (fun a b => op a b) h _ _ ho c'
      unfold others shareLists at ho ⊢
      rw [a4, b4]
      simp only [List.map_append, List.map_cons, List.map_nil, a6, b6, this]
      rw [ho]
    · cases c <;> first | exact (hpl trivial).elim | skip
      case secret v =>
        cases c' <;> cases hc
        case secret v' =>
        cases t1 with
        | nil => cases r1
        | cons d1 t1 =>
        cases t2 with
        | nil => cases r2
        | cons d2 t2 =>
        cases d1 with
        | triple => cases r1
        | sharing d1 =>
        cases d2 with
        | triple => cases r2
        | sharing d2 =>
        obtain ⟨T1, a1, a2, a3, a4, a5⟩ := share_step env s hs n hn (fun a b => op a b) S1 h1 v d1
        obtain ⟨T2, b1, b2, b3, b4, b5⟩ := share_step env s hs n hn (fun a b => op a b) S2 h2 v' d2
        have r1 : (share env s v d1 S1 >>= fun S => run env s (fun a b => op a b) trunc cs t1 S) = .ok S1' := r1
        have r2 : (share env s v' d2 S2 >>= fun S => run env s (fun a b => op a b) trunc cs' t2 S) = .ok S2' := r2
        rw [a1, ok_bind] at r1
        rw [b1, ok_bind] at r2
        have hlen1 : T1.tensors.length = S1.tensors.length + 1 := by
          have := congrArg List.length a3
          simpa [values] using this
        obtain ⟨l1, e1⟩ := run_log _ _ _ _ _ _ _ _ r1
        obtain ⟨l2, e2⟩ := run_log _ _ _ _ _ _ _ _ r2
        have hl := hlog'
        rw [e1, e2, a4, b4] at hl
        simp only [List.map_append, List.map_cons, hlog, List.append_assoc, List.append_cancel_left_eq,
          List.cons_append, List.nil_append, List.cons.injEq, hide, Event.shared.injEq] at hl
        refine ih t1 t2 T1 T2 a2 b2 (by rw [hlen1]; exact hv.2) ?_ ?_ r1 r2
        · unfold others at ho ⊢
          rw [a5, b5, List.map_append, List.map_append, ho]
          simp only [List.map_cons, hl.1]
        · rw [a4, b4]
          simp only [List.map_append, List.map_cons, hlog, hide, hl.1]
      case mul i j =>
        have hcc : c' = .mul i j := by cases c' <;> exact hc.symm
        subst hcc
        cases t1 with
        | nil => cases r1
        | cons d1 t1 =>
        cases t2 with
        | nil => cases r2
        | cons d2 t2 =>
        cases d1 with
        | sharing => cases r1
        | triple aa ab da db dc =>
        cases d2 with
        | sharing => cases r2
        | triple ba bb ea eb ec =>
        have hvi := hv.1.1
        have hvj := hv.1.2
        have hi1 : S1.tensors[i]? = some (S1.tensors[i]'hvi) := by simp [hvi]
        have hj1 : S1.tensors[j]? = some (S1.tensors[j]'hvj) := by simp [hvj]
        have hi2 : S2.tensors[i]? = some (S2.tensors[i]'(hlen ▸ hvi)) := by simp [hlen ▸ hvi]
        have hj2 : S2.tensors[j]? = some (S2.tensors[j]'(hlen ▸ hvj)) := by simp [hlen ▸ hvj]
        obtain ⟨T1, zs1, z1, a1, a2, a3, a4, a5, a6, a7, a8⟩ := product_step env s hs n hn op trunc S1 h1 i j _ _ hi1 hj1 aa ab da db dc
        obtain ⟨T2, zs2, z2, b1, b2, b3, b4, b5, b6, b7, b8⟩ := product_step env s hs n hn op trunc S2 h2 i j _ _ hi2 hj2 ba bb ea eb ec
        have r1 : (product env s (fun a b => op a b) trunc i j aa ab da db dc S1 >>=
          fun S => run env s (fun a b => op a b) trunc cs t1 S) = .ok S1' := r1
        have r2 : (product env s (fun a b => op a b) trunc i j ba bb ea eb ec S2 >>=
          fun S => run env s (fun a b => op a b) trunc cs' t2 S) = .ok S2' := r2
        rw [a1, ok_bind] at r1
        rw [b1, ok_bind] at r2
        obtain ⟨l1, e1⟩ := run_log _ _ _ _ _ _ _ _ r1
        obtain ⟨l2, e2⟩ := run_log _ _ _ _ _ _ _ _ r2
        have hl := hlog'
        rw [e1, e2, a3, b3] at hl
        simp only [List.map_append, List.map_cons, hlog, List.append_assoc, List.append_cancel_left_eq,
          List.cons_append, List.nil_append, List.cons.injEq, hide, Event.product.injEq] at hl
        obtain ⟨⟨g1, g2, g3⟩, _⟩ := hl
        have hz : zs1.eraseIdx h = zs2.eraseIdx h := by
          rw [a8, b8, erase_congr (n + 1) h hh]
          intro r hr hne
          have := (erase_congr (n + 1) h hh _ _).mp g3 r hr hne
          rw [g1, g2, this]
        refine ih t1 t2 T1 T2 a2 b2 (by rw [a4, List.length_append]; exact hv.2) ?_ ?_ r1 r2
        · unfold others shareLists at ho ⊢
          rw [a4, b4]
          simp only [List.map_append, List.map_cons, List.map_nil, a5, b5]
          rw [ho]
          congr 2
          split
          · rw [← eraseIdx_map, ← eraseIdx_map, hz]
          · exact hz
        · rw [a3, b3]
          simp only [List.map_append, List.map_cons, hlog, hide, g1, g2, g3]

/-- a list is known from its sum and all its elements but one -/
theorem eq_of_erase_sum [AddCommGroup T] (a b : List T) (h : Nat) (ha : h < a.length) (hb : h < b.length)
    (he : a.eraseIdx h = b.eraseIdx h) (hsum : a.sum = b.sum) : a = b := by
  induction a generalizing b h with
  | nil => simp at ha
  | cons x a ih =>
    cases b with
    | nil => simp at hb
    | cons y b =>
      cases h with
      | zero =>
        simp only [List.eraseIdx_zero, List.tail_cons] at he
        subst he
        simp only [List.sum_cons, add_left_inj] at hsum
        rw [hsum]
      | succ h =>
        simp only [List.eraseIdx_cons_succ, List.cons.injEq] at he
        obtain ⟨rfl, he⟩ := he
        simp only [List.sum_cons, add_right_inj] at hsum
        rw [ih b h (by simpa using ha) (by simpa using hb) he hsum]

/-- a tape with which a program runs has what the program needs -/
theorem fits_of_run [AddCommGroup T] [PubEnc P T] (env : Env) (s : Session) (op : T → T → T) (trunc : Config → T → T) {m : Nat}
    (prog : List (Cmd P T)) (tape : List (Draw m T)) (S S' : State T) (h : run env s op trunc prog tape S = .ok S') : Fits prog tape := by
  induction prog generalizing tape S with
  | nil =>
    cases tape with
    | nil => rfl
    | cons => cases h
  | cons c cs ih =>
    by_cases hp : IsPlain c
    · rw [run_plain env s op trunc c hp] at h
      obtain ⟨S1, h1, h⟩ := bind_ok h
      have hk : c.kind = none := by cases c <;> first | exact hp.elim | rfl
      simpa [Fits, List.filterMap_cons, hk] using ih tape S1 h
    · cases c <;> first | exact (hp trivial).elim | skip
      · cases tape with
        | nil => cases h
        | cons d tape =>
          cases d with
          | triple => cases h
          | sharing d =>
            obtain ⟨S1, h1, h⟩ := bind_ok (show (share env s _ d S >>= fun S => run env s op trunc cs tape S) = _ from h)
            simpa [Fits, Cmd.kind, Draw.kind] using ih tape S1 h
      · cases tape with
        | nil => cases h
        | cons d tape =>
          cases d with
          | sharing => cases h
          | triple a b da db dc =>
            obtain ⟨S1, h1, h⟩ := bind_ok (show (product env s op trunc _ _ a b da db dc S >>= fun S => run env s op trunc cs tape S) = _ from h)
            simpa [Fits, Cmd.kind, Draw.kind] using ih tape S1 h

end SyMPC.Program
