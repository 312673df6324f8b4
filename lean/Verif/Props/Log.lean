import Verif.Model.Log
import Verif.Props.Spdz
import Verif.Props.Fss

/-!
# C50: replaying the log of requests for primitives
-/

namespace SyMPC

variable {O K Kw : Type} [DecidableEq O] [DecidableEq K] {A B C : K → Type}

/-! ## What a log says -/

/-- The keyword arguments of the entries of a log for the key `k`, in order. -/
def keyLog (ops : List (O × List (K × Kw))) (k : K) : List Kw := ((ops.flatMap (·.2)).filter (·.1 = k)).map (·.2)

/-- The keyword arguments of the requests of a computation for the key `k`, in order. -/
def requests (rs : List (Request K Kw A B)) (k : K) : List Kw := (rs.filter (·.k = k)).map (·.kw)

/-- A dictionary whose entries are filed under the right name. -/
def Filed (opOf : K → O) (ops : List (O × List (K × Kw))) : Prop :=
  (ops.map (·.1)).Nodup ∧ ∀ o ∈ ops, ∀ e ∈ o.2, opOf e.1 = o.1

omit [DecidableEq K] in
theorem appendOp_names (o : O) (e : K × Kw) (ops : List (O × List (K × Kw))) :
    (appendOp o e ops).map (·.1) = if o ∈ ops.map (·.1) then ops.map (·.1) else ops.map (·.1) ++ [o] := by
  induction ops with
  | nil => simp [appendOp]
  | cons a ops ih =>
    obtain ⟨o', l⟩ := a
    unfold appendOp
    by_cases h : o' = o
    · simp [h]
    · rw [if_neg h, List.map_cons, ih]
      simp only [List.map_cons, List.mem_cons, Ne.symm h, false_or]
      split <;> simp

omit [DecidableEq K] in
theorem Filed.append {opOf : K → O} {ops : List (O × List (K × Kw))} (h : Filed opOf ops) (k : K) (kw : Kw) :
    Filed opOf (appendOp (opOf k) (k, kw) ops) := by
  constructor
  · rw [appendOp_names]
    split
    · exact h.1
    · rename_i hn
      exact List.Nodup.append h.1 (List.nodup_singleton _) (by simpa using hn)
  · have h2 := h.2
    clear h
    induction ops with
    | nil =>
      intro o ho e he
      simp only [appendOp, List.mem_singleton] at ho
      subst ho
      simp only [List.mem_singleton] at he
      subst he
      rfl
    | cons a ops ih =>
      obtain ⟨o', l⟩ := a
      intro o ho e he
      unfold appendOp at ho
      by_cases hn : o' = opOf k
      · rw [if_pos hn] at ho
        rcases List.mem_cons.mp ho with rfl | ho
        · simp only [List.mem_append, List.mem_singleton] at he
          rcases he with he | rfl
          · exact h2 (o', l) (by simp) e he
          · exact hn.symm
        · exact h2 o (by simp [ho]) e he
      · rw [if_neg hn] at ho
        rcases List.mem_cons.mp ho with rfl | ho
        · exact h2 (o', l) (by simp) e he
        · exact ih (fun o ho => h2 o (by simp [ho])) o ho e he

omit [DecidableEq O] in
theorem keyLog_cons (o : O) (l : List (K × Kw)) (ops : List (O × List (K × Kw))) (k : K) :
    keyLog ((o, l) :: ops) k = (l.filter (·.1 = k)).map (·.2) ++ keyLog ops k := by
  simp [keyLog]

theorem keyLog_append {opOf : K → O} {ops : List (O × List (K × Kw))} (h : Filed opOf ops) (k : K) (kw : Kw) (k' : K) :
    keyLog (appendOp (opOf k) (k, kw) ops) k' = keyLog ops k' ++ if k' = k then [kw] else [] := by
  obtain ⟨h1, h2⟩ := h
  induction ops with
  | nil =>
    by_cases hk : k' = k
    · simp [appendOp, keyLog, hk]
    · simp [appendOp, keyLog, hk, Ne.symm hk]
  | cons a ops ih =>
    obtain ⟨o', l⟩ := a
    unfold appendOp
    by_cases hn : o' = opOf k
    · rw [if_pos hn, keyLog_cons, keyLog_cons]
      by_cases hk : k' = k
      · have hempty : keyLog ops k' = [] := by
          unfold keyLog
          rw [List.map_eq_nil_iff, List.filter_eq_nil_iff]
          intro e he hek
          obtain ⟨o, ho, heo⟩ := List.mem_flatMap.mp he
          have := h2 o (by simp [ho]) e heo
          simp only [decide_eq_true_eq] at hek
          rw [hek, hk, ← hn] at this
          rw [List.map_cons, List.nodup_cons] at h1
          exact h1.1 (List.mem_map.mpr ⟨o, ho, this.symm⟩)
        rw [hempty, if_pos hk]
        simp [hk]
      · simp [hk, Ne.symm hk]
    · rw [if_neg hn, keyLog_cons, keyLog_cons, ih (by
        rw [List.map_cons, List.nodup_cons] at h1
        exact h1.2) (fun o ho => h2 o (by simp [ho])), List.append_assoc]

variable [∀ k, AddCommGroup (A k)] [∀ k, AddCommGroup (B k)] [∀ k, AddCommGroup (C k)]

/-- the mask step succeeds when there is a triple -/
theorem maskAll_some (env : Env) (s : Session) (hs : s.Live env) (op : (k : K) → Kw → A k → B k → C k)
    (w : World K A B C) (q : K → List Nat)
    (kwOf : Nat → Kw) (ts : (k : K) → Nat → Nat → Triple (A k) (B k) (C k)) (hg : w.Good op s q kwOf ts) (k : K)
    (x : MPCTensor (A k)) (y : MPCTensor (B k)) (hx : x.WF env) (hy : y.WF env) (hxs : x.session = s) (hys : y.session = s)
    (i : Nat) (rest : List Nat) (hq : q k = i :: rest) : ∃ m, maskAll env w k x y = .ok m := by
  have hlx : x.shares.length = s.nrParties := by
    have := congrArg List.length hx.tags
    simpa [hxs, hs.ranks] using this
  have hly : y.shares.length = s.nrParties := by
    have := congrArg List.length hy.tags
    simpa [hys, hs.ranks] using this
  obtain ⟨M, hM, -⟩ := maskAll_ok env s hs op w q kwOf ts hg k x y hx hy hxs hys
    (fun r => x.shares.getD r ⟨0, none, {}, 0⟩) (fun r => y.shares.getD r ⟨0, none, {}, 0⟩)
    (list_eq_map_range _ _ _ hlx) (list_eq_map_range _ _ _ hly) (fun r => s.rankToUuid.getD r 0)
    (list_eq_map_range 0 _ _ hs.ranks) i rest hq
  exact ⟨_, hM⟩

/-- The operands of a request belong to the session `s`. -/
def Request.Ok (env : Env) (s : Session) (r : Request K Kw A B) : Prop :=
  r.x.session = s ∧ r.y.session = s ∧ r.x.WF env ∧ r.y.WF env

/-- What a request should deliver: a sharing of the product, each share truncated if there are two parties. -/
def Request.Delivers (s : Session) (op : (k : K) → Kw → A k →+ B k →+ C k) (trunc : (k : K) → Config → C k → C k)
    (r : Request K Kw A B) (out : Σ k, MPCTensor (C k)) : Prop :=
  ∃ res : MPCTensor (C r.k), out = ⟨r.k, res⟩ ∧ res.session = s ∧ res.shares.map (·.sessionUuid) = s.rankToUuid.map some ∧
    ∃ zs, res.shares.map (·.tensor) = (if s.nrParties = 2 then zs.map (trunc r.k s.config) else zs) ∧
      zs.length = s.nrParties ∧ zs.sum = op r.k r.kw r.x.value r.y.value

/-- a computation that starts without any primitives -/
theorem run_generating (env : Env) (s : Session) (hs : s.Live env) (opOf : K → O) (op : (k : K) → Kw → A k →+ B k →+ C k)
    (trunc : (k : K) → Config → C k → C k) (rnd : (k : K) → Nat → TripleRand (A k) (B k) (C k))
    (rs : List (Request K Kw A B)) (hrs : ∀ r ∈ rs, r.Ok env s) (p : Provider O K Kw) (hp : p.logging = true)
    (hf : Filed opOf p.ops) (w : World K A B C) (kwOf : Nat → Kw) (ts : (k : K) → Nat → Nat → Triple (A k) (B k) (C k))
    (hg : w.Good (fun k kw a b => op k kw a b) s (fun _ => []) kwOf ts) :
    ∃ outs p' w', runLogged env opOf (fun k kw a b => op k kw a b) rnd trunc rs p w = .ok (outs, p', w') ∧
      p'.logging = true ∧ Filed opOf p'.ops ∧ (∀ k, keyLog p'.ops k = keyLog p.ops k ++ requests rs k) ∧
      List.Forall₂ (Request.Delivers s op trunc) rs outs ∧
      ∃ kwOf' ts', w'.Good (fun k kw a b => op k kw a b) s (fun _ => []) kwOf' ts' := by
  induction rs generalizing p w kwOf ts with
  | nil => exact ⟨[], p, w, rfl, hp, hf, by simp [requests], .nil, kwOf, ts, hg⟩
  | cons r rs ih =>
    obtain ⟨hxs, hys, hx, hy⟩ := hrs r (by simp)
    obtain ⟨out, w1, q1, kwOf1, ts1, i, zs, a, b, g1, g2, -, -, g5, -, -, g8, -, -, -, -, g11, g12, g13, g14, g15⟩ :=
      mul_step env s hs op trunc rnd w _ kwOf ts hg r.k r.kw r.x r.y hx hy hxs hys
    have hq1 : q1 = fun _ => [] := by
      funext k
      exact List.eq_nil_iff_forall_not_mem.mpr fun j hj => by simpa using g5 k j hj
    rw [hq1] at g2
    have hrec : p.record (opOf r.k) (r.k, r.kw) = { p with ops := appendOp (opOf r.k) (r.k, r.kw) p.ops } := by
      simp [Provider.record, hp]
    obtain ⟨outs, p', w', e1, e2, e3, e4, e5, e6⟩ := ih (fun r hr => hrs r (by simp [hr]))
      { p with ops := appendOp (opOf r.k) (r.k, r.kw) p.ops } hp (hf.append r.k r.kw) w1 kwOf1 ts1 g2
    refine ⟨⟨r.k, out.result⟩ :: outs, p', w', ?_, e2, e3, ?_, .cons ⟨_, rfl, g11, g12, zs, g13, g14, ?_⟩ e5, e6⟩
    · unfold runLogged mulMasterLogged
      rw [g1, ok_bind]
      rw [maskAll_empty env s hs _ w _ kwOf ts hg r.k r.x r.y hx hy hxs hys rfl]
      simp only [pure_eq_ok, ok_bind, hrec, e1]
    · intro k
      rw [e4 k, keyLog_append hf, List.append_assoc]
      congr 1
      by_cases hk : k = r.k
      · simp [requests, hk]
      · simp [requests, hk, Ne.symm hk]
    · rcases g8 with ⟨h, -⟩ | ⟨-, -, h, -, -⟩
      · simp at h
      · rw [g15, h, sub_self, add_zero]

/-- a computation that finds all the primitives it needs, in the right order -/
theorem run_provided (env : Env) (s : Session) (hs : s.Live env) (opOf : K → O) (op : (k : K) → Kw → A k →+ B k →+ C k)
    (trunc : (k : K) → Config → C k → C k) (rnd : (k : K) → Nat → TripleRand (A k) (B k) (C k))
    (rs : List (Request K Kw A B)) (hrs : ∀ r ∈ rs, r.Ok env s) (p : Provider O K Kw) (w : World K A B C) (q : K → List Nat)
    (kwOf : Nat → Kw) (ts : (k : K) → Nat → Nat → Triple (A k) (B k) (C k))
    (hg : w.Good (fun k kw a b => op k kw a b) s q kwOf ts) (hq : ∀ k, (q k).map kwOf = requests rs k) :
    ∃ outs w', runLogged env opOf (fun k kw a b => op k kw a b) rnd trunc rs p w = .ok (outs, p, w') ∧
      w'.Good (fun k kw a b => op k kw a b) s (fun _ => []) kwOf ts ∧
      List.Forall₂ (Request.Delivers s op trunc) rs outs := by
  induction rs generalizing w q with
  | nil =>
    have : q = fun _ => [] := by
      funext k
      simpa [requests] using hq k
    exact ⟨[], w, rfl, this ▸ hg, .nil⟩
  | cons r rs ih =>
    obtain ⟨hxs, hys, hx, hy⟩ := hrs r (by simp)
    have hk := hq r.k
    have hreq : requests (r :: rs) r.k = r.kw :: requests rs r.k := by simp [requests]
    rw [hreq] at hk
    obtain ⟨i, rest, hi, hik, hrest⟩ : ∃ i rest, q r.k = i :: rest ∧ kwOf i = r.kw ∧ rest.map kwOf = requests rs r.k := by
      cases h : q r.k with
      | nil => rw [h] at hk; simp at hk
      | cons i rest =>
        rw [h] at hk
        simp only [List.map_cons, List.cons.injEq] at hk
        exact ⟨i, rest, rfl, hk.1, hk.2⟩
    obtain ⟨m, hm⟩ := maskAll_some env s hs _ w q kwOf ts hg r.k r.x r.y hx hy hxs hys i rest hi
    obtain ⟨out, w1, zs, h1, -, h3, -, -, -, -, h8, h9, h10, h11, h12, -⟩ := mul_core env s hs op trunc rnd w q kwOf ts hg r.k r.kw
      r.x r.y hx hy hxs hys i rest hi w (by
        intro m hm
        unfold maskOrGenerate
        rw [hm])
    obtain ⟨outs, w', e1, e2, e3⟩ := ih (fun r hr => hrs r (by simp [hr])) w1 _ h3 (by
      intro k
      by_cases hk' : k = r.k
      · subst hk'
        rw [Function.update_self, hrest]
      · rw [Function.update_of_ne hk', hq k]
        simp [requests, Ne.symm hk'])
    refine ⟨⟨r.k, out.result⟩ :: outs, w', ?_, e2, .cons ⟨_, rfl, h8, h9, zs, h10, h11, ?_⟩ e3⟩
    · unfold runLogged mulMasterLogged
      rw [h1, ok_bind, hm]
      simp only [pure_eq_ok, ok_bind, e1]
    · rw [h12, hik, sub_self, add_zero]

/-- replaying the entries of one name -/
theorem replayArgs_ok (env : Env) (s : Session) (hs : s.Live env) (opOf : K → O) (op : (k : K) → Kw → A k → B k → C k)
    (rnd : (k : K) → Nat → TripleRand (A k) (B k) (C k)) (l : List (K × Kw)) (p : Provider O K Kw) (hp : p.logging = false)
    (w : World K A B C) (q : K → List Nat) (kwOf : Nat → Kw) (ts : (k : K) → Nat → Nat → Triple (A k) (B k) (C k))
    (hg : w.Good op s q kwOf ts) :
    ∃ w' q' kwOf' ts', replayArgs env opOf op rnd s l p w = .ok (p, w') ∧ w'.Good op s q' kwOf' ts' ∧
      ∀ k, (q' k).map kwOf' = (q k).map kwOf ++ (l.filter (·.1 = k)).map (·.2) := by
  induction l generalizing w q kwOf ts with
  | nil => exact ⟨w, q, kwOf, ts, rfl, hg, by simp⟩
  | cons e l ih =>
    obtain ⟨k, kw⟩ := e
    obtain ⟨w1, ts1, h1, -, h3, -, -, -⟩ := generate_good env s hs op rnd k kw w q kwOf ts hg
    obtain ⟨w', q', kwOf', ts', e1, e2, e3⟩ := ih w1 _ _ ts1 h3
    refine ⟨w', q', kwOf', ts', ?_, e2, ?_⟩
    · unfold replayArgs generateLogged
      simp only [h1, ok_bind, pure_eq_ok, Provider.record, hp]
      exact e1
    · intro k'
      have hold : ∀ k', (q k').map (Function.update kwOf w.serial kw) = (q k').map kwOf := by
        intro k'
        refine List.map_congr_left fun j hj => ?_
        rw [Function.update_of_ne (by have := hg.bound k' j hj; omega)]
      rw [e3 k']
      by_cases hk : k' = k
      · subst hk
        rw [Function.update_self, List.map_append, hold]
        simp
      · rw [Function.update_of_ne hk, hold]
        simp [Ne.symm hk]

/-- replaying a log -/
theorem replayLog_ok (env : Env) (s : Session) (hs : s.Live env) (opOf : K → O) (op : (k : K) → Kw → A k → B k → C k)
    (rnd : (k : K) → Nat → TripleRand (A k) (B k) (C k)) (log : List (O × List (K × Kw))) (p : Provider O K Kw)
    (hp : p.logging = false) (w : World K A B C) (q : K → List Nat) (kwOf : Nat → Kw)
    (ts : (k : K) → Nat → Nat → Triple (A k) (B k) (C k)) (hg : w.Good op s q kwOf ts) :
    ∃ w' q' kwOf' ts', replayLog env opOf op rnd s log p w = .ok (p, w') ∧ w'.Good op s q' kwOf' ts' ∧
      ∀ k, (q' k).map kwOf' = (q k).map kwOf ++ keyLog log k := by
  induction log generalizing w q kwOf ts with
  | nil => exact ⟨w, q, kwOf, ts, rfl, hg, by simp [keyLog]⟩
  | cons o log ih =>
    obtain ⟨o, l⟩ := o
    obtain ⟨w1, q1, kwOf1, ts1, h1, h2, h3⟩ := replayArgs_ok env s hs opOf op rnd l p hp w q kwOf ts hg
    obtain ⟨w', q', kwOf', ts', e1, e2, e3⟩ := ih w1 q1 kwOf1 ts1 h2
    refine ⟨w', q', kwOf', ts', ?_, e2, ?_⟩
    · unfold replayLog
      rw [h1, ok_bind]
      exact e1
    · intro k
      rw [e3 k, h3 k, keyLog_cons, List.append_assoc]

/-- C50 (partial): take any computation made of products of two secrets, with any operations, shapes and keyword arguments, in
any live session.  The log of a first run, started without primitives, has for every key exactly the requests of the
computation.  After replaying it, a second run (the same operations, on any other secrets) succeeds, does not generate
anything (its own log stays empty), delivers the products, and leaves no primitives.  Missing: runs that start with primitives
in stock, see `C50_stocked_start`, comparisons by function secret sharing, see `C50_comparisons_generate`, and logs written to
a file, see `C50_log_lost`. -/
theorem C50_replay_partial (env : Env) (s : Session) (hs : s.Live env) (opOf : K → O)
    (op : (k : K) → Kw → A k →+ B k →+ C k) (trunc : (k : K) → Config → C k → C k)
    (rnd : (k : K) → Nat → TripleRand (A k) (B k) (C k)) (rs rs₂ : List (Request K Kw A B)) (hrs : ∀ r ∈ rs, r.Ok env s)
    (hrs₂ : ∀ r ∈ rs₂, r.Ok env s) (hsame : rs.map (fun r => (r.k, r.kw)) = rs₂.map (fun r => (r.k, r.kw))) :
    ∃ outs p w, runLogged env opOf (fun k kw a b => op k kw a b) rnd trunc rs (Provider.start ⟨false, []⟩) World.empty
        = .ok (outs, p, w) ∧
      List.Forall₂ (Request.Delivers s op trunc) rs outs ∧
      ∃ log, p.stop (fun _ => true) false = (.ok log, ⟨false, []⟩) ∧ (∀ k, keyLog log k = requests rs k) ∧
      ∃ w₂, replayLog env opOf (fun k kw a b => op k kw a b) rnd s log ⟨false, []⟩ w = .ok (⟨false, []⟩, w₂) ∧
      ∃ outs₂ w₃, runLogged env opOf (fun k kw a b => op k kw a b) rnd trunc rs₂ (Provider.start ⟨false, []⟩) w₂
          = .ok (outs₂, ⟨true, []⟩, w₃) ∧
        List.Forall₂ (Request.Delivers s op trunc) rs₂ outs₂ ∧
        ∀ u ∈ s.rankToUuid, ∀ k, (w₃.stores u k).getD [] = [] := by
  have hreq : ∀ k, requests rs k = requests rs₂ k := by
    intro k
    have e : ∀ l : List (Request K Kw A B), requests l k
        = ((l.map (fun r => (r.k, r.kw))).filter (·.1 = k)).map (·.2) := by
      intro l
      simp only [requests, List.filter_map, List.map_map]
      rfl
    rw [e, e, hsame]
  cases rs with
  | nil =>
    have h2 : rs₂ = [] := by simpa using hsame.symm
    subst h2
    exact ⟨[], _, _, rfl, .nil, [], rfl, by simp [keyLog, requests], _, rfl, [], _, rfl, .nil, fun u _ k => rfl⟩
  | cons r rs =>
    let kwOf : Nat → Kw := fun _ => r.kw
    let z : (k : K) → Nat → Nat → Triple (A k) (B k) (C k) := fun _ _ _ =>
      ⟨0, ⟨0, none, {}, 0⟩, ⟨0, none, {}, 0⟩, ⟨0, none, {}, 0⟩⟩
    obtain ⟨outs, p, w, e1, e2, -, e4, e5, kwOf1, ts1, e6⟩ := run_generating env s hs opOf op trunc rnd (r :: rs) hrs
      (Provider.start ⟨false, []⟩) rfl ⟨by simp [Provider.start], by simp [Provider.start]⟩ World.empty kwOf z (good_empty _ s kwOf z)
    have hlog : ∀ k, keyLog p.ops k = requests (r :: rs) k := by
      intro k
      rw [e4 k]
      simp [keyLog, Provider.start]
    obtain ⟨w₂, q, kwOf2, ts2, f1, f2, f3⟩ := replayLog_ok env s hs opOf (fun k kw a b => op k kw a b) rnd p.ops ⟨false, []⟩ rfl
      w _ kwOf1 ts1 e6
    obtain ⟨outs₂, w₃, g1, g2, g3⟩ := run_provided env s hs opOf op trunc rnd rs₂ hrs₂ (Provider.start ⟨false, []⟩) w₂ q kwOf2
      ts2 f2 (by
        intro k
        rw [f3 k, hlog k, ← hreq k]
        simp)
    refine ⟨outs, p, w, e1, e5, p.ops, by simp [Provider.stop], hlog, w₂, f1, outs₂, w₃, g1, g3, ?_⟩
    intro u hu k
    obtain ⟨i, hi⟩ := List.mem_iff_getElem?.mp hu
    simpa using g2.stores i u hi k

/-- Two products, of different operations, for the example. -/
def exRequests : List (Request Bool Unit (fun _ => I64) (fun _ => I64)) :=
  [⟨true, (), exSecret 1 2 3, exSecret 3 3 1⟩, ⟨false, (), exSecret 1 2 3, exSecret 1 1 1⟩,
   ⟨true, (), exSecret 2 2 3, exSecret 1 1 1⟩]

/-- product, or its opposite -/
def exSigned (k : Bool) (_ : Unit) : I64 →+ I64 →+ I64 := if k then AddMonoidHom.mul else -AddMonoidHom.mul

example : ∀ r ∈ exRequests, r.Ok exEnv exSession := by
  intro r hr
  simp only [exRequests, List.mem_cons, List.not_mem_nil, or_false] at hr
  rcases hr with rfl | rfl | rfl <;> exact ⟨rfl, rfl, exSecret_wf _ _ _, exSecret_wf _ _ _⟩

/-- the log and the values of the three products -/
example : ((runLogged exEnv (fun k : Bool => k) (fun k kw a b => exSigned k kw a b) (fun _ => exRnd ()) (fun _ _ z => z)
      exRequests (Provider.start ⟨false, []⟩) World.empty).toOption.map fun (outs, p, _) =>
        (outs.map fun o => o.2.reconstruct.toOption, p.ops))
    = some ([some 42, some (-18), some 21], [(true, [(true, ()), (true, ())]), (false, [(false, ())])]) := by
  decide +kernel

/-! ## What the log misses -/

/-- C50, the code disagrees: if the first run finds a primitive in stock, this use is not logged; after the replay, the second
run has to generate one. -/
theorem C50_stocked_start (env : Env) (s : Session) (hs : s.Live env) (opOf : K → O) (op : (k : K) → Kw → A k →+ B k →+ C k)
    (trunc : (k : K) → Config → C k → C k) (rnd : (k : K) → Nat → TripleRand (A k) (B k) (C k)) (r : Request K Kw A B)
    (hr : r.Ok env s) :
    ∃ w₀, replayLog env opOf (fun k kw a b => op k kw a b) rnd s [(opOf r.k, [(r.k, r.kw)])] ⟨false, []⟩ World.empty
        = .ok (⟨false, []⟩, w₀) ∧
    ∃ outs w, runLogged env opOf (fun k kw a b => op k kw a b) rnd trunc [r] ⟨true, []⟩ w₀ = .ok (outs, ⟨true, []⟩, w) ∧
    ∃ outs₂ w₂, runLogged env opOf (fun k kw a b => op k kw a b) rnd trunc [r] ⟨true, []⟩ w
      = .ok (outs₂, ⟨true, [(opOf r.k, [(r.k, r.kw)])]⟩, w₂) := by
  let kwOf : Nat → Kw := fun _ => r.kw
  let z : (k : K) → Nat → Nat → Triple (A k) (B k) (C k) := fun _ _ _ =>
    ⟨0, ⟨0, none, {}, 0⟩, ⟨0, none, {}, 0⟩, ⟨0, none, {}, 0⟩⟩
  obtain ⟨w₀, q, kwOf1, ts1, f1, f2, f3⟩ := replayLog_ok env s hs opOf (fun k kw a b => op k kw a b) rnd
    [(opOf r.k, [(r.k, r.kw)])] ⟨false, []⟩ rfl World.empty _ kwOf z (good_empty _ s kwOf z)
  obtain ⟨outs, w, g1, g2, -⟩ := run_provided env s hs opOf op trunc rnd [r] (by simpa using hr) ⟨true, []⟩ w₀ q kwOf1 ts1 f2 (by
    intro k
    rw [f3 k]
    by_cases hk : r.k = k <;> simp [keyLog, requests, hk])
  obtain ⟨hxs, hys, hx, hy⟩ := hr
  obtain ⟨out, w₂, -, -, -, -, -, -, -, h1, -⟩ := mul_step env s hs op trunc rnd w _ kwOf1 ts1 g2 r.k r.kw r.x r.y hx hy hxs hys
  refine ⟨w₀, f1, outs, w, g1, [⟨r.k, out.result⟩], w₂, ?_⟩
  unfold runLogged mulMasterLogged
  rw [h1, ok_bind, maskAll_empty env s hs _ w _ kwOf1 ts1 g2 r.k r.x r.y hx hy hxs hys rfl]
  simp [Provider.record, appendOp, runLogged, pure_eq_ok, ok_bind]

/-- C50, the code disagrees: a comparison generates keys even if the stores hold a batch that suffices, and the new batch is
left in the stores. -/
theorem C50_comparisons_generate {Key : Type} {n : Nat} (S : Sycret Key) {env : Env} (op : FssOp) (keys : List (Key × Key))
    (x y : MPCTensor (Fin n → I64)) (hs : x.session.Pair env) (hxy : y.session = x.session) (hx : x.WF env) (hy : y.WF env)
    (w : FssWorld Key) (B : FssOp → List (List (Key × Key))) (hw : w.Holds x.session B) (b : List (Key × Key))
    (hB : B op = [b]) (hb : b ≠ []) (hn : n ≤ b.length) :
    ∃ out w', fssOp S env op keys x y w = (.ok out, w') ∧
      w'.Holds x.session fun o => if o = op then [keys] else B o := by
  have hpush : FssStore.push (B op) keys = b :: [keys] := by
    rw [hB]
    cases b with
    | nil => exact absurd rfl hb
    | cons a l => simp [FssStore.push]
  obtain ⟨out, w', h1, -, -, h4⟩ := (fssOp_spec S op keys x y hs hxy hx hy w B hw b [keys] hpush).1 hn
  exact ⟨out, w', h1, h4⟩

example : ∃ (w : FssWorld (BitVec 32 × BitVec 32)) (B : _), w.Holds exPair B ∧ B .eq = [[exKey 1 1, exKey 1 2]] := by
  obtain ⟨w, -, h⟩ := fssGenerate_holds exPairPair .eq [exKey 1 1, exKey 1 2] .empty _ (holds_empty exPair)
  exact ⟨w, _, h, by simp [FssStore.push]⟩

omit [DecidableEq O] [DecidableEq K] in
/-- C50, the code disagrees: writing the log to a file fails if an entry cannot be written as JSON (the entries for products
contain the session), and then the log is lost. -/
theorem C50_log_lost (serializable : K × Kw → Bool) (p : Provider O K Kw) (o : O) (l : List (K × Kw)) (e : K × Kw)
    (ho : (o, l) ∈ p.ops) (he : e ∈ l) (hse : serializable e = false) :
    p.stop serializable true = (.error .typeError, ⟨false, []⟩) := by
  unfold Provider.stop
  rw [if_pos]
  refine ⟨rfl, ?_⟩
  simp only [List.all_eq_true, not_forall]
  exact ⟨(o, l), ho, e, he, by simp [hse]⟩

example : (Provider.stop (fun _ => false) true ⟨true, [("beaver_mul", [((), ())])]⟩).1 = .error .typeError := by
  decide

end SyMPC
