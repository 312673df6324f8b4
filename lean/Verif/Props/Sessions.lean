import Verif.Props.Fss
import Verif.Props.Spdz
import Verif.Props.Session

/-!
# C89: sessions do not interfere

Sessions kept side by side, their calls in any order.  The crypto stores of all parties are in one world, as they are in
one process in the tests of the library.
-/

namespace SyMPC

/-! ## Specification -/

/-- No two of the sessions share the session of a party. -/
def Apart {ι : Type} (S : ι → Session) : Prop :=
  ∀ i j, i ≠ j → ∀ u ∈ (S i).rankToUuid, u ∉ (S j).rankToUuid

section Compare

variable {Key : Type} {ι : Type} [DecidableEq ι]

/-- Running calls of several sessions in the order given (as `runFss`); every outcome with its session. -/
def runFssShared (Y : Sycret Key) (env : Env) (S : ι → Session) :
    List (ι × FssCmd Key) → FssWorld Key → List (ι × FssEvent Key) × FssWorld Key
  | [], w => ([], w)
  | (i, .provide op keys) :: cs, w =>
    match fssGenerate (S i) op keys w with
    | .ok w => runFssShared Y env S cs w
    | .error _ => runFssShared Y env S cs w
  | (i, .compare n op keys x y) :: cs, w =>
    let (out, w) := fssOp Y env op keys x y w
    let (evs, w) := runFssShared Y env S cs w
    ((i, ⟨n, op, keys, x, y, out⟩) :: evs, w)

/-- what belongs to session `i` -/
def own {α : Type} (i : ι) (l : List (ι × α)) : List α := (l.filter fun e => e.1 = i).map (·.2)

/-- the comparison is of tensors of session `s` -/
def FssCmd.Of (s : Session) : FssCmd Key → Prop
  | .provide _ _ => True
  | .compare _ _ _ x _ => x.session = s

/-! ## Frame -/

omit [DecidableEq ι] in
/-- the two worlds agree on the stores of the parties of `s` -/
def FssWorld.AgreeOn (s : Session) (w w' : FssWorld Key) : Prop := ∀ p ∈ s.sessionPtrs, w p.uuid = w' p.uuid

/-- outside the parties of `s` the second world is the first -/
def FssWorld.Only (s : Session) (w w' : FssWorld Key) : Prop := ∀ u, u ∉ s.sessionPtrs.map (·.uuid) → w' u = w u

theorem set_agree {s : Session} {w w' : FssWorld Key} (h : w.AgreeOn s w') (u : Nat) (st : FssStore Key) :
    (w.set u st).AgreeOn s (w'.set u st) := by
  intro p hp
  unfold FssWorld.set
  split
  · rfl
  · exact h p hp

theorem foldl_agree {s : Session} (op : FssOp) (l : List (List Key × PartySession)) (hl : ∀ e ∈ l, e.2 ∈ s.sessionPtrs) :
    ∀ w w' : FssWorld Key, w.AgreeOn s w' →
      (l.foldl (fun w (p, t) => w.set t.uuid ((w t.uuid).add op p)) w).AgreeOn s
        (l.foldl (fun w (p, t) => w.set t.uuid ((w t.uuid).add op p)) w') := by
  induction l with
  | nil => intro w w' h; exact h
  | cons e l ih =>
    intro w w' h
    obtain ⟨p, t⟩ := e
    simp only [List.foldl_cons]
    refine ih (fun e he => hl e (by simp [he])) _ _ ?_
    rw [h t (hl (p, t) (by simp))]
    exact set_agree h _ _

theorem foldl_only {s : Session} (op : FssOp) (l : List (List Key × PartySession)) (hl : ∀ e ∈ l, e.2 ∈ s.sessionPtrs) :
    ∀ w : FssWorld Key, w.Only s (l.foldl (fun w (p, t) => w.set t.uuid ((w t.uuid).add op p)) w) := by
  induction l with
  | nil => intro w u _; rfl
  | cons e l ih =>
    intro w u hu
    obtain ⟨p, t⟩ := e
    simp only [List.foldl_cons]
    rw [ih (fun e he => hl e (by simp [he])) _ u hu]
    have : u ≠ t.uuid := fun h => hu (h ▸ List.mem_map_of_mem (hl (p, t) (by simp)))
    simp [FssWorld.set, this]

theorem generate_agree (s : Session) (op : FssOp) (keys : List (Key × Key)) (w w' : FssWorld Key) (h : w.AgreeOn s w') :
    (∃ e, fssGenerate s op keys w = .error e ∧ fssGenerate s op keys w' = .error e) ∨
    (∃ v v', fssGenerate s op keys w = .ok v ∧ fssGenerate s op keys w' = .ok v' ∧ v.AgreeOn s v') := by
  unfold fssGenerate
  dsimp only
  split
  · exact .inl ⟨_, rfl, rfl⟩
  · exact .inr ⟨_, _, rfl, rfl, foldl_agree op _ (fun e he => (List.of_mem_zip he).2) _ _ h⟩

theorem generate_only (s : Session) (op : FssOp) (keys : List (Key × Key)) (w v : FssWorld Key)
    (h : fssGenerate s op keys w = .ok v) : w.Only s v := by
  unfold fssGenerate at h
  dsimp only at h
  split at h
  · cases h
  · cases h
    exact foldl_only op _ (fun e he => (List.of_mem_zip he).2) _

theorem mapM_congr_mem {α β : Type} (f g : α → Py β) (l : List α) (h : ∀ a ∈ l, f a = g a) : l.mapM f = l.mapM g := by
  induction l with
  | nil => rfl
  | cons a l ih =>
    rw [List.mapM_cons, List.mapM_cons, h a (by simp), ih fun b hb => h b (by simp [hb])]

theorem maskAll_agree {n : Nat} (Y : Sycret Key) (env : Env) (op : FssOp) (x y : MPCTensor (Fin n → I64)) (w w' : FssWorld Key)
    (h : w.AgreeOn x.session w') : maskAllFss Y env w op x y = maskAllFss Y env w' op x y := by
  unfold maskAllFss
  dsimp only
  rw [mapM_congr_mem _ (fun (p, a, b) => maskBuilder Y env w' op p a b)]
  rintro ⟨p, a, b⟩ he
  have hp := (List.of_mem_zip he).1
  unfold maskBuilder
  rw [h p hp]

theorem evaluate_agree {n : Nat} (Y : Sycret Key) (s : Session) (op : FssOp) (b : Nat) (m : Fin n → I64) (p : PartySession)
    (hp : p ∈ s.sessionPtrs) (w w' : FssWorld Key) (h : w.AgreeOn s w') :
    (fssEvaluate Y op b m p w).1 = (fssEvaluate Y op b m p w').1 ∧
      (fssEvaluate Y op b m p w).2.AgreeOn s (fssEvaluate Y op b m p w').2 := by
  unfold fssEvaluate
  rw [h p hp]
  exact ⟨rfl, set_agree h _ _⟩

theorem evaluate_only {n : Nat} (Y : Sycret Key) (s : Session) (op : FssOp) (b : Nat) (m : Fin n → I64) (p : PartySession)
    (hp : p ∈ s.sessionPtrs) (w : FssWorld Key) : w.Only s (fssEvaluate Y op b m p w).2 := by
  intro u hu
  have : u ≠ p.uuid := fun h => hu (h ▸ List.mem_map_of_mem hp)
  simp [fssEvaluate, FssWorld.set, this]

theorem only_trans {s : Session} {w1 w2 w3 : FssWorld Key} (h : w1.Only s w2) (h' : w2.Only s w3) : w1.Only s w3 :=
  fun u hu => (h' u hu).trans (h u hu)

theorem evalBoth_agree {n : Nat} (Y : Sycret Key) (s : Session) (op : FssOp) (m : Fin n → I64) (w w' : FssWorld Key)
    (h : w.AgreeOn s w') :
    (evalBoth Y s op m w).1 = (evalBoth Y s op m w').1 ∧ (evalBoth Y s op m w).2.AgreeOn s (evalBoth Y s op m w').2 := by
  unfold evalBoth
  split
  next p0 p1 rest hp =>
    split
    · exact ⟨rfl, h⟩
    · obtain ⟨h1, h2⟩ := evaluate_agree Y s op 0 m p0 (by simp [hp]) w w' h
      obtain ⟨h3, h4⟩ := evaluate_agree Y s op 1 m p1 (by simp [hp]) _ _ h2
      dsimp only
      rw [h1, h3]
      exact ⟨rfl, h4⟩
  next => exact ⟨rfl, h⟩

theorem evalBoth_only {n : Nat} (Y : Sycret Key) (s : Session) (op : FssOp) (m : Fin n → I64) (w : FssWorld Key) :
    w.Only s (evalBoth Y s op m w).2 := by
  unfold evalBoth
  split
  next p0 p1 rest hp =>
    split
    · exact fun _ _ => rfl
    · exact only_trans (evaluate_only Y s op 0 m p0 (by simp [hp]) w) (evaluate_only Y s op 1 m p1 (by simp [hp]) _)
  next => exact fun _ _ => rfl

theorem fssOp_agree {n : Nat} (Y : Sycret Key) (env : Env) (op : FssOp) (keys : List (Key × Key)) (x y : MPCTensor (Fin n → I64))
    (w w' : FssWorld Key) (h : w.AgreeOn x.session w') :
    (fssOp Y env op keys x y w).1 = (fssOp Y env op keys x y w').1 ∧
      (fssOp Y env op keys x y w).2.AgreeOn x.session (fssOp Y env op keys x y w').2 := by
  unfold fssOp
  rcases generate_agree x.session op keys w w' h with ⟨e, h1, h2⟩ | ⟨v, v', h1, h2, hv⟩
  · rw [h1, h2]
    exact ⟨rfl, h⟩
  · rw [h1, h2]
    dsimp only
    rw [maskAll_agree Y env op x y v v' hv]
    split
    · exact ⟨rfl, hv⟩
    · unfold fssFinish
      split
      · exact ⟨rfl, hv⟩
      · obtain ⟨e1, e2⟩ := evalBoth_agree Y x.session op _ v v' hv
        dsimp only
        rw [e1]
        exact ⟨rfl, e2⟩

theorem fssOp_only {n : Nat} (Y : Sycret Key) (env : Env) (op : FssOp) (keys : List (Key × Key)) (x y : MPCTensor (Fin n → I64))
    (w : FssWorld Key) : w.Only x.session (fssOp Y env op keys x y w).2 := by
  unfold fssOp
  split
  · exact fun _ _ => rfl
  next v hv =>
    have h := generate_only _ _ _ _ _ hv
    split
    · exact h
    · unfold fssFinish
      split
      · exact h
      · exact only_trans h (evalBoth_only Y _ op _ v)

/-- a call of a session that shares no party with `s` leaves the stores of `s` as they are -/
theorem other_agree {s t : Session} {w w' v : FssWorld Key} (ht : w.Only t v) (hd : ∀ p ∈ s.sessionPtrs, p.uuid ∉ t.sessionPtrs.map (·.uuid))
    (h : w.AgreeOn s w') : v.AgreeOn s w' := fun p hp => (ht _ (hd p hp)).trans (h p hp)

/-! ## C89: comparisons -/

/-- C89: the outcomes of the comparisons of a session, and what is left in the stores of its parties, are the same whether
its calls are made alone or in any order with calls of other sessions, for all calls (also ones that fail) and all stores
at the start. -/
theorem C89_comparisons_alone (Y : Sycret Key) (env : Env) (S : ι → Session)
    (hptr : ∀ i, (S i).sessionPtrs.map (·.uuid) = (S i).rankToUuid) (hS : Apart S) (i : ι) (cs : List (ι × FssCmd Key))
    (hcs : ∀ c ∈ cs, c.2.Of (S c.1)) (w : FssWorld Key) :
    own i (runFssShared Y env S cs w).1 = (runFss Y env (S i) (own i cs) w).1 ∧
      ∀ u ∈ (S i).rankToUuid, (runFssShared Y env S cs w).2 u = (runFss Y env (S i) (own i cs) w).2 u := by
  have hd : ∀ j, j ≠ i → ∀ p ∈ (S i).sessionPtrs, p.uuid ∉ (S j).sessionPtrs.map (·.uuid) := by
    intro j hj p hp
    rw [hptr j]
    exact hS i j (Ne.symm hj) _ (hptr i ▸ List.mem_map_of_mem hp)
  have key : ∀ (cs : List (ι × FssCmd Key)), (∀ c ∈ cs, c.2.Of (S c.1)) → ∀ w w' : FssWorld Key, w.AgreeOn (S i) w' →
      own i (runFssShared Y env S cs w).1 = (runFss Y env (S i) (own i cs) w').1 ∧
        (runFssShared Y env S cs w).2.AgreeOn (S i) (runFss Y env (S i) (own i cs) w').2 := by
    intro cs
    induction cs with
    | nil => intro _ w w' h; exact ⟨rfl, h⟩
    | cons c cs ih =>
      intro hcs w w' h
      have ih := ih fun c hc => hcs c (by simp [hc])
      obtain ⟨j, c⟩ := c
      by_cases hj : j = i
      · subst hj
        have eown : own j ((j, c) :: cs) = c :: own j cs := by simp [own]
        rw [eown]
        cases c with
        | provide op keys =>
          simp only [runFssShared, runFss]
          rcases generate_agree (S j) op keys w w' h with ⟨e, h1, h2⟩ | ⟨v, v', h1, h2, hv⟩
          · rw [h1, h2]; exact ih w w' h
          · rw [h1, h2]; exact ih v v' hv
        | compare n op keys x y =>
          have hx : x.session = S j := hcs (j, .compare n op keys x y) (by simp)
          obtain ⟨h1, h2⟩ := fssOp_agree Y env op keys x y w w' (hx ▸ h)
          obtain ⟨h3, h4⟩ := ih _ _ (hx ▸ h2)
          simp only [runFssShared, runFss]
          refine ⟨?_, h4⟩
          rw [← h3, ← h1]
          simp [own]
      · have eown : own i ((j, c) :: cs) = own i cs := by simp [own, hj]
        rw [eown]
        cases c with
        | provide op keys =>
          simp only [runFssShared]
          split
          next v hv => exact ih _ _ (other_agree (generate_only _ _ _ _ _ hv) (hd j hj) h)
          next => exact ih _ _ h
        | compare n op keys x y =>
          have hx : x.session = S j := hcs (j, .compare n op keys x y) (by simp)
          simp only [runFssShared]
          obtain ⟨h3, h4⟩ := ih _ _ (other_agree (hx ▸ fssOp_only Y env op keys x y w) (hd j hj) h)
          refine ⟨?_, h4⟩
          rw [← h3]
          simp [own, hj]
  obtain ⟨h1, h2⟩ := key cs hcs w w fun _ _ => rfl
  refine ⟨h1, fun u hu => ?_⟩
  rw [← hptr i] at hu
  obtain ⟨p, hp, rfl⟩ := List.mem_map.mp hu
  exact h2 p hp

end Compare

section Multiply

variable {K Kw : Type} [DecidableEq K] {A B C : K → Type}
  [∀ k, AddCommGroup (A k)] [∀ k, AddCommGroup (B k)] [∀ k, AddCommGroup (C k)] {ι : Type} [DecidableEq ι]

/-- Running calls of several sessions in the order given (as `runMul`); every outcome with its session. -/
def runMulShared (env : Env) (S : ι → Session) (op : (k : K) → Kw → A k → B k → C k) (trunc : (k : K) → Config → C k → C k)
    (rnd : (k : K) → Nat → TripleRand (A k) (B k) (C k)) :
    List (ι × MulCmd K Kw A B) → World K A B C → Py (List (ι × MulEvent K Kw A B C))
  | [], _ => .ok []
  | (i, .provide k kw) :: cs, w => do
    let w ← generatePrimitives env (S i) op rnd k kw w
    runMulShared env S op trunc rnd cs w
  | (i, .mul k kw x y) :: cs, w => do
    let (out, w) ← mulMaster env op trunc rnd k kw w x y
    let evs ← runMulShared env S op trunc rnd cs w
    return (i, ⟨k, kw, x, y, out⟩) :: evs

/-! ## Frame -/

/-- outside `U` the stores of the second world are those of the first -/
def World.Only (U : List Nat) (w w' : World K A B C) : Prop := ∀ u, u ∉ U → w'.stores u = w.stores u

omit [∀ k, AddCommGroup (A k)] [∀ k, AddCommGroup (B k)] [∀ k, AddCommGroup (C k)] in
theorem foldl_populate_only (k : K) (l : List (List (Triple (A k) (B k) (C k)) × PartySession)) :
    ∀ (w : World K A B C) (u : Nat), (∀ e ∈ l, e.2.uuid ≠ u) →
      (l.foldl (fun w (p, s) => w.populate s.uuid k p) w).stores u = w.stores u := by
  induction l with
  | nil => intro w u _; rfl
  | cons e l ih =>
    intro w u h
    obtain ⟨p, s⟩ := e
    rw [List.foldl_cons, ih _ u fun e he => h e (by simp [he])]
    have : u ≠ s.uuid := fun e => h (p, s) (by simp) e.symm
    simp [World.populate, this]

omit [∀ k, AddCommGroup (A k)] [∀ k, AddCommGroup (B k)] [∀ k, AddCommGroup (C k)] in
theorem generatePrimitives_only [∀ k, Sub (A k)] [∀ k, Sub (B k)] [∀ k, Sub (C k)] (env : Env) (s : Session)
    (op : (k : K) → Kw → A k → B k → C k)
    (rnd : (k : K) → Nat → TripleRand (A k) (B k) (C k)) (k : K) (kw : Kw) (w w' : World K A B C)
    (h : generatePrimitives env s op rnd k kw w = .ok w') : w.Only (s.sessionPtrs.map (·.uuid)) w' := by
  unfold generatePrimitives at h
  cases hg : getTriples env (op k kw) s.nrParties w.serial (rnd k w.serial) with
  | error e => rw [hg] at h; cases h
  | ok ps =>
    rw [hg] at h
    simp only [ok_bind] at h
    unfold transferPrimitives at h
    split at h
    · cases h
    · cases h
      intro u hu
      rw [foldl_populate_only]
      rintro ⟨p, t⟩ he rfl
      exact hu (List.mem_map_of_mem (List.of_mem_zip he).2)

omit [∀ k, AddCommGroup (A k)] [∀ k, AddCommGroup (B k)] [∀ k, AddCommGroup (C k)] in
theorem mulAll_only [∀ k, Add (C k)] (env : Env) (k : K) (op : A k → B k → C k) (trunc : Config → C k → C k) (eps : A k)
    (delta : B k) (us : List Nat) : ∀ (w w' : World K A B C) (zs : List (ShareTensor (C k) × Nat)),
      mulAll env k op trunc eps delta us w = .ok (zs, w') → w.Only us w' := by
  induction us with
  | nil => intro w w' zs h; cases h; exact fun _ _ => rfl
  | cons u us ih =>
    intro w w' zs h v hv
    unfold mulAll at h
    cases h1 : mulParties env k op trunc u eps delta w with
    | error e => rw [h1] at h; cases h
    | ok r =>
      obtain ⟨z, w1⟩ := r
      rw [h1] at h
      simp only [ok_bind] at h
      cases h2 : mulAll env k op trunc eps delta us w1 with
      | error e => rw [h2] at h; cases h
      | ok r =>
        obtain ⟨zs', w2⟩ := r
        rw [h2] at h
        simp only [ok_bind] at h
        cases h
        rw [ih _ _ _ h2 v (by simp at hv; exact hv.2)]
        unfold mulParties at h1
        cases hu : env u with
        | none => rw [hu] at h1; cases h1
        | some p =>
          rw [hu] at h1
          simp only [ok_bind] at h1
          cases hget : (w.stores u).get k true with
          | error e => rw [hget] at h1; cases h1
          | ok r =>
            obtain ⟨t, st⟩ := r
            rw [hget] at h1
            simp only [ok_bind] at h1
            cases h1
            have : v ≠ u := by simp at hv; exact hv.1
            simp [this]

theorem mulMaster_only (env : Env) (op : (k : K) → Kw → A k → B k → C k) (trunc : (k : K) → Config → C k → C k)
    (rnd : (k : K) → Nat → TripleRand (A k) (B k) (C k)) (k : K) (kw : Kw) (w w' : World K A B C)
    (x : MPCTensor (A k)) (y : MPCTensor (B k)) (out : MulOut (A k) (B k) (C k))
    (h : mulMaster env op trunc rnd k kw w x y = .ok (out, w')) (v : Nat)
    (h1 : v ∉ x.session.sessionPtrs.map (·.uuid)) (h2 : v ∉ x.session.rankToUuid) : w'.stores v = w.stores v := by
  unfold mulMaster at h
  cases hm : maskOrGenerate env op rnd k kw w x y with
  | error e => rw [hm] at h; cases h
  | ok r =>
    obtain ⟨masks, w1⟩ := r
    rw [hm] at h
    simp only [ok_bind] at h
    have e1 : w1.stores v = w.stores v := by
      unfold maskOrGenerate at hm
      split at hm
      · cases hm; rfl
      · cases hg : generatePrimitives env x.session op rnd k kw w with
        | error e => rw [hg] at hm; cases hm
        | ok w2 =>
          rw [hg] at hm
          simp only [ok_bind] at hm
          cases hk : maskAll env w2 k x y with
          | error e => rw [hk] at hm; cases hm
          | ok m =>
            rw [hk] at hm
            cases hm
            exact generatePrimitives_only env _ op rnd k kw w _ hg v h1
      · cases hm
    cases ha : (List.range x.session.nrParties).mapM (pyGet masks) with
    | error e => rw [ha] at h; cases h
    | ok l =>
      rw [ha] at h
      simp only [ok_bind] at h
      cases hb : ShareTensor.reconstruct (l.map (·.1)) with
      | error e => rw [hb] at h; cases h
      | ok eps =>
        rw [hb] at h
        simp only [ok_bind] at h
        cases hc : ShareTensor.reconstruct (l.map (·.2.1)) with
        | error e => rw [hc] at h; cases h
        | ok delta =>
          rw [hc] at h
          simp only [ok_bind] at h
          cases hd : mulAll env k (op k kw) (trunc k) eps delta x.session.rankToUuid w1 with
          | error e => rw [hd] at h; cases h
          | ok r =>
            obtain ⟨zs, w2⟩ := r
            rw [hd] at h
            simp only [ok_bind] at h
            cases he : MPCTensor.ofShares x.session (zs.map (·.1)) with
            | error e => rw [he] at h; cases h
            | ok result =>
              rw [he] at h
              cases h
              rw [mulAll_only env k _ _ eps delta _ _ _ _ hd v h2, e1]

omit [DecidableEq K] in
/-- the invariant of a session survives calls of sessions with other parties -/
theorem other_good (op : (k : K) → Kw → A k → B k → C k) (s : Session) (w w' : World K A B C) (q : K → List Nat)
    (kwOf : Nat → Kw) (ts : (k : K) → Nat → Nat → Triple (A k) (B k) (C k)) (hg : w.Good op s q kwOf ts)
    (hst : ∀ u ∈ s.rankToUuid, w'.stores u = w.stores u) (hser : w.serial ≤ w'.serial) : w'.Good op s q kwOf ts where
  stores := by
    intro r u hu k
    rw [hst u (List.mem_of_getElem? hu)]
    exact hg.stores r u hu k
  serial := hg.serial
  tags := hg.tags
  sums := hg.sums
  bound := fun k i hi => lt_of_lt_of_le (hg.bound k i hi) hser
  nodup := hg.nodup
  disjoint := hg.disjoint

/-- the products asked for, in order: session, operation and shapes, keyword arguments, operands -/
def asked : List (ι × MulCmd K Kw A B) → List (ι × (k : K) × Kw × MPCTensor (A k) × MPCTensor (B k))
  | [] => []
  | (_, .provide _ _) :: cs => asked cs
  | (i, .mul k kw x y) :: cs => (i, ⟨k, kw, x, y⟩) :: asked cs

/-- All sessions keep their invariant, and no triple is waiting in two of them. -/
structure AllGood (op : (k : K) → Kw → A k → B k → C k) (S : ι → Session) (kwAt : K → Kw) (w : World K A B C)
    (Q : ι → K → List Nat) : Prop where
  good : ∀ i, ∃ kwOf ts, w.Good op (S i) (Q i) kwOf ts ∧ ∀ k, ∀ n ∈ Q i k, kwOf n = kwAt k
  apart : ∀ i j, i ≠ j → ∀ k k' n, n ∈ Q i k → n ∉ Q j k'

theorem shared_run (env : Env) (S : ι → Session) (hlive : ∀ i, (S i).Live env) (hS : Apart S)
    (op : (k : K) → Kw → A k →+ B k →+ C k)
    (trunc : (k : K) → Config → C k → C k) (rnd : (k : K) → Nat → TripleRand (A k) (B k) (C k)) (kwAt : K → Kw)
    (cs : List (ι × MulCmd K Kw A B)) (hcs : ∀ c ∈ cs, c.2.Ok env (S c.1)) (hkw : ∀ c ∈ cs, c.2.KwIs kwAt) :
    ∀ (w : World K A B C) (Q : ι → K → List Nat), AllGood (fun k kw a b => op k kw a b) S kwAt w Q →
    ∃ (evs : List (ι × MulEvent K Kw A B C)) (ids : List Nat),
      runMulShared env S (fun k kw a b => op k kw a b) trunc rnd cs w = .ok evs ∧
      evs.map (fun e => (e.1, ⟨e.2.k, e.2.kw, e.2.x, e.2.y⟩)) = asked cs ∧
      (∀ e ∈ evs, e.2.out.result.session = S e.1 ∧ e.2.out.result.shares.map (·.sessionUuid) = (S e.1).rankToUuid.map some ∧
        ∃ zs, e.2.out.result.shares.map (·.tensor) = (if (S e.1).nrParties = 2 then zs.map (trunc e.2.k (S e.1).config) else zs) ∧
          zs.length = (S e.1).nrParties ∧ zs.sum = op e.2.k e.2.kw e.2.x.value e.2.y.value) ∧
      List.Forall₂ (fun (e : ι × MulEvent K Kw A B C) n => e.2.out.maskIds = List.replicate (S e.1).nrParties n ∧
        e.2.out.mulIds = List.replicate (S e.1).nrParties n) evs ids ∧ ids.Nodup ∧
      (∀ n ∈ ids, n < w.serial → ∃ i k, n ∈ Q i k) := by
  have hout : ∀ i j, i ≠ j → ∀ u ∈ (S j).rankToUuid, u ∉ (S i).sessionPtrs.map (·.uuid) ∧ u ∉ (S i).rankToUuid := by
    intro i j hij u hu
    rw [(hlive i).pointers]
    exact ⟨hS j i (Ne.symm hij) u hu, hS j i (Ne.symm hij) u hu⟩
  induction cs with
  | nil => intro w Q _; exact ⟨[], [], rfl, rfl, by simp, .nil, by simp, by simp⟩
  | cons c cs ih =>
    intro w Q hQ
    have ih := ih (fun c hc => hcs c (by simp [hc])) fun c hc => hkw c (by simp [hc])
    obtain ⟨i, c⟩ := c
    obtain ⟨kwOf, ts, hg, hkwOf⟩ := hQ.good i
    cases c with
    | provide k kw =>
      have hk0 : kw = kwAt k := hkw (i, .provide k kw) (by simp)
      obtain ⟨w1, ts1, hgen, hser1, hg1, hts, _, _⟩ := generate_good env (S i) (hlive i) _ rnd k kw w _ kwOf ts hg
      have hmem : ∀ k' n, n ∈ Function.update (Q i) k (Q i k ++ [w.serial]) k' → n ∈ Q i k' ∨ n = w.serial ∧ k' = k := by
        intro k' n hn
        by_cases hk : k' = k
        · subst hk
          simp only [Function.update_self, List.mem_append, List.mem_singleton] at hn
          rcases hn with h | h
          · exact .inl h
          · exact .inr ⟨h, rfl⟩
        · rw [Function.update_of_ne hk] at hn
          exact .inl hn
      have hbound : ∀ j k n, n ∈ Q j k → n < w.serial := by
        intro j k n hn
        obtain ⟨_, _, hgj, _⟩ := hQ.good j
        exact hgj.bound k n hn
      obtain ⟨evs, ids, h1, h2, h3, h4, h5, h6⟩ := ih w1 (Function.update Q i (Function.update (Q i) k (Q i k ++ [w.serial])))
        { good := by
            intro j
            by_cases hj : j = i
            · subst hj
              rw [Function.update_self]
              refine ⟨_, ts1, hg1, ?_⟩
              intro k' n hn
              rcases hmem k' n hn with h | ⟨rfl, rfl⟩
              · rw [Function.update_of_ne (by have := hbound _ _ n h; omega)]
                exact hkwOf _ n h
              · rw [Function.update_self]
                exact hk0
            · rw [Function.update_of_ne hj]
              obtain ⟨kwj, tj, hgj, hkj⟩ := hQ.good j
              exact ⟨kwj, tj, other_good _ _ w w1 _ _ _ hgj
                (fun u hu => generatePrimitives_only env _ _ rnd k kw w w1 hgen u (hout i j (Ne.symm hj) u hu).1) (by omega), hkj⟩
          apart := by
            intro a b hab k1 k2 n hn hn'
            by_cases ha : a = i
            · subst ha
              rw [Function.update_self] at hn
              rw [Function.update_of_ne (Ne.symm hab)] at hn'
              rcases hmem k1 n hn with h | ⟨rfl, -⟩
              · exact hQ.apart _ _ hab _ _ _ h hn'
              · exact absurd (hbound _ _ _ hn') (lt_irrefl _)
            · rw [Function.update_of_ne ha] at hn
              by_cases hb : b = i
              · subst hb
                rw [Function.update_self] at hn'
                rcases hmem k2 n hn' with h | ⟨rfl, -⟩
                · exact hQ.apart _ _ hab _ _ _ hn h
                · exact absurd (hbound _ _ _ hn) (lt_irrefl _)
              · rw [Function.update_of_ne hb] at hn'
                exact hQ.apart _ _ hab _ _ _ hn hn' }
      refine ⟨evs, ids, ?_, h2, h3, h4, h5, ?_⟩
      · simp only [runMulShared, hgen, ok_bind]
        exact h1
      · intro n hn hlt
        obtain ⟨j, k', hk'⟩ := h6 n hn (by omega)
        by_cases hj : j = i
        · subst hj
          rw [Function.update_self] at hk'
          rcases hmem k' n hk' with h | ⟨rfl, -⟩
          · exact ⟨_, _, h⟩
          · omega
        · rw [Function.update_of_ne hj] at hk'
          exact ⟨j, k', hk'⟩
    | mul k kw x y =>
      obtain ⟨hxs, hys, hx, hy⟩ := hcs (i, .mul k kw x y) (by simp)
      have hk0 : kw = kwAt k := hkw (i, .mul k kw x y) (by simp)
      obtain ⟨out, w', q', kwOf', ts', n, zs, a, b, g1, g2, g3, g4, g5, g6, g7, g8, g9, g10, _, _, g11, g12, g13, g14, g15⟩ :=
        mul_step env (S i) (hlive i) op trunc rnd w _ kwOf ts hg k kw x y hx hy hxs hys
      have hnot : ∀ j k', n ∉ Function.update Q i q' j k' := by
        intro j k' hn
        by_cases hj : j = i
        · subst hj
          rw [Function.update_self] at hn
          exact g6 _ hn
        · rw [Function.update_of_ne hj] at hn
          rcases g8 with ⟨h, _⟩ | ⟨_, h, _⟩
          · exact hQ.apart _ _ hj _ _ _ hn h
          · obtain ⟨_, _, hgj, _⟩ := hQ.good j
            have := hgj.bound _ _ hn
            omega
      obtain ⟨evs, ids, h1, h2, h3, h4, h5, h6⟩ := ih w' (Function.update Q i q')
        { good := by
            intro j
            by_cases hj : j = i
            · subst hj
              rw [Function.update_self]
              refine ⟨kwOf', ts', g2, fun k' m hm => ?_⟩
              have := g5 k' m hm
              rw [g7 m (hg.bound _ m this)]
              exact hkwOf _ _ this
            · rw [Function.update_of_ne hj]
              obtain ⟨kwj, tj, hgj, hkj⟩ := hQ.good j
              refine ⟨kwj, tj, other_good _ _ w w' _ _ _ hgj (fun u hu => ?_) g3, hkj⟩
              have := hout i j (Ne.symm hj) u hu
              exact mulMaster_only env _ trunc rnd k kw w w' x y out g1 u (hxs ▸ this.1) (hxs ▸ this.2)
          apart := by
            intro a b hab k1 k2 m hm hm'
            have sub : ∀ c k', m ∈ Function.update Q i q' c k' → m ∈ Q c k' := by
              intro c k' h
              by_cases hc : c = i
              · subst hc
                rw [Function.update_self] at h
                exact g5 _ _ h
              · rwa [Function.update_of_ne hc] at h
            exact hQ.apart _ _ hab _ _ _ (sub _ _ hm) (sub _ _ hm') }
      refine ⟨(i, ⟨k, kw, x, y, out⟩) :: evs, n :: ids, ?_, ?_, ?_, .cons ⟨g9, g10⟩ h4, ?_, ?_⟩
      · simp only [runMulShared, g1, ok_bind, h1]
        rfl
      · rw [List.map_cons, h2]
        rfl
      · intro e he
        rcases List.mem_cons.mp he with rfl | he
        · refine ⟨g11, g12, zs, g13, g14, ?_⟩
          have hkwOf : kwOf' n = kw := by
            rcases g8 with ⟨h, _⟩ | ⟨_, _, h, _⟩
            · rw [g7 n (hg.bound _ n h), hkwOf _ _ h, hk0]
            · exact h
          rw [g15, hkwOf, sub_self, add_zero]
        · exact h3 e he
      · rw [List.nodup_cons]
        refine ⟨fun hi => ?_, h5⟩
        obtain ⟨j, k', hk'⟩ := h6 n hi g4
        exact hnot j k' hk'
      · intro m hm hlt
        rcases List.mem_cons.mp hm with rfl | hm
        · rcases g8 with ⟨h, _⟩ | ⟨_, h, _⟩
          · exact ⟨i, k, h⟩
          · omega
        · obtain ⟨j, k', hk'⟩ := h6 m hm (by omega)
          by_cases hj : j = i
          · subst hj
            rw [Function.update_self] at hk'
            exact ⟨_, _, g5 _ _ hk'⟩
          · rw [Function.update_of_ne hj] at hk'
            exact ⟨_, _, hk'⟩

/-! ## C89: products -/

/-- C89: calls of any number of sessions, of two or more parties each, in any order: every product asked for is carried out
in its own session, its shares add up to the product of its operands (before the two-party truncation) and belong to the
parties of its session; all parties of the session use one triple for it, and no triple is used for two products, whatever
sessions they are in. -/
theorem C89_products_shared (env : Env) (S : ι → Session) (hlive : ∀ i, (S i).Live env) (hS : Apart S)
    (op : (k : K) → Kw → A k →+ B k →+ C k)
    (trunc : (k : K) → Config → C k → C k) (rnd : (k : K) → Nat → TripleRand (A k) (B k) (C k)) (kwAt : K → Kw)
    (cs : List (ι × MulCmd K Kw A B)) (hcs : ∀ c ∈ cs, c.2.Ok env (S c.1)) (hkw : ∀ c ∈ cs, c.2.KwIs kwAt) :
    ∃ (evs : List (ι × MulEvent K Kw A B C)) (ids : List Nat),
      runMulShared env S (fun k kw a b => op k kw a b) trunc rnd cs World.empty = .ok evs ∧
      evs.map (fun e => (e.1, ⟨e.2.k, e.2.kw, e.2.x, e.2.y⟩)) = asked cs ∧
      (∀ e ∈ evs, e.2.out.result.session = S e.1 ∧ e.2.out.result.shares.map (·.sessionUuid) = (S e.1).rankToUuid.map some ∧
        ∃ zs, e.2.out.result.shares.map (·.tensor) = (if (S e.1).nrParties = 2 then zs.map (trunc e.2.k (S e.1).config) else zs) ∧
          zs.length = (S e.1).nrParties ∧ zs.sum = op e.2.k e.2.kw e.2.x.value e.2.y.value) ∧
      List.Forall₂ (fun (e : ι × MulEvent K Kw A B C) n => e.2.out.maskIds = List.replicate (S e.1).nrParties n ∧
        e.2.out.mulIds = List.replicate (S e.1).nrParties n) evs ids ∧ ids.Nodup := by
  cases cs with
  | nil => exact ⟨[], [], rfl, rfl, by simp, .nil, by simp⟩
  | cons c cs =>
    obtain ⟨k0, _⟩ : ∃ k : K, True := by
      obtain ⟨_, c⟩ := c
      cases c with
      | provide k _ => exact ⟨k, trivial⟩
      | mul k _ _ _ => exact ⟨k, trivial⟩
    obtain ⟨evs, ids, h1, h2, h3, h4, h5, -⟩ := shared_run env S hlive hS op trunc rnd kwAt (c :: cs) hcs hkw World.empty
      (fun _ _ => []) ⟨fun i => ⟨fun _ => kwAt k0,
        fun k _ _ => ⟨0, ⟨0, none, {}, 0⟩, ⟨0, none, {}, 0⟩, ⟨0, none, {}, 0⟩⟩, good_empty .., by simp⟩, by simp⟩
    exact ⟨evs, ids, h1, h2, h3, h4, h5⟩

end Multiply

/-! ## Sessions set up one after the other -/

/-- The sessions after `setup_mpc` (`session_manager.py:36-58`) was called for each in turn; `fresh i` are the uuids drawn in the
call number `i`. -/
def setupAll (fresh : Nat → Nat → Nat) (ss : List Session) : List Session := ss.mapIdx fun i s => s.setupSessions (fresh i)

/-- The sessions known to the parties after that. -/
def envAll (fresh : Nat → Nat → Nat) (ss : List Session) (env : Env) : Env :=
  (setupAll fresh ss).foldl (fun e s => e.register s.sessionPtrs) env

theorem register_flat (l : List Session) (env : Env) :
    l.foldl (fun e s => e.register s.sessionPtrs) env = env.register (l.flatMap (·.sessionPtrs)) := by
  induction l generalizing env with
  | nil => rfl
  | cons s l ih =>
    rw [List.foldl_cons, ih, List.flatMap_cons]
    simp [Env.register, List.foldl_append]

theorem register_other (l : List PartySession) (e : Env) (u : Nat) (h : ∀ q ∈ l, q.uuid ≠ u) : e.register l u = e u := by
  induction l generalizing e with
  | nil => rfl
  | cons b l ih =>
    change (Env.register (e.set b) l) u = _
    rw [ih _ fun q hq => h q (by simp [hq])]
    simp [Env.set, Ne.symm (h b (by simp))]

theorem register_mem (l : List PartySession) (e : Env) (p : PartySession) (hp : p ∈ l)
    (huniq : ∀ q ∈ l, q.uuid = p.uuid → q = p) : e.register l p.uuid = some p := by
  induction l generalizing e with
  | nil => simp at hp
  | cons a l ih =>
    change (Env.register (e.set a) l) p.uuid = some p
    by_cases hpl : p ∈ l
    · exact ih _ hpl fun q hq => huniq q (by simp [hq])
    · have hap : p = a := by
        rcases List.mem_cons.mp hp with h | h
        · exact h
        · exact absurd h hpl
      subst hap
      rw [register_other l _ _ fun q hq hqa => hpl (huniq q (by simp [hq]) hqa ▸ hq)]
      simp [Env.set]

/-- C89: sessions of at least two parties each (the same clients may take part in several), set up one after the other with
fresh uuids: each is ready for use, its parties know their ranks, and no two share the session of a party.  With two parties
it is also fit for comparisons.  These are the assumptions of the two theorems above. -/
theorem C89_setup_sessions (ss : List Session)
    (hss : ∀ s ∈ ss, ∃ registered ps ring config protocol, 2 ≤ ps.length ∧
      Session.new registered (some ps) ring config protocol = .ok s)
    (fresh : Nat → Nat → Nat) (hfresh : ∀ i r j r', fresh i r = fresh j r' → i = j ∧ r = r') (env : Env) :
    (setupAll fresh ss).length = ss.length ∧
    (∀ s ∈ setupAll fresh ss, s.Live (envAll fresh ss env) ∧ (s.nrParties = 2 → s.Pair (envAll fresh ss env))) ∧
    Apart fun i : Fin (setupAll fresh ss).length => (setupAll fresh ss)[i] := by
  have hnew : ∀ s ∈ ss, s.sessionPtrs = [] ∧ 2 ≤ s.nrParties ∧ s.parties.length = s.nrParties ∧
      ∃ t, getTypeFromRing s.ringSize = .ok t := by
    intro s hs
    obtain ⟨_, ps, _, _, _, hps, h⟩ := hss s hs
    obtain ⟨p, t, ht, rfl⟩ := sessionNew_inv h
    exact ⟨rfl, hps, rfl, t, ht⟩
  have hmem : ∀ s ∈ setupAll fresh ss, ∃ i s0, ss[i]? = some s0 ∧ s0 ∈ ss ∧ s = s0.setupSessions (fresh i) := by
    intro s hs
    obtain ⟨i, hi, rfl⟩ := List.mem_mapIdx.mp hs
    exact ⟨i, ss[i], List.getElem?_eq_getElem hi, List.getElem_mem hi, rfl⟩
  have hptrs : ∀ i, ∀ s0 ∈ ss, (s0.setupSessions (fresh i)).sessionPtrs
      = s0.parties.zipIdx.map fun (_, r) => s0.copy r (fresh i r) := by
    intro i s0 h0
    simp [Session.setupSessions, (hnew s0 h0).1]
  have hranks : ∀ i, ∀ s0 ∈ ss, (s0.setupSessions (fresh i)).rankToUuid = (List.range s0.nrParties).map (fresh i) := by
    intro i s0 h0
    rw [← (hnew s0 h0).2.2.1]
    simp only [Session.setupSessions, List.map_map]
    rw [List.zipIdx_eq_zip_range', ← List.range_eq_range']
    conv_rhs => rw [← List.map_snd_zip (l₁ := s0.parties) (l₂ := List.range s0.parties.length) (by simp), List.map_map]
    rfl
  have hlook : ∀ i s0, ss[i]? = some s0 → ∀ r < s0.nrParties, envAll fresh ss env (fresh i r) = some (s0.copy r (fresh i r)) := by
    intro i s0 h0 r hr
    have hm0 : s0 ∈ ss := List.mem_of_getElem? h0
    unfold envAll
    rw [register_flat]
    refine register_mem _ env (s0.copy r (fresh i r)) ?_ ?_
    · rw [List.mem_flatMap]
      refine ⟨s0.setupSessions (fresh i), ?_, ?_⟩
      · obtain ⟨hi, hi'⟩ := List.getElem?_eq_some_iff.mp h0
        exact List.mem_mapIdx.mpr ⟨i, hi, by rw [hi']⟩
      · rw [hptrs i s0 hm0, List.mem_map]
        rw [← (hnew s0 hm0).2.2.1] at hr
        exact ⟨(s0.parties[r], r), by simp [List.mem_zipIdx_iff_getElem?, hr], rfl⟩
    · intro q hq hqu
      rw [List.mem_flatMap] at hq
      obtain ⟨s, hs, hq⟩ := hq
      obtain ⟨j, s1, hj, h1, rfl⟩ := hmem s hs
      rw [hptrs j s1 h1, List.mem_map] at hq
      obtain ⟨⟨c, r'⟩, _, rfl⟩ := hq
      obtain ⟨rfl, rfl⟩ := hfresh _ _ _ _ hqu
      rw [h0] at hj
      cases hj
      rfl
  refine ⟨by simp [setupAll], ?_, ?_⟩
  · intro s hs
    obtain ⟨i, s0, h0, hm0, rfl⟩ := hmem s hs
    obtain ⟨e1, e2, e3, e4⟩ := hnew s0 hm0
    have hlive : (s0.setupSessions (fresh i)).Live (envAll fresh ss env) :=
      { ptrs := by
          rw [hptrs i s0 hm0]
          intro h
          have := congrArg List.length h
          simp at this
          rw [this] at e3
          simp at e3
          omega
        two := e2
        parties := e3
        ranks := by
          rw [hranks i s0 hm0]
          simp [Session.setupSessions]
        ring := e4
        known := by
          intro u hu
          rw [hranks i s0 hm0, List.mem_map] at hu
          obtain ⟨r, hr, rfl⟩ := hu
          exact ⟨_, hlook i s0 h0 r (List.mem_range.mp hr), rfl, rfl⟩
        ranked := by
          intro r u hu
          rw [hranks i s0 hm0] at hu
          obtain ⟨hr, rfl⟩ := List.getElem?_eq_some_iff.mp hu
          simp only [List.length_map, List.length_range] at hr
          simp only [List.getElem_map, List.getElem_range]
          exact ⟨_, hlook i s0 h0 r hr, rfl, rfl⟩
        distinct := by
          rw [hranks i s0 hm0]
          exact List.nodup_range.map fun a b h => (hfresh _ _ _ _ h).2
        pointers := by
          rw [hptrs i s0 hm0]
          rfl }
    refine ⟨hlive, fun h2 => { toLive := hlive, pair := h2, objects := ?_ }⟩
    intro p hp
    rw [hptrs i s0 hm0, List.mem_map] at hp
    obtain ⟨⟨c, r⟩, hr, rfl⟩ := hp
    refine hlook i s0 h0 r ?_
    rw [← e3]
    exact (List.getElem?_eq_some_iff.mp (List.mem_zipIdx_iff_getElem?.mp hr)).1
  · intro i j hij u hu hu'
    have hi : i.val < ss.length := by simpa [setupAll] using i.isLt
    have hj : j.val < ss.length := by simpa [setupAll] using j.isLt
    have ei : (setupAll fresh ss)[i] = ss[i.val].setupSessions (fresh i.val) := List.getElem_mapIdx ..
    have ej : (setupAll fresh ss)[j] = ss[j.val].setupSessions (fresh j.val) := List.getElem_mapIdx ..
    dsimp only at hu hu'
    rw [ei, hranks _ _ (List.getElem_mem hi), List.mem_map] at hu
    rw [ej, hranks _ _ (List.getElem_mem hj), List.mem_map] at hu'
    obtain ⟨r, _, rfl⟩ := hu
    obtain ⟨r', _, h⟩ := hu'
    exact hij (Fin.ext (hfresh _ _ _ _ h).1.symm)

/-! ## Concrete cases -/

/-- two sessions of the same two clients 10 and 11 and a third, of three parties -/
def exSeveral : List Session :=
  [[10, 11], [10, 11], [12, 10, 11]].filterMap fun ps => (Session.new ["FSS"] (some ps)).toOption

/-- uuids for the examples -/
def exFresh (i r : Nat) : Nat := Nat.pair i r

def exShared (i : Nat) : Session := (setupAll exFresh exSeveral).getD i exPair

def exSharedEnv : Env := envAll exFresh exSeveral fun _ => none

/-- the assumptions of `C89_setup_sessions` -/
example : exSeveral.length = 3 ∧ (∀ s ∈ exSeveral, ∃ registered ps ring config protocol, 2 ≤ ps.length ∧
      Session.new registered (some ps) ring config protocol = .ok s) ∧
    ∀ i r j r', exFresh i r = exFresh j r' → i = j ∧ r = r' := by
  refine ⟨rfl, ?_, fun i r j r' h => Nat.pair_eq_pair.mp h⟩
  intro s hs
  obtain ⟨ps, hps, h⟩ := List.mem_filterMap.mp hs
  refine ⟨["FSS"], ps, 2 ^ 64, none, none, ?_, ?_⟩
  · simp only [List.mem_cons, List.not_mem_nil, or_false] at hps
    rcases hps with rfl | rfl | rfl <;> decide
  · cases hn : Session.new ["FSS"] (some ps) with
    | error e => rw [hn] at h; cases h
    | ok t => rw [hn] at h; cases h; rfl

/-- a secret of the session `s` with given shares -/
def exIn {T : Type} (s : Session) (l : List T) : MPCTensor T :=
  ⟨s, (l.zip s.rankToUuid).map fun (t, u) => ⟨t, some u, {}, 2 ^ 64⟩⟩

/-- calls of the three sessions mixed: a triple provided for session 0 is not used by session 1 -/
example : (match runMulShared exSharedEnv exShared (fun (_ : Unit) (_ : Unit) (a b : I64) => AddMonoidHom.mul a b) (fun _ _ z => z) exRnd
      [(0, .provide () ()), (1, .mul () () (exIn (exShared 1) [1, 5]) (exIn (exShared 1) [3, 4])),
       (2, .mul () () (exIn (exShared 2) [-4, 2, 1]) (exIn (exShared 2) [1, 2, 3])),
       (0, .mul () () (exIn (exShared 0) [10, 0]) (exIn (exShared 0) [-3, 5]))] World.empty with
    | .ok evs => evs.map fun e => (e.1, e.2.out.mulIds, e.2.out.result.reconstruct)
    | .error _ => []) = [(1, [1, 1], .ok 42), (2, [2, 2, 2], .ok (-6)), (0, [0, 0], .ok 20)] := by
  decide +kernel

/-- the values of a comparison -/
def exShown (e : FssEvent (BitVec 32 × BitVec 32)) : Py (List I64) :=
  match e.out with
  | .ok out => out.result.reconstruct.map fun v => (List.range 2).map fun i => if h : i < e.n then v ⟨i, h⟩ else 0
  | .error err => .error err

/-- comparisons of the two sessions of the same clients mixed: a short batch of keys provided for session 0 makes its first
comparison fail, and does not disturb session 1 -/
example : ((runFssShared (exSycret (fun m α => decide (SignedLe m α)) 123456) exSharedEnv exShared
      [(0, .provide .eq [exKey 1 1]),
       (1, .compare 2 .eq [exKey 9 4000000000, exKey 8 1] (exIn (exShared 1) [fun i => ![3, 8] i + 77, fun _ => BitVec.ofInt 64 (-77)])
         (exIn (exShared 1) [fun i => ![4, 8] i, fun _ => 0])),
       (0, .compare 2 .eq [exKey 9 4000000000, exKey 8 1] (exIn (exShared 0) [fun i => ![3, 8] i + 77, fun _ => BitVec.ofInt 64 (-77)])
         (exIn (exShared 0) [fun i => ![4, 8] i, fun _ => 0]))] .empty).1.map fun e =>
    (e.1, exShown e.2)) = [(1, .ok [0, 65536]), (0, .error .valueError)] := by
  decide +kernel

end SyMPC
