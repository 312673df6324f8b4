import Verif.Model.Heap
import Verif.Props.Wraps

/-! # C28: dividing does not change the operand -/

namespace SyMPC

/-- The same program on values: a statement appends its result and changes nothing. -/
def HCmd.value (fl : ℚ → ℚ) (env : Env) (s : Session) (c : HCmd) (ts : List (MPCTensor I64)) : Py (List (MPCTensor I64)) := do
  let t ← (match c with
    | .secret v draws => MPCTensor.ofSecret env s v draws
    | .addSecret op i j => do
      let a ← pyGet ts i
      let b ← pyGet ts j
      MPCTensor.applyPrivateLin (P := Empty) env op a b
    | .addPublic op i y => do
      let a ← pyGet ts i
      MPCTensor.applyPublicLin env op a y
    | .divide i rnd d => do
      let a ← pyGet ts i
      let (z, _) ← publicDivide fl env rnd a d
      return z : Py (MPCTensor I64))
  return ts ++ [t]

/-- A program on values. -/
def runValues (fl : ℚ → ℚ) (env : Env) (s : Session) : List HCmd → List (MPCTensor I64) → Py (List (MPCTensor I64))
  | [], ts => .ok ts
  | c :: cs, ts => do
    let ts ← c.value fl env s ts
    runValues fl env s cs ts

/-- the statement is not a division -/
def HCmd.NoDivide : HCmd → Prop
  | .divide .. => False
  | _ => True

/-- the tensors as values -/
def derefAll (st : List HTensor × Heap) : List (MPCTensor I64) := st.1.map (·.deref st.2)

/-- every tensor is of session `s` and its pointers are allocated -/
def HeapOk (s : Session) (st : List HTensor × Heap) : Prop := ∀ t ∈ st.1, t.session = s ∧ ∀ p ∈ t.ptrs, p < st.2.next

/-! ## Allocation -/

theorem allocAll_spec (h : Heap) (ss : List (ShareTensor I64)) :
    (h.allocAll ss).1.map (h.allocAll ss).2.cells = ss ∧ h.next ≤ (h.allocAll ss).2.next ∧
      (∀ p < h.next, (h.allocAll ss).2.cells p = h.cells p) ∧ (∀ p ∈ (h.allocAll ss).1, h.next ≤ p ∧ p < (h.allocAll ss).2.next) := by
  induction ss generalizing h with
  | nil => simp [Heap.allocAll]
  | cons a ss ih =>
    obtain ⟨h1, h2, h3, h4⟩ := ih (h.alloc a).2
    simp only [Heap.allocAll]
    have hn : (h.alloc a).2.next = h.next + 1 := rfl
    have hc : ∀ p, (h.alloc a).2.cells p = if p = h.next then a else h.cells p := fun p => rfl
    have h0 : (h.alloc a).1 = h.next := rfl
    rw [hn] at h2 h3 h4
    refine ⟨?_, by omega, ?_, ?_⟩
    · rw [List.map_cons, h1, h0, h3 _ (by omega), hc, if_pos rfl]
    · intro p hp
      rw [h3 p (by omega), hc, if_neg (by omega)]
    · intro p hp
      rcases List.mem_cons.mp hp with rfl | hp
      · rw [h0]; omega
      · have := h4 p hp
        omega

theorem deref_congr {h h' : Heap} {t : HTensor} (hc : ∀ p ∈ t.ptrs, h'.cells p = h.cells p) : t.deref h' = t.deref h := by
  unfold HTensor.deref
  congr 1
  exact List.map_congr_left hc

theorem pyGet_map {α β : Type} (f : α → β) (l : List α) (i : Nat) : pyGet (l.map f) i = (pyGet l i).map f := by
  unfold pyGet
  rw [List.getElem?_map]
  cases l[i]? <;> rfl

theorem pyGet_mem {α : Type} {l : List α} {i : Nat} {a : α} (h : pyGet l i = .ok a) : a ∈ l := by
  unfold pyGet at h
  cases hl : l[i]? with
  | none => rw [hl] at h; cases h
  | some b =>
    rw [hl] at h
    cases h
    exact List.mem_of_getElem? hl

/-- what one heap operation must satisfy to agree with its value-level counterpart -/
def Agrees (s : Session) (h : Heap) (r : Py (HTensor × Heap)) (v : Py (MPCTensor I64)) : Prop :=
  match r, v with
  | .error e, .error e' => e = e'
  | .ok (t, h'), .ok z => t.deref h' = z ∧ h.next ≤ h'.next ∧ (∀ p < h.next, h'.cells p = h.cells p) ∧
      t.session = s ∧ ∀ p ∈ t.ptrs, p < h'.next
  | _, _ => False

theorem agrees_alloc (s : Session) (h : Heap) (v : Py (MPCTensor I64)) (hs : ∀ z, v = .ok z → z.session = s) :
    Agrees s h (v >>= fun z => .ok (⟨s, (h.allocAll z.shares).1⟩, (h.allocAll z.shares).2)) v := by
  cases v with
  | error e => exact rfl
  | ok z =>
    obtain ⟨h1, h2, h3, h4⟩ := allocAll_spec h z.shares
    refine ⟨?_, h2, h3, rfl, fun p hp => (h4 p hp).2⟩
    unfold HTensor.deref
    dsimp only
    rw [h1, ← hs z rfl]

theorem ofShares_session {T : Type} {s : Session} {l : List (ShareTensor T)} {z : MPCTensor T}
    (h : MPCTensor.ofShares s l = .ok z) : z = ⟨s, l⟩ := by
  unfold MPCTensor.ofShares at h
  split at h
  · cases h
  · split at h
    · cases h
    · cases h; rfl

theorem ofSecret_session {env : Env} {s : Session} {v : FixedPointEncoder.Val} {draws : Nat → I64} {z : MPCTensor I64}
    (h : MPCTensor.ofSecret env s v draws = .ok z) : z.session = s := by
  unfold MPCTensor.ofSecret at h
  split at h
  · cases h
  · cases h1 : ShareTensor.ofPublic (T := I64) v s.config (2 ^ 64) with
    | error e => rw [h1] at h; cases h
    | ok sec =>
      rw [h1] at h
      change (generateShares env sec s.nrParties draws >>= _) = _ at h
      cases h2 : generateShares env sec s.nrParties draws with
      | error e => rw [h2] at h; cases h
      | ok shs =>
        rw [h2] at h
        change (if shs = [] then _ else _) = _ at h
        split at h
        · cases h
        · cases h3 : ShareTensor.distributeShares s shs with
          | error e => rw [h3] at h; cases h
          | ok l => rw [h3] at h; cases h; rfl

theorem applyPrivateLin_session {env : Env} {op : MPCTensor.LinOp} {x y z : MPCTensor I64}
    (h : MPCTensor.applyPrivateLin (P := Empty) env op x y = .ok z) : z.session = x.session := by
  unfold MPCTensor.applyPrivateLin at h
  cases h1 : MPCTensor.checkPrivate x.session y.session with
  | error e => rw [h1] at h; cases h
  | ok u =>
    rw [h1] at h
    change ((x.shares.zip y.shares).mapM (fun p : ShareTensor I64 × ShareTensor I64 =>
      MPCTensor.shareOp (P := Empty) env op p.1 (.inr p.2)) >>= _) = _ at h
    cases h2 : (x.shares.zip y.shares).mapM (fun p : ShareTensor I64 × ShareTensor I64 =>
      MPCTensor.shareOp (P := Empty) env op p.1 (.inr p.2)) with
    | error e => rw [h2] at h; cases h
    | ok l =>
      rw [h2] at h
      rw [ofShares_session h]

/-- One statement agrees with its value-level counterpart, with two parties or when it is not a division. -/
theorem step_agrees (fl : ℚ → ℚ) (env : Env) (s : Session) (c : HCmd) (hc : s.nrParties = 2 ∨ c.NoDivide)
    (st : List HTensor × Heap) (hst : HeapOk s st) :
    (match c.step fl env s st, c.value fl env s (derefAll st) with
      | .error e, .error e' => e = e'
      | .ok st', .ok vs => derefAll st' = vs ∧ HeapOk s st' ∧ ∃ t, st'.1 = st.1 ++ [t] ∧
          ∀ u ∈ st.1, u.deref st'.2 = u.deref st.2
      | _, _ => False) := by
  obtain ⟨ts, h⟩ := st
  have main : ∀ (r : Py (HTensor × Heap)) (v : Py (MPCTensor I64)), Agrees s h r v →
      (match (r >>= fun p => .ok (ts ++ [p.1], p.2) : Py (List HTensor × Heap)),
          (v >>= fun z => .ok (derefAll (ts, h) ++ [z]) : Py (List (MPCTensor I64))) with
        | .error e, .error e' => e = e'
        | .ok st', .ok vs => derefAll st' = vs ∧ HeapOk s st' ∧ ∃ t, st'.1 = ts ++ [t] ∧
            ∀ u ∈ ts, u.deref st'.2 = u.deref h
        | _, _ => False) := by
    intro r v hag
    match r, v, hag with
    | .error e, .error e', hag => exact hag
    | .ok (t, h'), .ok z, ⟨a1, a2, a3, a4, a5⟩ =>
      have hold : ∀ u ∈ ts, u.deref h' = u.deref h := fun u hu => deref_congr fun p hp => a3 p ((hst u hu).2 p hp)
      refine ⟨?_, ?_, t, rfl, hold⟩
      · unfold derefAll
        dsimp only
        rw [List.map_append, List.map_cons, List.map_nil, a1]
        congr 1
        exact List.map_congr_left hold
      · intro u hu
        rcases List.mem_append.mp hu with hu | hu
        · exact ⟨(hst u hu).1, fun p hp => ((hst u hu).2 p hp).trans_le a2⟩
        · rw [List.mem_singleton] at hu
          subst hu
          exact ⟨a4, a5⟩
  have get : ∀ i (f : HTensor → Py (HTensor × Heap)) (g : MPCTensor I64 → Py (MPCTensor I64)),
      (∀ t ∈ ts, Agrees s h (f t) (g (t.deref h))) → Agrees s h (pyGet ts i >>= f) (pyGet (derefAll (ts, h)) i >>= g) := by
    intro i f g hfg
    unfold derefAll
    dsimp only
    rw [pyGet_map]
    cases hp : pyGet ts i with
    | error e => exact rfl
    | ok t => exact hfg t (pyGet_mem hp)
  cases c with
  | secret v draws =>
    refine main _ _ ?_
    exact agrees_alloc s h _ fun z hz => ofSecret_session hz
  | addSecret op i j =>
    refine main _ _ (get i _ _ fun a ha => get j _ _ fun b hb => ?_)
    have hsa := (hst a ha).1
    have := agrees_alloc s h (MPCTensor.applyPrivateLin (P := Empty) env op (a.deref h) (b.deref h))
      fun z hz => by rw [applyPrivateLin_session hz]; exact hsa
    unfold HTensor.applyPrivateLin
    rw [hsa]
    exact this
  | addPublic op i y =>
    refine main _ _ (get i _ _ fun a ha => ?_)
    obtain ⟨sess, ptrs⟩ := a
    obtain ⟨hsa, hpa⟩ := hst _ ha
    dsimp only at hsa hpa
    subst hsa
    unfold HTensor.applyPublicLin MPCTensor.applyPublicLin HTensor.deref
    dsimp only
    cases ptrs with
    | nil => exact rfl
    | cons p0 rest =>
      change Agrees sess h _ (MPCTensor.shareOp env op (h.cells p0) (.inl y) >>= fun s0' =>
        MPCTensor.ofShares sess (s0' :: rest.map h.cells))
      dsimp only
      cases h1 : MPCTensor.shareOp env op (h.cells p0) (.inl y) with
      | error e => exact rfl
      | ok s0 =>
        have hrest : rest.map (h.alloc s0).2.cells = rest.map h.cells := by
          apply List.map_congr_left
          intro p hp
          have := hpa p (List.mem_cons_of_mem _ hp)
          change (if p = h.next then _ else _) = _
          rw [if_neg (by omega)]
        have hhd : (h.alloc s0).2.cells (h.alloc s0).1 = s0 := if_pos rfl
        change Agrees sess h (MPCTensor.ofShares sess (((h.alloc s0).1 :: rest).map (h.alloc s0).2.cells) >>= _)
          (MPCTensor.ofShares sess (s0 :: rest.map h.cells))
        rw [List.map_cons, hrest, hhd]
        cases h2 : MPCTensor.ofShares sess (s0 :: rest.map h.cells) with
        | error e => exact rfl
        | ok z =>
          rw [ofShares_session h2]
          refine ⟨?_, Nat.le_succ _, ?_, rfl, ?_⟩
          · unfold HTensor.deref
            dsimp only
            rw [List.map_cons, hrest, hhd]
          · intro p hp
            exact if_neg (by omega)
          · intro p hp
            change p < h.next + 1
            rcases List.mem_cons.mp hp with rfl | hp
            · exact Nat.lt_succ_self _
            · have := hpa p (List.mem_cons_of_mem _ hp)
              omega
  | divide i rnd d =>
    have hn : s.nrParties = 2 := by
      rcases hc with hc | hc
      · exact hc
      · exact hc.elim
    refine main _ _ (get i _ _ fun a ha => ?_)
    obtain ⟨hsa, hpa⟩ := hst a ha
    have hdiv : SyMPC.publicDivide fl env rnd (a.deref h) d
        = (MPCTensor.ofShares s ((a.deref h).shares.map (ShareTensor.div (floordiv · (BitVec.ofInt 64 d))))
          >>= fun res => .ok (res, a.deref h)) := by
      unfold SyMPC.publicDivide
      have : (a.deref h).session = s := hsa
      dsimp only
      rw [this, if_pos hn]
      rfl
    unfold HTensor.publicDivide
    rw [hdiv, hsa]
    cases h2 : MPCTensor.ofShares s ((a.deref h).shares.map (ShareTensor.div (floordiv · (BitVec.ofInt 64 d)))) with
    | error e => exact rfl
    | ok z =>
      have hz : z.session = s := by rw [ofShares_session h2]
      change Agrees s h (if s.nrParties = 2 then _ else _) (.ok z)
      rw [if_pos hn]
      exact agrees_alloc s h (.ok z) fun z' hz' => by cases hz'; exact hz

/-- C28 (partial): with two parties every program that shares secrets, adds, subtracts (also public values) and divides
behaves as if tensors were values: each statement yields the value of its operation and no statement changes a tensor that
exists already.  The same holds for any number of parties as long as nothing is divided.
Missing: divisions with three or more parties, see `C28_operand_changed` and `C28_alias_changed`. -/
theorem C28_programs_on_values_partial (fl : ℚ → ℚ) (env : Env) (s : Session) (cs : List HCmd)
    (hcs : s.nrParties = 2 ∨ ∀ c ∈ cs, c.NoDivide) (st : List HTensor × Heap) (hst : HeapOk s st) :
    (match runHeap fl env s cs st, runValues fl env s cs (derefAll st) with
      | .error e, .error e' => e = e'
      | .ok st', .ok vs => derefAll st' = vs ∧ HeapOk s st' ∧ ∃ new, st'.1 = st.1 ++ new ∧
          ∀ u ∈ st.1, u.deref st'.2 = u.deref st.2
      | _, _ => False) := by
  induction cs generalizing st with
  | nil => exact ⟨rfl, hst, [], by simp, fun _ _ => rfl⟩
  | cons c cs ih =>
    have h1 := step_agrees fl env s c (hcs.imp id fun h => h c (by simp)) st hst
    rw [runHeap, runValues]
    match hr : c.step fl env s st, hv : c.value fl env s (derefAll st), h1 with
    | .error e, .error e', h1 => exact h1
    | .ok st1, .ok vs, h1 =>
      obtain ⟨a1, a2, t, a3, a4⟩ := h1
      subst a1
      have h2 := ih (hcs.imp id fun h c' hc' => h c' (by simp [hc'])) st1 a2
      simp only [ok_bind]
      match hr2 : runHeap fl env s cs st1, hv2 : runValues fl env s cs (derefAll st1), h2 with
      | .error e, .error e', h2 => exact h2
      | .ok st2, .ok vs2, h2 =>
        obtain ⟨b1, b2, new, b3, b4⟩ := h2
        refine ⟨b1, b2, t :: new, by rw [b3, a3]; simp, ?_⟩
        intro u hu
        rw [b4 u (by rw [a3]; simp [hu]), a4 u hu]

/-! ## Three or more parties -/

theorem write_notMem (ps : List (Nat × ShareTensor I64)) (h : Heap) (a : Nat) (ha : a ∉ ps.map (·.1)) :
    (h.write ps).cells a = h.cells a ∧ (h.write ps).next = h.next := by
  induction ps generalizing h with
  | nil => exact ⟨rfl, rfl⟩
  | cons p ps ih =>
    obtain ⟨b, sh⟩ := p
    simp only [List.map_cons, List.mem_cons, not_or] at ha
    obtain ⟨h1, h2⟩ := ih { h with cells := fun c => if c = b then sh else h.cells c } ha.2
    refine ⟨?_, h2⟩
    rw [Heap.write, h1]
    exact if_neg ha.1

theorem write_next (ps : List (Nat × ShareTensor I64)) (h : Heap) : (h.write ps).next = h.next := by
  induction ps generalizing h with
  | nil => rfl
  | cons p ps ih => rw [Heap.write, ih]

theorem write_map (ptrs : List Nat) (ss : List (ShareTensor I64)) (h : Heap) (hl : ptrs.length = ss.length) (hnd : ptrs.Nodup) :
    ptrs.map (h.write (ptrs.zip ss)).cells = ss := by
  induction ptrs generalizing h ss with
  | nil => cases ss with
    | nil => rfl
    | cons s ss => simp at hl
  | cons p ps ih =>
    cases ss with
    | nil => simp at hl
    | cons s ss =>
      rw [List.nodup_cons] at hnd
      rw [List.zip_cons_cons, Heap.write, List.map_cons, ih ss _ (by simpa using hl) hnd.2]
      congr 1
      rw [(write_notMem _ _ p ?_).1]
      · exact if_pos rfl
      · intro hm
        rw [List.map_fst_zip (by simp at hl; omega)] at hm
        exact hnd.1 hm

/-- C28 (partial), three or more parties: a division replaces the shares of its operand by their quotients, its result
shares all objects but the first with the operand, and every tensor that shares no object with the operand keeps its
value.  The value of the result is that of `C27_public_divide_pow2_partial`. -/
theorem C28_three_parties_partial (fl : ℚ → ℚ) (env : Env) (s : Session) (hs : s.Live env) (hn : 3 ≤ s.nrParties)
    (rnd : WrapRand) (h : Heap) (t : HTensor) (hts : t.session = s) (hwf : (t.deref h).WF env) (hnd : t.ptrs.Nodup)
    (halloc : ∀ p ∈ t.ptrs, p < h.next) (d : Int) :
    ∃ z h' res x', HTensor.publicDivide fl env rnd h t d = .ok (z, h') ∧
      SyMPC.publicDivide fl env rnd (t.deref h) d = .ok (res, x') ∧ z.deref h' = res ∧
      (t.deref h').shares.map (·.tensor) = (t.deref h).shares.map (fun sh => floordiv sh.tensor (BitVec.ofInt 64 d)) ∧
      z.ptrs.tail = t.ptrs.tail ∧
      ∀ u : HTensor, (∀ p ∈ u.ptrs, p < h.next ∧ p ∉ t.ptrs) → u.deref h' = u.deref h := by
  obtain ⟨n, hn'⟩ : ∃ n, s.nrParties = n + 3 := ⟨s.nrParties - 3, by omega⟩
  obtain ⟨res, x', bs, wr, wz, a1, a2, a3, a4, a5, a6, a7, b1, b2, b3, b4⟩ :=
    divide_core fl env s hs n hn' rnd (t.deref h) hwf hts d
  obtain ⟨s0, rest, hres⟩ : ∃ s0 rest, res.shares = s0 :: rest := by
    cases hr : res.shares with
    | nil => exact absurd hr (WF.nonempty a2)
    | cons s0 rest => exact ⟨s0, rest, rfl⟩
  have hlx : t.ptrs.length = x'.shares.length := by
    have := congrArg List.length a7
    simpa [HTensor.deref] using this.symm
  refine ⟨⟨t.session, h.next :: t.ptrs.tail⟩, ((h.write (t.ptrs.zip x'.shares)).alloc s0).2, res, x', ?_, a1, ?_, ?_,
    rfl, ?_⟩
  · unfold HTensor.publicDivide
    rw [a1]
    change (if t.session.nrParties = 2 then _ else _) = _
    rw [hts, if_neg (by omega), hres]
    change Except.ok _ = _
    simp only [Heap.alloc, write_next]
  · have htail : t.ptrs.tail.map ((h.write (t.ptrs.zip x'.shares)).alloc s0).2.cells = rest := by
      have e1 : t.ptrs.tail.map ((h.write (t.ptrs.zip x'.shares)).alloc s0).2.cells
          = t.ptrs.tail.map (h.write (t.ptrs.zip x'.shares)).cells := by
        apply List.map_congr_left
        intro p hp
        refine if_neg ?_
        rw [write_next]
        have := halloc p (List.mem_of_mem_tail hp)
        omega
      rw [e1, List.map_tail, write_map _ _ _ hlx hnd, ← a6, hres]
      rfl
    obtain ⟨rs, rsh⟩ := res
    dsimp only at hres a3
    subst hres
    unfold HTensor.deref
    dsimp only
    rw [List.map_cons, htail, hts, a3]
    congr 2
    exact if_pos (write_next _ _).symm
  · have e : t.deref ((h.write (t.ptrs.zip x'.shares)).alloc s0).2 = t.deref (h.write (t.ptrs.zip x'.shares)) := by
      apply deref_congr
      intro p hp
      refine if_neg ?_
      rw [write_next]
      have := halloc p hp
      omega
    rw [e]
    unfold HTensor.deref
    dsimp only
    rw [write_map _ _ _ hlx hnd, a7]
    simp [HTensor.deref]
  · intro u hu
    apply deref_congr
    intro p hp
    obtain ⟨h1, h2⟩ := hu p hp
    have e : ((h.write (t.ptrs.zip x'.shares)).alloc s0).2.cells p = (h.write (t.ptrs.zip x'.shares)).cells p := by
      refine if_neg ?_
      rw [write_next]
      omega
    rw [e]
    refine (write_notMem _ _ p ?_).1
    intro hm
    rw [List.map_fst_zip (by omega)] at hm
    exact h2 hm

/-- run a program with the three parties of `exSession` and open tensor `i` -/
def exHeapOpen (cs : List HCmd) (i : Nat) : Py I64 := do
  let (ts, h) ← runHeap f32 exEnv exSession cs ([], ⟨fun _ => ⟨0, none, {}, 0⟩, 0⟩)
  let t ← pyGet ts i
  (t.deref h).reconstruct

/-- fixed randomness for the examples -/
def exWrapRand : WrapRand := ⟨77, fun k => BitVec.ofNat 64 (k + 5), fun _ => 9⟩

/-- `x = 6.0` -/
def exSix : HCmd := .secret (.float 6) fun k => BitVec.ofNat 64 (1000 * k + 1000)

/-- C28 fails with three parties: after `z = x / 2` the operand `x`, which held 6.0, holds 3.0. -/
theorem C28_operand_changed :
    exHeapOpen [exSix] 0 = .ok (BitVec.ofNat 64 (6 * 2 ^ 16)) ∧
    exHeapOpen [exSix, .divide 0 exWrapRand 2] 1 = .ok (BitVec.ofNat 64 (3 * 2 ^ 16)) ∧
    exHeapOpen [exSix, .divide 0 exWrapRand 2] 0 = .ok (BitVec.ofNat 64 (3 * 2 ^ 16)) := by decide +kernel

/-- With three parties a division also changes tensors computed earlier from the operand with a public value: `y = x + 1`
holds 7.0, and about 4.008 after `z = x / 2`. -/
theorem C28_alias_changed :
    exHeapOpen [exSix, .addPublic .add 0 (.float 1)] 1 = .ok (BitVec.ofNat 64 (7 * 2 ^ 16)) ∧
    exHeapOpen [exSix, .addPublic .add 0 (.float 1), .divide 0 exWrapRand 2] 1
      = .ok (BitVec.ofNat 64 (4 * 2 ^ 16 + 500)) := by decide +kernel

/-- With three parties a second division of the same operand changes the result of the first: `z = x / 2` holds 3.0. -/
theorem C28_result_changed :
    exHeapOpen [exSix, .divide 0 exWrapRand 2, .divide 0 exWrapRand 2] 1 ≠ .ok (BitVec.ofNat 64 (3 * 2 ^ 16)) ∧
    exHeapOpen [exSix, .divide 0 exWrapRand 2, .divide 0 exWrapRand 2] 2 ≠ .ok (BitVec.ofNat 64 (3 * 2 ^ 16)) := by
  decide +kernel

/-- The hypotheses of `C28_programs_on_values_partial` and `C28_three_parties_partial` can be met. -/
example : HeapOk exPair ([], ⟨fun _ => ⟨0, none, {}, 0⟩, 0⟩) ∧ exPair.nrParties = 2 := ⟨by simp [HeapOk], rfl⟩

example : (HTensor.deref ⟨fun p => ⟨BitVec.ofNat 64 (p * p), some (100 + p), {}, 2 ^ 64⟩, 3⟩ ⟨exSession, [0, 1, 2]⟩).WF exEnv :=
  ⟨exReady, rfl⟩

end SyMPC
