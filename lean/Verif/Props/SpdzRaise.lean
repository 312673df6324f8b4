import Verif.Model.SpdzRaise
import Verif.Props.Spdz

/-!
# C90: a product that is refused does no harm
-/

namespace SyMPC

variable {K Kw : Type} [DecidableEq K] {A B C : K → Type}
  [∀ k, AddCommGroup (A k)] [∀ k, AddCommGroup (B k)] [∀ k, AddCommGroup (C k)]

/-! ## Specification -/

/-- Running a history of calls in session `s`, the caller catching every exception; the outcomes of all calls in order (`none` for a
triple provided, `some` for a product). -/
def runMulR (env : Env) (s : Session) (op : (k : K) → Kw → Py (A k → B k → C k)) (trunc : (k : K) → Config → C k → C k)
    (rnd : (k : K) → Nat → TripleRand (A k) (B k) (C k)) :
    List (MulCmd K Kw A B) → World K A B C → List (Py (Option (MulEvent K Kw A B C)))
  | [], _ => []
  | .provide k kw :: cs, w =>
    match generatePrimitivesR env s op rnd k kw w with
    | .ok w => .ok none :: runMulR env s op trunc rnd cs w
    | .error e => .error e :: runMulR env s op trunc rnd cs w
  | .mul k kw x y :: cs, w =>
    let (out, w) := mulMasterR env op trunc rnd k kw w x y
    out.map (fun out => some ⟨k, kw, x, y, out⟩) :: runMulR env s op trunc rnd cs w

/-- The product as the model takes it. -/
def rawOp (op : (k : K) → Kw → Py (A k →+ B k →+ C k)) (k : K) (kw : Kw) : Py (A k → B k → C k) :=
  (op k kw).map fun f a b => f a b

/-- the product where it is defined, and 0 elsewhere -/
def totOp (op : (k : K) → Kw → Py (A k →+ B k →+ C k)) (k : K) (kw : Kw) : A k →+ B k →+ C k :=
  match op k kw with
  | .ok f => f
  | .error _ => 0

/-- A call that torch accepts has the keyword arguments that `f` gives for its operation and shapes. -/
def MulCmd.AcceptedKw {α : K → Type} (op : (k : K) → Kw → Py (α k)) (f : K → Kw) : MulCmd K Kw A B → Prop
  | .provide k kw | .mul k kw _ _ => (∃ g, op k kw = .ok g) → kw = f k

/-- What the caller may expect of a call: a call that torch refuses raises torch's exception, every other call works; and (if `right`)
the shares of a product add up to the product of the secrets before the truncation with two parties. -/
def Served (s : Session) (op : (k : K) → Kw → Py (A k →+ B k →+ C k)) (trunc : (k : K) → Config → C k → C k) (right : Prop) :
    MulCmd K Kw A B → Py (Option (MulEvent K Kw A B C)) → Prop
  | .provide k kw, o => (∀ e, op k kw = .error e → o = .error e) ∧ (∀ f, op k kw = .ok f → o = .ok none)
  | .mul k kw x y, o => (∀ e, op k kw = .error e → o = .error e) ∧
    ∀ f, op k kw = .ok f → ∃ out, o = .ok (some ⟨k, kw, x, y, out⟩) ∧ out.result.session = s ∧
      out.result.shares.map (·.sessionUuid) = s.rankToUuid.map some ∧
      ∃ zs, out.result.shares.map (·.tensor) = (if s.nrParties = 2 then zs.map (trunc k s.config) else zs) ∧
        zs.length = s.nrParties ∧ (right → zs.sum = f x.value y.value)

/-- the products among the outcomes -/
def products (outs : List (Py (Option (MulEvent K Kw A B C)))) : List (MulEvent K Kw A B C) :=
  outs.filterMap fun
    | .ok (some e) => some e
    | _ => none

/-! ## Proof -/

omit [∀ k, AddCommGroup (A k)] [∀ k, AddCommGroup (B k)] in
theorem mulPartiesR_of (env : Env) (k : K) (f : Py (A k → B k → C k)) (f0 : A k → B k → C k) (trunc : Config → C k → C k) (u : Nat)
    (eps : A k) (delta : B k) (w w' : World K A B C) (z : ShareTensor (C k) × Nat)
    (h : mulParties env k f0 trunc u eps delta w = .ok (z, w')) :
    (mulPartiesR env k f trunc u eps delta w).2 = w' ∧
      (f = .ok f0 → (mulPartiesR env k f trunc u eps delta w).1 = .ok z) ∧
      (∀ e, f = .error e → (mulPartiesR env k f trunc u eps delta w).1 = .error e) := by
  unfold mulParties at h
  unfold mulPartiesR
  cases hu : env u with
  | none => rw [hu] at h; cases h
  | some p =>
    rw [hu] at h
    simp only [ok_bind] at h
    cases hget : (w.stores u).get k true with
    | error e => rw [hget] at h; cases h
    | ok r =>
      obtain ⟨t, st⟩ := r
      rw [hget] at h
      simp only [ok_bind] at h
      cases h
      refine ⟨rfl, ?_, ?_⟩
      · rintro rfl; rfl
      · rintro e rfl; rfl

omit [∀ k, AddCommGroup (A k)] [∀ k, AddCommGroup (B k)] in
theorem mulAllR_of (env : Env) (k : K) (f : Py (A k → B k → C k)) (f0 : A k → B k → C k) (trunc : Config → C k → C k)
    (eps : A k) (delta : B k) (us : List Nat) : ∀ (w w' : World K A B C) (zs : List (ShareTensor (C k) × Nat)),
    mulAll env k f0 trunc eps delta us w = .ok (zs, w') →
    (mulAllR env k f trunc eps delta us w).2 = w' ∧
      (f = .ok f0 → (mulAllR env k f trunc eps delta us w).1 = .ok zs) ∧
      (∀ e, f = .error e → us ≠ [] → (mulAllR env k f trunc eps delta us w).1 = .error e) := by
  induction us with
  | nil => intro w w' zs h; cases h; exact ⟨rfl, fun _ => rfl, fun _ _ h => absurd rfl h⟩
  | cons u us ih =>
    intro w w' zs h
    unfold mulAll at h
    cases h1 : mulParties env k f0 trunc u eps delta w with
    | error e => rw [h1] at h; cases h
    | ok r =>
      obtain ⟨z, w1⟩ := r
      rw [h1] at h
      simp only [ok_bind] at h
      cases h2 : mulAll env k f0 trunc eps delta us w1 with
      | error e => rw [h2] at h; cases h
      | ok r =>
        obtain ⟨zs', w2⟩ := r
        rw [h2] at h
        simp only [ok_bind] at h
        cases h
        obtain ⟨p1, p2, p3⟩ := mulPartiesR_of env k f f0 trunc u eps delta w w1 z h1
        obtain ⟨q1, q2, q3⟩ := ih _ _ _ h2
        simp only [mulAllR]
        rw [p1]
        refine ⟨q1, fun hf => ?_, fun e hf _ => ?_⟩
        · rw [p2 hf, q2 hf]; rfl
        · rw [p3 e hf]; rfl

theorem generateR_ok (env : Env) (s : Session) (op : (k : K) → Kw → Py (A k →+ B k →+ C k))
    (rnd : (k : K) → Nat → TripleRand (A k) (B k) (C k)) (k : K) (kw : Kw) (w : World K A B C) (f : A k →+ B k →+ C k)
    (hf : op k kw = .ok f) :
    generatePrimitivesR env s (rawOp op) rnd k kw w = generatePrimitives env s (fun k kw a b => totOp op k kw a b) rnd k kw w := by
  have hraw : rawOp op k kw = .ok fun a b => totOp op k kw a b := by
    unfold rawOp totOp
    rw [hf]
    rfl
  unfold generatePrimitivesR generatePrimitives
  rw [hraw]
  rfl

/-- A product through the two models: with the operation accepted they agree; with the operation refused and a triple in stock the
stores afterwards are the same. -/
theorem mulMasterR_of (env : Env) (op : (k : K) → Kw → Py (A k →+ B k →+ C k)) (trunc : (k : K) → Config → C k → C k)
    (rnd : (k : K) → Nat → TripleRand (A k) (B k) (C k)) (k : K) (kw : Kw) (w w' : World K A B C)
    (x : MPCTensor (A k)) (y : MPCTensor (B k)) (out : MulOut (A k) (B k) (C k)) (hus : x.session.rankToUuid ≠ [])
    (h : mulMaster env (fun k kw a b => totOp op k kw a b) trunc rnd k kw w x y = .ok (out, w')) :
    (∀ f, op k kw = .ok f → mulMasterR env (rawOp op) trunc rnd k kw w x y = (.ok out, w')) ∧
    (∀ e, op k kw = .error e → (∃ m, maskAll env w k x y = .ok m) →
      mulMasterR env (rawOp op) trunc rnd k kw w x y = (.error e, w')) := by
  unfold mulMaster at h
  cases hm : maskOrGenerate env (fun k kw a b => totOp op k kw a b) rnd k kw w x y with
  | error e => rw [hm] at h; cases h
  | ok r =>
    obtain ⟨masks, w1⟩ := r
    rw [hm] at h
    simp only [ok_bind] at h
    -- the mask step
    have hmask : ((∃ f, op k kw = .ok f) ∨ ∃ m, maskAll env w k x y = .ok m) →
        maskOrGenerateR env (rawOp op) rnd k kw w x y = (.ok masks, w1) := by
      intro hor
      unfold maskOrGenerate at hm
      unfold maskOrGenerateR
      cases hall : maskAll env w k x y with
      | ok m =>
        rw [hall] at hm
        cases hm
        rfl
      | error e =>
        rcases hor with ⟨f, hf⟩ | ⟨m, hm'⟩
        · rw [hall] at hm
          cases e <;> try (cases hm)
          dsimp only at hm ⊢
          rw [generateR_ok env x.session op rnd k kw w f hf]
          cases hg : generatePrimitives env x.session (fun k kw a b => totOp op k kw a b) rnd k kw w with
          | error e => rw [hg] at hm; cases hm
          | ok w2 =>
            rw [hg] at hm
            simp only [ok_bind] at hm
            cases hk : maskAll env w2 k x y with
            | error e => rw [hk] at hm; cases hm
            | ok m =>
              rw [hk] at hm
              cases hm
              simp [hk]
        · rw [hall] at hm'; cases hm'
    cases ha : (List.range x.session.nrParties).mapM (pyGet masks) with
    | error e => rw [ha] at h; cases h
    | ok l =>
      rw [ha] at h
      simp only [ok_bind] at h
      cases hb : ShareTensor.reconstruct (l.map (·.1)) with
      | error e => rw [hb] at h; cases h
      | ok eps =>
        rw [hb] at h
        simp only [ok_bind] at h
        cases hc : ShareTensor.reconstruct (l.map (·.2.1)) with
        | error e => rw [hc] at h; cases h
        | ok delta =>
          rw [hc] at h
          simp only [ok_bind] at h
          have hopen : openMasks (A := A) (B := B) (k := k) x.session.nrParties masks = .ok (eps, delta, l.map (·.2.2)) := by
            unfold openMasks
            rw [ha]
            simp only [ok_bind]
            rw [hb]
            simp only [ok_bind]
            rw [hc]
            rfl
          cases hd : mulAll env k (fun a b => totOp op k kw a b) (trunc k) eps delta x.session.rankToUuid w1 with
          | error e => rw [hd] at h; cases h
          | ok r =>
            obtain ⟨zs, w2⟩ := r
            rw [hd] at h
            simp only [ok_bind] at h
            obtain ⟨p1, p2, p3⟩ := mulAllR_of env k (rawOp op k kw) _ (trunc k) eps delta _ _ _ _ hd
            cases he : MPCTensor.ofShares x.session (zs.map (·.1)) with
            | error e => rw [he] at h; cases h
            | ok result =>
              rw [he] at h
              cases h
              refine ⟨fun f hf => ?_, fun e hf hm' => ?_⟩
              · have hraw : rawOp op k kw = .ok fun a b => totOp op k kw a b := by
                  unfold rawOp totOp
                  rw [hf]
                  rfl
                have e2 : mulAllR env k (rawOp op k kw) (trunc k) eps delta x.session.rankToUuid w1 = (.ok zs, w') :=
                  Prod.ext (p2 hraw) p1
                unfold mulMasterR
                rw [hmask (.inl ⟨f, hf⟩)]
                dsimp only
                rw [hopen]
                dsimp only
                rw [e2]
                dsimp only
                rw [he]
              · have hraw : rawOp op k kw = .error e := by
                  unfold rawOp
                  rw [hf]
                  rfl
                have e2 : mulAllR env k (rawOp op k kw) (trunc k) eps delta x.session.rankToUuid w1 = (.error e, w') :=
                  Prod.ext (p3 e hraw hus) p1
                unfold mulMasterR
                rw [hmask (.inr hm')]
                dsimp only
                rw [hopen]
                dsimp only
                rw [e2]

/-- a product that is refused: the stock is empty and nothing changes, or every party loses the same triple -/
theorem mul_refused (env : Env) (s : Session) (hs : s.Live env) (op : (k : K) → Kw → Py (A k →+ B k →+ C k))
    (trunc : (k : K) → Config → C k → C k) (rnd : (k : K) → Nat → TripleRand (A k) (B k) (C k))
    (w : World K A B C) (q : K → List Nat)
    (kwOf : Nat → Kw) (ts : (k : K) → Nat → Nat → Triple (A k) (B k) (C k))
    (hg : w.Good (fun k kw a b => totOp op k kw a b) s q kwOf ts) (k : K) (kw : Kw)
    (x : MPCTensor (A k)) (y : MPCTensor (B k)) (hx : x.WF env) (hy : y.WF env) (hxs : x.session = s) (hys : y.session = s)
    (e : PyErr) (he : op k kw = .error e) :
    ∃ w', mulMasterR env (rawOp op) trunc rnd k kw w x y = (.error e, w') ∧ w'.serial = w.serial ∧
      w'.Good (fun k kw a b => totOp op k kw a b) s (Function.update q k (q k).tail) kwOf ts := by
  have hraw : rawOp op k kw = .error e := by
    unfold rawOp
    rw [he]
    rfl
  cases hq : q k with
  | nil =>
    refine ⟨w, ?_, rfl, ?_⟩
    · unfold mulMasterR maskOrGenerateR
      rw [maskAll_empty env s hs _ w q kwOf ts hg k x y hx hy hxs hys hq]
      dsimp only
      unfold generatePrimitivesR
      rw [hraw]
      rfl
    · have : Function.update q k ([] : List Nat).tail = q := by
        rw [List.tail_nil, ← hq, Function.update_eq_self]
      rw [this]
      exact hg
  | cons i rest =>
    have hlx : x.shares.length = s.nrParties := by
      have := congrArg List.length hx.tags
      simpa [hxs, hs.ranks] using this
    have hly : y.shares.length = s.nrParties := by
      have := congrArg List.length hy.tags
      simpa [hys, hs.ranks] using this
    obtain ⟨M, hM, -⟩ := maskAll_ok env s hs _ w q kwOf ts hg k x y hx hy hxs hys _ _
      (list_eq_map_range ⟨0, none, {}, 0⟩ _ _ hlx) (list_eq_map_range ⟨0, none, {}, 0⟩ _ _ hly) _
      (list_eq_map_range 0 _ _ hs.ranks) i rest hq
    obtain ⟨out, w', zs, h1, h2, h3, -⟩ := mul_core env s hs (totOp op) trunc rnd w q kwOf ts hg k kw x y hx hy hxs
      hys i rest hq w (by
        intro m hm
        unfold maskOrGenerate
        rw [hm])
    have hus : x.session.rankToUuid ≠ [] := by
      rw [hxs]
      intro h
      have := hs.ranks
      have := hs.two
      simp [h] at *
      omega
    exact ⟨w', (mulMasterR_of env op trunc rnd k kw w w' x y out hus h1).2 e he ⟨_, hM⟩, h2, h3⟩

/-- every history, step by step -/
theorem runR_ok (env : Env) (s : Session) (hs : s.Live env) (op : (k : K) → Kw → Py (A k →+ B k →+ C k))
    (trunc : (k : K) → Config → C k → C k) (rnd : (k : K) → Nat → TripleRand (A k) (B k) (C k))
    (kwAt : Option (K → Kw))
    (cs : List (MulCmd K Kw A B)) (hcs : ∀ c ∈ cs, c.Ok env s)
    (hkw : ∀ f, kwAt = some f → ∀ c ∈ cs, c.AcceptedKw op f)
    (w : World K A B C) (q : K → List Nat) (kwOf : Nat → Kw) (ts : (k : K) → Nat → Nat → Triple (A k) (B k) (C k))
    (hg : w.Good (fun k kw a b => totOp op k kw a b) s q kwOf ts)
    (hq : ∀ f, kwAt = some f → ∀ k, ∀ i ∈ q k, kwOf i = f k) :
    List.Forall₂ (Served s op trunc (kwAt.isSome = true)) cs (runMulR env s (rawOp op) trunc rnd cs w) ∧
    ∃ ids : List Nat, (products (runMulR env s (rawOp op) trunc rnd cs w)).map (fun e => (e.out.maskIds, e.out.mulIds))
        = ids.map (fun i => (List.replicate s.nrParties i, List.replicate s.nrParties i)) ∧
      ids.Nodup ∧ (∀ i ∈ ids, i < w.serial → ∃ k, i ∈ q k) := by
  induction cs generalizing w q kwOf ts with
  | nil => exact ⟨.nil, [], rfl, by simp, by simp⟩
  | cons c cs ih =>
    have hcs' : ∀ c ∈ cs, c.Ok env s := fun c' h => hcs c' (by simp [h])
    have hkw' : ∀ f, kwAt = some f → ∀ c ∈ cs, c.AcceptedKw op f := fun f hf c' h => hkw f hf c' (by simp [h])
    cases c with
    | provide k kw =>
      cases hop : op k kw with
      | error e =>
        obtain ⟨h1, ids, h2, h3, h4⟩ := ih hcs' hkw' w q kwOf ts hg hq
        have hraw : rawOp op k kw = .error e := by
          unfold rawOp
          rw [hop]
          rfl
        have hgen : generatePrimitivesR env s (rawOp op) rnd k kw w = .error e := by
          unfold generatePrimitivesR
          rw [hraw]
          rfl
        simp only [runMulR, hgen]
        refine ⟨.cons ⟨?_, ?_⟩ h1, ids, ?_, h3, h4⟩
        · intro e' he'; rw [hop] at he'; cases he'; rfl
        · intro f hf; rw [hop] at hf; cases hf
        · exact h2
      | ok f =>
        obtain ⟨w1, ts1, hgen, hser1, hg1, hts, _, _⟩ := generate_good env s hs _ rnd k kw w q kwOf ts hg
        obtain ⟨h1, ids, h2, h3, h4⟩ := ih hcs' hkw' w1 _ _ ts1 hg1 (by
          intro f' hf k' i hi
          by_cases hk : k' = k
          · subst hk
            simp only [Function.update_self, List.mem_append, List.mem_singleton] at hi
            rcases hi with h | rfl
            · rw [Function.update_of_ne (by have := hg.bound _ i h; omega)]
              exact hq f' hf _ i h
            · rw [Function.update_self]
              exact hkw f' hf (.provide k' kw) (by simp) ⟨f, hop⟩
          · rw [Function.update_of_ne hk] at hi
            rw [Function.update_of_ne (by have := hg.bound _ i hi; omega)]
            exact hq f' hf _ i hi)
        have hgenR := generateR_ok env s op rnd k kw w f hop
        rw [hgen] at hgenR
        simp only [runMulR, hgenR]
        refine ⟨.cons ⟨?_, ?_⟩ h1, ids, h2, h3, ?_⟩
        · intro e' he'; rw [hop] at he'; cases he'
        · intro f hf; rfl
        · intro i hi hlt
          obtain ⟨k', hk'⟩ := h4 i hi (by omega)
          by_cases hk : k' = k
          · subst hk
            simp only [Function.update_self, List.mem_append, List.mem_singleton] at hk'
            rcases hk' with h | rfl
            · exact ⟨_, h⟩
            · omega
          · rw [Function.update_of_ne hk] at hk'
            exact ⟨_, hk'⟩
    | mul k kw x y =>
      obtain ⟨hxs, hys, hx, hy⟩ := hcs (.mul k kw x y) (by simp)
      cases hop : op k kw with
      | error e =>
        obtain ⟨w', g1, g2, g3⟩ := mul_refused env s hs op trunc rnd w q kwOf ts hg k kw x y hx hy hxs hys e hop
        have hmem : ∀ k' i, i ∈ Function.update q k (q k).tail k' → i ∈ q k' := by
          intro k' i hi
          by_cases hk : k' = k
          · subst hk
            rw [Function.update_self] at hi
            exact List.mem_of_mem_tail hi
          · rwa [Function.update_of_ne hk] at hi
        obtain ⟨h1, ids, h2, h3, h4⟩ := ih hcs' hkw' w' _ kwOf ts g3 (fun f hf k' i hi => hq f hf k' i (hmem k' i hi))
        simp only [runMulR, g1]
        refine ⟨.cons ⟨?_, ?_⟩ h1, ids, h2, h3, ?_⟩
        · intro e' he'; rw [hop] at he'; cases he'; rfl
        · intro f hf; rw [hop] at hf; cases hf
        · intro i hi hlt
          obtain ⟨k', hk'⟩ := h4 i hi (by omega)
          exact ⟨k', hmem k' i hk'⟩
      | ok f =>
        obtain ⟨out, w', q', kwOf', ts', i, zs, a, b, g1, g2, g3, g4, g5, g6, g7, g8, g9, g10, _, _, g11, g12, g13, g14, g15⟩ :=
          mul_step env s hs (totOp op) trunc rnd w q kwOf ts hg k kw x y hx hy hxs hys
        have hus : x.session.rankToUuid ≠ [] := by
          rw [hxs]
          intro h
          have := hs.ranks
          have := hs.two
          simp [h] at *
          omega
        have hR := (mulMasterR_of env op trunc rnd k kw w w' x y out hus g1).1 f hop
        obtain ⟨h1, ids, h2, h3, h4⟩ := ih hcs' hkw' w' q' kwOf' ts' g2 (by
          intro f hf k' j hj
          have := g5 k' j hj
          rw [g7 j (hg.bound _ j this)]
          exact hq f hf k' j this)
        simp only [runMulR, hR]
        refine ⟨.cons ⟨?_, ?_⟩ h1, i :: ids, ?_, ?_, ?_⟩
        · intro e' he'; rw [hop] at he'; cases he'
        · intro f' hf'
          rw [hop] at hf'
          cases hf'
          refine ⟨out, rfl, g11, g12, zs, g13, g14, ?_⟩
          intro hsome
          obtain ⟨f0, hf⟩ := Option.isSome_iff_exists.mp hsome
          have hkwOf : kwOf' i = kw := by
            rcases g8 with ⟨h, _⟩ | ⟨_, _, h, _⟩
            · rw [g7 i (hg.bound _ i h), hq f0 hf k i h]
              exact (hkw f0 hf (.mul k kw x y) (by simp) ⟨f, hop⟩).symm
            · exact h
          have htot : totOp op k kw = f := by
            unfold totOp
            rw [hop]
          rw [g15, hkwOf, sub_self, add_zero, htot]
        · have hp : products (Except.map (fun out => some (⟨k, kw, x, y, out⟩ : MulEvent K Kw A B C)) (Except.ok out : Py _)
              :: runMulR env s (rawOp op) trunc rnd cs w')
              = ⟨k, kw, x, y, out⟩ :: products (runMulR env s (rawOp op) trunc rnd cs w') := rfl
          rw [hp, List.map_cons, List.map_cons, h2, g9, g10]
        · rw [List.nodup_cons]
          refine ⟨?_, h3⟩
          intro hi
          obtain ⟨k', hk'⟩ := h4 i hi g4
          exact g6 k' hk'
        · intro j hj hlt
          rcases List.mem_cons.mp hj with rfl | hj
          · rcases g8 with ⟨h, _⟩ | ⟨_, h, _⟩
            · exact ⟨k, h⟩
            · omega
          · obtain ⟨k', hk'⟩ := h4 j hj (by omega)
            exact ⟨k', g5 k' j hk'⟩

/-! ## C90 -/

/-- C90: for every history of calls whose exceptions the caller catches, in every session that is set up, with any shapes and
arguments: a call that torch refuses raises torch's exception; every other call works, and if the accepted calls of an operation on
given shapes all have the same keyword arguments, the shares of every product add up to the product of the two secrets (before the
truncation with two parties), however many calls were refused before. -/
theorem C90_refused_products (env : Env) (s : Session) (hs : s.Live env) (op : (k : K) → Kw → Py (A k →+ B k →+ C k))
    (trunc : (k : K) → Config → C k → C k) (rnd : (k : K) → Nat → TripleRand (A k) (B k) (C k)) (kwAt : K → Kw)
    (cs : List (MulCmd K Kw A B)) (hcs : ∀ c ∈ cs, c.Ok env s) (hkw : ∀ c ∈ cs, c.AcceptedKw op kwAt) :
    List.Forall₂ (Served s op trunc True) cs (runMulR env s (rawOp op) trunc rnd cs World.empty) := by
  cases cs with
  | nil => exact .nil
  | cons c cs =>
    obtain ⟨k0, _⟩ : ∃ k : K, True := by cases c with
      | provide k _ => exact ⟨k, trivial⟩
      | mul k _ _ _ => exact ⟨k, trivial⟩
    have := (runR_ok env s hs op trunc rnd (some kwAt) (c :: cs) hcs
      (by intro f hf; cases hf; exact hkw) World.empty (fun _ => [])
      (fun _ => kwAt k0) (fun k _ _ => ⟨0, ⟨0, none, {}, 0⟩, ⟨0, none, {}, 0⟩, ⟨0, none, {}, 0⟩⟩) (good_empty ..) (by simp)).1
    simpa using this

/-- C90: whatever the keyword arguments, in every product every party uses one and the same triple in both steps, and no triple is
used by two products: refused calls do not make the stores of the parties differ. -/
theorem C90_refused_triples (env : Env) (s : Session) (hs : s.Live env) (op : (k : K) → Kw → Py (A k →+ B k →+ C k))
    (trunc : (k : K) → Config → C k → C k) (rnd : (k : K) → Nat → TripleRand (A k) (B k) (C k))
    (cs : List (MulCmd K Kw A B)) (hcs : ∀ c ∈ cs, c.Ok env s) :
    List.Forall₂ (Served s op trunc False) cs (runMulR env s (rawOp op) trunc rnd cs World.empty) ∧
    ∃ ids : List Nat, (products (runMulR env s (rawOp op) trunc rnd cs World.empty)).map (fun e => (e.out.maskIds, e.out.mulIds))
        = ids.map (fun i => (List.replicate s.nrParties i, List.replicate s.nrParties i)) ∧ ids.Nodup := by
  cases cs with
  | nil => exact ⟨.nil, [], rfl, by simp⟩
  | cons c cs =>
    obtain ⟨kw0, _⟩ : ∃ kw : Kw, True := by cases c with
      | provide _ kw => exact ⟨kw, trivial⟩
      | mul _ kw _ _ => exact ⟨kw, trivial⟩
    obtain ⟨h1, ids, h2, h3, -⟩ := runR_ok env s hs op trunc rnd none (c :: cs) hcs (by simp) World.empty (fun _ => [])
      (fun _ => kw0) (fun k _ _ => ⟨0, ⟨0, none, {}, 0⟩, ⟨0, none, {}, 0⟩, ⟨0, none, {}, 0⟩⟩) (good_empty ..) (by simp)
    exact ⟨by simpa using h1, ids, h2, h3⟩

/-- products of 64-bit elements that torch accepts without the keyword argument and refuses with it -/
def exPicky (_ : Unit) (kw : Bool) : Py (I64 →+ I64 →+ I64) := if kw then .error .runtimeError else .ok AddMonoidHom.mul

/-- A triple is provided; a product is refused and takes it; the next product is refused while nothing is in stock; then 6 * 7 with
a triple of its own. -/
def exPickyHistory : List (MulCmd Unit Bool (fun _ => I64) (fun _ => I64)) :=
  [.provide () false, .provide () true, .mul () true (exSecret 1 2 3) (exSecret 3 3 1), .mul () true (exSecret 1 2 3) (exSecret 3 3 1),
    .mul () false (exSecret 1 2 3) (exSecret 3 3 1)]

/-- what the caller sees of an outcome: the triples used and the value of the product -/
def exSeen (o : Py (Option (MulEvent Unit Bool (fun _ => I64) (fun _ => I64) (fun _ => I64)))) :
    Py (List (List Nat) × Option (Py I64)) :=
  o.map fun o => match o with
    | some e => ([e.out.maskIds, e.out.mulIds], some e.out.result.reconstruct)
    | none => ([], none)

example : (runMulR exEnv exSession (rawOp exPicky) (fun _ _ z => z) exRnd exPickyHistory World.empty).map exSeen
    = [.ok ([], none), .error .runtimeError, .error .runtimeError, .error .runtimeError,
      .ok ([[1, 1, 1], [1, 1, 1]], some (.ok 42))] := by
  decide +kernel

/-- the hypotheses of both theorems hold for it -/
example : (∀ c ∈ exPickyHistory, c.Ok exEnv exSession) ∧ ∀ c ∈ exPickyHistory, c.AcceptedKw exPicky fun _ => false := by
  constructor
  · intro c hc
    simp only [exPickyHistory, List.mem_cons, List.not_mem_nil, or_false] at hc
    rcases hc with rfl | rfl | rfl | rfl | rfl
    · trivial
    · trivial
    all_goals exact ⟨rfl, rfl, exSecret_wf .., exSecret_wf ..⟩
  · intro c _
    have : ∀ kw, (∃ g, exPicky () kw = .ok g) → kw = false := by
      rintro (_ | _) ⟨g, hg⟩
      · rfl
      · cases hg
    cases c with
    | provide k kw => exact this kw
    | mul k kw x y => exact this kw

end SyMPC
