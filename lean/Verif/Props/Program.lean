import Verif.Lemmas.Program
import Verif.Props.Wraps

/-!
# C73, C74: whole computations

Every straight-line program of secrets, sums, public operands, products and forwarded methods.
-/

namespace SyMPC.Program

variable {P T : Type} [AddCommGroup T] [PubEnc P T]

/-- every program with existing operands runs, whatever is drawn -/
theorem run_ok (env : Env) (s : Session) (hs : s.Live env) (n : Nat) (hn : s.nrParties = n + 2) (op : T →+ T →+ T)
    (trunc : Config → T → T) (prog : List (Cmd P T)) (tape : List (Draw (n + 1) T)) (S : State T)
    (hS : Sane env s (fun a b => op a b) S) (hv : ValidProg S.tensors.length prog) (hf : Fits prog tape) :
    ∃ S', run env s (fun a b => op a b) trunc prog tape S = .ok S' ∧ Sane env s (fun a b => op a b) S' ∧
      ((n = 0 → ∀ t, trunc s.config t = t) → (∀ c ∈ prog, Additive c) →
        values S' = eval s.config (fun a b => op a b) (values S) prog) := by
  induction prog generalizing tape S with
  | nil =>
    have : tape = [] := by simpa [Fits] using hf
    subst this
    exact ⟨S, rfl, hS, fun _ _ => rfl⟩
  | cons c cs ih =>
    by_cases hp : IsPlain c
    · obtain ⟨S1, z, h1, h2, h3, h4, h5, _⟩ := plain_step env s op trunc S hS c hv.1 hp
      have hk : c.kind = none := by cases c <;> first | exact hp.elim | rfl
      obtain ⟨S', g1, g2, g3⟩ := ih tape S1 h2 (by rw [h4, List.length_append]; exact hv.2) (by
        simpa [Fits, List.filterMap_cons, hk] using hf)
      refine ⟨S', ?_, g2, fun ht ha => ?_⟩
      · rw [run_plain _ _ _ _ c hp, h1]
        exact g1
      · rw [g3 ht fun c hc => ha c (by simp [hc])]
        simp only [eval]
        rw [← h5 (ha c (by simp))]
        simp [values, h4]
    · cases c <;> first | exact (hp trivial).elim | skip
      case secret v =>
        cases tape with
        | nil => simp [Fits, Cmd.kind] at hf
        | cons d tape =>
          cases d with
          | triple a b da db dc => simp [Fits, Cmd.kind, Draw.kind] at hf
          | sharing d =>
            obtain ⟨S1, h1, h2, h3, h4, _⟩ := share_step env s hs n hn (fun a b => op a b) S hS v d
            have hlen : S1.tensors.length = S.tensors.length + 1 := by
              have := congrArg List.length h3
              simpa [values] using this
            obtain ⟨S', g1, g2, g3⟩ := ih tape S1 h2 (by rw [hlen]; exact hv.2) (by
              simpa [Fits, Cmd.kind, Draw.kind] using hf)
            refine ⟨S', ?_, g2, fun ht ha => ?_⟩
            · show (share env s v d S >>= _) = _
              rw [h1]
              exact g1
            · rw [g3 ht fun c hc => ha c (by simp [hc]), h3]
              rfl
      case mul i j =>
        cases tape with
        | nil => simp [Fits, Cmd.kind] at hf
        | cons d tape =>
          cases d with
          | sharing d => simp [Fits, Cmd.kind, Draw.kind] at hf
          | triple a b da db dc =>
            have hi : S.tensors[i]? = some (S.tensors[i]'hv.1.1) := by simp [hv.1.1]
            have hj : S.tensors[j]? = some (S.tensors[j]'hv.1.2) := by simp [hv.1.2]
            obtain ⟨S1, zs, z, h1, h2, h3, h4, h5, h6, h7, _⟩ := product_step env s hs n hn op trunc S hS i j _ _ hi hj a b da db dc
            obtain ⟨S', g1, g2, g3⟩ := ih tape S1 h2 (by rw [h4, List.length_append]; exact hv.2) (by
              simpa [Fits, Cmd.kind, Draw.kind] using hf)
            refine ⟨S', ?_, g2, fun ht ha => ?_⟩
            · show (product env s _ trunc i j a b da db dc S >>= _) = _
              rw [h1]
              exact g1
            · rw [g3 ht fun c hc => ha c (by simp [hc])]
              simp only [eval, evalCmd]
              rw [values_getD S i _ hi, values_getD S j _ hj, ← h7]
              congr 1
              have : z.value = zs.sum := by
                unfold MPCTensor.value
                rw [h5]
                split
                · rw [List.map_congr_left (g := id) fun t _ => ht ‹_› t, List.map_id]
                · rfl
              simp [values, h4, this]

/-- C73: Every program of secrets, sums, public operands, products and additive methods runs without an exception, for any
number of parties and whatever is drawn, and every one of its tensors reconstructs to the value that the same program has on
the encoded numbers.  With two parties the precision must be 0 (the division by the scale is then by 1). -/
theorem C73_programs (env : Env) (s : Session) (hs : s.Live env) (n : Nat) (hn : s.nrParties = n + 2) (op : T →+ T →+ T)
    (trunc : Config → T → T) (htr : n = 0 → ∀ t, trunc s.config t = t) (prog : List (Cmd P T)) (hv : ValidProg 0 prog)
    (ha : ∀ c ∈ prog, Additive c) (tape : List (Draw (n + 1) T)) (hf : Fits prog tape) :
    ∃ S, run env s (fun a b => op a b) trunc prog tape State.empty = .ok S ∧
      S.tensors.mapM MPCTensor.reconstruct = .ok (eval s.config (fun a b => op a b) [] prog) := by
  obtain ⟨S, h1, h2, h3⟩ := run_ok env s hs n hn op trunc prog tape State.empty (Sane.empty ..) hv hf
  refine ⟨S, h1, ?_⟩
  have := h3 htr ha
  rw [show values (State.empty : State T) = [] from rfl] at this
  rw [← this]
  exact mapM_ok _ _ _ fun x hx => wf_value (h2.wf x hx)

/-- exactly one tape shows what is to be shown -/
theorem view_unique (env : Env) (s : Session) (hs : s.Live env) (n : Nat) (hn : s.nrParties = n + 2) (op : T →+ T →+ T)
    (trunc : Config → T → T) (h : Nat) (hh : h < n + 2) (prog : List (Cmd P T)) (S : State T)
    (hS : Sane env s (fun a b => op a b) S) (hv : ValidProg S.tensors.length prog) (view : List (Event T))
    (hf : Form (n + 1) prog view) :
    ∃! tape : List (Draw (n + 1) T), ∃ S', run env s (fun a b => op a b) trunc prog tape S = .ok S' ∧
      S'.log.map (hide h) = S.log.map (hide h) ++ view := by
  induction prog generalizing S view with
  | nil =>
    have : view = [] := by simpa [Form] using hf.1
    subst this
    refine ⟨[], ⟨S, rfl, by simp⟩, ?_⟩
    rintro tape ⟨S', h1, _⟩
    cases tape with
    | nil => rfl
    | cons => cases h1
  | cons c cs ih =>
    by_cases hp : IsPlain c
    · obtain ⟨S1, z, h1, h2, h3, h4, _⟩ := plain_step env s op trunc S hS c hv.1 hp
      have hk : c.kind = none := by cases c <;> first | exact hp.elim | rfl
      have := ih S1 h2 (by rw [h4, List.length_append]; exact hv.2) view ⟨by simpa [List.filterMap_cons, hk] using hf.1, hf.2⟩
      simpa only [run_plain _ _ _ _ c hp, h1, ok_bind, h3] using this
    · cases c <;> first | exact (hp trivial).elim | skip
      case secret v =>
        cases view with
        | nil => simp [Form, Cmd.kind] at hf
        | cons e view =>
          cases e with
          | product eps delta l => simp [Form, Cmd.kind, Event.kind] at hf
          | shared l =>
            have hl : l.length = n + 1 := hf.2 (.shared l) (by simp)
            have hform : Form (n + 1) cs view := ⟨by simpa [Cmd.kind, Event.kind] using hf.1, fun e he => hf.2 e (by simp [he])⟩
            obtain ⟨d, hd, hd'⟩ := draws_unique env (PubEnc.enc s.config v) n h hh l hl
            obtain ⟨S1, h1, h2, h3, h4, _⟩ := share_step env s hs n hn (fun a b => op a b) S hS v d
            have hlen : S1.tensors.length = S.tensors.length + 1 := by
              have := congrArg List.length h3
              simpa [values] using this
            obtain ⟨tape, ⟨S', g1, g2⟩, g3⟩ := ih S1 h2 (by rw [hlen]; exact hv.2) view hform
            have hlog : S1.log.map (hide h) ++ view = S.log.map (hide h) ++ .shared l :: view := by
              rw [h4]
              simp [hide, hd]
            refine ⟨.sharing d :: tape, ⟨S', ?_, by rw [g2, hlog]⟩, ?_⟩
            · show (share env s v d S >>= _) = _
              rw [h1]
              exact g1
            · rintro tape' ⟨S'', k1, k2⟩
              cases tape' with
              | nil => cases k1
              | cons d' tape' =>
                cases d' with
                | triple => cases k1
                | sharing d' =>
                  obtain ⟨S2, j1, k1⟩ := bind_ok (show (share env s v d' S >>= fun S => run env s (fun a b => op a b) trunc cs tape' S) = _ from k1)
                  obtain ⟨S2', j2, j3, j4, j5, _⟩ := share_step env s hs n hn (fun a b => op a b) S hS v d'
                  rw [j1] at j2
                  cases j2
                  obtain ⟨l', hl'⟩ := run_log _ _ _ _ _ _ _ _ k1
                  have hdd : d' = d := by
                    apply hd'
                    rw [hl', j5] at k2
                    simp only [List.map_append, List.map_cons, List.append_assoc, List.append_cancel_left_eq,
                      List.cons_append, List.nil_append, List.cons.injEq, hide, Event.shared.injEq] at k2
                    exact k2.1
                  subst hdd
                  rw [h1] at j1
                  cases j1
                  rw [g3 tape' ⟨S'', k1, by rw [k2, hlog]⟩]
      case mul i j =>
        cases view with
        | nil => simp [Form, Cmd.kind] at hf
        | cons e view =>
          cases e with
          | shared l => simp [Form, Cmd.kind, Event.kind] at hf
          | product eps delta l =>
            have hl : l.length = n + 1 := hf.2 (.product eps delta l) (by simp)
            have hform : Form (n + 1) cs view := ⟨by simpa [Cmd.kind, Event.kind] using hf.1, fun e he => hf.2 e (by simp [he])⟩
            have hi : S.tensors[i]? = some (S.tensors[i]'hv.1.1) := by simp [hv.1.1]
            have hj : S.tensors[j]? = some (S.tensors[j]'hv.1.2) := by simp [hv.1.2]
            generalize hx : S.tensors[i]'hv.1.1 = x at hi
            generalize hy : S.tensors[j]'hv.1.2 = y at hj
            obtain ⟨⟨da, db, dc⟩, hd, hd'⟩ := triple_unique env (fun a b => op a b) (x.value - eps) (y.value - delta) n h hh l hl
            obtain ⟨S1, zs, z, h1, h2, h3, h4, _⟩ := product_step env s hs n hn op trunc S hS i j _ _ hi hj (x.value - eps) (y.value - delta) da db dc
            obtain ⟨tape, ⟨S', g1, g2⟩, g3⟩ := ih S1 h2 (by rw [h4, List.length_append]; exact hv.2) view hform
            have hlog : S1.log.map (hide h) ++ view = S.log.map (hide h) ++ .product eps delta l :: view := by
              rw [h3]
              simp only [List.map_append, List.map_cons, List.map_nil, hide, hd, sub_sub_cancel]
              simp
            refine ⟨.triple (x.value - eps) (y.value - delta) da db dc :: tape, ⟨S', ?_, by rw [g2, hlog]⟩, ?_⟩
            · show (product env s _ trunc i j _ _ da db dc S >>= _) = _
              rw [h1]
              exact g1
            · rintro tape' ⟨S'', k1, k2⟩
              cases tape' with
              | nil => cases k1
              | cons d' tape' =>
                cases d' with
                | sharing => cases k1
                | triple a' b' da' db' dc' =>
                  obtain ⟨S2, j1, k1⟩ := bind_ok (show (product env s (fun a b => op a b) trunc i j a' b' da' db' dc' S >>=
                    fun S => run env s (fun a b => op a b) trunc cs tape' S) = _ from k1)
                  obtain ⟨S2', zs', z', j2, j3, j4, j5, _⟩ := product_step env s hs n hn op trunc S hS i j _ _ hi hj a' b' da' db' dc'
                  rw [j1] at j2
                  cases j2
                  obtain ⟨l', hl'⟩ := run_log _ _ _ _ _ _ _ _ k1
                  rw [hl', j4] at k2
                  simp only [List.map_append, List.map_cons, List.append_assoc, List.append_cancel_left_eq,
                    List.cons_append, List.nil_append, List.cons.injEq, hide, Event.product.injEq] at k2
                  obtain ⟨⟨ka, kb, kc⟩, kd⟩ := k2
                  have ha : a' = x.value - eps := by rw [← ka]; abel
                  have hb : b' = y.value - delta := by rw [← kb]; abel
                  subst ha hb
                  have := hd' (da', db', dc') kc
                  cases this
                  rw [h1] at j1
                  cases j1
                  rw [g3 tape' ⟨S'', k1, by rw [hl', List.map_append, kd]⟩]

/-- C74 (partial): all that the parties but one hold and see in a run (their shares of the secrets and of the triples, and the
opened values) says nothing about the secrets: whatever the secrets and the program, every such view arises from exactly one
tape of random tensors.  Missing: the code draws the tensors from half of the ring, see `C04_half_range_leaks` and
`C19_half_range_leaks`. -/
theorem C74_views_partial (env : Env) (s : Session) (hs : s.Live env) (n : Nat) (hn : s.nrParties = n + 2) (op : T →+ T →+ T)
    (trunc : Config → T → T) (h : Nat) (hh : h < n + 2) (prog : List (Cmd P T)) (hv : ValidProg 0 prog) (view : List (Event T))
    (hf : Form (n + 1) prog view) :
    ∃! tape : List (Draw (n + 1) T), ∃ S, run env s (fun a b => op a b) trunc prog tape State.empty = .ok S ∧
      S.log.map (hide h) = view :=
  view_unique env s hs n hn op trunc h hh prog State.empty (Sane.empty ..) hv view hf

/-- the same log has the same form -/
theorem log_form (env : Env) (s : Session) (hs : s.Live env) (n : Nat) (hn : s.nrParties = n + 2) (op : T →+ T →+ T)
    (trunc : Config → T → T) (h : Nat) (hh : h < n + 2) (prog : List (Cmd P T)) (tape : List (Draw (n + 1) T)) (S S' : State T)
    (hS : Sane env s (fun a b => op a b) S) (hv : ValidProg S.tensors.length prog)
    (hr : run env s (fun a b => op a b) trunc prog tape S = .ok S') :
    ∃ view, S'.log.map (hide h) = S.log.map (hide h) ++ view ∧ Form (n + 1) prog view := by
  have hlen : ∀ {α : Type} (f : Nat → α), (((List.range (n + 2)).map f).eraseIdx h).length = n + 1 := by
    intro α f
    rw [List.length_eraseIdx_of_lt (by simpa using hh)]
    simp
  induction prog generalizing tape S with
  | nil =>
    cases tape with
    | cons => cases hr
    | nil => cases hr; exact ⟨[], by simp, rfl, by simp⟩
  | cons c cs ih =>
    by_cases hp : IsPlain c
    · obtain ⟨S1, z, h1, h2, h3, h4, _⟩ := plain_step env s op trunc S hS c hv.1 hp
      have hk : c.kind = none := by cases c <;> first | exact hp.elim | rfl
      rw [run_plain _ _ _ _ c hp, h1, ok_bind] at hr
      obtain ⟨view, g1, g2, g3⟩ := ih tape S1 h2 (by rw [h4, List.length_append]; exact hv.2) hr
      exact ⟨view, by rw [g1, h3], by simpa [List.filterMap_cons, hk] using g2, g3⟩
    · cases c <;> first | exact (hp trivial).elim | skip
      case secret v =>
        cases tape with
        | nil => cases hr
        | cons d tape =>
        cases d with
        | triple => cases hr
        | sharing d =>
        obtain ⟨S1, h1, h2, h3, h4, _⟩ := share_step env s hs n hn (fun a b => op a b) S hS v d
        have hl : S1.tensors.length = S.tensors.length + 1 := by
          have := congrArg List.length h3
          simpa [values] using this
        have hr : (share env s v d S >>= fun S => run env s (fun a b => op a b) trunc cs tape S) = .ok S' := hr
        rw [h1, ok_bind] at hr
        obtain ⟨view, g1, g2, g3⟩ := ih tape S1 h2 (by rw [hl]; exact hv.2) hr
        refine ⟨_ :: view, by rw [g1, h4, List.map_append, List.append_assoc]; rfl, ?_, ?_⟩
        · simp [hide, Event.kind, Cmd.kind, g2]
        · intro e he
          rcases List.mem_cons.mp he with rfl | he
          · exact hlen _
          · exact g3 e he
      case mul i j =>
        cases tape with
        | nil => cases hr
        | cons d tape =>
        cases d with
        | sharing => cases hr
        | triple a b da db dc =>
        have hi : S.tensors[i]? = some (S.tensors[i]'hv.1.1) := by simp [hv.1.1]
        have hj : S.tensors[j]? = some (S.tensors[j]'hv.1.2) := by simp [hv.1.2]
        obtain ⟨S1, zs, z, h1, h2, h3, h4, _⟩ := product_step env s hs n hn op trunc S hS i j _ _ hi hj a b da db dc
        have hr : (product env s (fun a b => op a b) trunc i j a b da db dc S >>=
          fun S => run env s (fun a b => op a b) trunc cs tape S) = .ok S' := hr
        rw [h1, ok_bind] at hr
        obtain ⟨view, g1, g2, g3⟩ := ih tape S1 h2 (by rw [h4, List.length_append]; exact hv.2) hr
        refine ⟨_ :: view, by rw [g1, h3, List.map_append, List.append_assoc]; rfl, ?_, ?_⟩
        · simp [hide, Event.kind, Cmd.kind, g2]
        · intro e he
          rcases List.mem_cons.mp he with rfl | he
          · exact hlen _
          · exact g3 e he

omit [AddCommGroup T] [PubEnc P T] in
theorem sameBut_kind (p1 p2 : List (Cmd P T)) (hp : List.Forall₂ SameBut p1 p2) : p1.filterMap Cmd.kind = p2.filterMap Cmd.kind := by
  induction hp with
  | nil => rfl
  | @cons c c' cs cs' hc hcs ih =>
    have hk : c.kind = c'.kind := by cases c <;> cases c' <;> first | rfl | cases hc
    rw [List.filterMap_cons, List.filterMap_cons, hk, ih]

omit [AddCommGroup T] [PubEnc P T] in
theorem sameBut_valid (p1 p2 : List (Cmd P T)) (hp : List.Forall₂ SameBut p1 p2) (k : Nat) (h : ValidProg k p1) : ValidProg k p2 := by
  induction hp generalizing k with
  | nil => trivial
  | @cons c c' cs cs' hc hcs ih =>
    refine ⟨?_, ih _ h.2⟩
    cases c <;> cases c' <;> cases hc <;> exact h.1

/-- C74 (partial): opening a result tells its value only.  Of two programs that differ in their secrets only, each run of one has
exactly one run of the other that looks the same to all parties but `h`; in these runs the same parties hold the same shares of
every tensor, and wherever the results are equal, the shares of all parties are equal, so that opening them shows nothing else.
Missing: as in `C74_views_partial`. -/
theorem C74_opening_partial (env : Env) (s : Session) (hs : s.Live env) (n : Nat) (hn : s.nrParties = n + 2) (op : T →+ T →+ T)
    (trunc : Config → T → T) (h : Nat) (hh : h < n + 2) (p1 p2 : List (Cmd P T)) (hp : List.Forall₂ SameBut p1 p2)
    (hv : ValidProg 0 p1) (t1 : List (Draw (n + 1) T)) (S1 : State T)
    (h1 : run env s (fun a b => op a b) trunc p1 t1 State.empty = .ok S1) :
    ∃! t2 : List (Draw (n + 1) T), ∃ S2, run env s (fun a b => op a b) trunc p2 t2 State.empty = .ok S2 ∧
      S2.log.map (hide h) = S1.log.map (hide h) ∧
      ∀ (k : Nat) (x1 x2 : MPCTensor T), S1.tensors[k]? = some x1 → S2.tensors[k]? = some x2 →
        (x1.shares.map (·.tensor)).eraseIdx h = (x2.shares.map (·.tensor)).eraseIdx h ∧
        (x1.reconstruct = x2.reconstruct → x1.shares.map (·.tensor) = x2.shares.map (·.tensor)) := by
  obtain ⟨view, e1, e2, e3⟩ := log_form env s hs n hn op trunc h hh p1 t1 State.empty S1 (Sane.empty ..) hv h1
  have e1 : S1.log.map (hide h) = view := e1
  have hv2 := sameBut_valid p1 p2 hp 0 hv
  obtain ⟨t2, ⟨S2, g1, g2⟩, g3⟩ := C74_views_partial env s hs n hn op trunc h hh p2 hv2 view ⟨by rw [e2, sameBut_kind p1 p2 hp], e3⟩
  refine ⟨t2, ⟨S2, g1, by rw [g2, e1], ?_⟩, ?_⟩
  · have ho := others_same env s hs n hn op trunc h hh p1 p2 hp t1 t2 State.empty State.empty S1 S2 (Sane.empty ..) (Sane.empty ..) hv rfl rfl h1
      g1 (by rw [g2, e1])
    intro k x1 x2 hx1 hx2
    have hk := congrArg (fun l => l[k]?) ho
    simp only [others, shareLists, List.getElem?_map, hx1, hx2, Option.map_some, Option.some.injEq] at hk
    refine ⟨hk, fun hr => ?_⟩
    have sane : ∀ (p : List (Cmd P T)) (t : List (Draw (n + 1) T)) (S : State T), ValidProg 0 p →
        run env s (fun a b => op a b) trunc p t State.empty = .ok S → Sane env s (fun a b => op a b) S := by
      intro p t S hv hrun
      have hf : Fits p t := fits_of_run env s _ trunc p t State.empty S hrun
      obtain ⟨S', k1, k2, _⟩ := run_ok env s hs n hn op trunc p t State.empty (Sane.empty ..) hv hf
      rw [hrun] at k1
      cases k1
      exact k2
    have s1 := sane p1 t1 S1 hv h1
    have s2 := sane p2 t2 S2 hv2 g1
    have w1 := s1.wf x1 (List.mem_of_getElem? hx1)
    have w2 := s2.wf x2 (List.mem_of_getElem? hx2)
    rw [wf_value w1, wf_value w2] at hr
    have len : ∀ x : MPCTensor T, x.WF env → x.session = s → x.shares.length = n + 2 := by
      intro x hx hxs
      have := congrArg List.length hx.tags
      simpa [hxs, hs.ranks, hn] using this
    exact eq_of_erase_sum _ _ h (by simp [len x1 w1 (s1.sess x1 (List.mem_of_getElem? hx1)), hh])
      (by simp [len x2 w2 (s2.sess x2 (List.mem_of_getElem? hx2)), hh]) hk (Except.ok.inj hr)
  · rintro t ⟨S, k1, k2, _⟩
    exact g3 t ⟨S, k1, by rw [k2, e1]⟩

/-! ## Integers -/

/-- integers as elements of the ring -/
def ofInts {ι : Type} (v : ι → ℤ) : ι → I64 := fun k => BitVec.ofInt 64 (v k)

theorem ofInts_getD {ι : Type} (vs : List (ι → ℤ)) (i : Nat) : (vs.map ofInts).getD i 0 = ofInts (vs.getD i 0) := by
  simp only [List.getD_eq_getElem?_getD, List.getElem?_map]
  cases vs[i]? <;> rfl

theorem ofInts_den {ι : Type} (o : MPCTensor.LinOp) (v w : ι → ℤ) : LinOp.den o (ofInts v) (ofInts w) = ofInts (LinOp.den o v w) := by
  cases o <;> funext k
  · exact (BitVec.ofInt_add _ _).symm
  · show BitVec.ofInt 64 (v k) - BitVec.ofInt 64 (w k) = BitVec.ofInt 64 (v k - w k)
    rw [sub_eq_iff_eq_add, ← BitVec.ofInt_add, sub_add_cancel]

theorem enc_int {ι : Type} (c : Config) (hc : c.encoderPrecision = 0) (v : ι → FixedPointEncoder.Val) :
    PubEnc.enc c v = ofInts fun k => intOf (v k) := by
  funext k
  show FixedPointEncoder.encode _ (v k) = BitVec.ofInt 64 (intOf (v k))
  unfold FixedPointEncoder.encode Config.encoder FixedPointEncoder.new
  cases v k <;> simp [FixedPointEncoder.encodeInt, intOf, hc]

theorem eval_ofInts {ι : Type} (c : Config) (hc : c.encoderPrecision = 0) (prog : List (Cmd (ι → FixedPointEncoder.Val) (ι → I64)))
    (ha : ∀ c ∈ prog, Arith c) (vs : List (ι → ℤ)) :
    eval c (fun a b => AddMonoidHom.mul a b) (vs.map ofInts) prog = (evalInt vs prog).map ofInts := by
  induction prog generalizing vs with
  | nil => rfl
  | cons cmd cs ih =>
    have : evalCmd c (fun a b => AddMonoidHom.mul a b) (vs.map ofInts) cmd = ofInts (evalIntCmd vs cmd) := by
      have := ha cmd (by simp)
      cases cmd with
      | method f i => exact this.elim
      | secret v => exact enc_int c hc v
      | lin o i j => simp only [evalCmd, evalIntCmd, ofInts_getD, ofInts_den]
      | linPublic o i v => simp only [evalCmd, evalIntCmd, ofInts_getD, enc_int c hc, ofInts_den]
      | mulPublic i v =>
        simp only [evalCmd, evalIntCmd, ofInts_getD, enc_int c hc]
        funext k
        exact (BitVec.ofInt_mul ..).symm
      | mul i j =>
        simp only [evalCmd, evalIntCmd, ofInts_getD]
        funext k
        exact (BitVec.ofInt_mul ..).symm
    simp only [eval, evalInt, this]
    rw [show vs.map ofInts ++ [ofInts (evalIntCmd vs cmd)] = (vs ++ [evalIntCmd vs cmd]).map ofInts by simp]
    exact ih (fun c hc => ha c (by simp [hc])) _

theorem floordiv_one (t : I64) : floordiv t 1#64 = t := BitVec.sdiv_one

/-- C73: with precision 0 programs of arithmetic compute with integers: for any number of parties and whatever is drawn, a tensor
whose true integer values are in the range of int64 decodes to exactly these, even if earlier results were out of range. -/
theorem C73_integer_programs {ι : Type} (env : Env) (s : Session) (hs : s.Live env) (n : Nat) (hn : s.nrParties = n + 2)
    (hc : s.config.encoderPrecision = 0) (prog : List (Cmd (ι → FixedPointEncoder.Val) (ι → I64))) (hv : ValidProg 0 prog)
    (ha : ∀ c ∈ prog, Arith c) (tape : List (Draw (n + 1) (ι → I64))) (hf : Fits prog tape) :
    ∃ S, run env s (fun a b => AddMonoidHom.mul a b) truncTensor prog tape State.empty = .ok S ∧
      S.tensors.length = prog.length ∧
      ∀ (k : Nat) (v : ι → ℤ), (evalInt [] prog)[k]? = some v → (∀ i, -2 ^ 63 ≤ v i ∧ v i < 2 ^ 63) →
        ∃ x w, S.tensors[k]? = some x ∧ x.reconstruct = .ok w ∧ ∀ i, s.config.encoder.decode (.long (w i)) = .ok (v i : ℚ) := by
  have hprec : s.config.encoder.precision = 0 := hc
  obtain ⟨S, h1, h2, h3⟩ := run_ok env s hs n hn AddMonoidHom.mul truncTensor prog tape State.empty (Sane.empty ..) hv hf
  have h3 := h3 (fun _ t => by
      funext k
      simp only [truncTensor, hc, pow_zero]
      exact floordiv_one (t k)) (by
    intro c hcm
    have := ha c hcm
    cases c <;> trivial)
  have he : eval s.config (fun a b => AddMonoidHom.mul a b) (values State.empty) prog = (evalInt [] prog).map ofInts :=
    eval_ofInts s.config hc prog ha []
  rw [he] at h3
  have hlen : ∀ (vs : List (ι → ℤ)) (p : List (Cmd (ι → FixedPointEncoder.Val) (ι → I64))), (evalInt vs p).length = vs.length + p.length := by
    intro vs p
    induction p generalizing vs with
    | nil => rfl
    | cons c cs ih => simp only [evalInt, ih, List.length_append, List.length_cons, List.length_nil]; omega
  refine ⟨S, h1, ?_, ?_⟩
  · have := congrArg List.length h3
    simpa [values, hlen] using this
  · intro k v hk hb
    have hk3 := congrArg (fun l => l[k]?) h3
    simp only [values, List.getElem?_map, hk, Option.map_some, Option.map_eq_some_iff] at hk3
    obtain ⟨x, hx, hxv⟩ := hk3
    refine ⟨x, _, hx, wf_value (h2.wf x (List.mem_of_getElem? hx)), fun i => ?_⟩
    rw [hxv]
    simp only [FixedPointEncoder.decode, hprec, if_true, ofInts]
    rw [toInt_ofInt64 (hb i).1 (hb i).2]

/-- C73: the division by the scale that follows the products of three or more parties, and public products, is by 1 when the
precision is 0, and changes nothing, whatever is drawn for it and however the shares wrap around. -/
theorem C73_division_by_one (fl : ℚ → ℚ) (env : Env) (s : Session) (hs : s.Live env) (hr : s.ringSize = 2 ^ 64)
    (hc : s.config.encoderPrecision = 0) (rnd : WrapRand) (x : MPCTensor I64) (hx : x.WF env) (hxs : x.session = s) :
    ∃ res x', publicDivide fl env rnd x ((s.config.encoderBase ^ s.config.encoderPrecision : Nat) : Int) = .ok (res, x') ∧ res.WF env ∧
      res.reconstruct = x.reconstruct := by
  rw [hc, pow_zero]
  have hone : (fun t : I64 => floordiv t (BitVec.ofInt 64 ((1 : Nat) : Int))) = id := funext fun t => floordiv_one t
  by_cases h2 : s.nrParties = 2
  · refine ⟨⟨s, x.shares.map (ShareTensor.div (floordiv · (BitVec.ofInt 64 ((1 : Nat) : Int))))⟩, x, ?_, ?_, ?_⟩
    · unfold publicDivide
      dsimp only
      rw [hxs, if_pos h2, ofShares_ok _ _ hs.ptrs (by simpa using WF.nonempty hx)]
      rfl
    · exact ⟨hs.toReady, by simpa [ShareTensor.div, Function.comp_def, hxs] using hx.tags⟩
    · rw [hone]
      rw [WF.reconstruct hx, WF.reconstruct (env := env) ⟨hs.toReady, by simpa [ShareTensor.div, Function.comp_def, hxs] using hx.tags⟩]
      simp [ShareTensor.div, Function.comp_def]
  · obtain ⟨n, hn⟩ : ∃ n, s.nrParties = n + 3 := ⟨s.nrParties - 3, by have := hs.two; omega⟩
    obtain ⟨res, x', bs, wr, wz, a1, a2, a3, a4, a5, a6, a7, b1, b2, b3, b4⟩ := divide_core fl env s hs n hn rnd x hx hxs ((1 : Nat) : Int)
    refine ⟨res, x', a1, a2, ?_⟩
    rw [b4, WF.reconstruct hx, hone, List.map_id]
    congr 1
    have : ∀ t : I64, PubEnc.enc (T := I64) s.config (wrapCorrection fl s.config s.ringSize t ((1 : Nat) : Int)) = 0 := by
      intro t
      unfold wrapCorrection
      dsimp only
      rw [if_pos hc, hr]
      have : t * 4 * BitVec.ofInt 64 (((2 ^ 64 : Nat) : Int) / 4 / ((1 : Nat) : Int)) = 0 := by
        rw [mul_assoc, show (4 : I64) * BitVec.ofInt 64 (((2 ^ 64 : Nat) : Int) / 4 / ((1 : Nat) : Int)) = 0 by decide, mul_zero]
      rw [this]
      show FixedPointEncoder.encode _ _ = _
      simp [FixedPointEncoder.encode, FixedPointEncoder.encodeInt]
    rw [this, sub_zero]

/-! ## Concrete cases -/

/-- three secrets, `(x0 - x1) * x2 + 5 * x0`, and the sum with a public number -/
def exProg (a b c : Int) : List (Cmd FixedPointEncoder.Val I64) :=
  [.secret (.int a), .secret (.int b), .secret (.int c), .lin .sub 0 1, .mul 3 2, .mulPublic 0 (.int 5), .lin .add 4 5, .linPublic .add 6 (.int 1)]

def exTape : List (Draw 2 I64) :=
  [.sharing ![7, 0x8000000000000001#64], .sharing ![3, 4], .sharing ![-9, 5], .triple 11 (-13) ![1, 2] ![3, 4] ![5, 6]]

/-- `exSession` with precision 0 -/
def exSession0 : Session :=
  { exSession with
    config := { encoderPrecision := 0 }
    sessionPtrs := exSession.sessionPtrs.map fun p => { p with config := { encoderPrecision := 0 } } }

def exEnv0 : Env := Env.register (fun _ => none) exSession0.sessionPtrs

theorem exLive0 : exSession0.Live exEnv0 where
  two := by decide
  ptrs := by decide
  ranks := rfl
  parties := rfl
  known := by
    have : ∀ u ∈ exSession0.rankToUuid, (exEnv0 u).map (fun p => (p.config, p.ringSize)) = some (exSession0.config, exSession0.ringSize) := by
      decide
    intro u hu
    have := this u hu
    cases hp : exEnv0 u with
    | none => rw [hp] at this; simp at this
    | some p =>
      rw [hp] at this
      simp at this
      exact ⟨p, rfl, this.1, this.2⟩
  ring := ⟨.int64, by decide⟩
  ranked := by
    intro r u h
    have hr : r < 3 := (List.getElem?_eq_some_iff.mp h).1
    have : ∀ r : Nat, r < 3 → ∀ u, exSession0.rankToUuid[r]? = some u →
        ((exEnv0 u).map (·.rank) = some (r : Int) ∧ (exEnv0 u).map (·.nrParties) = some 3) := by
      intro r hr u h
      have : r = 0 ∨ r = 1 ∨ r = 2 := by omega
      rcases this with rfl | rfl | rfl <;> (simp [exSession0, exSession] at h; subst h; decide)
    obtain ⟨h1, h2⟩ := this r hr u h
    cases hp : exEnv0 u with
    | none => rw [hp] at h1; simp at h1
    | some p =>
      rw [hp] at h1 h2
      simp at h1 h2
      exact ⟨p, rfl, h1, h2⟩
  distinct := by decide
  pointers := by decide

/-- the hypotheses of `C73_division_by_one` -/
example : exSession0.Live exEnv0 ∧ exSession0.ringSize = 2 ^ 64 ∧ exSession0.config.encoderPrecision = 0 ∧ exSession0.nrParties = 3 :=
  ⟨exLive0, rfl, rfl, rfl⟩

example : ValidProg 0 (exProg 1 2 3) ∧ Fits (exProg 1 2 3) exTape ∧ (∀ c ∈ exProg 1 2 3, Additive c) := by
  refine ⟨by simp [exProg, ValidProg, Valid], rfl, ?_⟩
  simp [exProg, Additive]

/-- the values: `(20 - 50) * 4 + 5 * 20 = -20`, and 1 more -/
example : (match run exEnv0 exSession0 (fun a b : I64 => AddMonoidHom.mul a b) (fun _ t => t) (exProg 20 50 4) exTape State.empty with
    | .ok S => S.tensors.map MPCTensor.reconstruct
    | .error _ => []) = [.ok 20, .ok 50, .ok 4, .ok (-30), .ok (-120), .ok 100, .ok (-20), .ok (-19)] := by
  decide +kernel

/-- two secrets and a product: what the second and the third party see -/
example : (match run exEnv0 exSession0 (fun a b : I64 => AddMonoidHom.mul a b) (fun _ t => t)
      ([.secret (.int 6), .secret (.int 7), .mul 0 1] : List (Cmd FixedPointEncoder.Val I64)) ([.sharing ![7, 1], .sharing ![3, 4], .triple 11 (-13) ![1, 2] ![3, 4] ![5, 6]] : List (Draw 2 I64))
      State.empty with
    | .ok S => S.log.map (hide 0)
    | .error _ => []) =
    [.shared [-6, 5], .shared [1, 3], .product (-5) 20 [(1, 1, 1), (9, -17, -149)]] := by
  decide +kernel

/-- the same view with other secrets, 100 and 0, from another tape -/
example : (match run exEnv0 exSession0 (fun a b : I64 => AddMonoidHom.mul a b) (fun _ t => t)
      ([.secret (.int 100), .secret (.int 0), .mul 0 1] : List (Cmd FixedPointEncoder.Val I64))
      ([.sharing ![101, 95], .sharing ![-4, -3], .triple 105 (-20) ![95, 96] ![-4, -3] ![-1952, -1951]] : List (Draw 2 I64))
      State.empty with
    | .ok S => S.log.map (hide 0)
    | .error _ => []) =
    [.shared [-6, 5], .shared [1, 3], .product (-5) 20 [(1, 1, 1), (9, -17, -149)]] := by
  decide +kernel

end SyMPC.Program
