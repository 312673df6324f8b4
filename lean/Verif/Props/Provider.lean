import Verif.Model.Provider
import Verif.Lemmas.Py

/-!
# C68: registered functions and the delivery of primitives

Specification: a name stands for the function that was first registered under it; generated primitives reach the store of each party
through the registered adder, and their shares carry the identifier of that party's session.
-/

namespace SyMPC.Provider

variable {F V S G P : Type}

theorem find_append (d : Dict F) (name other : String) (f : F) (h : d.find name = none) :
    Dict.find (d ++ [(name, f)]) other = if other = name then some f else d.find other := by
  unfold Dict.find at h ⊢
  rw [List.find?_append]
  by_cases ho : other = name
  · subst ho
    rw [if_pos rfl]
    have : d.find? (fun e => decide (e.1 = other)) = none := by simpa using h
    rw [this]
    simp
  · rw [if_neg ho]
    have : List.find? (fun e => decide (e.1 = other)) [(name, f)] = none := by simp [Ne.symm ho]
    rw [this]
    simp

/-- Registering: a free name gets the function and other names keep theirs; a taken name raises `ValueError` and nothing changes. -/
theorem C68_register (d : Dict F) (name : String) (f : F) :
    (d.find name = none → (d.register name f).2 = .ok f ∧ (d.register name f).1.find name = some f ∧
      ∀ other, other ≠ name → (d.register name f).1.find other = d.find other) ∧
    (d.find name ≠ none → (d.register name f).2 = .error .valueError ∧ (d.register name f).1 = d) := by
  unfold Dict.register
  cases h : d.find name with
  | none =>
    refine ⟨fun _ => ⟨rfl, ?_, fun other ho => ?_⟩, fun h => absurd rfl h⟩
    · exact (find_append d name name f h).trans (if_pos rfl)
    · exact (find_append d name other f h).trans (if_neg ho)
  | some g => exact ⟨fun h => by simp at h, fun _ => ⟨rfl, rfl⟩⟩

/-- the registry after a sequence of attempts -/
def registerAll (d : Dict F) (l : List (String × F)) : Dict F := l.foldl (fun d e => (d.register e.1 e.2).1) d

/-- after any sequence of registrations every name stands for the first function that was registered under it -/
theorem C68_first_registration (l : List (String × F)) (name : String) :
    (registerAll [] l).find name = (l.find? (·.1 = name)).map (·.2) := by
  suffices h : ∀ (l : List (String × F)) (d : Dict F),
      (registerAll d l).find name = (d.find name).or ((l.find? (·.1 = name)).map (·.2)) by
    rw [h l []]
    simp [Dict.find]
  intro l
  induction l with
  | nil => intro d; simp [registerAll]
  | cons e l ih =>
    intro d
    change (registerAll (d.register e.1 e.2).1 l).find name = _
    rw [ih]
    have hr := C68_register d e.1 e.2
    by_cases h0 : d.find e.1 = none
    · obtain ⟨-, h2, h3⟩ := hr.1 h0
      by_cases hn : name = e.1
      · subst hn
        rw [h2, h0]
        simp
      · rw [h3 name hn, List.find?_cons_of_neg (by simpa using Ne.symm hn)]
    · rw [(hr.2 h0).2]
      by_cases hn : name = e.1
      · subst hn
        obtain ⟨g, hg⟩ := Option.ne_none_iff_exists'.mp h0
        rw [hg]
        rfl
      · rw [List.find?_cons_of_neg (by simpa using Ne.symm hn)]

example : (registerAll [] [("beaver_mul", 1), ("fss_eq", 2), ("beaver_mul", 3)]).find "beaver_mul" = some 1 := by decide

/-! ### Delivery -/

theorem tag_length (uuids : List Nat) (prims : List (Prims V)) : (tag uuids prims).length = prims.length := by
  simp [tag]
  omega

/-- the shares of each party are tagged with its session -/
theorem tag_get (uuids : List Nat) (prims : List (Prims V)) (r : Nat) (hu : r < uuids.length) (hp : r < prims.length) :
    (tag uuids prims)[r]? = some (prims[r].map fun i => i.map fun s => ⟨s.value, some uuids[r]⟩) := by
  unfold tag
  rw [List.getElem?_append_left (by simp; omega), List.getElem?_zipWith, List.getElem?_eq_getElem hu, List.getElem?_eq_getElem hp]

theorem transferLoop_ok (fs : Functions V S G P) (name : String) (p : P) (add : S → Prims V → P → Py S) (ha : fs.adders.find name = some add)
    (prims : List (Prims V)) (stores : List S) (hl : prims.length = stores.length)
    (h : ∀ r (h1 : r < prims.length) (h2 : r < stores.length), ∃ s, add stores[r] prims[r] p = .ok s) :
    ∃ stores', transferLoop fs name p prims stores = (stores', .ok ()) ∧ stores'.length = stores.length ∧
      ∀ r (h1 : r < prims.length) (h2 : r < stores.length) (h3 : r < stores'.length), add stores[r] prims[r] p = .ok stores'[r] := by
  induction prims generalizing stores with
  | nil =>
    obtain rfl : stores = [] := List.length_eq_zero_iff.mp hl.symm
    exact ⟨[], rfl, rfl, fun r h1 => by simp at h1⟩
  | cons q prims ih =>
    match stores, hl with
    | s :: stores, hl =>
      obtain ⟨s', hs'⟩ := h 0 (by simp) (by simp)
      obtain ⟨st, i1, i2, i3⟩ := ih stores (by simpa using hl) fun r h1 h2 =>
        h (r + 1) (Nat.succ_lt_succ h1) (Nat.succ_lt_succ h2)
      refine ⟨s' :: st, ?_, by simp [i2], fun r h1 h2 h3 => ?_⟩
      · have : populate fs name s q p = .ok s' := by
          unfold populate
          rw [ha]
          exact hs'
        unfold transferLoop
        rw [this]
        dsimp only
        rw [i1]
      · cases r with
        | zero => exact hs'
        | succ r => exact i3 r (Nat.lt_of_succ_lt_succ h1) (Nat.lt_of_succ_lt_succ h2) (Nat.lt_of_succ_lt_succ h3)

/-- Delivery: when the generator makes one list of primitives per party and the adder accepts the ones of each party, every party's store is its old store
with its own primitives added, and every share of them has the identifier of that party's session. -/
theorem C68_delivery (fs : Functions V S G P) (name : String) (uuids : List Nat) (g : G) (p : P) (st : State S G P)
    (gen : G → Option (List (Prims V))) (hg : fs.generators.find name = some gen) (prims : List (Prims V)) (hp : gen g = some prims)
    (add : S → Prims V → P → Py S) (ha : fs.adders.find name = some add) (hu : uuids.length = prims.length)
    (hs : st.stores.length = prims.length)
    (hok : ∀ r (h1 : r < prims.length) (h2 : r < uuids.length) (h3 : r < st.stores.length),
      ∃ s', add st.stores[r] (prims[r].map fun i => i.map fun s => ⟨s.value, some uuids[r]⟩) p = .ok s') :
    ∃ st' out, generate fs name uuids g (some p) st = (st', .ok out) ∧ out.length = prims.length ∧ st'.stores.length = prims.length ∧
      ∀ r (h1 : r < prims.length) (h2 : r < uuids.length) (h3 : r < st.stores.length) (h4 : r < out.length) (h5 : r < st'.stores.length),
        out[r] = prims[r].map (fun i => i.map fun s => ⟨s.value, some uuids[r]⟩) ∧ add st.stores[r] out[r] p = .ok st'.stores[r] := by
  have hl := tag_length uuids prims
  obtain ⟨stores', i1, i2, i3⟩ := transferLoop_ok fs name p add ha (tag uuids prims) st.stores (hl.trans hs.symm) fun r h1 h2 => by
    have h1' : r < prims.length := hl ▸ h1
    have := tag_get uuids prims r (hu.symm ▸ h1') h1'
    rw [List.getElem?_eq_getElem h1] at this
    rw [Option.some.inj this]
    exact hok r h1' (hu.symm ▸ h1') h2
  refine ⟨⟨stores', st.logging, if st.logging then st.log ++ [(name, some p, g)] else st.log⟩, tag uuids prims, ?_, hl,
    i2.trans hs, fun r h1 h2 h3 h4 h5 => ⟨?_, i3 r h4 h3 h5⟩⟩
  · unfold generate
    rw [hg]
    dsimp only
    rw [hp]
    dsimp only
    rw [if_neg (by rw [hl, hs]; exact fun h => h rfl), i1]
    rfl
  · have := tag_get uuids prims r h2 h1
    rw [List.getElem?_eq_getElem h4] at this
    exact Option.some.inj this

/-- Refused calls change no store: an unknown name, a result that is not a list, and one that has not a list for every party, are
`ValueError`s. -/
theorem C68_refused (fs : Functions V S G P) (name : String) (uuids : List Nat) (g : G) (p : P) (st : State S G P)
    (h : ∀ gen, fs.generators.find name = some gen → ∀ prims, gen g = some prims → prims.length ≠ st.stores.length) :
    (generate fs name uuids g (some p) st).2 = .error .valueError ∧ (generate fs name uuids g (some p) st).1.stores = st.stores := by
  unfold generate
  cases hg : fs.generators.find name with
  | none => exact ⟨rfl, rfl⟩
  | some gen =>
    dsimp only
    cases hp : gen g with
    | none => exact ⟨rfl, rfl⟩
    | some prims =>
      dsimp only
      rw [if_pos (by rw [tag_length]; exact h gen hg prims hp)]
      exact ⟨rfl, rfl⟩

/-- without populate arguments the primitives are returned, tagged, and no store changes -/
theorem C68_not_transferred (fs : Functions V S G P) (name : String) (uuids : List Nat) (g : G) (st : State S G P)
    (gen : G → Option (List (Prims V))) (hg : fs.generators.find name = some gen) (prims : List (Prims V)) (hp : gen g = some prims) :
    ∃ out, (generate fs name uuids g none st).2 = .ok out ∧ (generate fs name uuids g none st).1.stores = st.stores ∧
      ∀ r (h1 : r < prims.length) (h2 : r < uuids.length),
        out[r]? = some (prims[r].map fun i => i.map fun s => ⟨s.value, some uuids[r]⟩) := by
  unfold generate
  rw [hg]
  dsimp only
  rw [hp]
  exact ⟨_, rfl, rfl, fun r h1 h2 => tag_get uuids prims r h2 h1⟩

/-- A generator without a registered adder raises `KeyError`, and no store changes. -/
theorem C68_no_adder (fs : Functions V S G P) (name : String) (uuids : List Nat) (g : G) (p : P) (st : State S G P)
    (gen : G → Option (List (Prims V))) (hg : fs.generators.find name = some gen) (prims : List (Prims V)) (hp : gen g = some prims)
    (ha : fs.adders.find name = none) (hs : prims.length = st.stores.length) (hne : prims ≠ []) :
    (generate fs name uuids g (some p) st).2 = .error .keyError ∧ (generate fs name uuids g (some p) st).1.stores = st.stores := by
  have hl := tag_length uuids prims
  unfold generate
  rw [hg]
  dsimp only
  rw [hp]
  dsimp only
  rw [if_neg (by rw [hl, hs]; exact fun h => h rfl)]
  have : transferLoop fs name p (tag uuids prims) st.stores = (st.stores, .error .keyError) := by
    cases ht : tag uuids prims with
    | nil =>
      rw [ht] at hl
      exact absurd (List.length_eq_zero_iff.mp hl.symm) hne
    | cons q t =>
      cases hst : st.stores with
      | nil =>
        rw [hst] at hs
        exact absurd (List.length_eq_zero_iff.mp hs) hne
      | cons s l =>
        unfold transferLoop populate
        rw [ha]
  rw [this]
  exact ⟨rfl, rfl⟩

/-- With logging, every generation is recorded, also one whose delivery fails, and nothing else is. -/
theorem C68_logged (fs : Functions V S G P) (name : String) (uuids : List Nat) (g : G) (p : Option P) (st : State S G P) :
    (generate fs name uuids g p st).1.log =
      if st.logging ∧ fs.generators.find name ≠ none then st.log ++ [(name, p, g)] else st.log := by
  unfold generate
  cases fs.generators.find name with
  | none => simp
  | some gen =>
    cases hp : gen g with
    | none => cases hl : st.logging <;> simp [hp]
    | some prims =>
      cases p with
      | none => cases hl : st.logging <;> simp [hp]
      | some p =>
        by_cases hs : (tag uuids prims).length = st.stores.length <;> cases hl : st.logging <;> simp [hp, hs]

/-- A store whose adder fails at the second party leaves the first party's primitives behind: the stores are not all or nothing. -/
theorem C68_half_delivered :
    let fs : Functions Nat (List Nat) Nat Unit :=
      ⟨[("p", fun g => some [[[⟨g, none⟩]], [[⟨g + 1, none⟩]]])],
        [("p", fun s q _ => if s.length < 1 then .ok (s ++ q.flatten.map (·.value)) else .error .valueError)]⟩
    (generate fs "p" [70, 71] 5 (some ()) ⟨[[], [9]], false, []⟩).1.stores = [[5], [9]] ∧
      (generate fs "p" [70, 71] 5 (some ()) ⟨[[], [9]], false, []⟩).2 = .error .valueError := by
  decide +kernel

/-- a provider with a generator and an adder -/
def exFunctions : Functions Nat (List Nat) Nat Unit :=
  ⟨[("p", fun g => some [[[⟨g, none⟩]], [[⟨g + 1, none⟩]]])], [("p", fun s q _ => .ok (s ++ q.flatten.map (·.value)))]⟩

example : (generate exFunctions "p" [70, 71] 5 (some ()) ⟨[[], [9]], true, []⟩).1.stores = [[5], [9, 6]] ∧
    (generate exFunctions "p" [70, 71] 5 (some ()) ⟨[[], [9]], true, []⟩).2 = .ok [[[⟨5, some 70⟩]], [[⟨6, some 71⟩]]] ∧
    (generate exFunctions "q" [70, 71] 5 (some ()) ⟨[[], [9]], true, []⟩).2 = .error .valueError := by
  decide +kernel

/-- a generator of one list too many, and one whose store has no adder -/
example : let fs : Functions Nat (List Nat) Nat Unit :=
      ⟨[("p", fun g => some [[[⟨g, none⟩]], [[⟨g + 1, none⟩]], [[⟨g + 2, none⟩]]]), ("q", fun g => some [[[⟨g, none⟩]], [[⟨g, none⟩]]])], []⟩
    (generate fs "p" [70, 71] 5 (some ()) ⟨[[], [9]], true, []⟩).2 = .error .valueError ∧
      (generate fs "p" [70, 71] 5 (some ()) ⟨[[], [9]], true, []⟩).1.log = [("p", some (), 5)] ∧
      (generate fs "q" [70, 71] 5 (some ()) ⟨[[], [9]], true, []⟩).2 = .error .keyError ∧
      (generate fs "q" [70, 71] 5 none ⟨[[], [9]], true, []⟩).2 = .ok [[[⟨5, some 70⟩]], [[⟨5, some 71⟩]]] := by
  decide +kernel

/-! ### Classes of tensors -/

theorem addHooks_spec (hook : String → Entry) (names : List String) (d : Dict Entry) (hn : names.Nodup) :
    ((∀ n ∈ names, d.find n = none) → ∃ r, addHooks hook names d = .ok r ∧
      ∀ n, r.find n = if n ∈ names then some (hook n) else d.find n) ∧
    ((∃ n ∈ names, d.find n ≠ none) → addHooks hook names d = .error .valueError) := by
  induction names generalizing d with
  | nil => exact ⟨fun _ => ⟨d, rfl, fun n => by simp⟩, fun ⟨n, h, _⟩ => by simp at h⟩
  | cons a names ih =>
    obtain ⟨ha, hn⟩ := List.nodup_cons.mp hn
    unfold addHooks
    cases hd : d.find a with
    | some e =>
      refine ⟨fun h => ?_, fun _ => rfl⟩
      have := h a List.mem_cons_self
      rw [hd] at this
      cases this
    | none =>
      rw [if_neg (by simp)]
      obtain ⟨i1, i2⟩ := ih (d ++ [(a, hook a)]) hn
      have hfind := fun other => find_append d a other (hook a) hd
      refine ⟨fun h => ?_, fun ⟨n, h1, h2⟩ => ?_⟩
      · obtain ⟨r, j1, j2⟩ := i1 fun n hm => by
          have hne : n ≠ a := fun e => ha (e ▸ hm)
          rw [hfind, if_neg hne]
          exact h n (List.mem_cons_of_mem _ hm)
        refine ⟨r, j1, fun n => ?_⟩
        rw [j2 n, hfind]
        by_cases hna : n = a
        · subst hna
          simp [ha]
        · simp [hna]
      · refine i2 ⟨n, ?_, ?_⟩
        · rcases List.mem_cons.mp h1 with rfl | h1
          · exact absurd hd h2
          · exact h1
        · rw [hfind]
          split
          · simp
          · exact h2

/-- The class of a tensor has a hooked method or property for every forwarded name and keeps its own attributes; when a name is already
taken, or is both a method and a property, `ValueError` is raised: no attribute is replaced in silence. -/
theorem C68_hooks (own : Dict Entry) (methods properties : List String) (hm : methods.Nodup) (hp : properties.Nodup) :
    ((∀ n ∈ methods, own.find n = none) ∧ (∀ n ∈ properties, own.find n = none ∧ n ∉ methods) →
      ∃ r, newClass own methods properties = .ok r ∧ (∀ n ∈ methods, r.find n = some (.method n)) ∧
        (∀ n ∈ properties, r.find n = some (.property n)) ∧ ∀ n, n ∉ methods → n ∉ properties → r.find n = own.find n) ∧
    ((∃ n ∈ methods, own.find n ≠ none) ∨ (∃ n ∈ properties, own.find n ≠ none ∨ n ∈ methods) →
      newClass own methods properties = .error .valueError) := by
  obtain ⟨a1, a2⟩ := addHooks_spec .method methods own hm
  unfold newClass
  by_cases h1 : ∀ n ∈ methods, own.find n = none
  · obtain ⟨d, b1, b2⟩ := a1 h1
    obtain ⟨c1, c2⟩ := addHooks_spec .property properties d hp
    rw [b1, ok_bind]
    refine ⟨fun ⟨_, h⟩ => ?_, fun h => ?_⟩
    · obtain ⟨r, e1, e2⟩ := c1 fun n hn => by rw [b2 n, if_neg (h n hn).2]; exact (h n hn).1
      refine ⟨r, e1, fun n hn => ?_, fun n hn => ?_, fun n hn hn' => ?_⟩
      · rw [e2 n, if_neg fun hc => (h n hc).2 hn, b2 n, if_pos hn]
      · rw [e2 n, if_pos hn]
      · rw [e2 n, if_neg hn', b2 n, if_neg hn]
    · rcases h with ⟨n, hn, hne⟩ | ⟨n, hn, hne⟩
      · exact absurd (h1 n hn) hne
      · refine c2 ⟨n, hn, ?_⟩
        rw [b2 n]
        by_cases hmem : n ∈ methods
        · rw [if_pos hmem]
          simp
        · rw [if_neg hmem]
          exact hne.resolve_right hmem
  · have h1' : ∃ n ∈ methods, own.find n ≠ none := by
      by_contra hc
      exact h1 fun n hn => by
        by_contra hne
        exact hc ⟨n, hn, hne⟩
    rw [a2 h1']
    exact ⟨fun ⟨h, _⟩ => absurd h h1, fun _ => rfl⟩

example : newClass [("add", .own 1)] ["t", "sum"] ["T"] = .ok [("add", .own 1), ("t", .method "t"), ("sum", .method "sum"), ("T", .property "T")] ∧
    newClass [("sum", .own 1)] ["t", "sum"] ["T"] = .error .valueError := by decide

end SyMPC.Provider
