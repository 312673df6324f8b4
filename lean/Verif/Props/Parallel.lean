import Verif.Model.Parallel
import Verif.Model.Falcon
import Verif.Lemmas.Py
import Mathlib.Data.List.Basic

/-!
# C43: parallel execution does not depend on the order in which the workers make their steps
-/

namespace SyMPC

variable {P α A Kw : Type}

/-- Running a worker alone: the specification. -/
def Task.alone : Task P α → P → Py α × P
  | .ret r, p => (r, p)
  | .step upd next, p => (next p).alone (upd p)

theorem advance_alone (t : Task P α × P) : (Task.advance t).1.alone (Task.advance t).2 = t.1.alone t.2 := by
  obtain ⟨t, p⟩ := t
  cases t <;> rfl

/-- no schedule changes what the workers do -/
theorem runSchedule_alone (sched : List Nat) (ts : List (Task P α × P)) :
    (runSchedule sched ts).map (fun t => t.1.alone t.2) = ts.map (fun t => t.1.alone t.2) := by
  induction sched generalizing ts with
  | nil => rfl
  | cons i sched ih =>
    unfold runSchedule
    rw [ih]
    refine List.ext_getElem (by simp) fun j h1 h2 => ?_
    simp only [List.getElem_map, List.getElem_modify]
    split
    · exact advance_alone _
    · rfl

theorem results_done (ts : List (Task P α × P)) (rs : List (Py α)) (h : (ts.mapM fun t => t.1.result?) = some rs) :
    rs = (ts.map fun t => (t.1.alone t.2).1) ∧ (ts.map (·.2)) = (ts.map fun t => (t.1.alone t.2).2) := by
  induction ts generalizing rs with
  | nil =>
    simp only [List.mapM_nil, Option.pure_def, Option.some.injEq] at h
    subst h
    exact ⟨rfl, rfl⟩
  | cons t ts ih =>
    obtain ⟨t, p⟩ := t
    cases t with
    | step => simp [Task.result?] at h
    | ret r =>
      rw [List.mapM_cons] at h
      simp only [Task.result?, Option.bind_eq_bind, Option.bind_some, Option.bind_eq_some_iff, Option.pure_def,
        Option.some.injEq] at h
      obtain ⟨rs', h1, rfl⟩ := h
      obtain ⟨e1, e2⟩ := ih rs' h1
      constructor
      · rw [e1]
        rfl
      · simp only [List.map_cons, e2]
        rfl

/-- The calls, each run alone: number `i` is the call with the `i`-th arguments at party `i`. -/
def callsAlone (fn : A → Kw → Task P α) (parties : List (A → Kw → Task P α)) (args : List A) (kw : Kw) (st : List P) :
    List (Py α × P) :=
  (args.zip st).zipIdx.map fun x => ((parties[x.2]?.getD fn) x.1.1 kw).alone x.1.2

/-- the tasks that are submitted -/
theorem submitted_alone (fn : A → Kw → Task P α) (parties : List (A → Kw → Task P α)) (args : List A) (kw : Kw) (st : List P)
    (hst : st.length = args.length) (hparties : parties = [] ∨ args.length ≤ parties.length) :
    ((List.zipWith (fun f a => f a kw) (if parties.isEmpty then List.replicate args.length fn else parties) args).zip st).map
      (fun t => t.1.alone t.2) = callsAlone fn parties args kw st := by
  refine List.ext_getElem ?_ fun i h1 h2 => ?_
  · rcases hparties with rfl | h
    · simp [callsAlone]
    · by_cases hp : parties = []
      · subst hp
        simp [callsAlone]
      · rw [if_neg (by simpa using hp)]
        simp [callsAlone]
        omega
  · have hi : i < args.length := by
      simp only [callsAlone, List.length_map, List.length_zipIdx, List.length_zip] at h2
      omega
    simp only [callsAlone, List.getElem_map, List.getElem_zip, List.getElem_zipWith, List.getElem_zipIdx, Nat.zero_add]
    by_cases hp : parties = []
    · subst hp
      simp
    · rcases hparties with h | h
      · exact absurd h hp
      · have e : (if parties.isEmpty = true then List.replicate args.length fn else parties) = parties := if_neg (by simpa using hp)
        have hj : parties[i]? = some parties[i] := List.getElem?_eq_getElem (by omega)
        rw [hj]
        congr!
        exact List.getElem_of_eq e _

/-- C43: whatever the order in which the workers make their steps, once all of them are done the answer is the list of the
results of the calls, each run alone, in the order of the arguments; if calls raise, it is the exception of the first of them
in this order; and the parties are left in the states their own calls leave them in. -/
theorem C43_schedule_independent (fn : A → Kw → Task P α) (parties : List (A → Kw → Task P α)) (emptyKw : Kw) (args : List A)
    (kwargs : Option Kw) (st : List P) (hst : st.length = args.length) (hargs : args ≠ [])
    (hparties : parties = [] ∨ args.length ≤ parties.length) (sched : List Nat) (r : Py (List α)) (st' : List P)
    (h : parallelWrapper fn parties emptyKw (some args) kwargs st sched = some (r, st')) :
    r = ((callsAlone fn parties args (kwargs.getD emptyKw) st).map (·.1)).mapM id ∧
      st' = (callsAlone fn parties args (kwargs.getD emptyKw) st).map (·.2) := by
  unfold parallelWrapper at h
  simp only [if_neg (by simpa using hargs : ¬ args.length = 0)] at h
  split at h
  · simp at h
  · rename_i rs hrs
    obtain ⟨e1, e2⟩ := results_done _ _ hrs
    have hrun := runSchedule_alone sched ((List.zipWith (fun f a => f a (kwargs.getD emptyKw))
      (if parties.isEmpty then List.replicate args.length fn else parties) args).zip st)
    rw [submitted_alone fn parties args _ st hst hparties] at hrun
    have hlen : ¬ (if parties.isEmpty then List.replicate args.length fn else parties).length < args.length := by
      rcases hparties with rfl | h
      · simp
      · split
        · simp
        · omega
    simp only [if_neg hlen, Option.some.injEq, Prod.mk.injEq] at h
    obtain ⟨h1, h2⟩ := h
    rw [← h1, ← h2, e1, e2, ← hrun, List.map_map, List.map_map]
    exact ⟨rfl, rfl⟩

/-- more steps of a worker that is done change nothing -/
theorem advance_finish (t : Task P α) (p : P) : ∃ n, ((Task.advance^[n] (t, p)).1.result?).isSome := by
  induction t generalizing p with
  | ret r => exact ⟨0, rfl⟩
  | step upd next ih =>
    obtain ⟨n, hn⟩ := ih p (upd p)
    exact ⟨n + 1, hn⟩

theorem runSchedule_append (s s' : List Nat) (ts : List (Task P α × P)) :
    runSchedule (s ++ s') ts = runSchedule s' (runSchedule s ts) := by
  induction s generalizing ts with
  | nil => rfl
  | cons i s ih => exact ih _

theorem runSchedule_length (s : List Nat) (ts : List (Task P α × P)) : (runSchedule s ts).length = ts.length := by
  induction s generalizing ts with
  | nil => rfl
  | cons i s ih =>
    unfold runSchedule
    rw [ih, List.length_modify]

theorem runSchedule_replicate (i n : Nat) (ts : List (Task P α × P)) :
    runSchedule (List.replicate n i) ts = ts.modify i (Task.advance^[n]) := by
  induction n generalizing ts with
  | zero =>
    refine List.ext_getElem (by simp [runSchedule]) fun j h1 h2 => ?_
    simp only [List.replicate_zero, runSchedule, List.getElem_modify, Function.iterate_zero, id_eq, ite_self]
  | succ n ih =>
    rw [List.replicate_succ]
    unfold runSchedule
    rw [ih]
    refine List.ext_getElem (by simp) fun j h1 h2 => ?_
    simp only [List.getElem_modify, Function.iterate_succ, Function.comp_apply]
    split <;> rfl

/-- C43: nothing can block: whatever has happened so far, the workers can go on until all are done. -/
theorem C43_can_finish (fn : A → Kw → Task P α) (parties : List (A → Kw → Task P α)) (emptyKw : Kw) (args : List A)
    (kwargs : Option Kw) (st : List P) (sched : List Nat) :
    ∃ more r st', parallelWrapper fn parties emptyKw (some args) kwargs st (sched ++ more) = some (r, st') := by
  have key : ∀ (m : Nat) (ts : List (Task P α × P)), m ≤ ts.length → ∃ more, ∀ j (hj : j < (runSchedule more ts).length), j < m →
      ((runSchedule more ts)[j].1.result?).isSome := by
    intro m
    induction m with
    | zero => exact fun ts _ => ⟨[], fun j _ h => absurd h (by omega)⟩
    | succ m ih =>
      intro ts hm
      obtain ⟨more, hmore⟩ := ih ts (by omega)
      have hlen : m < (runSchedule more ts).length := by
        rw [runSchedule_length]
        omega
      obtain ⟨n, hn⟩ := advance_finish (runSchedule more ts)[m].1 (runSchedule more ts)[m].2
      refine ⟨more ++ List.replicate n m, fun j hj hjm => ?_⟩
      simp only [runSchedule_append, runSchedule_replicate, List.getElem_modify]
      by_cases e : m = j
      · subst e
        simpa using hn
      · rw [if_neg e]
        exact hmore j _ (by omega)
  unfold parallelWrapper
  by_cases h0 : args.length = 0
  · exact ⟨[], .error .valueError, st, by simp only [h0, if_true]⟩
  · simp only [if_neg h0]
    obtain ⟨more, hmore⟩ := key _ (runSchedule sched ((List.zipWith (fun f a => f a (kwargs.getD emptyKw))
      (if parties.isEmpty then List.replicate args.length fn else parties) args).zip st)) le_rfl
    refine ⟨more, ?_⟩
    rw [runSchedule_append]
    have hall : ∀ ts : List (Task P α × P), (∀ j (hj : j < ts.length), (ts[j].1.result?).isSome) →
        ∃ rs, (ts.mapM fun t => t.1.result?) = some rs := by
      intro ts
      induction ts with
      | nil => exact fun _ => ⟨[], rfl⟩
      | cons t ts ih =>
        intro h
        obtain ⟨rs, hrs⟩ := ih fun j hj => h (j + 1) (by simpa using hj)
        obtain ⟨r, hr⟩ := Option.isSome_iff_exists.mp (h 0 (by simp))
        refine ⟨r :: rs, ?_⟩
        rw [List.mapM_cons]
        simp only [List.getElem_cons_zero] at hr
        simp [hr, hrs]
    obtain ⟨rs, hrs⟩ := hall (runSchedule more (runSchedule sched ((List.zipWith (fun f a => f a (kwargs.getD emptyKw))
      (if parties.isEmpty then List.replicate args.length fn else parties) args).zip st)))
      fun j hj => hmore j hj (by rwa [runSchedule_length] at hj)
    rw [hrs]
    exact ⟨_, _, rfl⟩

/-- C43: an empty list of arguments, no list, and a list longer than the list of parties are refused. -/
theorem C43_refused (fn : A → Kw → Task P α) (parties : List (A → Kw → Task P α)) (emptyKw : Kw) (kwargs : Option Kw)
    (st : List P) (sched : List Nat) :
    parallelWrapper fn parties emptyKw (some []) kwargs st sched = some (.error .valueError, st) ∧
    parallelWrapper fn parties emptyKw none kwargs st sched = some (.error .typeError, st) ∧
    ∀ (args : List A) r st', parties ≠ [] → parties.length < args.length →
      parallelWrapper fn parties emptyKw (some args) kwargs st sched = some (r, st') → r = .error .indexError := by
  refine ⟨rfl, rfl, ?_⟩
  intro args r st' hp hlen h
  unfold parallelWrapper at h
  have h0 : ¬ args.length = 0 := by omega
  have e : parties.isEmpty = false := by simpa using hp
  simp only [if_neg h0, e] at h
  split at h
  · simp at h
  · simp only [Bool.false_eq_true, if_false, if_pos hlen, Option.some.injEq, Prod.mk.injEq] at h
    exact h.1.symm

/-- C43: so the protocols may be read as if their parallel parts ran one call after the other: for calls that are one atomic
step without effect on the party, every order of execution gives the answer of the sequential reading used in the models
of the protocols. -/
theorem C43_sequential_reading {β : Type} (parties : List Nat) (hp : parties ≠ []) (f : A → Py β) (args : List A)
    (sched : List Nat) (r : Py (List β)) (st' : List Unit)
    (h : parallelWrapper (fun a (_ : Unit) => .step id fun _ => .ret (f a))
      (parties.map fun _ a (_ : Unit) => .step id fun _ => .ret (f a)) () (some args) none (args.map fun _ => ()) sched
      = some (r, st')) : r = parallelExecution parties f args := by
  unfold parallelExecution
  by_cases h0 : args = []
  · subst h0
    simp [parallelWrapper] at h
    simp [h.1]
  · rw [if_neg (by simpa using h0)]
    by_cases hl : parties.length < args.length
    · rw [if_pos hl]
      exact (C43_refused _ _ () none _ sched).2.2 args r st' (by simpa using hp) (by simpa using hl) h
    · rw [if_neg hl]
      obtain ⟨h1, -⟩ := C43_schedule_independent _ _ () args none (args.map fun _ => ()) (by simp) h0
        (Or.inr (by simpa using hl)) sched r st' h
      rw [h1]
      have : (callsAlone (fun a (_ : Unit) => Task.step id fun _ : Unit => .ret (f a))
          (parties.map fun _ a (_ : Unit) => Task.step id fun _ : Unit => .ret (f a)) args ((none : Option Unit).getD ())
          (args.map fun _ => ())).map (·.1) = args.map f := by
        refine List.ext_getElem (by simp [callsAlone]) fun i h1 h2 => ?_
        have hi : i < args.length := by simpa using h2
        simp only [callsAlone, List.getElem_map, List.getElem_zipIdx, List.getElem_zip, List.getElem?_map]
        rw [List.getElem?_eq_getElem (by omega)]
        rfl
      rw [this]
      simp [List.mapM_map]

/-- A worker that adds its argument to the counter of its party, in two steps, and returns the old value. -/
def exTask (a : Nat) (_ : Unit) : Task Nat Nat := .step (· + a) fun old => .step (· + 1) fun _ => .ret (.ok old)

/-- three workers, in two very different orders -/
example :
    parallelWrapper exTask [] () (some [10, 20, 30]) none [1, 2, 3] [2, 1, 0, 0, 1, 2] = some (.ok [1, 2, 3], [12, 23, 34]) ∧
    parallelWrapper exTask [] () (some [10, 20, 30]) none [1, 2, 3] [0, 0, 2, 2, 2, 1, 1] = some (.ok [1, 2, 3], [12, 23, 34]) ∧
    parallelWrapper exTask [] () (some [10, 20, 30]) none [1, 2, 3] [0, 0, 2, 2, 2, 1] = none :=
  ⟨rfl, rfl, rfl⟩

end SyMPC
