import Verif.Model.Share
import Mathlib.Data.List.Basic
import Mathlib.Algebra.BigOperators.Group.List.Basic

/-! Helper lemmas: `mapM` in `Except`, sums over lists. -/

namespace SyMPC

theorem ok_bind {α β : Type} (a : α) (f : α → Py β) : ((Except.ok a : Py α) >>= f) = f a := rfl

theorem pure_eq_ok {α : Type} (a : α) : (pure a : Py α) = .ok a := rfl

theorem error_bind {α β : Type} (e : PyErr) (f : α → Py β) : ((Except.error e : Py α) >>= f) = .error e := rfl

theorem throw_eq_error {α : Type} (e : PyErr) : (throw e : Py α) = .error e := rfl

theorem mapM_ok {α β : Type} (f : α → Py β) (g : α → β) (l : List α) (h : ∀ a ∈ l, f a = .ok (g a)) :
    l.mapM f = .ok (l.map g) := by
  induction l with
  | nil => rfl
  | cons a l ih =>
    rw [List.mapM_cons, h a (by simp), ih (fun b hb => h b (by simp [hb]))]
    rfl

theorem mapM_ok_iff {α β : Type} (f : α → Py β) (l : List α) (r : List β) :
    l.mapM f = .ok r ↔ List.Forall₂ (fun a b => f a = .ok b) l r := by
  induction l generalizing r with
  | nil =>
    rw [List.mapM_nil]
    constructor
    · intro h; cases h; exact .nil
    · intro h; cases h; rfl
  | cons a l ih =>
    rw [List.mapM_cons]
    constructor
    · intro h
      cases hfa : f a with
      | error e => rw [hfa] at h; cases h
      | ok b =>
        rw [hfa] at h
        cases hl : l.mapM f with
        | error e => rw [hl] at h; cases h
        | ok bs =>
          rw [hl] at h
          cases h
          exact .cons hfa ((ih bs).mp hl)
    · intro h
      cases h with
      | cons h1 h2 => rw [h1, (ih _).mpr h2]; rfl

theorem mapM_error {α β : Type} (f : α → Py β) (l : List α) (a : α) (ha : a ∈ l) (e : PyErr) (h : f a = .error e) :
    ∃ e', l.mapM f = .error e' := by
  cases hl : l.mapM f with
  | error e' => exact ⟨e', rfl⟩
  | ok r =>
    exfalso
    rw [mapM_ok_iff] at hl
    induction hl with
    | nil => simp at ha
    | cons h1 _ ih =>
      rcases List.mem_cons.mp ha with rfl | h'
      · rw [h] at h1; cases h1
      · exact ih h'

theorem foldl_add_eq_sum {T : Type} [AddCommMonoid T] (l : List T) : l.foldl (· + ·) 0 = l.sum := by
  have : ∀ (l : List T) (a : T), l.foldl (· + ·) a = a + l.sum := by
    intro l
    induction l with
    | nil => intro a; simp
    | cons b l ih => intro a; rw [List.foldl_cons, ih, List.sum_cons, add_assoc]
  rw [this, zero_add]

theorem pyGet_ok {α : Type} {l : List α} {i : Nat} (h : i < l.length) : pyGet l i = .ok l[i] := by
  simp [pyGet, List.getElem?_eq_getElem h]

theorem pyGet_error {α : Type} {l : List α} {i : Nat} (h : l.length ≤ i) : pyGet l i = .error .indexError := by
  simp [pyGet, List.getElem?_eq_none h]

/-- telescoping sum -/
theorem sum_range_telescope {T : Type} [AddCommGroup T] (r : Nat → T) (s : T) (n : Nat) :
    ((List.range (n + 2)).map fun i => if i = 0 then r 0 else if i < n + 1 then r i - r (i - 1) else s - r (i - 1)).sum
      = s := by
  have key : ∀ m, m ≤ n → ((List.range (m + 1)).map fun i =>
      if i = 0 then r 0 else if i < n + 1 then r i - r (i - 1) else s - r (i - 1)).sum = r m := by
    intro m
    induction m with
    | zero => intro _; simp
    | succ m ih =>
      intro hm
      rw [List.range_succ, List.map_append, List.sum_append, ih (by omega)]
      simp [show m < n by omega]
  rw [List.range_succ, List.map_append, List.sum_append, key n le_rfl]
  simp

end SyMPC
