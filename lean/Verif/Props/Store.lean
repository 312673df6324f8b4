import Verif.Model.Store
import Verif.Lemmas.Py

/-!
# C21: the crypto store is a family of independent queues
-/

namespace SyMPC

/-! ## Keys -/

theorem decStr_digit {n : Nat} {c : Char} (h : c ∈ decStr n) : c.isDigit = true :=
  Nat.isDigit_of_mem_toDigits (by omega) (by omega) h

theorem decStr_inj {m n : Nat} (h : decStr m = decStr n) : m = n := by
  have h1 := Nat.ofDigitChars_toDigits (b := 10) (n := m) (by omega) (by omega)
  have h2 := Nat.ofDigitChars_toDigits (b := 10) (n := n) (by omega) (by omega)
  unfold decStr at h
  rw [h, h2] at h1
  exact h1.symm

/-- a run of digits ends where a character that is not a digit stands -/
theorem digits_split (l₁ l₂ r₁ r₂ : List Char) (h₁ : ∀ c ∈ l₁, c.isDigit = true) (h₂ : ∀ c ∈ l₂, c.isDigit = true)
    (e₁ : ∀ c, r₁.head? = some c → c.isDigit = false) (e₂ : ∀ c, r₂.head? = some c → c.isDigit = false)
    (_n₁ : r₁ ≠ []) (_n₂ : r₂ ≠ []) (h : l₁ ++ r₁ = l₂ ++ r₂) : l₁ = l₂ ∧ r₁ = r₂ := by
  induction l₁ generalizing l₂ with
  | nil =>
    cases l₂ with
    | nil => exact ⟨rfl, h⟩
    | cons c l₂ =>
      exfalso
      have := e₁ c (by rw [List.nil_append] at h; rw [h]; rfl)
      rw [h₂ c (by simp)] at this
      cases this
  | cons c l₁ ih =>
    cases l₂ with
    | nil =>
      exfalso
      have := e₂ c (by rw [List.nil_append] at h; rw [← h]; rfl)
      rw [h₁ c (by simp)] at this
      cases this
    | cons d l₂ =>
      rw [List.cons_append, List.cons_append] at h
      injection h with hc h
      subst hc
      obtain ⟨a, b⟩ := ih l₂ (fun c hc => h₁ c (by simp [hc])) (fun c hc => h₂ c (by simp [hc])) h
      exact ⟨by rw [a], b⟩

theorem tupleRest_ne (l : List Nat) (r : List Char) : tupleRest l ++ r ≠ [] := by cases l <;> simp [tupleRest]

theorem tupleRest_head (l : List Nat) (r : List Char) (c : Char) (h : (tupleRest l ++ r).head? = some c) :
    c.isDigit = false := by
  cases l <;> simp [tupleRest] at h <;> subst h <;> decide

theorem tupleRest_inj (a b : List Nat) (r s : List Char) (h : tupleRest a ++ r = tupleRest b ++ s) : a = b ∧ r = s := by
  induction a generalizing b with
  | nil =>
    cases b with
    | nil => simpa [tupleRest] using h
    | cons n b => simp [tupleRest] at h
  | cons n a ih =>
    cases b with
    | nil => simp [tupleRest] at h
    | cons m b =>
      simp only [tupleRest, List.cons_append, List.append_assoc, List.cons.injEq, true_and] at h
      obtain ⟨h1, h2⟩ := digits_split _ _ _ _ (fun c => decStr_digit) (fun c => decStr_digit)
        (tupleRest_head a r) (tupleRest_head b s) (tupleRest_ne a r) (tupleRest_ne b s) h
      obtain ⟨h3, h4⟩ := ih b h2
      exact ⟨by rw [decStr_inj h1, h3], h4⟩

theorem tupleStr_inj (a b : List Nat) (r s : List Char) (h : tupleStr a ++ r = tupleStr b ++ s) : a = b ∧ r = s := by
  have hd : ∀ n : Nat, ∃ c l, decStr n = c :: l ∧ c.isDigit = true := by
    intro n
    cases hn : decStr n with
    | nil => exact absurd hn Nat.toDigits_ne_nil
    | cons c l => exact ⟨c, l, rfl, decStr_digit (n := n) (by rw [hn]; simp)⟩
  have hone : ∀ (n m : Nat) (l : List Nat) (r s : List Char),
      decStr n ++ ([',', ')'] ++ r) ≠ decStr m ++ (tupleRest l ++ s) ∨ l = [] := by
    intro n m l r s
    by_cases hl : l = []
    · exact .inr hl
    · left
      intro h
      obtain ⟨_, h2⟩ := digits_split _ _ _ _ (fun c => decStr_digit) (fun c => decStr_digit)
        (by intro c hc; simp at hc; subst hc; decide) (tupleRest_head l s) (by simp) (tupleRest_ne l s) h
      cases l with
      | nil => exact hl rfl
      | cons k l => simp [tupleRest] at h2
  match a, b with
  | [], [] => simpa [tupleStr] using h
  | [], [n] =>
    obtain ⟨c, l, hc, hdig⟩ := hd n
    simp [tupleStr, hc] at h
    rw [← h.1] at hdig
    exact absurd hdig (by decide)
  | [], n :: m :: l =>
    obtain ⟨c, l, hc, hdig⟩ := hd n
    simp [tupleStr, hc] at h
    rw [← h.1] at hdig
    exact absurd hdig (by decide)
  | [n], [] =>
    obtain ⟨c, l, hc, hdig⟩ := hd n
    simp [tupleStr, hc] at h
    rw [h.1] at hdig
    exact absurd hdig (by decide)
  | n :: m :: l, [] =>
    obtain ⟨c, l, hc, hdig⟩ := hd n
    simp [tupleStr, hc] at h
    rw [h.1] at hdig
    exact absurd hdig (by decide)
  | [n], [m] =>
    simp only [tupleStr, List.cons_append, List.append_assoc, List.cons.injEq, true_and] at h
    obtain ⟨h1, h2⟩ := digits_split _ _ _ _ (fun c => decStr_digit) (fun c => decStr_digit)
      (by intro c hc; simp at hc; subst hc; decide) (by intro c hc; simp at hc; subst hc; decide) (by simp) (by simp) h
    simp at h2
    exact ⟨by rw [decStr_inj h1], h2⟩
  | [n], m :: m' :: l =>
    simp only [tupleStr, List.cons_append, List.append_assoc, List.cons.injEq, true_and] at h
    rcases hone n m (m' :: l) r s with h' | h'
    · exact absurd (by simpa using h) h'
    · cases h'
  | n :: n' :: l, [m] =>
    simp only [tupleStr, List.cons_append, List.append_assoc, List.cons.injEq, true_and] at h
    rcases hone m n (n' :: l) s r with h' | h'
    · exact absurd (by simpa using h.symm) h'
    · cases h'
  | n :: n' :: l, m :: m' :: l' =>
    simp only [tupleStr, List.cons_append, List.append_assoc, List.cons.injEq, true_and] at h
    obtain ⟨h1, h2⟩ := digits_split (decStr n) (decStr m) (tupleRest (n' :: l) ++ r) (tupleRest (m' :: l') ++ s)
      (fun c => decStr_digit) (fun c => decStr_digit) (tupleRest_head (n' :: l) r) (tupleRest_head (m' :: l') s) (tupleRest_ne (n' :: l) r) (tupleRest_ne (m' :: l') s) h
    obtain ⟨h3, h4⟩ := tupleRest_inj (n' :: l) (m' :: l') _ _ h2
    exact ⟨by rw [decStr_inj h1, h3], h4⟩

theorem opName_inj (o₁ o₂ : BeaverOp) (a b : List Nat) (r s : List Char)
    (h : o₁.name ++ ('_' :: (tupleStr a ++ r)) = o₂.name ++ ('_' :: (tupleStr b ++ s))) : o₁ = o₂ := by
  have hm : BeaverOp.mul.name = ['m', 'u', 'l'] := rfl
  have hmm : BeaverOp.matmul.name = ['m', 'a', 't', 'm', 'u', 'l'] := rfl
  have hc : BeaverOp.conv2d.name = ['c', 'o', 'n', 'v', '2', 'd'] := rfl
  have hct : BeaverOp.convTranspose2d.name =
    ['c', 'o', 'n', 'v', '_', 't', 'r', 'a', 'n', 's', 'p', 'o', 's', 'e', '2', 'd'] := rfl
  generalize tupleStr a ++ r = x at h
  generalize tupleStr b ++ s = y at h
  cases o₁ <;> cases o₂ <;>
    simp only [hm, hmm, hc, hct, List.cons_append, List.cons.injEq, Char.reduceEq, false_and, and_false] at h ⊢

/-- C21: the string keys of the store tell operations and shapes apart. -/
theorem C21_key_injective (o₁ o₂ : BeaverOp) (a₁ b₁ a₂ b₂ : List Nat) :
    configKey o₁ a₁ b₁ = configKey o₂ a₂ b₂ ↔ o₁ = o₂ ∧ a₁ = a₂ ∧ b₁ = b₂ := by
  constructor
  · intro h
    unfold configKey at h
    rw [List.append_right_inj] at h
    obtain rfl := opName_inj _ _ _ _ _ _ h
    rw [List.append_right_inj] at h
    injection h with _ h
    obtain ⟨rfl, h'⟩ := tupleStr_inj _ _ _ _ h
    injection h' with _ h'
    obtain ⟨rfl, _⟩ := tupleStr_inj b₁ b₂ [] [] (by rw [h'])
    exact ⟨rfl, rfl, rfl⟩
  · rintro ⟨rfl, rfl, rfl⟩; rfl

example : configKey .matmul [2, 13] [13] = "beaver_matmul_(2, 13)_(13,)".toList := by decide

/-! ## Histories -/

/-- a call made on the store of one party -/
inductive StoreCall (V : Type) where
  | add (op : BeaverOp) (a b : List Nat) (primitives : List V)
  | get (op : BeaverOp) (a b : List Nat) (remove : Bool)

/-- Running calls on the store with string keys; a failing read raises and leaves the store as it was. -/
def runStore {V : Type} : Store (List Char) (fun _ => V) → List (StoreCall V) → List (Py V)
  | _, [] => []
  | s, .add op a b l :: cs => runStore (s.add (configKey op a b) l) cs
  | s, .get op a b rm :: cs =>
    match s.get (configKey op a b) rm with
    | .error e => .error e :: runStore s cs
    | .ok (v, s') => .ok v :: runStore s' cs

/-- What the calls have to return: one queue per operation and pair of shapes. -/
def specStore {V : Type} : (BeaverOp → List Nat → List Nat → List V) → List (StoreCall V) → List (Py V)
  | _, [] => []
  | q, .add op a b l :: cs =>
    specStore (fun o x y => if o = op ∧ x = a ∧ y = b then q o x y ++ l else q o x y) cs
  | q, .get op a b rm :: cs =>
    match q op a b with
    | [] => .error .emptyStore :: specStore q cs
    | v :: rest =>
      .ok v :: specStore (fun o x y => if rm ∧ o = op ∧ x = a ∧ y = b then rest else q o x y) cs

theorem Store.get_set {V : Type} {K : Type} [DecidableEq K] (s : Store K fun _ => V) (k k' : K) (l : List V) :
    s.set k l k' = if k' = k then some l else s k' := by
  unfold Store.set
  split
  · next h => subst h; simp
  · rfl

/-- C21: for every history of additions and reads the store returns what independent queues return. -/
theorem C21_store_is_queues {V : Type} (cs : List (StoreCall V)) :
    runStore Store.empty cs = specStore (fun _ _ _ => []) cs := by
  suffices ∀ (s : Store (List Char) fun _ => V) (q : BeaverOp → List Nat → List Nat → List V),
      (∀ o a b, (s (configKey o a b)).getD [] = q o a b) → runStore s cs = specStore q cs from
    this _ _ (fun _ _ _ => rfl)
  induction cs with
  | nil => intro s q _; rfl
  | cons c cs ih =>
    intro s q h
    cases c with
    | add op a b l =>
      simp only [runStore, specStore]
      apply ih
      intro o x y
      have hq := h o x y
      have hq' := h op a b
      unfold Store.add
      cases hs : s (configKey op a b) with
      | some l' =>
        rw [hs] at hq'
        simp only [Store.get_set, C21_key_injective, Option.getD_some] at hq' ⊢
        split
        · next he => obtain ⟨rfl, rfl, rfl⟩ := he; simp [hq']
        · exact hq
      | none =>
        rw [hs] at hq'
        simp only [Store.get_set, C21_key_injective, Option.getD_none] at hq' ⊢
        split
        · next he => obtain ⟨rfl, rfl, rfl⟩ := he; simp [← hq']
        · exact hq
    | get op a b rm =>
      have hq' := h op a b
      cases hs : s (configKey op a b) with
      | none =>
        rw [hs] at hq'
        simp only [runStore, specStore, Store.get, hs, ← hq', Option.getD_none, ih s q h]
      | some l =>
        rw [hs] at hq'
        cases l with
        | nil => simp only [runStore, specStore, Store.get, hs, ← hq', Option.getD_some, ih s q h]
        | cons v rest =>
          simp only [runStore, specStore, Store.get, hs, ← hq', Option.getD_some]
          congr 1
          apply ih
          intro o x y
          cases rm with
          | false => simpa using h o x y
          | true =>
            simp only [if_true, true_and, Store.get_set, C21_key_injective]
            split
            · simp
            · exact h o x y

/-- reads that remove, reads that do not, two keys, an empty queue -/
example : runStore Store.empty [.add .mul [2] [2] [1, 2], .get .mul [2] [2] false, .get .mul [2] [2] true,
      .add .mul [] [2] [7], .get .mul [2] [2] true, .get .mul [2] [2] true, .get .mul [] [2] true, .get .matmul [2] [2] true]
    = [.ok 1, .ok 1, .ok 2, .error .emptyStore, .ok 7, .error .emptyStore] := by decide

end SyMPC
