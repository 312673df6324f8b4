import Verif.Model.Algo
import Mathlib.Algebra.Order.Field.Basic
import Mathlib.Algebra.Order.BigOperators.Group.List
import Mathlib.Algebra.BigOperators.Fin

/-!
# What the algorithms may assume of the operators

`Sure` is the language of guarantees: `sure p P` says that the program `p` ends without exception in a result with
property `P`.  `Sound` says which number a secret stands for and how exact the operators are.
-/

namespace SyMPC

/-- Guarantees about the programs of a monad. -/
structure Sure (m : Type → Type) [Monad m] where
  sure : {α : Type} → m α → (α → Prop) → Prop
  pure : ∀ {α : Type} (a : α) (P : α → Prop), P a → sure (Pure.pure a) P
  bind : ∀ {α β : Type} (p : m α) (f : α → m β) (P : α → Prop) (Q : β → Prop), sure p P → (∀ a, P a → sure (f a) Q) →
    sure (p >>= f) Q
  mono : ∀ {α : Type} (p : m α) (P Q : α → Prop), sure p P → (∀ a, P a → Q a) → sure p Q

/-- The guarantees of computations that may raise exceptions. -/
def surePy : Sure Py where
  sure p P := ∃ a, p = .ok a ∧ P a
  pure a P h := ⟨a, rfl, h⟩
  bind p f P Q := by
    rintro ⟨a, rfl, h⟩ hf
    obtain ⟨b, hb, hq⟩ := hf a h
    exact ⟨b, hb, hq⟩
  mono p P Q := by
    rintro ⟨a, rfl, h⟩ hf
    exact ⟨a, rfl, hf a h⟩

/-- How exact the operators are.  A secret `x` that is `Ok` stands for the numbers `val x i`.  Sums and differences of
secrets are exact and products are off by at most `δ`, quotients by at most `δd`, as long as the numbers do not exceed `B`; comparisons are
exact where the operands do not exceed `B`.  Public integers are exact, other public numbers are off by `δc`. -/
structure Sound {m : Type → Type} [Monad m] {X : Nat → Type} {F : Type} [Field F] [LinearOrder F] (O : SecretOps m X F)
    (S : Sure m) where
  Ok : {n : Nat} → X n → Prop
  val : {n : Nat} → X n → Fin n → F
  B : F
  δ : F
  /-- the error of a division by a public integer -/
  δd : F
  /-- the error of the encoding of a public number -/
  δc : F
  /-- the number that stands in padded places -/
  padding : F
  add : ∀ {n} (x y : X n), Ok x → Ok y → (∀ i, |val x i + val y i| ≤ B) →
    S.sure (O.add x y) fun z => Ok z ∧ ∀ i, val z i = val x i + val y i
  sub : ∀ {n} (x y : X n), Ok x → Ok y → (∀ i, |val x i - val y i| ≤ B) →
    S.sure (O.sub x y) fun z => Ok z ∧ ∀ i, val z i = val x i - val y i
  mul : ∀ {n} (x y : X n), Ok x → Ok y → (∀ i, |val x i * val y i| ≤ B) →
    S.sure (O.mul x y) fun z => Ok z ∧ ∀ i, |val z i - val x i * val y i| ≤ δ
  addP : ∀ {n} (x : X n) (c : Int), Ok x → (∀ i, |val x i + c| ≤ B) →
    S.sure (O.addP x c) fun z => Ok z ∧ ∀ i, val z i = val x i + c
  subP : ∀ {n} (x : X n) (c : Int), Ok x → (∀ i, |val x i - c| ≤ B) →
    S.sure (O.subP x c) fun z => Ok z ∧ ∀ i, val z i = val x i - c
  rsubP : ∀ {n} (c : Int) (x : X n), Ok x → (∀ i, |c - val x i| ≤ B) →
    S.sure (O.rsubP c x) fun z => Ok z ∧ ∀ i, |val z i - (c - val x i)| ≤ δ
  mulP : ∀ {n} (x : X n) (c : Int), Ok x → (∀ i, |val x i * c| ≤ B) →
    S.sure (O.mulP x c) fun z => Ok z ∧ ∀ i, |val z i - val x i * c| ≤ δ
  divP : ∀ {n} (x : X n) (d : Nat), Ok x → 0 < d → (d : F) ≤ B →
    S.sure (O.divP x d) fun z => Ok z ∧ ∀ i, |val z i - val x i / d| ≤ δd
  addF : ∀ {n} (x : X n) (c : F), Ok x → (∀ i, |val x i + c| + δc ≤ B) →
    S.sure (O.addP x c) fun z => Ok z ∧ ∀ i, |val z i - (val x i + c)| ≤ δc
  subF : ∀ {n} (x : X n) (c : F), Ok x → (∀ i, |val x i - c| + δc ≤ B) →
    S.sure (O.subP x c) fun z => Ok z ∧ ∀ i, |val z i - (val x i - c)| ≤ δc
  rsubF : ∀ {n} (c : F) (x : X n), Ok x → (∀ i, |c - val x i| + δc ≤ B) →
    S.sure (O.rsubP c x) fun z => Ok z ∧ ∀ i, |val z i - (c - val x i)| ≤ δc + δ
  mulF : ∀ {n} (x : X n) (c : F), Ok x → (∀ i, |val x i * c| ≤ B) →
    S.sure (O.mulP x c) fun z => Ok z ∧ ∀ i, |val z i - val x i * c| ≤ |val x i| * δc + δ
  gt : ∀ {n} (x y : X n), Ok x → Ok y → (∀ i, |val x i| ≤ B) → (∀ i, |val y i| ≤ B) →
    S.sure (O.gt x y) fun z => Ok z ∧ ∀ i, val z i = if val x i > val y i then 1 else 0
  gtP : ∀ {n} (x : X n) (c : Int), Ok x → (∀ i, |val x i| ≤ B) → |(c : F)| ≤ B →
    S.sure (O.gtP x c) fun z => Ok z ∧ ∀ i, val z i = if val x i > c then 1 else 0
  ltP : ∀ {n} (x : X n) (c : Int), Ok x → (∀ i, |val x i| ≤ B) → |(c : F)| ≤ B →
    S.sure (O.ltP x c) fun z => Ok z ∧ ∀ i, val z i = if val x i < c then 1 else 0
  geP : ∀ {n} (x : X n) (c : Int), Ok x → (∀ i, |val x i| ≤ B) → |(c : F)| ≤ B →
    S.sure (O.geP x c) fun z => Ok z ∧ ∀ i, val z i = if val x i ≥ c then 1 else 0
  mulT : ∀ {n} (x : X n) (t : Fin n → Int), Ok x → (∀ i, |val x i * t i| ≤ B) →
    S.sure (O.mulT x fun i => (t i : F)) fun z => Ok z ∧ ∀ i, |val z i - val x i * t i| ≤ δ
  view : ∀ {n k} (σ : Fin k → Fin n) (x : X n), Ok x →
    S.sure (O.view σ x) fun z => Ok z ∧ ∀ j, val z j = val x (σ j)
  pad : ∀ {n k} (σ : Fin k → Option (Fin n)) (x : X n), Ok x →
    S.sure (O.pad σ x) fun z => Ok z ∧ ∀ j, val z j = (σ j).elim padding (val x)
  sums : ∀ {n k} (f : Fin k → List (Fin n)) (x : X n), Ok x → (∀ j, ((f j).map fun i => |val x i|).sum ≤ B) →
    S.sure (O.sums f x) fun z => Ok z ∧ ∀ j, val z j = ((f j).map (val x)).sum
  reconstruct : ∀ {n} (x : X n), Ok x → S.sure (O.reconstruct x) fun v => v = val x

end SyMPC
