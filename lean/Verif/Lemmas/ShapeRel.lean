import Verif.Lemmas.Shape
import Verif.Spec.Shape
import Verif.Model.ShapeFixed

/-!
# One program on tensors over two types

If the elements of the operands are related, so are those of the results, and the same errors are raised.
-/

namespace SyMPC.Shape

open Tensor

variable {A B : Type}

/-- tensors of one shape with related elements -/
def Rel (R : A → B → Prop) (x : Tensor A) (y : Tensor B) : Prop :=
  x.shape = y.shape ∧ ∀ o, ValidIdx x.shape o → R (x.at_ o) (y.at_ o)

theorem Rel.mono {R Q : A → B → Prop} (h : ∀ a b, R a b → Q a b) {x : Tensor A} {y : Tensor B} (hr : Rel R x y) : Rel Q x y :=
  ⟨hr.1, fun o ho => h _ _ (hr.2 o ho)⟩

theorem sum_rel [Add A] [Zero A] [Add B] [Zero B] {Q : A → B → Prop} (h0 : Q 0 0)
    (ha : ∀ a a' b b', Q a a' → Q b b' → Q (a + b) (a' + b')) {C : Type} (l : List C) (f : C → A) (g : C → B)
    (h : ∀ x ∈ l, Q (f x) (g x)) : Q (l.map f).sum (l.map g).sum := by
  induction l with
  | nil => exact h0
  | cons x l ih =>
    simp only [List.map_cons, List.sum_cons]
    exact ha _ _ _ _ (h x List.mem_cons_self) (ih fun y hy => h y (List.mem_cons_of_mem _ hy))

variable [Add A] [Sub A] [Mul A] [Zero A] [Add B] [Sub B] [Mul B] [Zero B]

/-- what related operands give: sums and differences are related again, products in another way -/
structure Compat (R Q : A → B → Prop) : Prop where
  zero : R 0 0
  add : ∀ a a' b b', R a a' → R b b' → R (a + b) (a' + b')
  sub : ∀ a a' b b', R a a' → R b b' → R (a - b) (a' - b')
  mul : ∀ a a' b b', R a a' → R b b' → Q (a * b) (a' * b')
  zero' : Q 0 0
  add' : ∀ a a' b b', Q a a' → Q b b' → Q (a + b) (a' + b')

theorem elem_rel {R Q : A → B → Prop} (hc : Compat R Q) {op : BinOp} {xs ys z : List Nat} (h : op.shape xs ys = .ok z)
    {a b : List Nat → A} {a' b' : List Nat → B} (ha : ∀ i, ValidIdx xs i → R (a i) (a' i)) (hb : ∀ i, ValidIdx ys i → R (b i) (b' i))
    (o : List Nat) (ho : ValidIdx z o) :
    if op.truncated then Q (elem op xs ys a b o) (elem op xs ys a' b' o) else R (elem op xs ys a b o) (elem op xs ys a' b' o) := by
  have hzip : op ≠ .matmul → R (a (sourceIdx xs o)) (a' (sourceIdx xs o)) ∧ R (b (sourceIdx ys o)) (b' (sourceIdx ys o)) := by
    intro hop
    obtain ⟨h1, h2⟩ := broadcast_of_shape hop h
    exact ⟨ha _ (sourceIdx_valid _ _ _ h1 ho), hb _ (sourceIdx_valid _ _ _ h2 ho)⟩
  cases op with
  | add => exact hc.add _ _ _ _ (hzip (by simp)).1 (hzip (by simp)).2
  | sub => exact hc.sub _ _ _ _ (hzip (by simp)).1 (hzip (by simp)).2
  | mul => exact hc.mul _ _ _ _ (hzip (by simp)).1 (hzip (by simp)).2
  | matmul =>
    rw [shape_eq] at h
    dsimp only at h
    show Q _ _
    unfold elem
    dsimp only
    match xs, ys, h with
    | [k], [k'], h =>
      by_cases e : k = k'
      · subst e
        refine sum_rel hc.zero' hc.add' _ _ _ fun l hl => ?_
        have hl := List.mem_range.mp hl
        exact hc.mul _ _ _ _ (ha [l] ⟨hl, trivial⟩) (hb [l] ⟨hl, trivial⟩)
      · simp [matShape, e] at h
    | [n, k], [k'], h =>
      by_cases e : k = k'
      · subst e
        simp only [matShape, if_true, Except.ok.injEq] at h
        subst h
        match o, ho with
        | [i], ho =>
          refine sum_rel hc.zero' hc.add' _ _ _ fun l hl => ?_
          have hl := List.mem_range.mp hl
          exact hc.mul _ _ _ _ (ha [i, l] ⟨ho.1, hl, trivial⟩) (hb [l] ⟨hl, trivial⟩)
      · simp [matShape, e] at h
    | [k], [k', m], h =>
      by_cases e : k = k'
      · subst e
        simp only [matShape, if_true, Except.ok.injEq] at h
        subst h
        match o, ho with
        | [i], ho =>
          refine sum_rel hc.zero' hc.add' _ _ _ fun l hl => ?_
          have hl := List.mem_range.mp hl
          exact hc.mul _ _ _ _ (ha [l] ⟨hl, trivial⟩) (hb [l, i] ⟨hl, ho.1, trivial⟩)
      · simp [matShape, e] at h
    | [n, k], [k', m], h =>
      by_cases e : k = k'
      · subst e
        simp only [matShape, if_true, Except.ok.injEq] at h
        subst h
        match o, ho with
        | [i, j], ho =>
          refine sum_rel hc.zero' hc.add' _ _ _ fun l hl => ?_
          have hl := List.mem_range.mp hl
          exact hc.mul _ _ _ _ (ha [i, l] ⟨ho.1, hl, trivial⟩) (hb [l, j] ⟨hl, ho.2.1, trivial⟩)
      · simp [matShape, e] at h
    | [], _, h => simp [matShape] at h
    | [_], [], h => simp [matShape] at h
    | [_], _ :: _ :: _ :: _, h => simp [matShape] at h
    | [_, _], [], h => simp [matShape] at h
    | [_, _], _ :: _ :: _ :: _, h => simp [matShape] at h
    | _ :: _ :: _ :: _, _, h => simp [matShape] at h

/-- the relation of the results -/
def after (R Q : A → B → Prop) (t : Bool) : A → B → Prop := if t then Q else R

/-- both computations succeed with related tensors or raise the same error -/
def Both (R : A → B → Prop) (x : Py (Tensor A)) (y : Py (Tensor B)) : Prop :=
  (∃ u w, x = .ok u ∧ y = .ok w ∧ Rel R u w) ∨ ∃ e, x = .error e ∧ y = .error e

theorem run_rel {R Q : A → B → Prop} (hc : Compat R Q) (op : BinOp) {x y : Tensor A} {x' y' : Tensor B} (hx : Rel R x x') (hy : Rel R y y') :
    Both (after R Q op.truncated) (op.run x y) (op.run x' y') := by
  cases hs : op.shape x.shape y.shape with
  | error e =>
    refine Or.inr ⟨e, run_error op x y e hs, run_error op x' y' e ?_⟩
    rw [← hx.1, ← hy.1, hs]
  | ok z =>
    refine Or.inl ⟨_, _, run_ok op x y z hs, run_ok op x' y' z (by rw [← hx.1, ← hy.1, hs]), rfl, fun o ho => ?_⟩
    have := elem_rel hc hs hx.2 hy.2 o ho
    dsimp only
    rw [← hx.1, ← hy.1]
    unfold after
    split <;> rename_i ht <;> simpa [ht] using this

theorem method_rel {R Q : A → B → Prop} (hc : Compat R Q) (m : Method) {x : Tensor A} {x' : Tensor B} (hx : Rel R x x') :
    Both R (m.run x) (m.run x') := by
  unfold Method.run
  rw [← hx.1]
  cases hp : m.plan x.shape with
  | error e => exact Or.inr ⟨e, rfl, rfl⟩
  | ok p =>
    obtain ⟨s, src⟩ := p
    refine Or.inl ⟨_, _, rfl, rfl, rfl, fun o ho => ?_⟩
    exact sum_rel hc.zero hc.add _ _ _ fun p hpm => hx.2 p (plan_valid hp o ho p hpm)

omit [Add A] [Sub A] [Mul A] [Zero A] [Add B] [Sub B] [Mul B] [Zero B] in
theorem get_rel {R : A → B → Prop} {env : List (Tensor A)} {env' : List (Tensor B)} (h : List.Forall₂ (Rel R) env env') (i : Nat) :
    (∃ x y, pyGet env i = .ok x ∧ pyGet env' i = .ok y ∧ Rel R x y) ∨
      (pyGet env i = .error .indexError ∧ pyGet env' i = .error .indexError) := by
  have hlen := h.length_eq
  by_cases hi : i < env.length
  · have hi' : i < env'.length := by omega
    exact Or.inl ⟨_, _, pyGet_ok hi, pyGet_ok hi', (List.forall₂_iff_get.mp h).2 i hi hi'⟩
  · exact Or.inr ⟨pyGet_error (by omega), pyGet_error (by omega)⟩

/-- the public operand of a step, if any, is related -/
def PublicRel {V : Type} (R : A → B → Prop) (f : V → A) (g : V → B) (st : Step V) : Prop :=
  ∀ op i y, st = .public op i y → ∀ o, ValidIdx y.plain.shape o → R (f (y.plain.at_ o)) (g (y.plain.at_ o))

theorem plain_map {V W : Type} (f : V → W) (y : Operand V) : (y.map f).plain = Grad.map f y.plain := by cases y <;> rfl

theorem step_rel {V : Type} {R Q : A → B → Prop} (hc : Compat R Q) {env : List (Tensor A)} {env' : List (Tensor B)}
    (h : List.Forall₂ (Rel R) env env') (f : V → A) (g : V → B) (st : Step V) (hp : PublicRel R f g st) :
    Both (after R Q st.truncated) ((st.map f).clear env) ((st.map g).clear env') := by
  cases st with
  | both op i j =>
    unfold Step.map Step.clear
    dsimp only
    rcases get_rel h i with ⟨x, y, e1, e2, e3⟩ | ⟨e1, e2⟩
    · rcases get_rel h j with ⟨x', y', f1, f2, f3⟩ | ⟨f1, f2⟩
      · rw [e1, e2, ok_bind, ok_bind, f1, f2, ok_bind, ok_bind]
        exact run_rel hc op e3 f3
      · rw [e1, e2, ok_bind, ok_bind, f1, f2]
        exact Or.inr ⟨_, rfl, rfl⟩
    · rw [e1, e2]
      exact Or.inr ⟨_, rfl, rfl⟩
  | «public» op i y =>
    unfold Step.map Step.clear
    dsimp only
    rcases get_rel h i with ⟨x, x', e1, e2, e3⟩ | ⟨e1, e2⟩
    · rw [e1, e2, ok_bind, ok_bind, plain_map, plain_map]
      exact run_rel hc op e3 ⟨rfl, fun o ho => hp op i y rfl o ho⟩
    · rw [e1, e2]
      exact Or.inr ⟨_, rfl, rfl⟩
  | method m i =>
    unfold Step.map Step.clear
    dsimp only
    rcases get_rel h i with ⟨x, x', e1, e2, e3⟩ | ⟨e1, e2⟩
    · rw [e1, e2, ok_bind, ok_bind]
      exact method_rel hc m e3
    · rw [e1, e2]
      exact Or.inr ⟨_, rfl, rfl⟩

end SyMPC.Shape
