import Verif.Lemmas.GradNear
import Verif.Model.GradRounded
import Verif.Props.Grad

/-!
# C48: small errors in the computations make small errors in the gradients
-/

namespace SyMPC.Grad

open Tensor Autograd Filter Topology Asymptotics Classical

/-! ## Specification -/

/-- all errors are at most `δ` -/
def Errors.Within (E : Errors ℝ) (δ : ℝ) : Prop := ∀ i o, |E.fwd i o| ≤ δ ∧ ∀ k, |E.bwd i k o| ≤ δ

/-! ## Graphs of the same structure -/

/-- the graph has the structure of `G₀`, and was made by a program -/
structure Alike (G G₀ : Graph (Tensor ℝ)) : Prop where
  built : Built G
  active : G.active = true
  size : G.size = G₀.size
  node : ∀ i, (G.node i).parents = (G₀.node i).parents ∧ (G.node i).requiresGrad = (G₀.node i).requiresGrad ∧
    (G.node i).shape = (G₀.node i).shape

theorem Alike.anc {G G₀ : Graph (Tensor ℝ)} (h : Alike G G₀) (r j : Nat) : Anc G r j ↔ Anc G₀ r j := by
  constructor <;> intro ha
  · induction ha with
    | root => exact .root
    | step _ hp ih => exact .step ih (by rw [← (h.node _).1]; exact hp)
  · induction ha with
    | root => exact .root
    | step _ hp ih => exact .step ih (by rw [(h.node _).1]; exact hp)

theorem Alike.tgt {G G₀ : Graph (Tensor ℝ)} (h : Alike G G₀) (e : Nat × Nat) : tgt G e = Autograd.tgt G₀ e := by
  unfold Autograd.tgt
  rw [(h.node _).1]

theorem Alike.live {G G₀ : Graph (Tensor ℝ)} (h : Alike G G₀) (h₀ : Built G₀) (r : Nat) : live G r = Autograd.live G₀ r := by
  ext e
  rw [mem_live h.built, mem_live h₀, h.anc, (h.node _).1, (h.node _).2.1]

theorem Alike.chain {G G₀ : Graph (Tensor ℝ)} (h : Alike G G₀) (h₀ : Built G₀) {W : Type} [AddCommMonoid W] {r : Nat} {g : W} {A : Nat → W}
    {B : Nat → Nat → W → W} (hA : ChainRule G₀ r g A B) : ChainRule G r g A B := by
  refine ⟨hA.root, fun j h1 h2 h3 => ?_⟩
  rw [hA.inner j ((h.anc r j).mp h1) (by rw [← (h.node j).2.1]; exact h2) h3, h.live h₀]
  refine Finset.sum_congr ?_ fun _ _ => rfl
  ext e
  rw [Finset.mem_filter, Finset.mem_filter, h.tgt]

theorem Alike.push {G G₀ : Graph (Tensor ℝ)} (h : Alike G G₀) (n n₀ : Node (Tensor ℝ)) (hb : Built (G.push n)) (h1 : n.parents = n₀.parents)
    (h2 : n.requiresGrad = n₀.requiresGrad) (h3 : n.shape = n₀.shape) : Alike (G.push n) (G₀.push n₀) := by
  refine ⟨hb, h.active, ?_, fun i => ?_⟩
  · change G.size + 1 = G₀.size + 1
    rw [h.size]
  · obtain ⟨a1, a2, -, a4⟩ := push_node G n i
    obtain ⟨b1, b2, -, b4⟩ := push_node G₀ n₀ i
    rw [a1, a2, a4, b1, b2, b4, h.size]
    by_cases hi : i = G₀.size
    · subst hi
      simp only [Function.update_self]
      exact ⟨h1, h2, h3⟩
    · simp only [Function.update_of_ne hi]
      exact h.node i

/-! ## A program run with errors -/

section
variable {ι : Type} {l : Filter ι} {δ : ι → ℝ}

structure NearRun (l : Filter ι) (δ : ι → ℝ) (E : ι → Errors ℝ) (S : ι → State ℝ) (S₀ : State ℝ) : Prop where
  built : Built S₀.graph
  active : S₀.graph.active = true
  alike : ∀ᶠ e in l, Alike (S e).graph S₀.graph
  shape : ∀ i, i < S₀.graph.size → (S₀.graph.node i).shape = (S₀.val i).shape
  near : ∀ i, i < S₀.graph.size → Near l δ (fun e => (S e).val i) (S₀.val i)
  back : ∀ i, i < S₀.graph.size → (S₀.graph.node i).parents ≠ [] →
    ∃ (fn : Tensor ℝ → Py (List (Tensor ℝ))) (J : Nat → List Nat → List Nat → ℝ) (fns : ι → Tensor ℝ → Py (List (Tensor ℝ)))
      (Js : ι → Nat → List Nat → List Nat → ℝ),
      (S₀.graph.node i).gradFn = some fn ∧ Back (S₀.val i).shape fn ((S₀.graph.node i).parents.map fun p => (S₀.val p).shape) J ∧
      (∀ᶠ e in l, ((S e).graph.node i).gradFn = some (inexact (E e) i (fns e)) ∧
        Back (S₀.val i).shape (fns e) ((S₀.graph.node i).parents.map fun p => (S₀.val p).shape) (Js e)) ∧
      ∀ k p o q, (S₀.graph.node i).parents[k]? = some p → ValidIdx (S₀.val i).shape o → ValidIdx (S₀.val p).shape q →
        Close l δ (fun e => Js e k o q) (J k o q)

/-- one more tensor -/
theorem NearRun.push {E : ι → Errors ℝ} {S S' : ι → State ℝ} {S₀ S₁ : State ℝ} (h : NearRun l δ E S S₀) (R : ι → Tensor ℝ) (R₀ : Tensor ℝ)
    (hR : Near l δ R R₀) (n : ι → Node (Tensor ℝ)) (n₀ : Node (Tensor ℝ))
    (hS : ∀ᶠ e in l, (S' e).val = Function.update (S e).val (S e).graph.size (R e) ∧ (S' e).graph = (S e).graph.push (n e))
    (hS₁ : S₁.val = Function.update S₀.val S₀.graph.size R₀ ∧ S₁.graph = S₀.graph.push n₀) (hshape : n₀.shape = R₀.shape)
    (hold : ∀ p ∈ n₀.parents, p < S₀.graph.size)
    (hreq : n₀.parents ≠ [] → n₀.requiresGrad = n₀.parents.any fun p => (S₀.graph.node p).requiresGrad)
    (hgrad : n₀.grad = none) (hout : n₀.nrOutEdges = 0)
    (hn : ∀ᶠ e in l, (n e).parents = n₀.parents ∧ (n e).requiresGrad = n₀.requiresGrad ∧ (n e).shape = n₀.shape ∧ (n e).grad = none ∧
      (n e).nrOutEdges = 0)
    (hback : n₀.parents ≠ [] → ∃ (fn : Tensor ℝ → Py (List (Tensor ℝ))) (J : Nat → List Nat → List Nat → ℝ)
      (fns : ι → Tensor ℝ → Py (List (Tensor ℝ))) (Js : ι → Nat → List Nat → List Nat → ℝ),
      n₀.gradFn = some fn ∧ Back R₀.shape fn (n₀.parents.map fun p => (S₀.val p).shape) J ∧
      (∀ᶠ e in l, (n e).gradFn = some (inexact (E e) S₀.graph.size (fns e)) ∧
        Back R₀.shape (fns e) (n₀.parents.map fun p => (S₀.val p).shape) (Js e)) ∧
      ∀ k p o q, n₀.parents[k]? = some p → ValidIdx R₀.shape o → ValidIdx (S₀.val p).shape q → Close l δ (fun e => Js e k o q) (J k o q)) :
    NearRun l δ E S' S₁ := by
  obtain ⟨hv, hG⟩ := hS₁
  have hsize : S₁.graph.size = S₀.graph.size + 1 := by rw [hG]; rfl
  have vold : ∀ i, i < S₀.graph.size → S₁.val i = S₀.val i := fun i hi => by rw [hv, Function.update_of_ne (by omega)]
  have vnew : S₁.val S₀.graph.size = R₀ := by rw [hv, Function.update_self]
  have nold : ∀ i, i < S₀.graph.size → (S₁.graph.node i).parents = (S₀.graph.node i).parents ∧
      (S₁.graph.node i).gradFn = (S₀.graph.node i).gradFn ∧ (S₁.graph.node i).shape = (S₀.graph.node i).shape := by
    intro i hi
    obtain ⟨a1, -, a3, a4⟩ := push_node S₀.graph n₀ i
    rw [hG, a1, a3, a4, Function.update_of_ne (by omega)]
    exact ⟨rfl, rfl, rfl⟩
  have nnew : (S₁.graph.node S₀.graph.size).parents = n₀.parents ∧ (S₁.graph.node S₀.graph.size).gradFn = n₀.gradFn ∧
      (S₁.graph.node S₀.graph.size).shape = n₀.shape := by
    obtain ⟨a1, -, a3, a4⟩ := push_node S₀.graph n₀ S₀.graph.size
    rw [hG, a1, a3, a4, Function.update_self]
    exact ⟨rfl, rfl, rfl⟩
  have split : ∀ i, i < S₁.graph.size → i < S₀.graph.size ∨ i = S₀.graph.size := by
    intro i hi
    omega
  -- the states with errors
  have eold : ∀ᶠ e in l, ∀ i, i < S₀.graph.size → (S' e).val i = (S e).val i ∧ ((S' e).graph.node i).gradFn = ((S e).graph.node i).gradFn := by
    filter_upwards [hS, h.alike] with e he ha i hi
    have hne : i ≠ (S e).graph.size := by rw [ha.size]; omega
    rw [he.1, he.2, (push_node _ _ i).2.2.1, Function.update_of_ne hne, Function.update_of_ne hne]
    exact ⟨rfl, rfl⟩
  have enew : ∀ᶠ e in l, (S' e).val S₀.graph.size = R e ∧ ((S' e).graph.node S₀.graph.size).gradFn = (n e).gradFn := by
    filter_upwards [hS, h.alike] with e he ha
    rw [he.1, he.2, (push_node _ _ _).2.2.1, ← ha.size, Function.update_self, Function.update_self]
    exact ⟨rfl, rfl⟩
  constructor
  · rw [hG]
    refine h.built.push n₀ hold (fun hp => ?_) hreq hgrad hout
    obtain ⟨fn, -, -, -, h1, -⟩ := hback hp
    exact ⟨fn, h1⟩
  · rw [hG]
    exact h.active
  · by_cases hp : n₀.parents = []
    · filter_upwards [hS, h.alike, hn] with e he ha hne
      obtain ⟨n1, n2, n3, n4, n5⟩ := hne
      rw [he.2, hG]
      refine ha.push (n e) n₀ ?_ n1 n2 n3
      have hp' : (n e).parents = [] := n1.trans hp
      exact ha.built.push (n e) (by rw [hp']; simp) (fun hc => absurd hp' hc) (fun hc => absurd hp' hc) n4 n5
    · obtain ⟨fn, J, fns, Js, -, -, h3, -⟩ := hback hp
      filter_upwards [hS, h.alike, hn, h3] with e he ha hne hfn
      obtain ⟨n1, n2, n3, n4, n5⟩ := hne
      rw [he.2, hG]
      refine ha.push (n e) n₀ ?_ n1 n2 n3
      refine ha.built.push (n e) (fun p hp => ?_) (fun _ => ⟨_, hfn.1⟩) (fun _ => ?_) n4 n5
      · rw [n1] at hp
        rw [ha.size]
        exact hold p hp
      · rw [n2, hreq hp, n1]
        exact any_congr _ _ _ fun p _ => ((ha.node p).2.1).symm
  · intro i hi
    rcases split i hi with hi | rfl
    · rw [(nold i hi).2.2, vold i hi, h.shape i hi]
    · rw [nnew.2.2, vnew, hshape]
  · intro i hi
    rcases split i hi with hi | rfl
    · rw [vold i hi]
      refine ⟨?_, fun o ho => ((h.near i hi).2 o ho).congr ?_⟩
      · filter_upwards [eold, (h.near i hi).1] with e he hs
        rw [(he i hi).1, hs]
      · filter_upwards [eold] with e he
        rw [(he i hi).1]
    · rw [vnew]
      refine ⟨?_, fun o ho => (hR.2 o ho).congr ?_⟩
      · filter_upwards [enew, hR.1] with e he hs
        rw [he.1, hs]
      · filter_upwards [enew] with e he
        rw [he.1]
  · intro i hi hp
    rcases split i hi with hi | rfl
    · rw [(nold i hi).1] at hp ⊢
      have hpl : ∀ p ∈ (S₀.graph.node i).parents, p < S₀.graph.size := fun p hp' => (h.built.older i p hp').trans hi
      obtain ⟨fn, J, fns, Js, h1, h2, h3, h4⟩ := h.back i hi hp
      have hmap : ((S₀.graph.node i).parents.map fun p => (S₁.val p).shape) = (S₀.graph.node i).parents.map fun p => (S₀.val p).shape :=
        List.map_congr_left fun p hp' => by rw [vold p (hpl p hp')]
      refine ⟨fn, J, fns, Js, by rw [(nold i hi).2.1, h1], by rw [vold i hi, hmap]; exact h2, ?_, ?_⟩
      · filter_upwards [eold, h3] with e he hfn
        rw [(he i hi).2, vold i hi, hmap]
        exact hfn
      · intro k p o q hk ho hq
        rw [vold i hi] at ho
        rw [vold p (hpl p (List.mem_of_getElem? hk))] at hq
        exact h4 k p o q hk ho hq
    · rw [nnew.1] at hp ⊢
      obtain ⟨fn, J, fns, Js, h1, h2, h3, h4⟩ := hback hp
      have hmap : (n₀.parents.map fun p => (S₁.val p).shape) = n₀.parents.map fun p => (S₀.val p).shape :=
        List.map_congr_left fun p hp' => by rw [vold p (hold p hp')]
      refine ⟨fn, J, fns, Js, by rw [nnew.2.1, h1], by rw [vnew, hmap]; exact h2, ?_, ?_⟩
      · filter_upwards [enew, h3] with e he hfn
        rw [he.2, vnew, hmap]
        exact hfn
      · intro k p o q hk ho hq
        rw [vnew] at ho
        rw [vold p (hold p (List.mem_of_getElem? hk))] at hq
        exact h4 k p o q hk ho hq

/-- errors of size `δ` -/
theorem Near.plus {E : ι → Errors ℝ} (hE : ∀ e, (E e).Within (δ e)) {x : ι → Tensor ℝ} {x₀ : Tensor ℝ} (h : Near l δ x x₀)
    (i : Nat) : Near l δ (fun e => Grad.plus (x e) ((E e).fwd i)) x₀ := by
  refine ⟨h.1, fun o ho => ?_⟩
  have h1 : Close l δ (fun e => (E e).fwd i o) 0 := by
    refine IsBigO.of_bound 1 (Eventually.of_forall fun e => ?_)
    rw [sub_zero, one_mul, Real.norm_eq_abs, Real.norm_eq_abs]
    exact ((hE e i o).1).trans (le_abs_self _)
  have := (h.2 o ho).add h1
  rw [add_zero] at this
  exact this

theorem step_near (hδ : Tendsto δ l (𝓝 0)) {E : ι → Errors ℝ} (hE : ∀ e, (E e).Within (δ e)) (leaves : Nat → Tensor ℝ) (S : ι → State ℝ)
    (S₀ S₁ : State ℝ) (h : NearRun l δ E S S₀) (st : Step ℝ) (hf : st.Fine S₀) (h1 : step Real.sigmoid leaves S₀ st = .ok S₁) :
    ∃ S', (∀ᶠ e in l, stepE Real.sigmoid (E e) leaves (S e) st = .ok (S' e)) ∧ NearRun l δ E S' S₁ := by
  cases st with
  | leaf req =>
    obtain rfl := Except.ok.inj h1
    refine ⟨fun e => ⟨Function.update (S e).val (S e).graph.size (plus (leaves (S e).graph.size) ((E e).fwd (S e).graph.size)),
      (S e).graph.leaf (leaves (S e).graph.size).shape req⟩, Eventually.of_forall fun e => rfl, ?_⟩
    refine h.push (fun e => plus (leaves S₀.graph.size) ((E e).fwd S₀.graph.size)) (leaves S₀.graph.size)
      ((Near.const _).plus hE _) (fun e => ⟨(leaves S₀.graph.size).shape, [], req, 0, none, none⟩)
      ⟨(leaves S₀.graph.size).shape, [], req, 0, none, none⟩ ?_ ⟨rfl, push_leaf ..⟩ rfl (by simp) (by simp) rfl rfl
      (Eventually.of_forall fun _ => ⟨rfl, rfl, rfl, rfl, rfl⟩) (by simp)
    filter_upwards [h.alike] with e he
    rw [← he.size]
    exact ⟨rfl, push_leaf ..⟩
  | op o =>
    obtain ⟨hp, hreg⟩ := hf
    cases hfw : o.forward Real.sigmoid S₀.val with
    | error e => simp [step, hfw, Bind.bind, Except.bind] at h1
    | ok rf =>
      obtain ⟨r, fn⟩ := rf
      simp only [step, hfw, Bind.bind, Except.bind] at h1
      obtain rfl := Except.ok.inj h1
      obtain ⟨J, hb, hV⟩ := o.near hδ _ hreg r fn hfw
      obtain ⟨out, fns, Js, o1, o2, o3, o4⟩ := hV (fun e => (S e).val) fun p hp' => h.near p (hp p hp')
      have hpar : o.parents ≠ [] := by cases o <;> simp [Op.parents]
      refine ⟨fun e => ⟨Function.update (S e).val (S e).graph.size (plus (out e) ((E e).fwd (S e).graph.size)),
        ((S e).graph.forward o.parents (.ok ((out e).shape, inexact (E e) (S e).graph.size (fns e)))).2⟩, ?_, ?_⟩
      · filter_upwards [o1] with e he
        simp only [stepE]
        rw [he]
        rfl
      · refine h.push (fun e => plus (out e) ((E e).fwd S₀.graph.size)) r (o3.plus hE _)
          (fun e => ⟨(out e).shape, o.parents, o.parents.any fun p => ((S e).graph.node p).requiresGrad, 0, none,
            some (inexact (E e) S₀.graph.size (fns e))⟩) _ ?_ ⟨rfl, forward_push _ h.active _ _ _⟩ rfl hp (fun _ => rfl) rfl rfl ?_ fun _ => ?_
        · filter_upwards [h.alike] with e he
          rw [← he.size]
          exact ⟨rfl, forward_push _ he.active _ _ _⟩
        · filter_upwards [h.alike, o3.1] with e he hs
          exact ⟨rfl, any_congr _ _ _ fun p _ => (he.node p).2.1, hs, rfl, rfl⟩
        · refine ⟨fn, J, fns, Js, rfl, hb, ?_, o4⟩
          filter_upwards [o2] with e he
          exact ⟨rfl, he⟩
  | untracked o =>
    obtain ⟨hp, hreg⟩ := hf
    cases hfw : o.forward Real.sigmoid S₀.val with
    | error e => simp [step, hfw, Bind.bind, Except.bind] at h1
    | ok rf =>
      obtain ⟨r, fn⟩ := rf
      simp only [step, hfw, Bind.bind, Except.bind] at h1
      obtain rfl := Except.ok.inj h1
      obtain ⟨J, hb, hV⟩ := o.near hδ _ hreg r fn hfw
      obtain ⟨out, fns, Js, o1, o2, o3, o4⟩ := hV (fun e => (S e).val) fun p hp' => h.near p (hp p hp').1
      refine ⟨fun e => ⟨Function.update (S e).val (S e).graph.size (plus (out e) ((E e).fwd (S e).graph.size)),
        (S e).graph.leaf (out e).shape false⟩, ?_, ?_⟩
      · filter_upwards [o1] with e he
        simp only [stepE]
        rw [he]
        rfl
      · refine h.push (fun e => plus (out e) ((E e).fwd S₀.graph.size)) r (o3.plus hE _)
          (fun e => ⟨(out e).shape, [], false, 0, none, none⟩) ⟨r.shape, [], false, 0, none, none⟩ ?_ ⟨rfl, push_leaf ..⟩ rfl
          (by simp) (by simp) rfl rfl ?_ (by simp)
        · filter_upwards [h.alike] with e he
          rw [← he.size]
          exact ⟨rfl, push_leaf ..⟩
        · filter_upwards [o3.1] with e hs
          exact ⟨rfl, rfl, hs, rfl, rfl⟩

theorem run_near (hδ : Tendsto δ l (𝓝 0)) {E : ι → Errors ℝ} (hE : ∀ e, (E e).Within (δ e)) (leaves : Nat → Tensor ℝ) (cs : List (Step ℝ))
    (S : ι → State ℝ) (S₀ S₁ : State ℝ) (h : NearRun l δ E S S₀) (hf : Fine leaves S₀ cs)
    (h1 : cs.foldlM (step Real.sigmoid leaves) S₀ = .ok S₁) :
    ∃ S', (∀ᶠ e in l, cs.foldlM (stepE Real.sigmoid (E e) leaves) (S e) = .ok (S' e)) ∧ NearRun l δ E S' S₁ := by
  induction cs generalizing S S₀ with
  | nil =>
    obtain rfl : S₀ = S₁ := Except.ok.inj h1
    exact ⟨S, Eventually.of_forall fun _ => rfl, h⟩
  | cons st cs ih =>
    obtain ⟨hf1, hf2⟩ := hf
    rw [List.foldlM_cons] at h1
    cases hs : step Real.sigmoid leaves S₀ st with
    | error e => simp [hs, Bind.bind, Except.bind] at h1
    | ok Sm =>
      rw [hs] at h1
      change cs.foldlM (step Real.sigmoid leaves) Sm = .ok S₁ at h1
      obtain ⟨S', a1, a2⟩ := step_near hδ hE leaves S S₀ Sm h st hf1 hs
      obtain ⟨S'', b1, b2⟩ := ih S' Sm a2 (hf2 Sm hs) h1
      refine ⟨S'', ?_, b2⟩
      filter_upwards [a1, b1] with e e1 e2
      rw [List.foldlM_cons, e1]
      exact e2

/-! ## Gradients -/

/-- what tensor `i` sends to its `k`-th operand -/
noncomputable def send (G : Graph (Tensor ℝ)) (sh : Nat → List Nat) (J : Nat → Nat → List Nat → List Nat → ℝ) (b : Nat → Nat → List Nat → ℝ)
    (i k : Nat) (w : List Nat → ℝ) (q : List Nat) : ℝ :=
  if ValidIdx (sh (tgt G (i, k))) q then ∑ o ∈ positions (sh i), w o * J i k o q + b i k q else 0

/-- the gradient of the loss by itself -/
noncomputable def seed (s : List Nat) (o : List Nat) : ℝ := if ValidIdx s o then 1 else 0

theorem traverse (S : State ℝ) (hG : Built S.graph) (sh : Nat → List Nat) (r depth : Nat) (hshape : (S.graph.node r).shape = sh r)
    (J : Nat → Nat → List Nat → List Nat → ℝ) (b : Nat → Nat → List Nat → ℝ)
    (hfn : ∀ i, (S.graph.node i).parents ≠ [] → ∃ fn, (S.graph.node i).gradFn = some fn ∧ ∀ v : Tensor ℝ, v.shape = sh i → ∃ gs, fn v = .ok gs ∧
      ∀ k p, (S.graph.node i).parents[k]? = some p → ∃ m, gs[k]? = some m ∧ m.shape = sh p ∧
        ∀ q, ValidIdx (sh p) q → m.at_ q = ∑ o ∈ positions (sh i), v.at_ o * J i k o q + b i k q)
    (A : Nat → List Nat → ℝ) (hA : ChainRule S.graph r (seed (sh r)) A (send S.graph sh J b)) (hop : (S.graph.node r).parents ≠ [])
    (hreq : (S.graph.node r).requiresGrad = true) (hscalar : (sh r).length ≤ 1) (hused : UsedFor S.graph r) (hd : r < depth) :
    ∃ G', backward depth r S = (.ok (), G') ∧ G'.active = true ∧
      (∀ j, ¬ (Anc S.graph r j ∧ (S.graph.node j).requiresGrad = true) → (G'.node j).grad = none) ∧
      ∀ j, Anc S.graph r j → (S.graph.node j).requiresGrad = true → ∃ v, (G'.node j).grad = some v ∧ v.shape = sh j ∧
        ∀ o, ValidIdx (sh j) o → v.at_ o = A j o := by
  let interp : Tensor ℝ → List Nat → ℝ := fun v o => if ValidIdx v.shape o then v.at_ o else 0
  let typed : Nat → Tensor ℝ → Prop := fun i v => v.shape = sh i
  have hL : Local S.graph r (send S.graph sh J b) typed interp addT := by
    constructor
    · intro j a b ha hb
      refine ⟨ha, ?_⟩
      funext o
      change (if ValidIdx a.shape o then a.at_ o + b.at_ o else 0) = (if ValidIdx a.shape o then a.at_ o else 0)
        + (if ValidIdx b.shape o then b.at_ o else 0)
      rw [show a.shape = b.shape from ha.trans hb.symm]
      split <;> simp
    · intro i f hi _ hp hf v hv
      obtain ⟨fn, f1, f2⟩ := hfn i hp
      obtain rfl : fn = f := by
        rw [hf] at f1
        exact (Option.some.inj f1).symm
      obtain ⟨gs, g1, g2⟩ := f2 v hv
      refine ⟨gs, g1, fun k p hk => ?_⟩
      obtain ⟨m, m1, m2, m3⟩ := g2 k p hk
      refine ⟨m, m1, fun _ => ⟨m2, ?_⟩⟩
      have ht : tgt S.graph (i, k) = p := by
        unfold tgt
        simp only
        rw [List.getD_eq_getElem?_getD, hk]
        rfl
      funext q
      simp only [interp, send, ht, m2]
      by_cases hq : ValidIdx (sh p) q
      · rw [if_pos hq, if_pos hq, m3 q hq]
        congr 1
        refine Finset.sum_congr rfl fun o ho => ?_
        rw [if_pos (by rw [hv]; exact (mem_positions _ _).mp ho)]
      · rw [if_neg hq, if_neg hq]
  obtain ⟨G', b1, b2, b3, b4⟩ := C48_traversal hG hA hL hused hreq hop depth hd (ones (sh r)) rfl (by
    funext o
    rfl)
  have hback : backward depth r S = (.ok (), G') := by
    unfold backward Graph.backwardLoss
    rw [if_neg (by rw [hreq]; simp), hshape, if_neg (by omega)]
    exact b1
  refine ⟨G', hback, b2, b4, fun j h1 h2 => ?_⟩
  obtain ⟨v, v1, v2, v3⟩ := b3 j h1 h2
  refine ⟨v, v1, v2, fun o ho => ?_⟩
  have := congrFun v3 o
  simp only [interp] at this
  rw [if_pos (by rw [v2]; exact ho)] at this
  exact this

theorem Alike.used {G G₀ : Graph (Tensor ℝ)} (h : Alike G G₀) {r : Nat} (hu : UsedFor G₀ r) : UsedFor G r := by
  intro i p hp h1 h2 h3
  rw [(h.node i).1] at hp
  rw [(h.node p).2.1] at h2
  rw [(h.node p).1] at h3
  rw [h.anc] at h1 ⊢
  exact hu i p hp h1 h2 h3

theorem grads_near (hδ : Tendsto δ l (𝓝 0)) {E : ι → Errors ℝ} (hE : ∀ e, (E e).Within (δ e)) (S : ι → State ℝ) (S₀ : State ℝ)
    (h : NearRun l δ E S S₀) (r depth : Nat) (hop : (S₀.graph.node r).parents ≠ [])
    (hreq : (S₀.graph.node r).requiresGrad = true) (hscalar : (S₀.val r).shape.length ≤ 1) (hused : UsedFor S₀.graph r) (hd : r < depth) :
    ∃ G₀, backward depth r S₀ = (.ok (), G₀) ∧ ∃ Gs : ι → Graph (Tensor ℝ),
      (∀ᶠ e in l, backward depth r (S e) = (.ok (), Gs e) ∧ (Gs e).active = true ∧
        (∀ j, ¬ (Anc S₀.graph r j ∧ (S₀.graph.node j).requiresGrad = true) → ((Gs e).node j).grad = none) ∧
        ∀ j, Anc S₀.graph r j → (S₀.graph.node j).requiresGrad = true → ∃ v, ((Gs e).node j).grad = some v ∧ v.shape = (S₀.val j).shape) ∧
      ∀ j, Anc S₀.graph r j → (S₀.graph.node j).requiresGrad = true → ∀ q, ValidIdx (S₀.val j).shape q →
        Close l δ (fun e => gradAt (Gs e) j q) (gradAt G₀ j q) := by
  have hG := h.built
  have hin : ∀ i, (S₀.graph.node i).parents ≠ [] → i < S₀.graph.size := by
    intro i hp
    by_contra hc
    exact hp (hG.outside i (by omega))
  have hr : r < S₀.graph.size := hin r hop
  let sh : Nat → List Nat := fun i => (S₀.val i).shape
  have hJ : ∀ i, ∃ (fn : Tensor ℝ → Py (List (Tensor ℝ))) (J : Nat → List Nat → List Nat → ℝ) (fns : ι → Tensor ℝ → Py (List (Tensor ℝ)))
      (Js : ι → Nat → List Nat → List Nat → ℝ), (S₀.graph.node i).parents ≠ [] →
      (S₀.graph.node i).gradFn = some fn ∧ Back (sh i) fn ((S₀.graph.node i).parents.map sh) J ∧
      (∀ᶠ e in l, ((S e).graph.node i).gradFn = some (inexact (E e) i (fns e)) ∧
        Back (sh i) (fns e) ((S₀.graph.node i).parents.map sh) (Js e)) ∧
      ∀ k p o q, (S₀.graph.node i).parents[k]? = some p → ValidIdx (sh i) o → ValidIdx (sh p) q →
        Close l δ (fun e => Js e k o q) (J k o q) := by
    intro i
    by_cases hp : (S₀.graph.node i).parents = []
    · exact ⟨fun _ => .ok [], fun _ _ _ => 0, fun _ _ => .ok [], fun _ _ _ _ => 0, fun hc => absurd hp hc⟩
    · obtain ⟨fn, J, fns, Js, h1⟩ := h.back i (hin i hp) hp
      exact ⟨fn, J, fns, Js, fun _ => h1⟩
  choose fn J fns Js hJ using hJ
  -- what the tensors receive
  let A₀ := adjoint hG r (seed (sh r)) (send S₀.graph sh J fun _ _ _ => 0)
  let A : ι → Nat → List Nat → ℝ := fun e => adjoint hG r (seed (sh r)) (send S₀.graph sh (fun i => Js i e) (E e).bwd)
  have hA₀ : ChainRule S₀.graph r (seed (sh r)) A₀ (send S₀.graph sh J fun _ _ _ => 0) := adjoint_chain hG r _ _
  have hA : ∀ e, ChainRule S₀.graph r (seed (sh r)) (A e) (send S₀.graph sh (fun i => Js i e) (E e).bwd) := fun e => adjoint_chain hG r _ _
  have hclose : ∀ m j, r - j ≤ m → Anc S₀.graph r j → (S₀.graph.node j).requiresGrad = true → ∀ q, ValidIdx (sh j) q →
      Close l δ (fun e => A e j q) (A₀ j q) := by
    intro m
    induction m with
    | zero =>
      intro j hj h1 h2 q hq
      obtain rfl : j = r := by
        have := h1.le hG
        omega
      rw [hA₀.root]
      refine (Close.const _).congr (Eventually.of_forall fun e => ?_)
      rw [(hA e).root]
    | succ m ih =>
      intro j hj h1 h2 q hq
      by_cases hjr : j = r
      · subst hjr
        rw [hA₀.root]
        refine (Close.const _).congr (Eventually.of_forall fun e => ?_)
        rw [(hA e).root]
      · rw [hA₀.inner j h1 h2 hjr, Finset.sum_apply]
        refine Close.congr (a := fun e => ∑ x ∈ (live S₀.graph r).filter (fun x => tgt S₀.graph x = j),
            send S₀.graph sh (fun i => Js i e) (E e).bwd x.1 x.2 (A e x.1) q) ?_ (Eventually.of_forall fun e => ?_)
        · refine Close.sum _ fun x hx => ?_
          obtain ⟨hx1, hx2⟩ := Finset.mem_filter.mp hx
          obtain ⟨a1, a2, a3⟩ := (mem_live hG r x).mp hx1
          have hm := tgt_mem hG (Finset.mem_filter.mp hx1).1
          have hl := tgt_lt hG (Finset.mem_filter.mp hx1).1
          rw [hx2] at hm hl
          have hpx : (S₀.graph.node x.1).parents ≠ [] := List.ne_nil_of_mem hm
          have hk : (S₀.graph.node x.1).parents[x.2]? = some j := by
            rw [← hx2]
            unfold tgt
            rw [List.getD_eq_getElem?_getD, List.getElem?_eq_getElem a1]
            rfl
          obtain ⟨-, -, -, j4⟩ := hJ x.1 hpx
          simp only [send, hx2]
          rw [if_pos hq]
          simp only [if_pos hq]
          refine Close.add (Close.sum _ fun o ho => ?_) ?_
          · have ho' := (mem_positions _ _).mp ho
            exact (ih x.1 (by have := a2.le hG; omega) a2 a3 o ho').mul hδ (j4 x.2 j o q hk ho' hq)
          · refine IsBigO.of_bound 1 (Eventually.of_forall fun e => ?_)
            rw [sub_zero, one_mul, Real.norm_eq_abs, Real.norm_eq_abs]
            exact ((hE e x.1 q).2 x.2).trans (le_abs_self _)
        · rw [(hA e).inner j h1 h2 hjr, Finset.sum_apply]
  -- the exact run
  obtain ⟨G₀, g1, g2, g3, g4⟩ := traverse S₀ hG sh r depth (h.shape r hr) J (fun _ _ _ => 0) (by
    intro i hp
    obtain ⟨j1, j2, -, -⟩ := hJ i hp
    refine ⟨fn i, j1, fun v hv => ?_⟩
    obtain ⟨gs, s1, s2⟩ := j2 v hv
    refine ⟨gs, s1, fun k p hk => ?_⟩
    obtain ⟨m, m1, m2, m3⟩ := s2 k (sh p) (by rw [List.getElem?_map, hk]; rfl)
    refine ⟨m, m1, m2, fun q hq => ?_⟩
    rw [m3 q hq, add_zero]) A₀ hA₀ hop hreq hscalar hused hd
  -- the runs with errors
  have hall : ∀ᶠ e in l, ∀ i ∈ Finset.range S₀.graph.size, (S₀.graph.node i).parents ≠ [] →
      ((S e).graph.node i).gradFn = some (inexact (E e) i (fns i e)) ∧ Back (sh i) (fns i e) ((S₀.graph.node i).parents.map sh) (Js i e) := by
    rw [eventually_all_finset]
    intro i _
    by_cases hp : (S₀.graph.node i).parents = []
    · exact Eventually.of_forall fun e hc => absurd hp hc
    · exact (hJ i hp).2.2.1.mono fun e he _ => he
  have hrun : ∀ᶠ e in l, ∃ G', backward depth r (S e) = (.ok (), G') ∧ G'.active = true ∧
      (∀ j, ¬ (Anc S₀.graph r j ∧ (S₀.graph.node j).requiresGrad = true) → (G'.node j).grad = none) ∧
      ∀ j, Anc S₀.graph r j → (S₀.graph.node j).requiresGrad = true → ∃ v, (G'.node j).grad = some v ∧ v.shape = sh j ∧
        ∀ o, ValidIdx (sh j) o → v.at_ o = A e j o := by
    filter_upwards [h.alike, hall] with e ha hb
    have hsend : send (S e).graph sh (fun i => Js i e) (E e).bwd = send S₀.graph sh (fun i => Js i e) (E e).bwd := by
      funext i k w q
      unfold send
      rw [ha.tgt]
    obtain ⟨G', t1, t2, t3, t4⟩ := traverse (S e) ha.built sh r depth (by rw [(ha.node r).2.2]; exact h.shape r hr) (fun i => Js i e) (E e).bwd (by
      intro i hp
      rw [(ha.node i).1] at hp ⊢
      obtain ⟨j1, j2⟩ := hb i (Finset.mem_range.mpr (hin i hp)) hp
      refine ⟨_, j1, fun v hv => ?_⟩
      obtain ⟨gs, s1, s2⟩ := j2 v hv
      refine ⟨gs.mapIdx fun k g => plus g ((E e).bwd i k), ?_, fun k p hk => ?_⟩
      · simp only [inexact, s1]
        rfl
      · obtain ⟨m, m1, m2, m3⟩ := s2 k (sh p) (by rw [List.getElem?_map, hk]; rfl)
        refine ⟨plus m ((E e).bwd i k), by rw [List.getElem?_mapIdx, m1]; rfl, m2, fun q hq => ?_⟩
        rw [← m3 q hq]
        rfl) (A e) (by rw [hsend]; exact ha.chain hG (hA e)) (by rw [(ha.node r).1]; exact hop) (by rw [(ha.node r).2.1]; exact hreq) hscalar
      (ha.used hused) hd
    refine ⟨G', t1, t2, fun j hj => t3 j ?_, fun j h1 h2 => t4 j ((ha.anc r j).mpr h1) (by rw [(ha.node j).2.1]; exact h2)⟩
    rwa [ha.anc, (ha.node j).2.1]
  have hrun' : ∀ e, ∃ G' : Graph (Tensor ℝ), (∃ G', backward depth r (S e) = (.ok (), G') ∧ G'.active = true ∧
      (∀ j, ¬ (Anc S₀.graph r j ∧ (S₀.graph.node j).requiresGrad = true) → (G'.node j).grad = none) ∧
      ∀ j, Anc S₀.graph r j → (S₀.graph.node j).requiresGrad = true → ∃ v, (G'.node j).grad = some v ∧ v.shape = sh j ∧
        ∀ o, ValidIdx (sh j) o → v.at_ o = A e j o) → backward depth r (S e) = (.ok (), G') ∧ G'.active = true ∧
      (∀ j, ¬ (Anc S₀.graph r j ∧ (S₀.graph.node j).requiresGrad = true) → (G'.node j).grad = none) ∧
      ∀ j, Anc S₀.graph r j → (S₀.graph.node j).requiresGrad = true → ∃ v, (G'.node j).grad = some v ∧ v.shape = sh j ∧
        ∀ o, ValidIdx (sh j) o → v.at_ o = A e j o := by
    intro e
    by_cases hc : ∃ G', backward depth r (S e) = (.ok (), G') ∧ G'.active = true ∧
      (∀ j, ¬ (Anc S₀.graph r j ∧ (S₀.graph.node j).requiresGrad = true) → (G'.node j).grad = none) ∧
      ∀ j, Anc S₀.graph r j → (S₀.graph.node j).requiresGrad = true → ∃ v, (G'.node j).grad = some v ∧ v.shape = sh j ∧
        ∀ o, ValidIdx (sh j) o → v.at_ o = A e j o
    · obtain ⟨G', hG'⟩ := hc
      exact ⟨G', fun _ => hG'⟩
    · exact ⟨Graph.empty, fun h => absurd h hc⟩
  choose Gs hGs using hrun'
  refine ⟨G₀, g1, Gs, ?_, ?_⟩
  · filter_upwards [hrun] with e he
    obtain ⟨a1, a2, a3, a4⟩ := hGs e he
    refine ⟨a1, a2, a3, fun j h1 h2 => ?_⟩
    obtain ⟨v, v1, v2, -⟩ := a4 j h1 h2
    exact ⟨v, v1, v2⟩
  · intro j h1 h2 q hq
    obtain ⟨v, v1, v2, v3⟩ := g4 j h1 h2
    have e0 : gradAt G₀ j q = A₀ j q := by
      rw [gradAt, v1, ← v3 q hq]
      rfl
    rw [e0]
    refine (hclose _ j le_rfl h1 h2 q hq).congr ?_
    filter_upwards [hrun] with e he
    obtain ⟨-, -, -, a4⟩ := hGs e he
    obtain ⟨w, w1, w2, w3⟩ := a4 j h1 h2
    rw [gradAt, w1, ← w3 q hq]
    rfl

theorem near_empty (E : ι → Errors ℝ) : NearRun l δ E (fun _ => State.empty) State.empty := by
  refine ⟨built_empty, rfl, Eventually.of_forall fun _ => ⟨built_empty, rfl, rfl, fun _ => ⟨rfl, rfl, rfl⟩⟩, ?_, ?_, ?_⟩ <;>
  · intro i hi
    exact absurd hi (Nat.not_lt_zero i)

end

theorem close_all {ι κ : Type} {l : Filter ι} {δ : ι → ℝ} (s : Finset κ) (a : κ → ι → ℝ) (b : κ → ℝ) (h : ∀ k ∈ s, Close l δ (a k) (b k)) :
    ∃ K : ℝ, 0 ≤ K ∧ ∀ᶠ e in l, ∀ k ∈ s, |a k e - b k| ≤ K * |δ e| := by
  induction s using Finset.induction_on with
  | empty => exact ⟨0, le_rfl, Eventually.of_forall fun e k hk => absurd hk (Finset.notMem_empty k)⟩
  | insert x s hx ih =>
    obtain ⟨K, hK, h1⟩ := ih fun k hk => h k (Finset.mem_insert_of_mem hk)
    obtain ⟨K', hK', h2⟩ := (h x (Finset.mem_insert_self x s)).exists_nonneg
    refine ⟨max K K', le_max_of_le_left hK, ?_⟩
    filter_upwards [h1, h2.bound] with e e1 e2 k hk
    rcases Finset.mem_insert.mp hk with rfl | hk
    · simp only [Real.norm_eq_abs] at e2
      exact e2.trans (mul_le_mul_of_nonneg_right (le_max_right _ _) (abs_nonneg _))
    · exact (e1 k hk).trans (mul_le_mul_of_nonneg_right (le_max_left _ _) (abs_nonneg _))

/-- C48: the same with errors.  If the exact program meets the hypotheses of `C48_gradients_partial`, there are `K` and `δ₀ > 0` such that
whenever each new tensor and each gradient sent to an operand is wrong by at most `δ ≤ δ₀` in each element, the program runs, all its tensors
are within `K * δ` of the exact ones, `loss.backward()` succeeds and switches recording on again, every leaf tensor that requires a gradient
and was used for the loss holds a gradient within `K * δ` of the derivative of the exact loss, and other tensors hold none. -/
theorem C48_gradients_rounded_partial (leaves : Nat → Tensor ℝ) (prog : List (Step ℝ)) (S : State ℝ) (r depth : Nat)
    (hrun : run Real.sigmoid leaves prog = .ok S) (hfine : Fine leaves State.empty prog) (hop : (S.graph.node r).parents ≠ [])
    (hreq : (S.graph.node r).requiresGrad = true) (hscalar : (S.val r).shape.length ≤ 1) (hused : UsedFor S.graph r)
    (hdepth : r < depth) :
    ∃ K δ₀ : ℝ, 0 < δ₀ ∧ ∀ δ, 0 < δ → δ ≤ δ₀ → ∀ E : Errors ℝ, E.Within δ →
      ∃ S' G', runE Real.sigmoid E leaves prog = .ok S' ∧ backward depth r S' = (.ok (), G') ∧ G'.active = true ∧
        (∀ i, i < prog.length → (S'.val i).shape = (S.val i).shape ∧
          ∀ o, ValidIdx (S.val i).shape o → |(S'.val i).at_ o - (S.val i).at_ o| ≤ K * δ) ∧
        (∀ j, ¬ (Anc S.graph r j ∧ (S.graph.node j).requiresGrad = true) → (G'.node j).grad = none) ∧
        ∀ j, prog[j]? = some (.leaf true) → Anc S.graph r j → ∃ v, (G'.node j).grad = some v ∧ v.shape = (leaves j).shape ∧
          ∀ idx, ValidIdx (leaves j).shape idx → ∃ d,
            HasDerivAt (fun t => total (run Real.sigmoid (nudge leaves j idx t) prog) r) d 0 ∧ |v.at_ idx - d| ≤ K * δ := by
  -- the errors within bounds that tend to zero
  let ι := {p : ℝ × Errors ℝ // 0 < p.1 ∧ p.2.Within p.1}
  let δ : ι → ℝ := fun e => e.1.1
  let E : ι → Errors ℝ := fun e => e.1.2
  let l : Filter ι := comap δ (𝓝 0)
  have hδ : Tendsto δ l (𝓝 0) := tendsto_comap
  have hE : ∀ e, (E e).Within (δ e) := fun e => e.2.2
  obtain ⟨S', s1, s2⟩ := run_near (l := l) (δ := δ) hδ hE leaves prog (fun _ => State.empty) State.empty S (near_empty E) hfine hrun
  obtain ⟨G₀, g1, Gs, g2, g3⟩ := grads_near hδ hE S' S s2 r depth hop hreq hscalar hused hdepth
  obtain ⟨G₁, x1, -, -, x4⟩ := C48_gradients_partial leaves prog S r depth hrun hfine hop hreq hscalar hused hdepth
  obtain rfl : G₀ = G₁ := by
    rw [g1] at x1
    exact (Prod.mk.inj x1).2
  obtain ⟨K₁, hK₁, c1⟩ := close_all (l := l) (δ := δ) ((Finset.range S.graph.size).sigma fun i => positions (S.val i).shape)
    (fun x e => ((S' e).val x.1).at_ x.2) (fun x => (S.val x.1).at_ x.2) (by
      intro x hx
      obtain ⟨y1, y2⟩ := Finset.mem_sigma.mp hx
      exact (s2.near x.1 (Finset.mem_range.mp y1)).2 x.2 ((mem_positions _ _).mp y2))
  obtain ⟨K₂, hK₂, c2⟩ := close_all (l := l) (δ := δ) (((Finset.range S.graph.size).filter fun j => Anc S.graph r j ∧
      (S.graph.node j).requiresGrad = true).sigma fun i => positions (S.val i).shape)
    (fun x e => gradAt (Gs e) x.1 x.2) (fun x => gradAt G₀ x.1 x.2) (by
      intro x hx
      obtain ⟨y1, y2⟩ := Finset.mem_sigma.mp hx
      obtain ⟨-, y3, y4⟩ := Finset.mem_filter.mp y1
      exact g3 x.1 y3 y4 x.2 ((mem_positions _ _).mp y2))
  have c3 : ∀ᶠ e in l, ∀ i ∈ Finset.range S.graph.size, ((S' e).val i).shape = (S.val i).shape := by
    rw [eventually_all_finset]
    exact fun i hi => (s2.near i (Finset.mem_range.mp hi)).1
  have hev := ((s1.and g2).and (c1.and (c2.and c3)))
  rw [(Metric.nhds_basis_ball.comap δ).eventually_iff] at hev
  obtain ⟨ε, hε, hev⟩ := hev
  -- the leaves of the exact run
  have hleaf : ∀ j, prog[j]? = some (.leaf true) → S.val j = leaves j ∧ (S.graph.node j).requiresGrad = true := by
    obtain ⟨F, D, f1, f2, f3, f4, -, -, f7, -⟩ := run_rel (fun _ => leaves) (fun _ _ => 0) (fun i => deriv_const _) prog
      (fun _ => State.empty) _ rel_empty hfine (fun _ _ _ _ => rfl) S hrun
    intro j hj
    have := f7 j true hj
    simp only [State.empty, Graph.empty, Nat.zero_add] at this
    exact ⟨this.2.2.2, this.2.2.1⟩
  have hsize : S.graph.size = prog.length := by
    obtain ⟨F, D, f1, f2, f3, f4, -, -, f7, -⟩ := run_rel (fun _ => leaves) (fun _ _ => 0) (fun i => deriv_const _) prog
      (fun _ => State.empty) _ rel_empty hfine (fun _ _ _ _ => rfl) S hrun
    simpa [State.empty, Graph.empty] using f4
  refine ⟨max K₁ K₂, ε / 2, by linarith, fun δ' hpos hle E' hE' => ?_⟩
  have hmem : (⟨(δ', E'), hpos, hE'⟩ : ι) ∈ δ ⁻¹' Metric.ball 0 ε := by
    rw [Set.mem_preimage, Metric.mem_ball, Real.dist_eq, sub_zero]
    change |δ'| < ε
    rw [abs_of_pos hpos]
    linarith
  obtain ⟨⟨r1, b1, b2, b3, b4⟩, d1, d2, d3⟩ := hev hmem
  have habs : ∀ K, K ≤ max K₁ K₂ → K * |δ'| ≤ max K₁ K₂ * δ' := by
    intro K hK
    rw [abs_of_pos hpos]
    exact mul_le_mul_of_nonneg_right hK hpos.le
  refine ⟨_, _, r1, b1, b2, fun i hi => ?_, b3, fun j hj hanc => ?_⟩
  · rw [← hsize] at hi
    refine ⟨d3 i (Finset.mem_range.mpr hi), fun o ho => ?_⟩
    exact (d1 ⟨i, o⟩ (Finset.mem_sigma.mpr ⟨Finset.mem_range.mpr hi, (mem_positions _ _).mpr ho⟩)).trans (habs _ (le_max_left _ _))
  · obtain ⟨l1, l2⟩ := hleaf j hj
    have hjs : j < S.graph.size := by
      rw [hsize]
      exact (List.getElem?_eq_some_iff.mp hj).1
    obtain ⟨v, v1, v2⟩ := b4 j hanc l2
    obtain ⟨v₀, w1, w2, w3⟩ := (x4 j hj).1 hanc
    refine ⟨v, v1, by rw [v2, l1], fun idx hidx => ⟨v₀.at_ idx, w3 idx hidx, ?_⟩⟩
    have := d2 ⟨j, idx⟩ (Finset.mem_sigma.mpr ⟨Finset.mem_filter.mpr ⟨Finset.mem_range.mpr hjs, hanc, l2⟩,
      (mem_positions _ _).mpr (by rw [l1]; exact hidx)⟩)
    simp only [gradAt, v1, w1, Option.map_some, Option.getD_some] at this
    exact this.trans (habs _ (le_max_right _ _))

/-- errors within a bound; for programs that meet the other hypotheses see the examples of `Props/Grad.lean` -/
example : (⟨fun _ _ => 1 / 8, fun _ k _ => if k = 0 then -1 / 8 else 1 / 16⟩ : Errors ℝ).Within (1 / 8) := by
  intro i o
  refine ⟨by norm_num [abs_of_pos], fun k => ?_⟩
  by_cases h : k = 0 <;> simp only [h, if_true, if_false] <;> norm_num [abs_le]

end SyMPC.Grad
