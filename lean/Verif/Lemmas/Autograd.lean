import Verif.Model.Autograd
import Mathlib.Algebra.BigOperators.Group.Finset.Basic
import Mathlib.Data.Finset.Card
import Mathlib.Order.Interval.Finset.Nat
import Mathlib.Data.List.GetD
import Mathlib.Tactic.Linarith
import Mathlib.Tactic.Ring

/-!
# The traversal of the computation graph
-/

namespace SyMPC.Autograd

open Classical

variable {V W : Type} [AddCommMonoid W]

/-! ## Notions about a graph -/

/-- `i` is `r`, or an operand used directly or indirectly in computing `r`. -/
inductive Anc (G : Graph V) (r : Nat) : Nat → Prop
  | root : Anc G r r
  | step {i p : Nat} : Anc G r i → p ∈ (G.node i).parents → Anc G r p

/-- All pairs of a tensor and the number of one of its operands. -/
def edges (G : Graph V) : Finset (Nat × Nat) :=
  (Finset.range G.size).biUnion fun i => (Finset.range (G.node i).parents.length).image (Prod.mk i)

/-- The operand that an edge leads to. -/
def tgt (G : Graph V) (e : Nat × Nat) : Nat := (G.node e.1).parents.getD e.2 0

/-- What a program leaves behind. -/
structure Built (G : Graph V) : Prop where
  older : ∀ i, ∀ p ∈ (G.node i).parents, p < i
  outside : ∀ i, G.size ≤ i → (G.node i).parents = []
  fn : ∀ i, (G.node i).parents ≠ [] → ∃ f, (G.node i).gradFn = some f
  req : ∀ i, (G.node i).parents ≠ [] → (G.node i).requiresGrad = (G.node i).parents.any fun p => (G.node p).requiresGrad
  grad : ∀ i, (G.node i).grad = none
  count : ∀ j, (G.node j).nrOutEdges = ((edges G).filter fun e => tgt G e = j).card

/-- The edges over which gradients travel. -/
noncomputable def live (G : Graph V) (r : Nat) : Finset (Nat × Nat) :=
  (edges G).filter fun e => Anc G r e.1 ∧ (G.node e.1).requiresGrad = true

theorem mem_edges {G : Graph V} (hG : Built G) (e : Nat × Nat) : e ∈ edges G ↔ e.2 < (G.node e.1).parents.length := by
  obtain ⟨i, k⟩ := e
  simp only [edges, Finset.mem_biUnion, Finset.mem_range, Finset.mem_image, Prod.mk.injEq]
  constructor
  · rintro ⟨a, -, b, hb, rfl, rfl⟩
    exact hb
  · intro h
    refine ⟨i, ?_, k, h, rfl, rfl⟩
    by_contra hn
    rw [hG.outside i (by omega)] at h
    simp at h

theorem mem_live {G : Graph V} (hG : Built G) (r : Nat) (e : Nat × Nat) :
    e ∈ live G r ↔ e.2 < (G.node e.1).parents.length ∧ Anc G r e.1 ∧ (G.node e.1).requiresGrad = true := by
  rw [live, Finset.mem_filter, mem_edges hG]

theorem tgt_mem {G : Graph V} (hG : Built G) {e : Nat × Nat} (he : e ∈ edges G) : tgt G e ∈ (G.node e.1).parents := by
  rw [mem_edges hG] at he
  unfold tgt
  rw [List.getD_eq_getElem _ _ he]
  exact List.getElem_mem he

theorem tgt_lt {G : Graph V} (hG : Built G) {e : Nat × Nat} (he : e ∈ edges G) : tgt G e < e.1 :=
  hG.older _ _ (tgt_mem hG he)

theorem Anc.le {G : Graph V} (hG : Built G) {r i : Nat} (h : Anc G r i) : i ≤ r := by
  induction h with
  | root => exact le_rfl
  | step _ hp ih =>
    have := hG.older _ _ hp
    omega

/-! ## The traversal -/

section
variable (G₀ : Graph V) (r : Nat) (g : W) (A : Nat → W) (B : Nat → Nat → W → W) (typed : Nat → V → Prop) (interp : V → W)

/-- The gradient functions do what `B` says: `B i k` is what the `k`-th operand of `i` receives. -/
structure Local (add : V → V → V) : Prop where
  add : ∀ j a b, typed j a → typed j b → typed j (add a b) ∧ interp (add a b) = interp a + interp b
  fn : ∀ i f, Anc G₀ r i → (G₀.node i).requiresGrad = true → (G₀.node i).parents ≠ [] → (G₀.node i).gradFn = some f →
    ∀ v, typed i v → ∃ gs, f v = .ok gs ∧
    ∀ k p, (G₀.node i).parents[k]? = some p → ∃ m, gs[k]? = some m ∧
      ((G₀.node p).requiresGrad = true → typed p m ∧ interp m = B i k (interp v))

/-- The equations of the chain rule: the root receives `g`, any other tensor the sum of what its uses send. -/
structure ChainRule : Prop where
  root : A r = g
  inner : ∀ j, Anc G₀ r j → (G₀.node j).requiresGrad = true → j ≠ r →
    A j = ∑ e ∈ (live G₀ r).filter (fun e => tgt G₀ e = j), B e.1 e.2 (A e.1)

/-- The state during the traversal: the edges in `E` have been followed, those in `P` are waiting in loops. -/
structure Inv (G : Graph V) (E P : Finset (Nat × Nat)) : Prop where
  shape : ∀ i, (G.node i).shape = (G₀.node i).shape
  parents : ∀ i, (G.node i).parents = (G₀.node i).parents
  req : ∀ i, (G.node i).requiresGrad = (G₀.node i).requiresGrad
  fn : ∀ i, (G.node i).gradFn = (G₀.node i).gradFn
  size : G.size = G₀.size
  disj : Disjoint E P
  sub : E ∪ P ⊆ live G₀ r
  grad : ∀ j, Anc G₀ r j → (G₀.node j).requiresGrad = true → j ≠ r → (E.filter fun e => tgt G₀ e = j).Nonempty →
    ∃ v, (G.node j).grad = some v ∧ typed j v ∧ interp v = ∑ e ∈ E.filter (fun e => tgt G₀ e = j), B e.1 e.2 (A e.1)
  noGrad : ∀ j, j ≠ r → ((G₀.node j).requiresGrad = false ∨ E.filter (fun e => tgt G₀ e = j) = ∅) → (G.node j).grad = none
  gradRoot : ∃ v, (G.node r).grad = some v ∧ typed r v ∧ interp v = g
  count : ∀ j, Anc G₀ r j → (G₀.node j).requiresGrad = true → (G₀.node j).parents ≠ [] → j ≠ r →
    (G.node j).nrOutEdges = ((live G₀ r).filter fun e => tgt G₀ e = j).card - ((E.filter fun e => tgt G₀ e = j).card : Int)
  done : ∀ j, Anc G₀ r j → (G₀.node j).requiresGrad = true → j ≠ r →
    (live G₀ r).filter (fun e => tgt G₀ e = j) ⊆ E → ∀ k, k < (G₀.node j).parents.length → (j, k) ∈ E ∪ P
  opened : ∀ j, Anc G₀ r j → (G₀.node j).requiresGrad = true → j ≠ r →
    ¬ (live G₀ r).filter (fun e => tgt G₀ e = j) ⊆ E → ∀ k, (j, k) ∉ E ∪ P
  root : ∀ k, k < (G₀.node r).parents.length → (r, k) ∈ E ∪ P

end

variable {G₀ : Graph V} {r : Nat} {g : W} {A : Nat → W} {B : Nat → Nat → W → W} {typed : Nat → V → Prop} {interp : V → W}
  {add : V → V → V}

/-- the flag does not matter -/
theorem Inv.flag {G : Graph V} {E P : Finset (Nat × Nat)} (h : Inv G₀ r g A B typed interp G E P) (b : Bool) :
    Inv G₀ r g A B typed interp { G with active := b } E P :=
  { h with }

/-- the loop over the operands of `j` -/
theorem loop_inv (back : Nat → V → Graph V → Py Unit × Graph V) (j : Nat) (aj : W)
    (hback : ∀ k p m G E P, (G₀.node j).parents[k]? = some p → Inv G₀ r g A B typed interp G E P → (j, k) ∈ P →
      ((G₀.node p).requiresGrad = true → typed p m ∧ interp m = B j k aj) →
      ∃ G' E', back p m G = (.ok (), G') ∧ Inv G₀ r g A B typed interp G' E' (P.erase (j, k)))
    (gs : List V)
    (hgs : ∀ k p, (G₀.node j).parents[k]? = some p → ∃ m, gs[k]? = some m ∧
      ((G₀.node p).requiresGrad = true → typed p m ∧ interp m = B j k aj))
    (n k0 : Nat) (hn : k0 + n = (G₀.node j).parents.length) (G : Graph V) (E P : Finset (Nat × Nat))
    (hP : ∀ k, (j, k) ∉ P)
    (h : Inv G₀ r g A B typed interp G E (P ∪ (Finset.Ico k0 (k0 + n)).image (Prod.mk j))) :
    ∃ G' E', Graph.backwardAll back ((G₀.node j).parents.drop k0) (gs.drop k0) G = (.ok (), G') ∧
      Inv G₀ r g A B typed interp G' E' P := by
  induction n generalizing k0 G E with
  | zero =>
    rw [List.drop_eq_nil_of_le (by omega)]
    refine ⟨G, E, rfl, ?_⟩
    simpa using h
  | succ n ih =>
    have hk : k0 < (G₀.node j).parents.length := by omega
    have hp := List.getElem?_eq_getElem hk
    obtain ⟨m, hm, hty⟩ := hgs k0 _ hp
    obtain ⟨G1, E1, e1, e2⟩ := hback k0 _ m G E _ hp h (by simp) hty
    have hP1 : (P ∪ (Finset.Ico k0 (k0 + (n + 1))).image (Prod.mk j)).erase (j, k0)
        = P ∪ (Finset.Ico (k0 + 1) (k0 + 1 + n)).image (Prod.mk j) := by
      ext ⟨a, b⟩
      simp only [Finset.mem_erase, Finset.mem_union, Finset.mem_image, Finset.mem_Ico, Prod.mk.injEq, ne_eq, not_and]
      constructor
      · rintro ⟨h1, h2 | ⟨c, hc, rfl, rfl⟩⟩
        · exact Or.inl h2
        · have := h1 rfl
          exact Or.inr ⟨c, by omega, rfl, rfl⟩
      · rintro (h2 | ⟨c, hc, rfl, rfl⟩)
        · refine ⟨?_, Or.inl h2⟩
          rintro rfl rfl
          exact hP _ h2
        · exact ⟨fun _ => by omega, Or.inr ⟨c, by omega, rfl, rfl⟩⟩
    rw [hP1] at e2
    obtain ⟨G2, E2, f1, f2⟩ := ih (k0 + 1) (by omega) G1 E1 e2
    refine ⟨G2, E2, ?_, f2⟩
    obtain ⟨hm1, hm2⟩ := List.getElem?_eq_some_iff.mp hm
    rw [List.drop_eq_getElem_cons hk, List.drop_eq_getElem_cons hm1, hm2]
    unfold Graph.backwardAll
    rw [e1]
    exact f1

/-- one call of `backward` -/
theorem backward_inv (hG : Built G₀) (hA : ChainRule G₀ r g A B) (hL : Local G₀ r B typed interp add)
    (depth : Nat) (e : Nat × Nat) (hd : tgt G₀ e < depth) (m : V) (G : Graph V) (E P : Finset (Nat × Nat))
    (h : Inv G₀ r g A B typed interp G E P) (he : e ∈ P)
    (hm : (G₀.node (tgt G₀ e)).requiresGrad = true → typed (tgt G₀ e) m ∧ interp m = B e.1 e.2 (A e.1)) :
    ∃ G' E', Graph.backward add depth (tgt G₀ e) m G = (.ok (), G') ∧ Inv G₀ r g A B typed interp G' E' (P.erase e) := by
  induction depth generalizing e m G E P with
  | zero => omega
  | succ depth ih =>
    have heU : e ∈ live G₀ r := h.sub (Finset.mem_union_right _ he)
    have heE : e ∉ E := fun hE => Finset.disjoint_left.mp h.disj hE he
    have heE0 := heU
    rw [live, Finset.mem_filter] at heE0
    obtain ⟨heed, hanc, hreq⟩ := heE0
    have hlt := tgt_lt hG heed
    have hjr : tgt G₀ e ≠ r := by
      have := hanc.le hG
      omega
    have hjanc : Anc G₀ r (tgt G₀ e) := .step hanc (tgt_mem hG heed)
    have hunion : insert e E ∪ P.erase e = E ∪ P := by
      ext x
      simp only [Finset.mem_union, Finset.mem_insert, Finset.mem_erase]
      by_cases hx : x = e
      · subst hx
        simp [he]
      · simp [hx]
    have hdisj : Disjoint (insert e E) (P.erase e) := by
      rw [Finset.disjoint_left]
      intro x hx hx2
      rw [Finset.mem_erase] at hx2
      rcases Finset.mem_insert.mp hx with h1 | h1
      · exact hx2.1 h1
      · exact Finset.disjoint_left.mp h.disj h1 hx2.2
    have hfilt : ∀ j, j ≠ tgt G₀ e → (insert e E).filter (fun e => tgt G₀ e = j) = E.filter fun e => tgt G₀ e = j := by
      intro j hj
      rw [Finset.filter_insert, if_neg (Ne.symm hj)]
    have hfiltj : (insert e E).filter (fun x => tgt G₀ x = tgt G₀ e) = insert e (E.filter fun x => tgt G₀ x = tgt G₀ e) := by
      rw [Finset.filter_insert, if_pos rfl]
    have hsubE : ∀ j, j ≠ tgt G₀ e → ((live G₀ r).filter (fun x => tgt G₀ x = j) ⊆ insert e E ↔
        (live G₀ r).filter (fun x => tgt G₀ x = j) ⊆ E) := by
      intro j hj
      constructor
      · intro hs x hx
        rcases Finset.mem_insert.mp (hs hx) with h1 | h1
        · rw [Finset.mem_filter] at hx
          exact absurd (h1 ▸ hx.2).symm hj
        · exact h1
      · exact fun hs => hs.trans (Finset.subset_insert _ _)
    unfold Graph.backward
    by_cases hrj : (G₀.node (tgt G₀ e)).requiresGrad = false
    · refine ⟨G, insert e E, by simp only [h.req, hrj, if_true], ?_⟩
      refine { h with disj := hdisj, sub := hunion ▸ h.sub, grad := ?_, noGrad := ?_, count := ?_, done := ?_, opened := ?_, root := ?_ }
      · intro j hj1 hj2 hj3 hj4
        have hne : j ≠ tgt G₀ e := fun h => by rw [h] at hj2; simp [hrj] at hj2
        rw [hfilt j hne] at hj4 ⊢
        exact h.grad j hj1 hj2 hj3 hj4
      · intro j hj1 hj2
        refine h.noGrad j hj1 (hj2.imp id fun h => ?_)
        exact Finset.subset_empty.mp (h ▸ Finset.filter_subset_filter _ (Finset.subset_insert _ _))
      · intro j hj1 hj2 hj3 hj4
        have hne : j ≠ tgt G₀ e := fun h => by rw [h] at hj2; simp [hrj] at hj2
        rw [hfilt j hne]
        exact h.count j hj1 hj2 hj3 hj4
      · intro j hj1 hj2 hj3 hj4
        have hne : j ≠ tgt G₀ e := fun h => by rw [h] at hj2; simp [hrj] at hj2
        rw [hunion]
        exact h.done j hj1 hj2 hj3 ((hsubE j hne).mp hj4)
      · intro j hj1 hj2 hj3 hj4
        have hne : j ≠ tgt G₀ e := fun h => by rw [h] at hj2; simp [hrj] at hj2
        rw [hunion]
        exact h.opened j hj1 hj2 hj3 fun hs => hj4 ((hsubE j hne).mpr hs)
      · rw [hunion]
        exact h.root
    · have hrj' : (G₀.node (tgt G₀ e)).requiresGrad = true := by simpa using hrj
      obtain ⟨hmt, hmi⟩ := hm hrj'
      -- the accumulated gradient
      obtain ⟨v, hv, hvt, hvi⟩ : ∃ v, Graph.accumulate add (G.node (tgt G₀ e)).grad m = v ∧ typed (tgt G₀ e) v ∧
          interp v = ∑ x ∈ (insert e E).filter (fun x => tgt G₀ x = tgt G₀ e), B x.1 x.2 (A x.1) := by
        rw [hfiltj, Finset.sum_insert (by simp [heE])]
        rcases Finset.eq_empty_or_nonempty (E.filter fun x => tgt G₀ x = tgt G₀ e) with hemp | hne
        · rw [h.noGrad _ hjr (Or.inr hemp)]
          refine ⟨m, rfl, hmt, ?_⟩
          rw [hemp, hmi]
          simp
        · obtain ⟨a, ha1, ha2, ha3⟩ := h.grad _ hjanc hrj' hjr hne
          rw [ha1]
          obtain ⟨t1, t2⟩ := hL.add _ a m ha2 hmt
          exact ⟨add a m, rfl, t1, by rw [t2, ha3, hmi, add_comm]⟩
      simp only [h.req, hrj', Bool.true_eq_false, if_false, hv, h.parents, h.fn]
      by_cases hleaf : (G₀.node (tgt G₀ e)).parents.length = 0
      · rw [if_pos hleaf]
        have hnil : (G₀.node (tgt G₀ e)).parents = [] := List.length_eq_zero_iff.mp hleaf
        refine ⟨_, insert e E, rfl, ?_⟩
        constructor
        · intro i; by_cases hi : i = tgt G₀ e <;> simp [Graph.modify, Function.update, hi, h.shape]
        · intro i; by_cases hi : i = tgt G₀ e <;> simp [Graph.modify, Function.update, hi, h.parents]
        · intro i; by_cases hi : i = tgt G₀ e <;> simp [Graph.modify, Function.update, hi, h.req]
        · intro i; by_cases hi : i = tgt G₀ e <;> simp [Graph.modify, Function.update, hi, h.fn]
        · exact h.size
        · exact hdisj
        · exact hunion ▸ h.sub
        · intro j hj1 hj2 hj3 hj4
          by_cases hj : j = tgt G₀ e
          · subst hj
            exact ⟨v, by simp [Graph.modify], hvt, hvi⟩
          · rw [hfilt j hj] at hj4 ⊢
            simpa [Graph.modify, Function.update, hj] using h.grad j hj1 hj2 hj3 hj4
        · intro j hj1 hj2
          by_cases hj : j = tgt G₀ e
          · subst hj
            rw [hfiltj] at hj2
            simp [hrj'] at hj2
          · rw [hfilt j hj] at hj2
            simpa [Graph.modify, Function.update, hj] using h.noGrad j hj1 hj2
        · simpa [Graph.modify, Function.update, Ne.symm hjr] using h.gradRoot
        · intro j hj1 hj2 hj3 hj4
          have hj : j ≠ tgt G₀ e := fun h => hj3 (h ▸ hnil)
          rw [hfilt j hj]
          simpa [Graph.modify, Function.update, hj] using h.count j hj1 hj2 hj3 hj4
        · intro j hj1 hj2 hj3 hj4 k hk
          have hj : j ≠ tgt G₀ e := fun h => by rw [h] at hk; omega
          rw [hunion]
          exact h.done j hj1 hj2 hj3 ((hsubE j hj).mp hj4) k hk
        · intro j hj1 hj2 hj3 hj4 k
          rw [hunion]
          by_cases hj : j = tgt G₀ e
          · intro hmem
            have := (mem_live hG r _).mp (h.sub hmem)
            simp only at this
            rw [hj] at this
            omega
          · exact h.opened j hj1 hj2 hj3 (fun hs => hj4 ((hsubE j hj).mpr hs)) k
        · rw [hunion]
          exact h.root
      · rw [if_neg hleaf]
        have hne : (G₀.node (tgt G₀ e)).parents ≠ [] := fun h => hleaf (by rw [h]; rfl)
        have hcount := h.count _ hjanc hrj' hne hjr
        have hopen := h.opened _ hjanc hrj' hjr fun hs => heE (hs (by simp [heU]))
        have hcard : ((insert e E).filter fun x => tgt G₀ x = tgt G₀ e).card
            = (E.filter fun x => tgt G₀ x = tgt G₀ e).card + 1 := by
          rw [hfiltj, Finset.card_insert_of_notMem (by simp [heE])]
        have hsubj : (insert e E).filter (fun x => tgt G₀ x = tgt G₀ e) ⊆ (live G₀ r).filter fun x => tgt G₀ x = tgt G₀ e := by
          refine Finset.filter_subset_filter _ ?_
          intro x hx
          exact h.sub (hunion ▸ Finset.mem_union_left _ hx)
        -- the state after the bookkeeping, for any set of pending edges that agrees with it
        have hinv : ∀ P', Disjoint (insert e E) P' → insert e E ∪ P' ⊆ live G₀ r →
            (∀ j k, j ≠ tgt G₀ e → ((j, k) ∈ insert e E ∪ P' ↔ (j, k) ∈ E ∪ P)) →
            ((live G₀ r).filter (fun x => tgt G₀ x = tgt G₀ e) ⊆ insert e E → ∀ k, k < (G₀.node (tgt G₀ e)).parents.length →
              (tgt G₀ e, k) ∈ insert e E ∪ P') →
            (¬ (live G₀ r).filter (fun x => tgt G₀ x = tgt G₀ e) ⊆ insert e E → ∀ k, (tgt G₀ e, k) ∉ insert e E ∪ P') →
            Inv G₀ r g A B typed interp ((({ G with active := false }.modify (tgt G₀ e) fun n => { n with grad := some v }).modify
              (tgt G₀ e)) fun n => { n with nrOutEdges := n.nrOutEdges - 1 }) (insert e E) P' := by
          intro P' hd' hs' hP' hdone' hopen'
          constructor
          · intro i; by_cases hi : i = tgt G₀ e <;> simp [Graph.modify, Function.update, hi, h.shape]
          · intro i; by_cases hi : i = tgt G₀ e <;> simp [Graph.modify, Function.update, hi, h.parents]
          · intro i; by_cases hi : i = tgt G₀ e <;> simp [Graph.modify, Function.update, hi, h.req]
          · intro i; by_cases hi : i = tgt G₀ e <;> simp [Graph.modify, Function.update, hi, h.fn]
          · exact h.size
          · exact hd'
          · exact hs'
          · intro j hj1 hj2 hj3 hj4
            by_cases hj : j = tgt G₀ e
            · subst hj
              exact ⟨v, by simp [Graph.modify], hvt, hvi⟩
            · rw [hfilt j hj] at hj4 ⊢
              simpa [Graph.modify, Function.update, hj] using h.grad j hj1 hj2 hj3 hj4
          · intro j hj1 hj2
            by_cases hj : j = tgt G₀ e
            · subst hj
              rw [hfiltj] at hj2
              simp [hrj'] at hj2
            · rw [hfilt j hj] at hj2
              simpa [Graph.modify, Function.update, hj] using h.noGrad j hj1 hj2
          · simpa [Graph.modify, Function.update, Ne.symm hjr] using h.gradRoot
          · intro j hj1 hj2 hj3 hj4
            by_cases hj : j = tgt G₀ e
            · subst hj
              rw [hcard]
              simp only [Graph.modify, Function.update_self, hcount]
              push_cast
              ring
            · rw [hfilt j hj]
              simpa [Graph.modify, Function.update, hj] using h.count j hj1 hj2 hj3 hj4
          · intro j hj1 hj2 hj3 hj4 k hk
            by_cases hj : j = tgt G₀ e
            · subst hj
              exact hdone' hj4 k hk
            · rw [hP' j k hj]
              exact h.done j hj1 hj2 hj3 ((hsubE j hj).mp hj4) k hk
          · intro j hj1 hj2 hj3 hj4 k
            by_cases hj : j = tgt G₀ e
            · subst hj
              exact hopen' hj4 k
            · rw [hP' j k hj]
              exact h.opened j hj1 hj2 hj3 (fun hs => hj4 ((hsubE j hj).mpr hs)) k
          · intro k hk
            rw [hP' r k (Ne.symm hjr)]
            exact h.root k hk
        by_cases hall : (live G₀ r).filter (fun x => tgt G₀ x = tgt G₀ e) ⊆ insert e E
        · -- all uses have sent their gradients
          have heq : (insert e E).filter (fun x => tgt G₀ x = tgt G₀ e) = (live G₀ r).filter fun x => tgt G₀ x = tgt G₀ e := by
            refine Finset.Subset.antisymm hsubj fun x hx => ?_
            rw [Finset.mem_filter] at hx ⊢
            exact ⟨hall (by simp [hx]), hx.2⟩
          have hzero : ¬ (G.node (tgt G₀ e)).nrOutEdges - 1 > 0 := by
            rw [hcount, ← heq, hcard]
            push_cast
            omega
          rw [if_neg hzero]
          obtain ⟨f, hf⟩ := hG.fn _ hne
          simp only [hf]
          have hva : interp v = A (tgt G₀ e) := by
            rw [hvi, heq, hA.inner _ hjanc hrj' hjr]
          obtain ⟨gs, hgs1, hgs2⟩ := hL.fn _ f hjanc hrj' hne hf v hvt
          rw [hgs1]
          simp only
          obtain ⟨G', E', r1, r2⟩ := loop_inv (G₀ := G₀) (r := r) (g := g) (A := A) (B := B) (typed := typed) (interp := interp)
            (Graph.backward add depth) (tgt G₀ e) (A (tgt G₀ e)) (by
              intro k p m' G' E' P' hp hinv' hmem hty
              have htgt : tgt G₀ (tgt G₀ e, k) = p := by
                unfold tgt at hp ⊢
                simp only
                rw [List.getD_eq_getElem?_getD, hp]
                rfl
              have hpl : p < tgt G₀ e := hG.older _ _ (List.mem_of_getElem? hp)
              obtain ⟨G'', E'', q1, q2⟩ := ih (tgt G₀ e, k) (by rw [htgt]; omega) m' G' E' P' hinv' hmem (by
                rw [htgt]
                exact hty)
              rw [htgt] at q1
              exact ⟨G'', E'', q1, q2⟩) gs (by
              intro k p hp
              obtain ⟨m', hm1, hm2⟩ := hgs2 k p hp
              exact ⟨m', hm1, fun hr => by rw [← hva]; exact hm2 hr⟩)
            (G₀.node (tgt G₀ e)).parents.length 0 (by omega) _ (insert e E) (P.erase e) (by
              intro k hk
              exact hopen k (Finset.mem_union_right _ (Finset.mem_of_mem_erase hk)))
            (hinv _ (by
                rw [Finset.disjoint_union_right]
                refine ⟨hdisj, ?_⟩
                rw [Finset.disjoint_left]
                intro x hx hx2
                simp only [Finset.mem_image] at hx2
                obtain ⟨k, -, rfl⟩ := hx2
                rcases Finset.mem_insert.mp hx with h1 | h1
                · have : tgt G₀ e = e.1 := congrArg Prod.fst h1
                  omega
                · exact hopen k (Finset.mem_union_left _ h1))
              (by
                intro x hx
                rw [← Finset.union_assoc, hunion, Finset.mem_union] at hx
                rcases hx with hx | hx
                · exact h.sub hx
                · simp only [Finset.mem_image, Finset.mem_Ico] at hx
                  obtain ⟨k, hk, rfl⟩ := hx
                  rw [mem_live hG]
                  exact ⟨by simpa using hk.2, hjanc, hrj'⟩)
              (by
                intro j k hj
                rw [← Finset.union_assoc, hunion, Finset.mem_union]
                simp [Ne.symm hj])
              (by
                intro _ k hk
                rw [← Finset.union_assoc, Finset.mem_union]
                right
                simp [hk])
              (fun hn => absurd hall hn))
          rw [List.drop_zero, List.drop_zero] at r1
          rw [r1]
          exact ⟨_, E', rfl, r2.flag true⟩
        · -- some uses are still missing
          have hpos : (G.node (tgt G₀ e)).nrOutEdges - 1 > 0 := by
            rw [hcount]
            have hlt : ((insert e E).filter fun x => tgt G₀ x = tgt G₀ e).card
                < ((live G₀ r).filter fun x => tgt G₀ x = tgt G₀ e).card := by
              refine Finset.card_lt_card ⟨hsubj, fun hs => hall fun x hx => ?_⟩
              exact (Finset.mem_filter.mp (hs hx)).1
            rw [hcard] at hlt
            omega
          rw [if_pos hpos]
          refine ⟨_, insert e E, rfl, hinv _ hdisj (hunion ▸ h.sub) (fun j k _ => by rw [hunion]) (fun hs => absurd hs hall) ?_⟩
          intro _ k
          rw [hunion]
          exact hopen k

end SyMPC.Autograd
