import Verif.Lemmas.Autograd
import Mathlib.Algebra.BigOperators.Group.Finset.Sigma
import Mathlib.Algebra.Group.Hom.Defs
import Mathlib.Algebra.BigOperators.GroupWithZero.Finset

/-!
# C48: backpropagation over the computation graph
-/

namespace SyMPC.Autograd

open Classical

variable {V W : Type}

/-! ## Graphs made by programs -/

/-- The operands of each operation exist when it is applied. -/
def WellFormed : Nat → List (Cmd V) → Prop
  | _, [] => True
  | n, .leaf _ _ :: cs => WellFormed (n + 1) cs
  | n, .op ps _ _ :: cs => ps ≠ [] ∧ (∀ p ∈ ps, p < n) ∧ WellFormed (n + 1) cs
  | n, .plain _ :: cs => WellFormed (n + 1) cs

theorem incr_all (ps : List Nat) (G : Graph V) :
    (ps.foldl (fun G p => G.modify p fun n => { n with nrOutEdges := n.nrOutEdges + 1 }) G)
      = { G with node := fun j => { G.node j with nrOutEdges := (G.node j).nrOutEdges + ps.count j } } := by
  induction ps generalizing G with
  | nil => simp
  | cons p ps ih =>
    rw [List.foldl_cons, ih]
    simp only [Graph.modify]
    congr 1
    funext j
    by_cases hj : j = p
    · subst hj
      simp only [Function.update_self, List.count_cons_self]
      congr 1
      push_cast
      ring
    · simp only [Function.update_of_ne hj, List.count_cons_of_ne (Ne.symm hj)]

theorem card_operands (ps : List Nat) (i j : Nat) :
    (((Finset.range ps.length).image (Prod.mk i)).filter fun e => ps.getD e.2 0 = j).card = ps.count j := by
  rw [Finset.filter_image, Finset.card_image_of_injective _ (Prod.mk_right_injective i)]
  induction ps with
  | nil => simp
  | cons p ps ih =>
    rw [List.length_cons, Finset.range_add_one', Finset.filter_insert, Finset.filter_map, List.count_cons]
    by_cases hp : p = j
    · subst hp
      simp only [List.getD_cons_zero, if_true, beq_self_eq_true]
      rw [Finset.card_insert_of_notMem (by simp), Finset.card_map]
      exact congrArg (· + 1) ih
    · simp only [List.getD_cons_zero, hp, if_false, beq_iff_eq, Nat.add_zero]
      rw [Finset.card_map]
      exact ih

theorem any_congr {α : Type} (l : List α) (f g : α → Bool) (h : ∀ x ∈ l, f x = g x) : l.any f = l.any g := by
  induction l with
  | nil => rfl
  | cons a l ih =>
    rw [List.any_cons, List.any_cons, h a (by simp), ih fun x hx => h x (by simp [hx])]

/-- The graph with one more tensor `n`, whose operands get one more use each. -/
def Graph.push (G : Graph V) (n : Node V) : Graph V :=
  { G with
    node := fun j => { (Function.update G.node G.size n j) with
      nrOutEdges := (Function.update G.node G.size n j).nrOutEdges + n.parents.count j }
    size := G.size + 1 }

theorem Built.push {G : Graph V} (h : Built G) (n : Node V) (hold : ∀ p ∈ n.parents, p < G.size)
    (hfn : n.parents ≠ [] → ∃ f, n.gradFn = some f)
    (hreq : n.parents ≠ [] → n.requiresGrad = n.parents.any fun p => (G.node p).requiresGrad) (hgrad : n.grad = none)
    (hout : n.nrOutEdges = 0) : Built (G.push n) := by
  have hnew : Function.update G.node G.size n G.size = n := Function.update_self ..
  have hne : ∀ i, i ≠ G.size → Function.update G.node G.size n i = G.node i := fun i hi => Function.update_of_ne hi ..
  have hpar : ∀ i, ((G.push n).node i).parents = (Function.update G.node G.size n i).parents := fun i => rfl
  have hreqs : ∀ i, i < G.size → ((G.push n).node i).requiresGrad = (G.node i).requiresGrad := by
    intro i hi
    change (Function.update G.node G.size n i).requiresGrad = _
    rw [hne i (by omega)]
  have hedges : edges (G.push n) = edges G ∪ (Finset.range n.parents.length).image (Prod.mk G.size) := by
    unfold edges
    have e : (G.push n).size = G.size + 1 := rfl
    rw [e, Finset.range_add_one, Finset.biUnion_insert, Finset.union_comm]
    congr 1
    · refine Finset.biUnion_congr rfl fun i hi => ?_
      rw [hpar, hne i (by rw [Finset.mem_range] at hi; omega)]
    · rw [hpar, hnew]
  have hsrc : ∀ e ∈ edges G, e.1 < G.size := by
    intro e he
    simp only [edges, Finset.mem_biUnion, Finset.mem_range, Finset.mem_image] at he
    obtain ⟨a, ha, b, -, rfl⟩ := he
    exact ha
  have htgt : ∀ e, e.1 < G.size → tgt (G.push n) e = tgt G e := by
    intro e he
    simp only [tgt, hpar, hne e.1 (by omega)]
  constructor
  · intro i p hp
    rw [hpar] at hp
    by_cases hi : i = G.size
    · subst hi
      rw [hnew] at hp
      exact hold p hp
    · rw [hne i hi] at hp
      exact h.older i p hp
  · intro i hi
    change G.size + 1 ≤ i at hi
    rw [hpar, hne i (by omega)]
    exact h.outside i (by omega)
  · intro i hi
    rw [hpar] at hi
    change ∃ f, (Function.update G.node G.size n i).gradFn = some f
    by_cases he : i = G.size
    · subst he
      rw [hnew] at hi ⊢
      exact hfn hi
    · rw [hne i he] at hi ⊢
      exact h.fn i hi
  · intro i hi
    rw [hpar] at hi ⊢
    change (Function.update G.node G.size n i).requiresGrad = _
    by_cases he : i = G.size
    · subst he
      rw [hnew] at hi ⊢
      rw [hreq hi]
      exact any_congr _ _ _ fun p hp => (hreqs p (hold p hp)).symm
    · rw [hne i he] at hi ⊢
      rw [h.req i hi]
      refine any_congr _ _ _ fun p hp => (hreqs p ?_).symm
      have h1 := h.older i p hp
      have h2 : i < G.size := by
        by_contra hc
        exact hi (h.outside i (by omega))
      omega
  · intro i
    change (Function.update G.node G.size n i).grad = none
    by_cases he : i = G.size
    · subst he
      rw [hnew]
      exact hgrad
    · rw [hne i he]
      exact h.grad i
  · intro j
    change (Function.update G.node G.size n j).nrOutEdges + n.parents.count j = _
    rw [hedges, Finset.filter_union, Finset.card_union_of_disjoint]
    · have e1 : ((edges G).filter fun e => tgt (G.push n) e = j) = (edges G).filter fun e => tgt G e = j :=
        Finset.filter_congr fun e he => by rw [htgt e (hsrc e he)]
      have e2 : (((Finset.range n.parents.length).image (Prod.mk G.size)).filter fun e => tgt (G.push n) e = j)
          = ((Finset.range n.parents.length).image (Prod.mk G.size)).filter fun e => n.parents.getD e.2 0 = j := by
        refine Finset.filter_congr fun e he => ?_
        simp only [Finset.mem_image] at he
        obtain ⟨k, -, rfl⟩ := he
        simp only [tgt, hpar, hnew]
      rw [e1, e2, card_operands]
      push_cast
      congr 1
      rw [← h.count j]
      by_cases he : j = G.size
      · subst he
        rw [hnew, hout, h.count]
        symm
        rw [Int.natCast_eq_zero, Finset.card_eq_zero, Finset.filter_eq_empty_iff]
        intro e he hc
        have h1 := tgt_lt h he
        have h2 := hsrc e he
        omega
      · rw [hne j he]
    · rw [Finset.disjoint_left]
      intro e h1 h2
      have h3 := hsrc e (Finset.mem_filter.mp h1).1
      have h4 := (Finset.mem_filter.mp h2).1
      simp only [Finset.mem_image] at h4
      obtain ⟨k, -, rfl⟩ := h4
      simp at h3

theorem built_empty : Built (Graph.empty : Graph V) := by
  refine ⟨fun _ _ h => ?_, fun _ _ => rfl, fun _ h => absurd rfl h, fun _ h => absurd rfl h, fun _ => rfl, fun _ => ?_⟩
  · exact absurd h List.not_mem_nil
  · have : edges (Graph.empty : Graph V) = ∅ := rfl
    rw [this, Finset.filter_empty]
    rfl

theorem push_leaf (G : Graph V) (s : List Nat) (req : Bool) : G.leaf s req = G.push ⟨s, [], req, 0, none, none⟩ := by
  simp [Graph.leaf, Graph.push]

theorem forward_push (G : Graph V) (h : G.active = true) (ps s : List Nat) (fn : V → Py (List V)) :
    (G.forward ps (.ok (s, fn))).2 = G.push ⟨s, ps, ps.any fun p => (G.node p).requiresGrad, 0, none, some fn⟩ := by
  unfold Graph.forward
  rw [if_pos h]
  simp only [incr_all]
  rfl

theorem run_built (cs : List (Cmd V)) (G : Graph V) (h : Built G) (ha : G.active = true) (hcs : WellFormed G.size cs) :
    Built (G.run cs) ∧ (G.run cs).active = true := by
  induction cs generalizing G with
  | nil => exact ⟨h, ha⟩
  | cons c cs ih =>
    cases c with
    | leaf s r =>
      change Built (Graph.run cs (G.leaf s r)) ∧ (Graph.run cs (G.leaf s r)).active = true
      rw [push_leaf]
      exact ih _ (h.push (⟨s, [], r, 0, none, none⟩ : Node V) (by simp) (by simp) (by simp) rfl rfl) ha hcs
    | plain s =>
      change Built (Graph.run cs (G.leaf s false)) ∧ (Graph.run cs (G.leaf s false)).active = true
      rw [push_leaf]
      exact ih _ (h.push (⟨s, [], false, 0, none, none⟩ : Node V) (by simp) (by simp) (by simp) rfl rfl) ha hcs
    | op ps s fn =>
      obtain ⟨h1, h2, h3⟩ := hcs
      change Built (Graph.run cs (G.forward ps (.ok (s, fn))).2) ∧ (Graph.run cs (G.forward ps (.ok (s, fn))).2).active = true
      rw [forward_push G ha]
      exact ih _ (h.push _ h2 (fun _ => ⟨fn, rfl⟩) (fun _ => rfl) rfl rfl) ha h3

/-- C48: recording: after any program, each tensor counts its uses as an operand, operands are older than results, a result
requires a gradient if one of its operands does, and no tensor has a gradient. -/
theorem C48_record (cs : List (Cmd V)) (hcs : WellFormed 0 cs) : Built (Graph.empty.run cs) :=
  (run_built cs _ built_empty rfl hcs).1

/-! ## Backpropagation -/

variable [AddCommMonoid W]

/-- the chain rule has a solution -/
noncomputable def adjoint {G : Graph V} (hG : Built G) (r : Nat) (g : W) (B : Nat → Nat → W → W) (j : Nat) : W :=
  if j = r then g
  else ∑ e : {e // e ∈ (live G r).filter fun e => tgt G e = j}, B e.1.1 e.1.2 (adjoint hG r g B e.1.1)
termination_by r - j
decreasing_by
  have h := Finset.mem_filter.mp e.2
  have h1 := Finset.mem_filter.mp h.1
  have h2 := tgt_lt hG h1.1
  have h3 := h1.2.1.le hG
  omega

theorem adjoint_chain {G : Graph V} (hG : Built G) (r : Nat) (g : W) (B : Nat → Nat → W → W) :
    ChainRule G r g (adjoint hG r g B) B where
  root := by rw [adjoint, if_pos rfl]
  inner := by
    intro j _ _ hj
    rw [adjoint, if_neg hj]
    exact Finset.sum_coe_sort ((live G r).filter fun e => tgt G e = j) fun e => B e.1 e.2 (adjoint hG r g B e.1)

/-- an operand that requires a gradient is used by results that require one -/
theorem live_of_used {G : Graph V} (hG : Built G) {r : Nat} {e : Nat × Nat} (he : e ∈ edges G) (hanc : Anc G r e.1)
    (hreq : (G.node (tgt G e)).requiresGrad = true) : e ∈ live G r := by
  rw [live, Finset.mem_filter]
  refine ⟨he, hanc, ?_⟩
  have hm := tgt_mem hG he
  rw [hG.req _ (List.ne_nil_of_mem hm), List.any_eq_true]
  exact ⟨_, hm, hreq⟩

/-- C48: for any graph made by a program, any root and any gradient functions `B`: every tensor that requires a gradient and was
used for the root ends with the sum over its uses of what they send (the equations `ChainRule`, which have exactly one
solution), all other tensors get none, and recording is switched on again.  Results of operations that were used for the root
must not have other uses (`hused`). -/
theorem C48_traversal {G₀ : Graph V} {r : Nat} {g : W} {A : Nat → W} {B : Nat → Nat → W → W} {typed : Nat → V → Prop}
    {interp : V → W} {add : V → V → V} (hG : Built G₀) (hA : ChainRule G₀ r g A B) (hL : Local G₀ r B typed interp add)
    (hused : ∀ i, ∀ p ∈ (G₀.node i).parents, Anc G₀ r p → (G₀.node p).requiresGrad = true → (G₀.node p).parents ≠ [] → Anc G₀ r i)
    (hr : (G₀.node r).requiresGrad = true) (hop : (G₀.node r).parents ≠ []) (depth : Nat) (hd : r < depth) (v : V) (hv : typed r v)
    (hvg : interp v = g) :
    ∃ G', Graph.backward add depth r v G₀ = (.ok (), G') ∧ G'.active = true ∧
      (∀ j, Anc G₀ r j → (G₀.node j).requiresGrad = true → ∃ v, (G'.node j).grad = some v ∧ typed j v ∧ interp v = A j) ∧
      (∀ j, ¬ (Anc G₀ r j ∧ (G₀.node j).requiresGrad = true) → (G'.node j).grad = none) := by
  obtain ⟨depth, rfl⟩ : ∃ d, depth = d + 1 := ⟨depth - 1, by omega⟩
  have hsrc : ∀ e ∈ live G₀ r, e.1 ≤ r := fun e he => ((mem_live hG r e).mp he).2.1.le hG
  have htl : ∀ e ∈ live G₀ r, tgt G₀ e < e.1 := fun e he => tgt_lt hG (Finset.mem_filter.mp he).1
  have hnotgt : ∀ e ∈ live G₀ r, tgt G₀ e ≠ r := by
    intro e he h
    have h1 := hsrc e he
    have h2 := htl e he
    omega
  -- the root is not used
  have hroot : (G₀.node r).nrOutEdges = 0 := by
    rw [hG.count, Int.natCast_eq_zero, Finset.card_eq_zero, Finset.filter_eq_empty_iff]
    intro e he hc
    have h1 := tgt_mem hG he
    rw [hc] at h1
    have h2 := (hused e.1 r h1 .root hr hop).le hG
    have h3 := hG.older _ _ h1
    omega
  obtain ⟨f, hf⟩ := hG.fn r hop
  obtain ⟨gs, hgs1, hgs2⟩ := hL.fn r f .root hr hop hf v hv
  have hlen : ¬ (G₀.node r).parents.length = 0 := by simpa using hop
  -- the state after the bookkeeping at the root
  have hinv : Inv G₀ r g A B typed interp
      ((({ G₀ with active := false }.modify r fun n => { n with grad := some v }).modify r) fun n =>
        { n with nrOutEdges := n.nrOutEdges - 1 }) ∅
      (∅ ∪ (Finset.Ico 0 (0 + (G₀.node r).parents.length)).image (Prod.mk r)) := by
    constructor
    · intro i; by_cases hi : i = r <;> simp [Graph.modify, Function.update, hi]
    · intro i; by_cases hi : i = r <;> simp [Graph.modify, Function.update, hi]
    · intro i; by_cases hi : i = r <;> simp [Graph.modify, Function.update, hi]
    · intro i; by_cases hi : i = r <;> simp [Graph.modify, Function.update, hi]
    · rfl
    · simp
    · intro x hx
      simp only [Finset.empty_union, Finset.mem_image, Finset.mem_Ico] at hx
      obtain ⟨k, hk, rfl⟩ := hx
      rw [mem_live hG]
      exact ⟨by simpa using hk.2, .root, hr⟩
    · intro j _ _ _ h
      simp at h
    · intro j hj _
      simpa [Graph.modify, Function.update, hj] using hG.grad j
    · exact ⟨v, by simp [Graph.modify], hv, hvg⟩
    · intro j h1 h2 h3 h4
      simp only [Graph.modify, Function.update_of_ne h4, Finset.filter_empty, Finset.card_empty, Nat.cast_zero, sub_zero]
      rw [hG.count j]
      congr 2
      ext e
      simp only [Finset.mem_filter]
      constructor
      · rintro ⟨he, rfl⟩
        exact ⟨live_of_used hG he (hused e.1 _ (tgt_mem hG he) h1 h2 h3) h2, rfl⟩
      · rintro ⟨he, rfl⟩
        exact ⟨(Finset.mem_filter.mp he).1, rfl⟩
    · intro j h1 h2 h3 h4 k hk
      exfalso
      cases h1 with
      | root => exact h3 rfl
      | @step i _ hi hp =>
        obtain ⟨k', hk', rfl⟩ := List.getElem_of_mem hp
        have he : (i, k') ∈ edges G₀ := (mem_edges hG _).mpr hk'
        have ht : tgt G₀ (i, k') = (G₀.node i).parents[k'] := by
          unfold tgt
          exact List.getD_eq_getElem _ _ hk'
        have := h4 (Finset.mem_filter.mpr ⟨live_of_used hG he hi (by rw [ht]; exact h2), ht⟩)
        simp at this
    · intro j h1 h2 h3 _ k
      simp [Ne.symm h3]
    · intro k hk
      simp [hk]
  obtain ⟨G', E', r1, r2⟩ := loop_inv (G₀ := G₀) (r := r) (g := g) (A := A) (B := B) (typed := typed) (interp := interp)
    (Graph.backward add depth) r g (by
      intro k p m' G' E' P' hp hinv' hmem hty
      have htgt : tgt G₀ (r, k) = p := by
        unfold tgt
        simp only
        rw [List.getD_eq_getElem?_getD, hp]
        rfl
      have hpl : p < r := hG.older _ _ (List.mem_of_getElem? hp)
      obtain ⟨G'', E'', q1, q2⟩ := backward_inv hG hA hL depth (r, k) (by rw [htgt]; omega) m' G' E' P' hinv' hmem (by
        rw [htgt, hA.root]
        exact hty)
      rw [htgt] at q1
      exact ⟨G'', E'', q1, q2⟩) gs (by
      intro k p hp
      obtain ⟨m', hm1, hm2⟩ := hgs2 k p hp
      exact ⟨m', hm1, fun h => by rw [← hvg]; exact hm2 h⟩)
    (G₀.node r).parents.length 0 (by omega) _ ∅ ∅ (by simp) hinv
  rw [List.drop_zero, List.drop_zero] at r1
  -- all edges have been followed
  have hall : ∀ n e, r - e.1 < n → e ∈ live G₀ r → e ∈ E' := by
    intro n
    induction n with
    | zero => intro e h; omega
    | succ n ih =>
      intro e hlt he
      obtain ⟨h1, h2, h3⟩ := (mem_live hG r e).mp he
      have : (e.1, e.2) ∈ E' ∪ ∅ := by
        by_cases hr' : e.1 = r
        · rw [hr'] at h1 ⊢
          exact r2.root e.2 h1
        · refine r2.done e.1 h2 h3 hr' ?_ e.2 h1
          intro x hx
          rw [Finset.mem_filter] at hx
          refine ih x ?_ hx.1
          have e1 := hsrc x hx.1
          have e2 := htl x hx.1
          have e3 := hsrc e he
          omega
      simpa using this
  have hE : E' = live G₀ r := by
    refine Finset.Subset.antisymm (fun x hx => r2.sub (Finset.mem_union_left _ hx)) fun x hx => hall _ x (Nat.lt_succ_self _) hx
  refine ⟨{ G' with active := true }, ?_, rfl, ?_, ?_⟩
  · unfold Graph.backward
    simp only [hr, Bool.true_eq_false, if_false, hG.grad r, Graph.accumulate, hlen, hroot, hf, hgs1, r1]
    norm_num
  · intro j h1 h2
    by_cases hj : j = r
    · subst hj
      obtain ⟨w, w1, w2, w3⟩ := r2.gradRoot
      exact ⟨w, w1, w2, by rw [w3, hA.root]⟩
    · have hne : (E'.filter fun e => tgt G₀ e = j).Nonempty := by
        rw [hE]
        cases h1 with
        | root => exact absurd rfl hj
        | @step i _ hi hp =>
          obtain ⟨k', hk', rfl⟩ := List.getElem_of_mem hp
          have he : (i, k') ∈ edges G₀ := (mem_edges hG _).mpr hk'
          have ht : tgt G₀ (i, k') = (G₀.node i).parents[k'] := by
            unfold tgt
            exact List.getD_eq_getElem _ _ hk'
          exact ⟨(i, k'), Finset.mem_filter.mpr ⟨live_of_used hG he hi (by rw [ht]; exact h2), ht⟩⟩
      obtain ⟨w, w1, w2, w3⟩ := r2.grad j h1 h2 hj hne
      refine ⟨w, w1, w2, ?_⟩
      rw [w3, hE, hA.inner j h1 h2 hj]
  · intro j hn
    have hj : j ≠ r := by
      rintro rfl
      exact hn ⟨.root, hr⟩
    refine r2.noGrad j hj ?_
    by_cases h2 : (G₀.node j).requiresGrad = true
    · right
      rw [hE, Finset.filter_eq_empty_iff]
      rintro e he rfl
      obtain ⟨-, h4, -⟩ := (mem_live hG r e).mp he
      exact hn ⟨.step h4 (tgt_mem hG (Finset.mem_filter.mp he).1), h2⟩
    · left
      simpa using h2

/-- the two ways of summing over the edges: by source and by target -/
theorem transposition {G : Graph V} (hG : Built G) (r : Nat) (hop : (G.node r).parents ≠ []) (hr : (G.node r).requiresGrad = true)
    {R : Type} [AddCommGroup R] (P : Nat → R) (c : Nat × Nat → R)
    (h1 : ∀ i, Anc G r i → (G.node i).requiresGrad = true → (G.node i).parents ≠ [] →
      P i = ∑ k ∈ Finset.range (G.node i).parents.length, c (i, k))
    (h2 : ∀ j, Anc G r j → (G.node j).requiresGrad = true → j ≠ r → P j = ∑ e ∈ (live G r).filter (fun e => tgt G e = j), c e)
    (h3 : ∀ e ∈ live G r, (G.node (tgt G e)).requiresGrad = false → c e = 0) :
    P r = ∑ j ∈ (Finset.range G.size).filter (fun j => Anc G r j ∧ (G.node j).requiresGrad = true ∧ (G.node j).parents = []), P j := by
  have hsize : ∀ i, (G.node i).parents ≠ [] → i < G.size := by
    intro i hi
    by_contra hc
    exact hi (hG.outside i (by omega))
  have hlt : ∀ i, Anc G r i → i < G.size := fun i hi => (hi.le hG).trans_lt (hsize r hop)
  let N := (Finset.range G.size).filter fun j => Anc G r j ∧ (G.node j).requiresGrad = true
  have hN : ∀ j, j ∈ N ↔ Anc G r j ∧ (G.node j).requiresGrad = true := by
    intro j
    rw [Finset.mem_filter, Finset.mem_range]
    exact ⟨fun h => h.2, fun h => ⟨hlt j h.1, h⟩⟩
  -- by source
  have e1 : ∑ e ∈ live G r, c e = ∑ i ∈ N.filter (fun i => (G.node i).parents ≠ []), P i := by
    rw [← Finset.sum_fiberwise_of_maps_to (g := Prod.fst) (t := N.filter fun i => (G.node i).parents ≠ [])]
    · refine Finset.sum_congr rfl fun i hi => ?_
      rw [Finset.mem_filter, hN] at hi
      rw [h1 i hi.1.1 hi.1.2 hi.2]
      refine Finset.sum_bij (fun e _ => e.2) ?_ ?_ ?_ ?_
      · rintro ⟨a, b⟩ he
        obtain ⟨he1, rfl⟩ := Finset.mem_filter.mp he
        exact Finset.mem_range.mpr ((mem_live hG r _).mp he1).1
      · rintro ⟨a, b⟩ he ⟨a', b'⟩ he' hb
        obtain ⟨-, rfl⟩ := Finset.mem_filter.mp he
        obtain ⟨-, e⟩ := Finset.mem_filter.mp he'
        simp only at hb e
        rw [hb, e]
      · intro k hk
        exact ⟨(i, k), Finset.mem_filter.mpr ⟨(mem_live hG r _).mpr ⟨Finset.mem_range.mp hk, hi.1.1, hi.1.2⟩, rfl⟩, rfl⟩
      · rintro ⟨a, b⟩ he
        obtain ⟨-, rfl⟩ := Finset.mem_filter.mp he
        rfl
    · intro e he
      obtain ⟨a1, a2, a3⟩ := (mem_live hG r _).mp he
      rw [Finset.mem_filter, hN]
      exact ⟨⟨a2, a3⟩, List.ne_nil_of_length_pos (by omega)⟩
  -- by target
  have e2 : ∑ e ∈ live G r, c e = ∑ j ∈ N.erase r, P j := by
    have hz : ∑ e ∈ live G r, c e = ∑ e ∈ (live G r).filter (fun e => (G.node (tgt G e)).requiresGrad = true), c e := by
      symm
      refine Finset.sum_filter_of_ne fun e he hne => ?_
      by_contra hc
      exact hne (h3 e he (by simpa using hc))
    rw [hz, ← Finset.sum_fiberwise_of_maps_to (g := tgt G) (t := N.erase r)]
    · refine Finset.sum_congr rfl fun j hj => ?_
      rw [Finset.mem_erase, hN] at hj
      rw [h2 j hj.2.1 hj.2.2 hj.1]
      refine Finset.sum_congr ?_ fun _ _ => rfl
      ext e
      simp only [Finset.mem_filter]
      constructor
      · rintro ⟨⟨a, -⟩, b⟩
        exact ⟨a, b⟩
      · rintro ⟨a, rfl⟩
        exact ⟨⟨a, hj.2.2⟩, rfl⟩
    · intro e he
      obtain ⟨he1, he2⟩ := Finset.mem_filter.mp he
      obtain ⟨a1, a2, a3⟩ := (mem_live hG r _).mp he1
      have hE := (Finset.mem_filter.mp he1).1
      have := tgt_lt hG hE
      have := a2.le hG
      rw [Finset.mem_erase, hN]
      exact ⟨by omega, .step a2 (tgt_mem hG hE), he2⟩
  have hrN : r ∈ N := (hN r).mpr ⟨.root, hr⟩
  have e3 := Finset.sum_filter_add_sum_filter_not N (fun i => (G.node i).parents ≠ []) P
  have e4 := Finset.sum_erase_add N P hrN
  have e5 : N.filter (fun i => ¬ (G.node i).parents ≠ [])
      = (Finset.range G.size).filter (fun j => Anc G r j ∧ (G.node j).requiresGrad = true ∧ (G.node j).parents = []) := by
    ext j
    simp only [N, Finset.mem_filter, not_not]
    tauto
  rw [← e5]
  rw [← e1, e2] at e3
  have := e3.trans e4.symm
  exact (add_left_cancel this).symm

end SyMPC.Autograd
