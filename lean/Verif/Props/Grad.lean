import Verif.Lemmas.GradOps
import Verif.Props.Autograd

/-!
# C48: `backward` computes the derivatives of the loss
-/

namespace SyMPC.Grad

open Tensor Autograd Classical

/-! ## Specification -/

/-- The leaf tensors with element `idx` of tensor `j` increased by `t`. -/
noncomputable def nudge (leaves : Nat → Tensor ℝ) (j : Nat) (idx : List Nat) (t : ℝ) : Nat → Tensor ℝ :=
  Function.update leaves j ⟨(leaves j).shape, Function.update (leaves j).at_ idx ((leaves j).at_ idx + t)⟩

/-- The sum of the elements of tensor number `r` after a program (the value itself for a scalar). -/
noncomputable def total (S : Py (State ℝ)) (r : Nat) : ℝ :=
  match S with
  | .ok S => ∑ o ∈ positions (S.val r).shape, (S.val r).at_ o
  | .error _ => 0

/-- The step uses existing tensors at values where it has a derivative; untracked operations are only applied to tensors that
do not require a gradient. -/
def Step.Fine (S : State ℝ) : Step ℝ → Prop
  | .leaf _ => True
  | .op o => (∀ p ∈ o.parents, p < S.graph.size) ∧ o.Regular S.val
  | .untracked o => (∀ p ∈ o.parents, p < S.graph.size ∧ (S.graph.node p).requiresGrad = false) ∧ o.Regular S.val

/-- All steps of a program are fine when they are executed. -/
def Fine (leaves : Nat → Tensor ℝ) : State ℝ → List (Step ℝ) → Prop
  | _, [] => True
  | S, c :: cs => c.Fine S ∧ ∀ S', step Real.sigmoid leaves S c = .ok S' → Fine leaves S' cs

/-! ## A program run along a curve -/

structure Rel (S : ℝ → State ℝ) (D : Nat → List Nat → ℝ) : Prop where
  built : Built (S 0).graph
  active : ∀ t, (S t).graph.active = true
  size : ∀ t, (S t).graph.size = (S 0).graph.size
  shape : ∀ i, i < (S 0).graph.size → ((S 0).graph.node i).shape = ((S 0).val i).shape
  deriv : ∀ i, i < (S 0).graph.size → Deriv (fun t => (S t).val i) (D i)
  back : ∀ i, i < (S 0).graph.size → ((S 0).graph.node i).parents ≠ [] → ∃ J fn, ((S 0).graph.node i).gradFn = some fn ∧
    Back ((S 0).val i).shape fn (((S 0).graph.node i).parents.map fun p => ((S 0).val p).shape) J ∧
    ∀ o, ValidIdx ((S 0).val i).shape o → D i o = tangent (S 0).val ((S 0).graph.node i).parents J D o
  quiet : ∀ i, i < (S 0).graph.size → ((S 0).graph.node i).requiresGrad = false → ∀ o, ValidIdx ((S 0).val i).shape o → D i o = 0

theorem tangent_congr (val val' : Nat → Tensor ℝ) (ps : List Nat) (J : Nat → List Nat → List Nat → ℝ) (D D' : Nat → List Nat → ℝ)
    (h : ∀ p ∈ ps, val p = val' p ∧ D p = D' p) : tangent val ps J D = tangent val' ps J D' := by
  funext o
  unfold tangent
  refine Finset.sum_congr rfl fun k hk => ?_
  have hm : ps.getD k 0 ∈ ps := by
    rw [Finset.mem_range] at hk
    rw [List.getD_eq_getElem _ _ hk]
    exact List.getElem_mem hk
  rw [(h _ hm).1, (h _ hm).2]

theorem push_node (G : Graph (Tensor ℝ)) (n : Node (Tensor ℝ)) (i : Nat) :
    ((G.push n).node i).parents = (Function.update G.node G.size n i).parents ∧
    ((G.push n).node i).requiresGrad = (Function.update G.node G.size n i).requiresGrad ∧
    ((G.push n).node i).gradFn = (Function.update G.node G.size n i).gradFn ∧
    ((G.push n).node i).shape = (Function.update G.node G.size n i).shape := ⟨rfl, rfl, rfl, rfl⟩

theorem Rel.push {S S' : ℝ → State ℝ} {D : Nat → List Nat → ℝ} (h : Rel S D) (R : ℝ → Tensor ℝ) (dr : List Nat → ℝ) (hR : Deriv R dr)
    (n : Node (Tensor ℝ)) (hval : ∀ t, (S' t).val = Function.update (S t).val (S t).graph.size (R t))
    (hact : ∀ t, (S' t).graph.active = true) (hsize : ∀ t, (S' t).graph.size = (S t).graph.size + 1)
    (hG : (S' 0).graph = (S 0).graph.push n) (hns : n.shape = (R 0).shape) (hold : ∀ p ∈ n.parents, p < (S 0).graph.size)
    (hreq : n.parents ≠ [] → n.requiresGrad = n.parents.any fun p => ((S 0).graph.node p).requiresGrad) (hgrad : n.grad = none)
    (hout : n.nrOutEdges = 0)
    (hback : n.parents ≠ [] → ∃ J fn, n.gradFn = some fn ∧ Back (R 0).shape fn (n.parents.map fun p => ((S 0).val p).shape) J ∧
      ∀ o, ValidIdx (R 0).shape o → dr o = tangent (S 0).val n.parents J D o)
    (hquiet : n.requiresGrad = false → ∀ o, ValidIdx (R 0).shape o → dr o = 0) :
    Rel S' (Function.update D (S 0).graph.size dr) := by
  have hs0 := hsize 0
  have vold : ∀ t i, i < (S 0).graph.size → (S' t).val i = (S t).val i := by
    intro t i hi
    rw [hval, h.size t, Function.update_of_ne (by omega)]
  have vnew : ∀ t, (S' t).val (S 0).graph.size = R t := by
    intro t
    rw [hval, h.size t, Function.update_self]
  have dold : ∀ i, i < (S 0).graph.size → Function.update D (S 0).graph.size dr i = D i :=
    fun i hi => Function.update_of_ne (by omega) ..
  have dnew : Function.update D (S 0).graph.size dr (S 0).graph.size = dr := Function.update_self ..
  have nold : ∀ i, i < (S 0).graph.size → Function.update (S 0).graph.node (S 0).graph.size n i = (S 0).graph.node i :=
    fun i hi => Function.update_of_ne (by omega) ..
  have nnew : Function.update (S 0).graph.node (S 0).graph.size n (S 0).graph.size = n := Function.update_self ..
  have split : ∀ i, i < (S' 0).graph.size → i < (S 0).graph.size ∨ i = (S 0).graph.size := by
    intro i hi
    omega
  constructor
  · rw [hG]
    refine h.built.push n hold ?_ hreq hgrad hout
    intro hp
    obtain ⟨J, fn, h1, -⟩ := hback hp
    exact ⟨fn, h1⟩
  · exact hact
  · intro t
    rw [hsize, hsize, h.size]
  · intro i hi
    rw [hG, (push_node _ _ i).2.2.2]
    rcases split i hi with hi | rfl
    · rw [nold i hi, vold 0 i hi, h.shape i hi]
    · rw [nnew, vnew, hns]
  · intro i hi
    rcases split i hi with hi | rfl
    · simp only [vold _ i hi, dold i hi]
      exact h.deriv i hi
    · simp only [vnew, dnew]
      exact hR
  · intro i hi hp
    rw [hG, (push_node _ _ i).1] at hp ⊢
    rw [(push_node _ _ i).2.2.1]
    rcases split i hi with hi | rfl
    · rw [nold i hi] at hp ⊢
      have hpl : ∀ p ∈ ((S 0).graph.node i).parents, p < (S 0).graph.size := fun p hp' => (h.built.older i p hp').trans hi
      obtain ⟨J, fn, h1, h2, h3⟩ := h.back i hi hp
      refine ⟨J, fn, h1, ?_, ?_⟩
      · rw [vold 0 i hi, List.map_congr_left fun p hp' => by rw [vold 0 p (hpl p hp')]]
        exact h2
      · intro o ho
        rw [vold 0 i hi] at ho
        rw [dold i hi, h3 o ho]
        exact congrFun (tangent_congr _ _ _ _ _ _ fun p hp' => ⟨(vold 0 p (hpl p hp')).symm, (dold p (hpl p hp')).symm⟩) o
    · rw [nnew] at hp ⊢
      obtain ⟨J, fn, h1, h2, h3⟩ := hback hp
      refine ⟨J, fn, h1, ?_, ?_⟩
      · rw [vnew, List.map_congr_left fun p hp' => by rw [vold 0 p (hold p hp')]]
        exact h2
      · intro o ho
        rw [vnew] at ho
        rw [dnew, h3 o ho]
        exact congrFun (tangent_congr _ _ _ _ _ _ fun p hp' => ⟨(vold 0 p (hold p hp')).symm, (dold p (hold p hp')).symm⟩) o
  · intro i hi hr o ho
    rw [hG, (push_node _ _ i).2.1] at hr
    rcases split i hi with hi | rfl
    · rw [nold i hi] at hr
      rw [vold 0 i hi] at ho
      rw [dold i hi]
      exact h.quiet i hi hr o ho
    · rw [nnew] at hr
      rw [vnew] at ho
      rw [dnew]
      exact hquiet hr o ho

/-- what later steps do not change -/
def Keeps (S S' : State ℝ) : Prop :=
  S.graph.size ≤ S'.graph.size ∧ ∀ i, i < S.graph.size → (S'.graph.node i).parents = (S.graph.node i).parents ∧
    (S'.graph.node i).requiresGrad = (S.graph.node i).requiresGrad ∧ S'.val i = S.val i

/-- the graph after a step -/
theorem op_graph (G : Graph (Tensor ℝ)) (h : G.active = true) (ps s : List Nat) (fn : Tensor ℝ → Py (List (Tensor ℝ))) :
    (G.forward ps (.ok (s, fn))).2.active = true ∧ (G.forward ps (.ok (s, fn))).2.size = G.size + 1 := by
  rw [forward_push G h]
  exact ⟨h, rfl⟩

theorem step_rel (c : ℝ → Nat → Tensor ℝ) (d : Nat → List Nat → ℝ) (hc : ∀ i, Deriv (fun t => c t i) (d i)) (S : ℝ → State ℝ)
    (D : Nat → List Nat → ℝ) (h : Rel S D) (st : Step ℝ) (hf : st.Fine (S 0))
    (hd : st = .leaf false → ∀ o, ValidIdx (c 0 (S 0).graph.size).shape o → d (S 0).graph.size o = 0)
    (S1 : State ℝ) (h1 : step Real.sigmoid (c 0) (S 0) st = .ok S1) :
    ∃ S' dr, (∀ t, step Real.sigmoid (c t) (S t) st = .ok (S' t)) ∧ S' 0 = S1 ∧ Rel S' (Function.update D (S 0).graph.size dr) ∧
      (S' 0).graph.size = (S 0).graph.size + 1 ∧ Keeps (S 0) (S' 0) ∧
      (∀ req, st = .leaf req → dr = d (S 0).graph.size ∧ ((S' 0).graph.node (S 0).graph.size).parents = [] ∧
        ((S' 0).graph.node (S 0).graph.size).requiresGrad = req ∧ (S' 0).val (S 0).graph.size = c 0 (S 0).graph.size) ∧
      (((S' 0).graph.node (S 0).graph.size).parents = [] → ((S' 0).graph.node (S 0).graph.size).requiresGrad = true →
        st = .leaf true) := by
  have keeps : ∀ (S' : State ℝ) (r : Tensor ℝ) (n : Node (Tensor ℝ)), S'.graph = (S 0).graph.push n →
      S'.val = Function.update (S 0).val (S 0).graph.size r → Keeps (S 0) S' := by
    intro S' r n e1 e2
    refine ⟨by rw [e1]; exact Nat.le_succ _, fun i hi => ?_⟩
    have hne : i ≠ (S 0).graph.size := by omega
    rw [e1, e2, (push_node _ _ i).1, (push_node _ _ i).2.1, Function.update_of_ne hne, Function.update_of_ne hne]
    exact ⟨rfl, rfl, rfl⟩
  have new : ∀ n : Node (Tensor ℝ), (((S 0).graph.push n).node (S 0).graph.size).parents = n.parents ∧
      (((S 0).graph.push n).node (S 0).graph.size).requiresGrad = n.requiresGrad := by
    intro n
    rw [(push_node _ _ _).1, (push_node _ _ _).2.1, Function.update_self]
    exact ⟨rfl, rfl⟩
  cases st with
  | leaf req =>
    have hst : ∀ t, step Real.sigmoid (c t) (S t) (.leaf req) = .ok ⟨Function.update (S t).val (S t).graph.size (c t (S t).graph.size),
        (S t).graph.leaf (c t (S t).graph.size).shape req⟩ := fun t => rfl
    refine ⟨_, d (S 0).graph.size, hst, ?_, ?_, ?_⟩
    · rw [hst] at h1
      exact Except.ok.inj h1
    · refine h.push (fun t => c t (S 0).graph.size) _ (hc _) ⟨(c 0 (S 0).graph.size).shape, [], req, 0, none, none⟩ ?_ ?_ ?_ ?_ rfl
        (by simp) (by simp) rfl rfl (by simp) ?_
      · intro t
        simp only [h.size t]
      · exact fun t => h.active t
      · exact fun t => rfl
      · exact push_leaf ..
      · intro hr
        change req = false at hr
        subst hr
        exact hd rfl
    · refine ⟨rfl, keeps _ _ ⟨(c 0 (S 0).graph.size).shape, [], req, 0, none, none⟩ (push_leaf ..) rfl, ?_, ?_⟩
      · intro req' hr
        obtain rfl : req = req' := by injection hr
        refine ⟨rfl, ?_⟩
        simp only [push_leaf]
        exact ⟨(new _).1, (new _).2, Function.update_self ..⟩
      · intro _ hr
        simp only [push_leaf, (new _).2] at hr
        rw [hr]
  | op o =>
    obtain ⟨hp, hreg⟩ := hf
    cases hfw : o.forward Real.sigmoid (S 0).val with
    | error e => simp [step, hfw, bind, Except.bind] at h1
    | ok rf =>
      obtain ⟨r, fn⟩ := rf
      obtain ⟨J, hb, hV⟩ := o.sound _ hreg r fn hfw
      obtain ⟨out, o1, o2, o3⟩ := hV (fun t => (S t).val) D rfl fun p hp' => h.deriv p (hp p hp')
      choose fns hfns using o1
      have hst : ∀ t, step Real.sigmoid (c t) (S t) (.op o) = .ok ⟨Function.update (S t).val (S t).graph.size (out t),
          ((S t).graph.forward o.parents (.ok ((out t).shape, fns t))).2⟩ := by
        intro t
        simp only [step, hfns t, bind, Except.bind]
        rfl
      have hfn0 : fns 0 = fn := by
        have := hfns 0
        beta_reduce at this
        rw [hfw] at this
        exact (Prod.mk.inj (Except.ok.inj this)).2.symm
      have hpar : o.parents ≠ [] := by cases o <;> simp [Op.parents]
      have hpush := forward_push (S 0).graph (h.active 0) o.parents (out 0).shape (fns 0)
      refine ⟨_, _, hst, ?_, h.push out _ o3 _ (fun t => rfl) ?_ ?_ hpush rfl hp (fun _ => rfl) rfl rfl ?_ ?_, ?_, ?_, ?_, ?_⟩
      · rw [hst] at h1
        exact Except.ok.inj h1
      · exact fun t => (op_graph _ (h.active t) _ _ _).1
      · exact fun t => (op_graph _ (h.active t) _ _ _).2
      · intro _
        refine ⟨J, fn, by rw [hfn0], ?_, fun o _ => rfl⟩
        rw [o2]
        exact hb
      · intro hr o' ho'
        refine Finset.sum_eq_zero fun k hk => Finset.sum_eq_zero fun i hi => ?_
        rw [Finset.mem_range] at hk
        rw [List.getD_eq_getElem _ _ hk] at hi ⊢
        have hm := List.getElem_mem hk
        have hrp : ((S 0).graph.node o.parents[k]).requiresGrad = false := by
          have := List.any_eq_false.mp hr _ hm
          simpa using this
        rw [h.quiet _ (hp _ hm) hrp i ((mem_positions _ _).mp hi), mul_zero]
      · exact (op_graph _ (h.active 0) _ _ _).2
      · exact keeps _ _ _ hpush rfl
      · intro req hreq
        cases hreq
      · intro hnil
        simp only [hpush, (new _).1] at hnil
        exact absurd hnil hpar
  | untracked o =>
    obtain ⟨hp, hreg⟩ := hf
    cases hfw : o.forward Real.sigmoid (S 0).val with
    | error e => simp [step, hfw, bind, Except.bind] at h1
    | ok rf =>
      obtain ⟨r, fn⟩ := rf
      obtain ⟨J, hb, hV⟩ := o.sound _ hreg r fn hfw
      obtain ⟨out, o1, o2, o3⟩ := hV (fun t => (S t).val) D rfl fun p hp' => h.deriv p (hp p hp').1
      choose fns hfns using o1
      have hst : ∀ t, step Real.sigmoid (c t) (S t) (.untracked o) = .ok ⟨Function.update (S t).val (S t).graph.size (out t),
          (S t).graph.leaf (out t).shape false⟩ := by
        intro t
        simp only [step, hfns t, bind, Except.bind]
        rfl
      refine ⟨_, _, hst, ?_, h.push out _ o3 ⟨(out 0).shape, [], false, 0, none, none⟩ (fun t => rfl) (fun t => h.active t) (fun t => rfl)
        (push_leaf ..) rfl (by simp) (by simp) rfl rfl (by simp) ?_, rfl, ?_, ?_, ?_⟩
      · rw [hst] at h1
        exact Except.ok.inj h1
      · intro _ o' ho'
        refine Finset.sum_eq_zero fun k hk => Finset.sum_eq_zero fun i hi => ?_
        rw [Finset.mem_range] at hk
        rw [List.getD_eq_getElem _ _ hk] at hi ⊢
        have hm := hp _ (List.getElem_mem hk)
        rw [h.quiet _ hm.1 hm.2 i ((mem_positions _ _).mp hi), mul_zero]
      · exact keeps _ _ ⟨(out 0).shape, [], false, 0, none, none⟩ (push_leaf ..) rfl
      · intro req hreq
        cases hreq
      · intro _ hr
        simp only [push_leaf, (new _).2] at hr
        exact absurd hr (by simp)

theorem Keeps.refl (S : State ℝ) : Keeps S S := ⟨le_rfl, fun _ _ => ⟨rfl, rfl, rfl⟩⟩

theorem Keeps.trans {S S' S'' : State ℝ} (h : Keeps S S') (h' : Keeps S' S'') : Keeps S S'' := by
  refine ⟨h.1.trans h'.1, fun i hi => ?_⟩
  obtain ⟨a1, a2, a3⟩ := h.2 i hi
  obtain ⟨b1, b2, b3⟩ := h'.2 i (hi.trans_le h.1)
  exact ⟨b1.trans a1, b2.trans a2, b3.trans a3⟩

theorem run_rel (c : ℝ → Nat → Tensor ℝ) (d : Nat → List Nat → ℝ) (hc : ∀ i, Deriv (fun t => c t i) (d i)) (cs : List (Step ℝ))
    (S : ℝ → State ℝ) (D : Nat → List Nat → ℝ) (h : Rel S D) (hf : Fine (c 0) (S 0) cs)
    (hd : ∀ k, cs[k]? = some (.leaf false) → ∀ o, ValidIdx (c 0 ((S 0).graph.size + k)).shape o → d ((S 0).graph.size + k) o = 0)
    (S1 : State ℝ) (h1 : cs.foldlM (step Real.sigmoid (c 0)) (S 0) = .ok S1) :
    ∃ S' D', (∀ t, cs.foldlM (step Real.sigmoid (c t)) (S t) = .ok (S' t)) ∧ S' 0 = S1 ∧ Rel S' D' ∧
      S1.graph.size = (S 0).graph.size + cs.length ∧ Keeps (S 0) S1 ∧ (∀ i, i < (S 0).graph.size → D' i = D i) ∧
      (∀ k req, cs[k]? = some (.leaf req) → D' ((S 0).graph.size + k) = d ((S 0).graph.size + k) ∧
        (S1.graph.node ((S 0).graph.size + k)).parents = [] ∧ (S1.graph.node ((S 0).graph.size + k)).requiresGrad = req ∧
        S1.val ((S 0).graph.size + k) = c 0 ((S 0).graph.size + k)) ∧
      (∀ k, k < cs.length → (S1.graph.node ((S 0).graph.size + k)).parents = [] →
        (S1.graph.node ((S 0).graph.size + k)).requiresGrad = true → cs[k]? = some (.leaf true)) := by
  induction cs generalizing S D with
  | nil =>
    obtain rfl : S 0 = S1 := Except.ok.inj h1
    exact ⟨S, D, fun t => rfl, rfl, h, rfl, Keeps.refl _, fun _ _ => rfl, by simp, by simp⟩
  | cons st cs ih =>
    obtain ⟨hf1, hf2⟩ := hf
    rw [List.foldlM_cons] at h1
    cases hs : step Real.sigmoid (c 0) (S 0) st with
    | error e => simp [hs, bind, Except.bind] at h1
    | ok Sm =>
      rw [hs] at h1
      change cs.foldlM (step Real.sigmoid (c 0)) Sm = .ok S1 at h1
      obtain ⟨T, dr, t1, t2, t3, t4, t5, t6, t7⟩ := step_rel c d hc S D h st hf1 (fun e => by
        have := hd 0 (by rw [e]; rfl)
        simpa using this) Sm hs
      subst t2
      obtain ⟨S', D', a1, a2, a3, a4, a5, a6, a7, a8⟩ := ih T _ t3 (hf2 _ hs) (by
        intro k hk
        have := hd (k + 1) (by simpa using hk)
        rw [t4, Nat.add_assoc, Nat.add_comm 1 k]
        exact this) h1
      subst a2
      refine ⟨S', D', ?_, rfl, a3, ?_, t5.trans a5, ?_, ?_, ?_⟩
      · intro t
        rw [List.foldlM_cons, t1 t]
        exact a1 t
      · rw [a4, t4, List.length_cons]
        omega
      · intro i hi
        rw [a6 i (by omega), Function.update_of_ne (by omega)]
      · rintro (_ | k) req hk
        · have e : st = .leaf req := by simpa using hk
          obtain ⟨e1, e2, e3, e4⟩ := t6 req e
          have hk := a5.2 (S 0).graph.size (by omega)
          rw [Nat.add_zero, a6 _ (by omega), Function.update_self, hk.1, hk.2.1, hk.2.2]
          exact ⟨e1, e2, e3, e4⟩
        · have := a7 k req (by simpa using hk)
          rw [t4, Nat.add_assoc, Nat.add_comm 1 k] at this
          exact this
      · rintro (_ | k) hk h1 h2
        · have hk := a5.2 (S 0).graph.size (by omega)
          rw [Nat.add_zero, hk.1] at h1
          rw [Nat.add_zero, hk.2.1] at h2
          rw [t7 h1 h2]
          rfl
        · have := a8 k (by simpa using hk)
          rw [t4, Nat.add_assoc, Nat.add_comm 1 k] at this
          simpa using this h1 h2

/-! ## The gradients -/

/-- an element of the gradient of tensor `j` -/
def gradAt (G : Graph (Tensor ℝ)) (j : Nat) (o : List Nat) : ℝ := ((G.node j).grad.map fun v => v.at_ o).getD 0

/-- every use of an intermediate result leads to the loss -/
def UsedFor (G : Graph (Tensor ℝ)) (r : Nat) : Prop :=
  ∀ i, ∀ p ∈ (G.node i).parents, Anc G r p → (G.node p).requiresGrad = true → (G.node p).parents ≠ [] → Anc G r i

theorem along (S : ℝ → State ℝ) (D : Nat → List Nat → ℝ) (h : Rel S D) (r depth : Nat)
    (hop : ((S 0).graph.node r).parents ≠ []) (hreq : ((S 0).graph.node r).requiresGrad = true)
    (hscalar : ((S 0).val r).shape.length ≤ 1) (hused : UsedFor (S 0).graph r) (hd : r < depth) :
    ∃ G', backward depth r (S 0) = (.ok (), G') ∧ G'.active = true ∧
      (∀ j, Anc (S 0).graph r j → ((S 0).graph.node j).requiresGrad = true →
        ∃ v, (G'.node j).grad = some v ∧ v.shape = ((S 0).val j).shape) ∧
      (∀ j, ¬ (Anc (S 0).graph r j ∧ ((S 0).graph.node j).requiresGrad = true) → (G'.node j).grad = none) ∧
      HasDerivAt (fun t => ∑ o ∈ positions ((S 0).val r).shape, ((S t).val r).at_ o)
        (∑ j ∈ (Finset.range (S 0).graph.size).filter (fun j => Anc (S 0).graph r j ∧ ((S 0).graph.node j).requiresGrad = true ∧
          ((S 0).graph.node j).parents = []), ∑ o ∈ positions ((S 0).val j).shape, gradAt G' j o * D j o) 0 := by
  have hG := h.built
  have hin : ∀ i, ((S 0).graph.node i).parents ≠ [] → i < (S 0).graph.size := by
    intro i hi
    by_contra hc
    exact hi (hG.outside i (by omega))
  have hr := hin r hop
  have hlt : ∀ i, Anc (S 0).graph r i → i < (S 0).graph.size := fun i hi => (hi.le hG).trans_lt hr
  -- the local derivatives
  have hJ : ∀ i, ∃ J, ((S 0).graph.node i).parents ≠ [] → ∃ fn, ((S 0).graph.node i).gradFn = some fn ∧
      Back ((S 0).val i).shape fn (((S 0).graph.node i).parents.map fun p => ((S 0).val p).shape) J ∧
      ∀ o, ValidIdx ((S 0).val i).shape o → D i o = tangent (S 0).val ((S 0).graph.node i).parents J D o := by
    intro i
    by_cases hp : ((S 0).graph.node i).parents = []
    · exact ⟨fun _ _ _ => 0, fun hc => absurd hp hc⟩
    · obtain ⟨J, fn, h1⟩ := h.back i (hin i hp) hp
      exact ⟨J, fun _ => ⟨fn, h1⟩⟩
  choose J hJ using hJ
  let sh : Nat → List Nat := fun i => ((S 0).val i).shape
  let interp : Tensor ℝ → List Nat → ℝ := fun v o => if ValidIdx v.shape o then v.at_ o else 0
  let typed : Nat → Tensor ℝ → Prop := fun i v => v.shape = sh i
  let B : Nat → Nat → (List Nat → ℝ) → List Nat → ℝ := fun i k w q =>
    if ValidIdx (sh (tgt (S 0).graph (i, k))) q then ∑ o ∈ positions (sh i), w o * J i k o q else 0
  let g : List Nat → ℝ := fun o => if ValidIdx (sh r) o then 1 else 0
  let A := adjoint hG r g B
  have hA : ChainRule (S 0).graph r g A B := adjoint_chain hG r g B
  have hL : Local (S 0).graph r B typed interp addT := by
    constructor
    · intro j a b ha hb
      refine ⟨ha, ?_⟩
      funext o
      change (if ValidIdx a.shape o then a.at_ o + b.at_ o else 0) = (if ValidIdx a.shape o then a.at_ o else 0)
        + (if ValidIdx b.shape o then b.at_ o else 0)
      rw [show a.shape = b.shape from ha.trans hb.symm]
      split <;> simp
    · intro i f hi _ hp hf v hv
      obtain ⟨fn, f1, f2, f3⟩ := hJ i hp
      obtain rfl : fn = f := by
        rw [hf] at f1
        exact (Option.some.inj f1).symm
      obtain ⟨gs, g1, g2⟩ := f2 v hv
      refine ⟨gs, g1, fun k p hk => ?_⟩
      obtain ⟨m, m1, m2, m3⟩ := g2 k (sh p) (by rw [List.getElem?_map, hk]; rfl)
      refine ⟨m, m1, fun _ => ⟨m2, ?_⟩⟩
      have ht : tgt (S 0).graph (i, k) = p := by
        unfold tgt
        simp only
        rw [List.getD_eq_getElem?_getD, hk]
        rfl
      funext q
      simp only [interp, B, ht, m2]
      by_cases hq : ValidIdx (sh p) q
      · rw [if_pos hq, if_pos hq, m3 q hq]
        refine Finset.sum_congr rfl fun o ho => ?_
        rw [if_pos (by rw [hv]; exact (mem_positions _ _).mp ho)]
      · rw [if_neg hq, if_neg hq]
  obtain ⟨G', b1, b2, b3, b4⟩ := C48_traversal hG hA hL hused hreq hop depth hd (ones (sh r)) rfl (by
    funext o
    rfl)
  have hback : backward depth r (S 0) = (.ok (), G') := by
    unfold backward Graph.backwardLoss
    rw [if_neg (by rw [hreq]; simp), h.shape r hr, if_neg (by omega)]
    exact b1
  have hgrad : ∀ j, Anc (S 0).graph r j → ((S 0).graph.node j).requiresGrad = true → ∀ o, ValidIdx (sh j) o → gradAt G' j o = A j o := by
    intro j h1 h2 o ho
    obtain ⟨v, v1, v2, v3⟩ := b3 j h1 h2
    have := congrFun v3 o
    simp only [interp] at this
    rw [if_pos (by rw [v2]; exact ho)] at this
    rw [← this, gradAt, v1]
    rfl
  refine ⟨G', hback, b2, ?_, b4, ?_⟩
  · intro j h1 h2
    obtain ⟨v, v1, v2, -⟩ := b3 j h1 h2
    exact ⟨v, v1, v2⟩
  -- the transposition
  have key := transposition hG r hop hreq (fun i => ∑ o ∈ positions (sh i), A i o * D i o)
    (fun e => ∑ q ∈ positions (sh (tgt (S 0).graph e)), B e.1 e.2 (A e.1) q * D (tgt (S 0).graph e) q) (by
      intro i _ _ hp
      obtain ⟨fn, f1, f2, f3⟩ := hJ i hp
      have e1 : ∀ o ∈ positions (sh i), A i o * D i o = ∑ k ∈ Finset.range ((S 0).graph.node i).parents.length,
          ∑ q ∈ positions (sh (tgt (S 0).graph (i, k))), A i o * J i k o q * D (tgt (S 0).graph (i, k)) q := by
        intro o ho
        rw [f3 o ((mem_positions _ _).mp ho), tangent, Finset.mul_sum]
        refine Finset.sum_congr rfl fun k _ => ?_
        rw [Finset.mul_sum]
        refine Finset.sum_congr rfl fun q _ => ?_
        rw [mul_assoc]
        rfl
      rw [Finset.sum_congr rfl e1, Finset.sum_comm]
      refine Finset.sum_congr rfl fun k _ => ?_
      rw [Finset.sum_comm]
      refine Finset.sum_congr rfl fun q hq => ?_
      simp only [B]
      rw [if_pos ((mem_positions _ _).mp hq), Finset.sum_mul]) (by
      intro j h1 h2 h3
      have e1 : ∀ o ∈ positions (sh j), A j o * D j o
          = ∑ e ∈ (live (S 0).graph r).filter (fun e => tgt (S 0).graph e = j), B e.1 e.2 (A e.1) o * D j o := by
        intro o _
        rw [hA.inner j h1 h2 h3, Finset.sum_apply, Finset.sum_mul]
      rw [Finset.sum_congr rfl e1, Finset.sum_comm]
      refine Finset.sum_congr rfl fun e he => ?_
      rw [(Finset.mem_filter.mp he).2]) (by
      intro e he h1
      obtain ⟨a1, a2, a3⟩ := (mem_live hG r e).mp he
      have hm := tgt_mem hG (Finset.mem_filter.mp he).1
      refine Finset.sum_eq_zero fun q hq => ?_
      rw [h.quiet _ (hlt _ (.step a2 hm)) h1 q ((mem_positions _ _).mp hq), mul_zero])
  have hroot : ∑ o ∈ positions (sh r), A r o * D r o = ∑ o ∈ positions (sh r), D r o := by
    refine Finset.sum_congr rfl fun o ho => ?_
    rw [hA.root]
    simp only [g]
    rw [if_pos ((mem_positions _ _).mp ho), one_mul]
  have hsum : ∑ j ∈ (Finset.range (S 0).graph.size).filter (fun j => Anc (S 0).graph r j ∧ ((S 0).graph.node j).requiresGrad = true ∧
      ((S 0).graph.node j).parents = []), ∑ o ∈ positions ((S 0).val j).shape, gradAt G' j o * D j o = ∑ o ∈ positions (sh r), D r o := by
    rw [← hroot, key]
    refine Finset.sum_congr rfl fun j hj => Finset.sum_congr rfl fun o ho => ?_
    obtain ⟨-, h1, h2, -⟩ := Finset.mem_filter.mp hj
    rw [hgrad j h1 h2 o ((mem_positions _ _).mp ho)]
  rw [hsum]
  exact HasDerivAt.fun_sum fun o ho => (h.deriv r hr).2 o ((mem_positions _ _).mp ho)

theorem rel_empty : Rel (fun _ => State.empty) fun _ _ => 0 := by
  refine ⟨built_empty, fun _ => rfl, fun _ => rfl, ?_, ?_, ?_, ?_⟩ <;>
  · intro i hi
    exact absurd hi (Nat.not_lt_zero i)

theorem nudge_zero (leaves : Nat → Tensor ℝ) (j : Nat) (idx : List Nat) : nudge leaves j idx 0 = leaves := by
  unfold nudge
  rw [add_zero, Function.update_eq_self, Function.update_eq_self_iff]

/-- the direction in which `nudge` moves -/
noncomputable def direction (j : Nat) (idx : List Nat) (i : Nat) (o : List Nat) : ℝ := if i = j ∧ o = idx then 1 else 0

theorem nudge_deriv (leaves : Nat → Tensor ℝ) (j : Nat) (idx : List Nat) (i : Nat) :
    Deriv (fun t => nudge leaves j idx t i) (direction j idx i) := by
  by_cases hi : i = j
  · subst hi
    refine ⟨fun t => ?_, fun o _ => ?_⟩
    · simp [nudge]
    · by_cases ho : o = idx
      · subst ho
        simp only [nudge, Function.update_self, direction, and_self, if_true]
        simpa using (hasDerivAt_id (0 : ℝ)).const_add ((leaves i).at_ o)
      · simp only [nudge, Function.update_self, direction, ho, and_false, if_false, Function.update_of_ne ho]
        exact hasDerivAt_const _ _
  · have e : ∀ t, nudge leaves j idx t i = leaves i := fun t => Function.update_of_ne hi ..
    simp only [e]
    refine ⟨fun _ => rfl, fun o _ => ?_⟩
    simp only [direction, hi, false_and, if_false]
    exact hasDerivAt_const _ _

/-- C48: after `loss.backward()` every leaf tensor that requires a gradient and was used for the loss holds the derivative of
the loss by each of its elements, for every program of the modelled operations, whatever its graph; other tensors hold no
gradient, and for a leaf that was not used the derivative is zero; recording is switched on again.  The loss is a result of an
operation and a scalar or vector (of a vector the sum is differentiated); all steps are at values where they have a derivative
(`Fine`); intermediate results used for the loss have no other uses (`UsedFor`). -/
theorem C48_gradients_partial (leaves : Nat → Tensor ℝ) (prog : List (Step ℝ)) (S : State ℝ) (r depth : Nat)
    (hrun : run Real.sigmoid leaves prog = .ok S) (hfine : Fine leaves State.empty prog) (hop : (S.graph.node r).parents ≠ [])
    (hreq : (S.graph.node r).requiresGrad = true) (hscalar : (S.val r).shape.length ≤ 1) (hused : UsedFor S.graph r)
    (hdepth : r < depth) :
    ∃ G', backward depth r S = (.ok (), G') ∧ G'.active = true ∧
      (∀ j, ¬ (Anc S.graph r j ∧ (S.graph.node j).requiresGrad = true) → (G'.node j).grad = none) ∧
      ∀ j, prog[j]? = some (.leaf true) →
        (Anc S.graph r j → ∃ v, (G'.node j).grad = some v ∧ v.shape = (leaves j).shape ∧
          ∀ idx, ValidIdx (leaves j).shape idx →
            HasDerivAt (fun t => total (run Real.sigmoid (nudge leaves j idx t) prog) r) (v.at_ idx) 0) ∧
        (¬ Anc S.graph r j → ∀ idx, ValidIdx (leaves j).shape idx →
          HasDerivAt (fun t => total (run Real.sigmoid (nudge leaves j idx t) prog) r) 0 0) := by
  have hone : ∀ (c : ℝ → Nat → Tensor ℝ) (d : Nat → List Nat → ℝ), c 0 = leaves → (∀ i, Deriv (fun t => c t i) (d i)) →
      (∀ k, prog[k]? = some (.leaf false) → ∀ o, d k o = 0) →
      ∃ F D, (∀ t, run Real.sigmoid (c t) prog = .ok (F t)) ∧ F 0 = S ∧
      Rel F D ∧ (∀ k req, prog[k]? = some (.leaf req) → D k = d k ∧ (S.graph.node k).parents = [] ∧
        (S.graph.node k).requiresGrad = req ∧ S.val k = leaves k) ∧
      (∀ k, k < S.graph.size → (S.graph.node k).parents = [] → (S.graph.node k).requiresGrad = true → prog[k]? = some (.leaf true)) ∧
      S.graph.size = prog.length := by
    rintro c d rfl hd hd0
    obtain ⟨F, D, f1, f2, f3, f4, -, -, f7, f8⟩ := run_rel c d hd prog
      (fun _ => State.empty) _ rel_empty hfine (by
        intro k hk o _
        simp only [State.empty, Graph.empty, Nat.zero_add]
        exact hd0 k hk o) S hrun
    refine ⟨F, D, f1, f2, f3, ?_, ?_, by simpa [State.empty, Graph.empty] using f4⟩
    · intro k req hk
      have := f7 k req hk
      simpa [State.empty, Graph.empty] using this
    · intro k hk
      have := f8 k (by simpa [f4, State.empty, Graph.empty] using hk)
      simpa [State.empty, Graph.empty] using this
  obtain ⟨F, D, f1, rfl, f3, f4, f5, f6⟩ := hone (fun _ => leaves) (fun _ _ => 0) rfl (fun i => deriv_const _) (fun _ _ _ => rfl)
  obtain ⟨G', g1, g2, g3, g4, -⟩ := along F D f3 r depth hop hreq hscalar hused hdepth
  refine ⟨G', g1, g2, g4, fun j hj => ?_⟩
  obtain ⟨-, hjp, hjr, hjv⟩ := f4 j true hj
  have hjs : j < (F 0).graph.size := by
    rw [f6]
    exact (List.getElem?_eq_some_iff.mp hj).1
  -- the derivative along each direction
  have hdir : ∀ idx, ValidIdx (leaves j).shape idx →
      HasDerivAt (fun t => total (run Real.sigmoid (nudge leaves j idx t) prog) r) (if Anc (F 0).graph r j then gradAt G' j idx else 0) 0 := by
    intro idx hidx
    obtain ⟨E, D', e1, e2, e3, e4, -, -⟩ := hone (nudge leaves j idx) (direction j idx) (nudge_zero leaves j idx) (nudge_deriv leaves j idx) (by
      intro k hk o
      have hne : k ≠ j := by
        rintro rfl
        rw [hj] at hk
        simp at hk
      simp only [direction, hne, false_and, if_false])
    have hal := along E D' e3 r depth (by rw [e2]; exact hop) (by rw [e2]; exact hreq) (by rw [e2]; exact hscalar)
      (by rw [e2]; exact hused) hdepth
    rw [e2] at hal
    obtain ⟨G'', q1, -, -, -, q5⟩ := hal
    obtain rfl : G' = G'' := by
      rw [g1] at q1
      exact (Prod.mk.inj q1).2
    have hshape : ∀ t, ((E t).val r).shape = ((F 0).val r).shape := by
      intro t
      have hr : r < (E 0).graph.size := by
        by_contra hc
        exact hop (by rw [← e2]; exact e3.built.outside r (by omega))
      rw [← e2]
      exact (e3.deriv r hr).1 t
    have hfun : (fun t => total (run Real.sigmoid (nudge leaves j idx t) prog) r)
        = fun t => ∑ o ∈ positions ((F 0).val r).shape, ((E t).val r).at_ o := by
      funext t
      rw [e1 t]
      simp only [total, hshape]
    rw [hfun]
    convert q5 using 1
    have hterm : ∀ k ∈ (Finset.range (F 0).graph.size).filter (fun j => Anc (F 0).graph r j ∧
        ((F 0).graph.node j).requiresGrad = true ∧ ((F 0).graph.node j).parents = []),
        ∑ o ∈ positions ((F 0).val k).shape, gradAt G' k o * D' k o = if k = j then gradAt G' j idx else 0 := by
      intro k hk
      obtain ⟨k1, k2, k3, k4⟩ := Finset.mem_filter.mp hk
      obtain ⟨d1, -, -, d2⟩ := e4 k true (f5 k (Finset.mem_range.mp k1) k4 k3)
      rw [d1, d2]
      by_cases hkj : k = j
      · subst hkj
        rw [if_pos rfl, Finset.sum_eq_single idx]
        · simp [direction]
        · intro o _ ho
          simp [direction, ho]
        · intro hc
          exact absurd ((mem_positions _ _).mpr hidx) hc
      · rw [if_neg hkj]
        refine Finset.sum_eq_zero fun o _ => ?_
        simp [direction, hkj]
    rw [Finset.sum_congr rfl hterm, Finset.sum_ite_eq']
    simp only [Finset.mem_filter, Finset.mem_range, hjs, hjr, hjp, and_self, and_true, true_and]
  constructor
  · intro hanc
    obtain ⟨v, v1, v2⟩ := g3 j hanc hjr
    refine ⟨v, v1, by rw [v2, hjv], fun idx hidx => ?_⟩
    have := hdir idx hidx
    rw [if_pos hanc, gradAt, v1] at this
    exact this
  · intro hanc idx hidx
    have := hdir idx hidx
    rwa [if_neg hanc] at this

/-- a program that meets the hypotheses: `loss = (x * w + x).sum()` for vectors `x` and `w` of length 2 -/
example (x w : List Nat → ℝ) : ∃ S, run Real.sigmoid (fun i => if i = 0 then ⟨[2], x⟩ else ⟨[2], w⟩)
      [.leaf true, .leaf true, .op (.mul 0 1), .op (.add 2 0), .op (.sum 3)] = .ok S ∧
    Fine (fun i => if i = 0 then ⟨[2], x⟩ else ⟨[2], w⟩) State.empty
      [.leaf true, .leaf true, .op (.mul 0 1), .op (.add 2 0), .op (.sum 3)] ∧
    (S.graph.node 4).parents ≠ [] ∧ (S.graph.node 4).requiresGrad = true ∧ (S.val 4).shape.length ≤ 1 ∧ UsedFor S.graph 4 ∧
    Anc S.graph 4 0 := by
  have hcall : ∀ d ∈ [2], d ≠ 0 := by simp
  refine ⟨_, rfl, ?_, (by simp : ([3] : List Nat) ≠ []), ?_, ?_, ?_, ?_⟩
  · refine ⟨trivial, fun S h => ?_⟩
    obtain rfl := Except.ok.inj h
    refine ⟨trivial, fun S h => ?_⟩
    obtain rfl := Except.ok.inj h
    refine ⟨⟨(by simp : ∀ p ∈ [0, 1], p < 2), ?_⟩, fun S h => ?_⟩
    · intro s h
      obtain rfl := Except.ok.inj h
      exact hcall
    obtain rfl := Except.ok.inj h
    refine ⟨⟨(by simp : ∀ p ∈ [2, 0], p < 3), ?_⟩, fun S h => ?_⟩
    · intro s h
      obtain rfl := Except.ok.inj h
      exact hcall
    obtain rfl := Except.ok.inj h
    exact ⟨⟨(by simp : ∀ p ∈ [3], p < 4), trivial⟩, fun _ _ => trivial⟩
  · rfl
  · exact Nat.zero_le _
  · intro i p hp _ _ _
    match i, hp with
    | 0, hp => exact absurd (show p ∈ [] from hp) (by simp)
    | 1, hp => exact absurd (show p ∈ [] from hp) (by simp)
    | 2, _ => exact .step (.step .root (List.mem_singleton.mpr rfl)) List.mem_cons_self
    | 3, _ => exact .step .root (List.mem_singleton.mpr rfl)
    | 4, _ => exact .root
    | i + 5, hp => exact absurd (show p ∈ [] from hp) (by simp)
  · exact .step (.step .root (List.mem_singleton.mpr rfl)) (List.mem_cons_of_mem _ (List.mem_singleton.mpr rfl))

/-- a convolution that meets the hypotheses: a 4×4 image, two 2×2 kernels, `stride=2` -/
example (x w : List Nat → ℝ) : (Op.conv2d 0 1 ⟨.one 2, .one 0, .one 1, 1⟩ : Op ℝ).Regular
      (fun i => if i = 0 then ⟨[1, 1, 4, 4], x⟩ else ⟨[2, 1, 2, 2], w⟩) ∧
    ∃ r, (Op.conv2d 0 1 ⟨.one 2, .one 0, .one 1, 1⟩ : Op ℝ).forward Real.sigmoid
      (fun i => if i = 0 then ⟨[1, 1, 4, 4], x⟩ else ⟨[2, 1, 2, 2], w⟩) = .ok r := by
  refine ⟨⟨4, 4, 2, 2, 2, 1, rfl, rfl, rfl, ?_, ?_⟩, _, rfl⟩ <;> decide

end SyMPC.Grad
