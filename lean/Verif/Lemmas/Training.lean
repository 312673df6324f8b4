import Verif.Model.Training
import Verif.Props.Grad

/-!
# A round of a training loop and the same round in a session of its own
-/

namespace SyMPC.Grad

open Tensor Autograd

/-- two tensors that differ only in the numbers of their operands, and in what is not used of tensors without operands -/
structure SameNode (φ : Nat → Nat) (a b : Node (Tensor ℝ)) : Prop where
  shape : b.shape = a.shape
  parents : b.parents = a.parents.map φ
  req : b.requiresGrad = a.requiresGrad
  grad : b.grad = a.grad
  fn : a.parents ≠ [] → b.gradFn = a.gradFn
  edges : a.parents ≠ [] → b.nrOutEdges = a.nrOutEdges

/-- the first `n` tensors of `G` are in `H` at the places `φ` -/
structure GSim (φ : Nat → Nat) (n : Nat) (G H : Graph (Tensor ℝ)) : Prop where
  node : ∀ i, i < n → SameNode φ (G.node i) (H.node (φ i))
  older : ∀ i, i < n → ∀ q ∈ (G.node i).parents, q < n
  active : H.active = G.active

theorem GSim.modify {φ : Nat → Nat} {n : Nat} {G H : Graph (Tensor ℝ)} (h : GSim φ n G H) (hφ : Function.Injective φ) (i : Nat)
    (f : Node (Tensor ℝ) → Node (Tensor ℝ)) (hf : ∀ a b, SameNode φ a b → SameNode φ (f a) (f b)) (hp : ∀ a, (f a).parents = a.parents) :
    GSim φ n (G.modify i f) (H.modify (φ i) f) := by
  refine ⟨fun j hj => ?_, fun j hj q hq => ?_, h.active⟩
  · by_cases hij : j = i
    · subst hij
      simp only [Graph.modify, Function.update_self]
      exact hf _ _ (h.node j hj)
    · simp only [Graph.modify, Function.update_of_ne hij, Function.update_of_ne (hφ.ne hij)]
      exact h.node j hj
  · by_cases hij : j = i
    · subst hij
      simp only [Graph.modify, Function.update_self, hp] at hq
      exact h.older j hj q hq
    · simp only [Graph.modify, Function.update_of_ne hij] at hq
      exact h.older j hj q hq

theorem GSim.flag {φ : Nat → Nat} {n : Nat} {G H : Graph (Tensor ℝ)} (h : GSim φ n G H) (b : Bool) :
    GSim φ n { G with active := b } { H with active := b } := ⟨h.node, h.older, rfl⟩

/-- the counters of the operands -/
theorem GSim.count {φ : Nat → Nat} {n : Nat} (hφ : Function.Injective φ) (ps : List Nat) (G H : Graph (Tensor ℝ)) (h : GSim φ n G H) :
    GSim φ n (ps.foldl (fun G p => G.modify p fun n => { n with nrOutEdges := n.nrOutEdges + 1 }) G)
      ((ps.map φ).foldl (fun G p => G.modify p fun n => { n with nrOutEdges := n.nrOutEdges + 1 }) H) := by
  induction ps generalizing G H with
  | nil => exact h
  | cons p ps ih =>
    rw [List.map_cons, List.foldl_cons, List.foldl_cons]
    refine ih _ _ (h.modify hφ p _ ?_ fun _ => rfl)
    intro a b hab
    exact ⟨hab.shape, hab.parents, hab.req, hab.grad, hab.fn, fun hne => by rw [show b.nrOutEdges = a.nrOutEdges from hab.edges hne]⟩

theorem count_size (ps : List Nat) (G : Graph (Tensor ℝ)) :
    (ps.foldl (fun G p => G.modify p fun n => { n with nrOutEdges := n.nrOutEdges + 1 }) G).size = G.size ∧
    (ps.foldl (fun G p => G.modify p fun n => { n with nrOutEdges := n.nrOutEdges + 1 }) G).active = G.active := by
  induction ps generalizing G with
  | nil => exact ⟨rfl, rfl⟩
  | cons p ps ih => exact ih _

/-! ## Backpropagation -/

theorem backwardAll_sim {φ : Nat → Nat} {n : Nat} (back : Nat → Tensor ℝ → Graph (Tensor ℝ) → Py Unit × Graph (Tensor ℝ))
    (hb : ∀ i g G H, i < n → GSim φ n G H → (back (φ i) g H).1 = (back i g G).1 ∧ GSim φ n (back i g G).2 (back (φ i) g H).2)
    (ps : List Nat) (gs : List (Tensor ℝ)) (G H : Graph (Tensor ℝ)) (hps : ∀ p ∈ ps, p < n) (h : GSim φ n G H) :
    (Graph.backwardAll back (ps.map φ) gs H).1 = (Graph.backwardAll back ps gs G).1 ∧
      GSim φ n (Graph.backwardAll back ps gs G).2 (Graph.backwardAll back (ps.map φ) gs H).2 := by
  induction ps generalizing gs G H with
  | nil => exact ⟨rfl, h⟩
  | cons p ps ih =>
    cases gs with
    | nil => exact ⟨rfl, h⟩
    | cons g gs =>
      obtain ⟨h1, h2⟩ := hb p g G H (hps p List.mem_cons_self) h
      rw [List.map_cons, Graph.backwardAll, Graph.backwardAll]
      revert h1 h2
      rcases back p g G with ⟨r, G'⟩
      rcases back (φ p) g H with ⟨r', H'⟩
      rintro h1 h2
      dsimp only at h1 h2
      subst h1
      cases r' with
      | error e => exact ⟨rfl, h2⟩
      | ok u => exact ih gs G' H' (fun q hq => hps q (List.mem_cons_of_mem _ hq)) h2

theorem backward_sim {φ : Nat → Nat} (hφ : Function.Injective φ) {n : Nat} (depth : Nat) : ∀ i g G H, i < n → GSim φ n G H →
    (Graph.backward addT depth (φ i) g H).1 = (Graph.backward addT depth i g G).1 ∧
      GSim φ n (Graph.backward addT depth i g G).2 (Graph.backward addT depth (φ i) g H).2 := by
  induction depth with
  | zero => exact fun i g G H _ h => ⟨rfl, h⟩
  | succ depth ih =>
    intro i g G H hi h
    have hn := h.node i hi
    unfold Graph.backward
    dsimp only
    rw [hn.req, hn.grad, hn.parents, List.length_map]
    by_cases hreq : (G.node i).requiresGrad = false
    · rw [if_pos hreq, if_pos hreq]
      exact ⟨rfl, h⟩
    rw [if_neg hreq, if_neg hreq]
    have h1 := (h.flag false).modify hφ i
      (fun n => { n with grad := some (Graph.accumulate addT (G.node i).grad g) })
      (fun a b hab => ⟨hab.shape, hab.parents, hab.req, rfl, hab.fn, hab.edges⟩) fun _ => rfl
    by_cases hlen : (G.node i).parents.length = 0
    · rw [if_pos hlen, if_pos hlen]
      exact ⟨rfl, h1⟩
    rw [if_neg hlen, if_neg hlen]
    have h2 := h1.modify hφ i (fun n => { n with nrOutEdges := n.nrOutEdges - 1 })
      (fun a b hab => ⟨hab.shape, hab.parents, hab.req, hab.grad, hab.fn, fun hne => by
        rw [show b.nrOutEdges = a.nrOutEdges from hab.edges hne]⟩) fun _ => rfl
    have hne : (G.node i).parents ≠ [] := by
      intro hc
      exact hlen (by rw [hc]; rfl)
    rw [hn.edges hne, hn.fn hne]
    by_cases hcount : (G.node i).nrOutEdges - 1 > 0
    · rw [if_pos hcount, if_pos hcount]
      exact ⟨rfl, h2⟩
    rw [if_neg hcount, if_neg hcount]
    cases hfn : (G.node i).gradFn with
    | none => exact ⟨rfl, h2⟩
    | some fn =>
      dsimp only
      cases fn (Graph.accumulate addT (G.node i).grad g) with
      | error e => exact ⟨rfl, h2⟩
      | ok gs =>
        dsimp only
        obtain ⟨e1, e2⟩ := backwardAll_sim (Graph.backward addT depth) ih (G.node i).parents gs _ _ (h.older i hi) h2
        revert e1 e2
        generalize Graph.backwardAll (Graph.backward addT depth) (G.node i).parents gs _ = A
        generalize Graph.backwardAll (Graph.backward addT depth) ((G.node i).parents.map φ) gs _ = B
        rcases A with ⟨r, A⟩
        rcases B with ⟨r', B⟩
        rintro e1 e2
        dsimp only at e1 e2
        subst e1
        cases r' with
        | error e => exact ⟨rfl, e2⟩
        | ok u => exact ⟨rfl, e2.flag true⟩

/-- what `backward` does not change -/
structure Same (G H : Graph (Tensor ℝ)) : Prop where
  size : H.size = G.size
  parents : ∀ i, (H.node i).parents = (G.node i).parents
  req : ∀ i, (H.node i).requiresGrad = (G.node i).requiresGrad
  shape : ∀ i, (H.node i).shape = (G.node i).shape

theorem Same.refl (G : Graph (Tensor ℝ)) : Same G G := ⟨rfl, fun _ => rfl, fun _ => rfl, fun _ => rfl⟩

theorem Same.trans {G H K : Graph (Tensor ℝ)} (a : Same G H) (b : Same H K) : Same G K :=
  ⟨b.size.trans a.size, fun i => (b.parents i).trans (a.parents i), fun i => (b.req i).trans (a.req i),
    fun i => (b.shape i).trans (a.shape i)⟩

theorem Same.modify (G : Graph (Tensor ℝ)) (i : Nat) (f : Node (Tensor ℝ) → Node (Tensor ℝ))
    (h : ∀ a, (f a).parents = a.parents ∧ (f a).requiresGrad = a.requiresGrad ∧ (f a).shape = a.shape) : Same G (G.modify i f) := by
  refine ⟨rfl, fun j => ?_, fun j => ?_, fun j => ?_⟩ <;>
  · by_cases hij : j = i
    · subst hij
      simp only [Graph.modify, Function.update_self, h]
    · simp only [Graph.modify, Function.update_of_ne hij]

theorem backwardAll_same (back : Nat → Tensor ℝ → Graph (Tensor ℝ) → Py Unit × Graph (Tensor ℝ))
    (hb : ∀ i g G, Same G (back i g G).2) (ps : List Nat) (gs : List (Tensor ℝ)) (G : Graph (Tensor ℝ)) :
    Same G (Graph.backwardAll back ps gs G).2 := by
  induction ps generalizing gs G with
  | nil => exact .refl G
  | cons p ps ih =>
    cases gs with
    | nil => exact .refl G
    | cons g gs =>
      have h := hb p g G
      rw [Graph.backwardAll]
      revert h
      rcases back p g G with ⟨r, G'⟩
      intro h
      cases r with
      | error e => exact h
      | ok u => exact h.trans (ih gs G')

theorem backward_same (depth : Nat) : ∀ i g G, Same G (Graph.backward addT depth i g G).2 := by
  induction depth with
  | zero => exact fun i g G => .refl G
  | succ depth ih =>
    intro i g G
    unfold Graph.backward
    dsimp only
    split
    · exact .refl G
    have h1 : Same G ({ G with active := false }.modify i fun n => { n with grad := some (Graph.accumulate addT (G.node i).grad g) }) :=
      Same.trans (H := { G with active := false }) ⟨rfl, fun _ => rfl, fun _ => rfl, fun _ => rfl⟩ (.modify _ _ _ fun _ => ⟨rfl, rfl, rfl⟩)
    split
    · exact h1
    have h2 := h1.trans (Same.modify _ i (fun n => { n with nrOutEdges := n.nrOutEdges - 1 }) fun _ => ⟨rfl, rfl, rfl⟩)
    split
    · exact h2
    cases (G.node i).gradFn with
    | none => exact h2
    | some fn =>
      dsimp only
      cases fn (Graph.accumulate addT (G.node i).grad g) with
      | error e => exact h2
      | ok gs =>
        dsimp only
        have h3 := h2.trans (backwardAll_same (Graph.backward addT depth) ih (G.node i).parents gs _)
        revert h3
        generalize Graph.backwardAll (Graph.backward addT depth) (G.node i).parents gs _ = A
        rcases A with ⟨r, A⟩
        intro h3
        cases r with
        | error e => exact h3
        | ok u => exact h3.trans ⟨rfl, fun _ => rfl, fun _ => rfl, fun _ => rfl⟩

theorem backwardLoss_same (depth i : Nat) (S : State ℝ) : Same S.graph (backward depth i S).2 := by
  unfold backward Graph.backwardLoss
  split
  · exact .refl _
  split
  · exact ⟨rfl, fun _ => rfl, fun _ => rfl, fun _ => rfl⟩
  · exact backward_same depth i _ _

/-! ## The forward part -/

theorem rename_parents (φ : Nat → Nat) (o : Op ℝ) : (o.rename φ).parents = o.parents.map φ := by
  cases o <;> rfl

theorem rename_forward (φ : Nat → Nat) (o : Op ℝ) (v w : Nat → Tensor ℝ) (h : ∀ q ∈ o.parents, w (φ q) = v q)
    (hr : o.Regular v) : (o.rename φ).forward Real.sigmoid w = o.forward Real.sigmoid v := by
  cases o with
  | conv2dLayer => exact hr.elim
  | _ => simp_all [Op.rename, Op.forward, Op.parents]

/-- the session `F` of a round by itself is in the session `S` at the places `φ` -/
structure Sim (p base : Nat) (F S : State ℝ) : Prop where
  graph : GSim (place p base) F.graph.size F.graph S.graph
  val : ∀ i, i < F.graph.size → S.val (place p base i) = F.val i
  params : p ≤ F.graph.size
  size : S.graph.size = base + (F.graph.size - p)
  active : F.graph.active = true

theorem place_injective {p base : Nat} (h : p ≤ base) : Function.Injective (place p base) := by
  intro a b hab
  unfold place at hab
  split at hab <;> split at hab <;> omega

theorem Sim.place_size {p base : Nat} {F S : State ℝ} (h : Sim p base F S) : place p base F.graph.size = S.graph.size := by
  have := h.params
  rw [place, if_neg (by omega), h.size]

/-- a new tensor in both sessions -/
theorem Sim.extend {p base : Nat} (hb : p ≤ base) {F S : State ℝ} (h : Sim p base F S) (x : Tensor ℝ) (a b : Node (Tensor ℝ))
    (hab : SameNode (place p base) a b) (ha : ∀ q ∈ a.parents, q < F.graph.size) :
    Sim p base ⟨Function.update F.val F.graph.size x, { F.graph with node := Function.update F.graph.node F.graph.size a, size := F.graph.size + 1 }⟩
      ⟨Function.update S.val S.graph.size x, { S.graph with node := Function.update S.graph.node S.graph.size b, size := S.graph.size + 1 }⟩ := by
  have hp := h.params
  have hφ := place_injective hb
  refine ⟨⟨fun i hi => ?_, fun i hi q hq => ?_, h.graph.active⟩, fun i hi => ?_, ?_, ?_, h.active⟩
  · dsimp only at hi ⊢
    rw [← h.place_size]
    by_cases he : i = F.graph.size
    · subst he
      rw [Function.update_self, Function.update_self]
      exact hab
    · rw [Function.update_of_ne he, Function.update_of_ne (hφ.ne he)]
      exact h.graph.node i (by omega)
  · dsimp only at hi hq ⊢
    by_cases he : i = F.graph.size
    · subst he
      rw [Function.update_self] at hq
      have := ha q hq
      omega
    · rw [Function.update_of_ne he] at hq
      have := h.graph.older i (by omega) q hq
      omega
  · dsimp only at hi ⊢
    rw [← h.place_size]
    by_cases he : i = F.graph.size
    · subst he
      rw [Function.update_self, Function.update_self]
    · rw [Function.update_of_ne he, Function.update_of_ne (hφ.ne he)]
      exact h.val i (by omega)
  · dsimp only
    omega
  · dsimp only
    rw [h.size]
    omega

theorem any_req {p base : Nat} {F S : State ℝ} (h : Sim p base F S) (ps : List Nat) (hps : ∀ q ∈ ps, q < F.graph.size) :
    ((ps.map (place p base)).any fun q => (S.graph.node q).requiresGrad) = ps.any fun q => (F.graph.node q).requiresGrad := by
  rw [List.any_map]
  induction ps with
  | nil => rfl
  | cons q ps ih =>
    rw [List.any_cons, List.any_cons, ih fun r hr => hps r (List.mem_cons_of_mem _ hr), Function.comp_apply,
      (h.graph.node q (hps q List.mem_cons_self)).req]

/-- one step in both sessions -/
theorem step_sim {p base : Nat} (hb : p ≤ base) {F S F' : State ℝ} (leaves data : Nat → Tensor ℝ)
    (hl : ∀ i, p ≤ i → leaves i = data i) (h : Sim p base F S) (c : Step ℝ) (hc : c.Fine F)
    (hF : step Real.sigmoid leaves F c = .ok F') :
    ∃ S', step Real.sigmoid (fun i => data (i - base + p)) S (c.rename (place p base)) = .ok S' ∧ Sim p base F' S' := by
  have hp := h.params
  cases c with
  | leaf req =>
    obtain rfl := Except.ok.inj hF
    have e : data (S.graph.size - base + p) = leaves F.graph.size := by
      rw [hl _ hp, h.size]
      congr 1
      omega
    refine ⟨_, rfl, ?_⟩
    dsimp only
    rw [e]
    exact h.extend hb _ _ _ ⟨rfl, rfl, rfl, rfl, fun _ => rfl, fun _ => rfl⟩ (by simp)
  | untracked o =>
    obtain ⟨h1, h2⟩ := hc
    have hf := rename_forward (place p base) o F.val S.val (fun q hq => h.val q (h1 q hq).1) h2
    simp only [Step.rename, step, hf] at hF ⊢
    cases ho : o.forward Real.sigmoid F.val with
    | error e => rw [ho] at hF; cases hF
    | ok r =>
      rw [ho] at hF
      obtain rfl := Except.ok.inj hF
      exact ⟨_, rfl, h.extend hb _ _ _ ⟨rfl, rfl, rfl, rfl, fun _ => rfl, fun _ => rfl⟩ (by simp)⟩
  | op o =>
    obtain ⟨h1, h2⟩ := hc
    have hf := rename_forward (place p base) o F.val S.val (fun q hq => h.val q (h1 q hq)) h2
    simp only [Step.rename, step, hf] at hF ⊢
    cases ho : o.forward Real.sigmoid F.val with
    | error e => rw [ho] at hF; cases hF
    | ok r =>
      rw [ho] at hF
      obtain rfl := Except.ok.inj hF
      refine ⟨_, rfl, ?_⟩
      rw [rename_parents]
      have hS : S.graph.active = true := h.graph.active.trans h.active
      have hx := h.extend hb r.1
        ⟨r.1.shape, o.parents, o.parents.any fun q => (F.graph.node q).requiresGrad, 0, none, some r.2⟩
        ⟨r.1.shape, o.parents.map (place p base), (o.parents.map (place p base)).any fun q => (S.graph.node q).requiresGrad, 0, none, some r.2⟩
        ⟨rfl, rfl, any_req h _ h1, rfl, fun _ => rfl, fun _ => rfl⟩ h1
      simp only [Graph.forward, hS, h.active, if_true]
      dsimp only at hx
      rw [hS, h.active] at hx
      have hc := hx.graph.count (place_injective hb) o.parents
      refine ⟨?_, fun i hi => hx.val i ?_, ?_, ?_, ?_⟩
      · dsimp only
        rw [(count_size _ _).1]
        exact hc
      · dsimp only at hi ⊢
        rwa [(count_size _ _).1] at hi
      · dsimp only
        rw [(count_size _ _).1]
        exact hx.params
      · dsimp only
        rw [(count_size _ _).1, (count_size _ _).1]
        exact hx.size
      · dsimp only
        rw [(count_size _ _).2]

/-- the forward part of a round -/
theorem loss_sim {p base : Nat} (hb : p ≤ base) (leaves data : Nat → Tensor ℝ) (hl : ∀ i, p ≤ i → leaves i = data i)
    (prog : List (Step ℝ)) (F S F' : State ℝ) (h : Sim p base F S) (hf : Fine leaves F prog)
    (hF : prog.foldlM (step Real.sigmoid leaves) F = .ok F') :
    ∃ S', (prog.map (Step.rename (place p base))).foldlM (step Real.sigmoid fun i => data (i - base + p)) S = .ok S' ∧ Sim p base F' S' := by
  induction prog generalizing F S with
  | nil =>
    obtain rfl : F = F' := Except.ok.inj hF
    exact ⟨S, rfl, h⟩
  | cons c cs ih =>
    rw [List.foldlM_cons] at hF
    cases hs : step Real.sigmoid leaves F c with
    | error e => simp [hs, bind, Except.bind] at hF
    | ok F₁ =>
      rw [hs] at hF
      obtain ⟨S₁, h1, h2⟩ := step_sim hb leaves data hl h c hf.1 hs
      obtain ⟨S', h3, h4⟩ := ih F₁ S₁ h2 (hf.2 F₁ hs) hF
      refine ⟨S', ?_, h4⟩
      rw [List.map_cons, List.foldlM_cons, h1]
      exact h3

/-! ## The parameters -/

/-- a session between two rounds: the first `p` tensors are parameters without gradients -/
structure Ready (p : Nat) (S : State ℝ) : Prop where
  params : p ≤ S.graph.size
  active : S.graph.active = true
  parents : ∀ j, j < p → (S.graph.node j).parents = []
  req : ∀ j, j < p → (S.graph.node j).requiresGrad = true
  grad : ∀ j, j < p → (S.graph.node j).grad = none
  shape : ∀ j, j < p → (S.graph.node j).shape = (S.val j).shape

/-- a session with the parameters only -/
theorem parameters_run (p : Nat) (leaves : Nat → Tensor ℝ) : ∃ F, withParameters Real.sigmoid p leaves = .ok F ∧
    F.graph.size = p ∧ Ready p F ∧ (∀ j, j < p → F.val j = leaves j) ∧
    ∀ rest, Fine leaves State.empty (List.replicate p (.leaf true) ++ rest) ↔ Fine leaves F rest := by
  unfold withParameters run
  induction p with
  | zero =>
    exact ⟨State.empty, rfl, rfl, ⟨Nat.zero_le _, rfl, by simp, by simp, by simp, by simp⟩, by simp, fun rest => Iff.rfl⟩
  | succ p ih =>
    obtain ⟨F, f1, f2, f3, f4, f5⟩ := ih
    subst f2
    refine ⟨_, by
      rw [List.replicate_succ', List.foldlM_append, f1]
      rfl, rfl, ?_, ?_, ?_⟩
    · have hnode : ∀ j, j < F.graph.size + 1 →
          ((j = F.graph.size ∧ Function.update F.graph.node F.graph.size ⟨(leaves F.graph.size).shape, [], true, 0, none, none⟩ j
              = ⟨(leaves F.graph.size).shape, [], true, 0, none, none⟩) ∨
          (j < F.graph.size ∧ Function.update F.graph.node F.graph.size ⟨(leaves F.graph.size).shape, [], true, 0, none, none⟩ j
              = F.graph.node j)) := by
        intro j hj
        by_cases he : j = F.graph.size
        · exact .inl ⟨he, by rw [he, Function.update_self]⟩
        · exact .inr ⟨by omega, Function.update_of_ne he ..⟩
      refine ⟨le_rfl, f3.active, ?_, ?_, ?_, ?_⟩
      · intro j hj
        rcases hnode j hj with ⟨-, e⟩ | ⟨hlt, e⟩
        · exact congrArg Node.parents e
        · exact (congrArg Node.parents e).trans (f3.parents j hlt)
      · intro j hj
        rcases hnode j hj with ⟨-, e⟩ | ⟨hlt, e⟩
        · exact congrArg Node.requiresGrad e
        · exact (congrArg Node.requiresGrad e).trans (f3.req j hlt)
      · intro j hj
        rcases hnode j hj with ⟨-, e⟩ | ⟨hlt, e⟩
        · exact congrArg Node.grad e
        · exact (congrArg Node.grad e).trans (f3.grad j hlt)
      · intro j hj
        rcases hnode j hj with ⟨he, e⟩ | ⟨hlt, e⟩
        · refine (congrArg Node.shape e).trans ?_
          subst he
          exact (congrArg Tensor.shape (Function.update_self (f := F.val) F.graph.size (leaves F.graph.size))).symm
        · refine ((congrArg Node.shape e).trans (f3.shape j hlt)).trans ?_
          exact congrArg Tensor.shape (Function.update_of_ne (by omega) ..).symm
    · intro j hj
      by_cases he : j = F.graph.size
      · subst he
        exact Function.update_self ..
      · exact (Function.update_of_ne he ..).trans (f4 j (by omega))
    · intro rest
      rw [List.replicate_succ', List.append_assoc, f5]
      constructor
      · exact fun h => h.2 _ rfl
      · intro h
        refine ⟨trivial, fun S' hS => ?_⟩
        obtain rfl := Except.ok.inj hS
        exact h

/-- a session between two rounds and a session with the same parameters only -/
theorem start_sim {p : Nat} {F S : State ℝ} (hF : Ready p F) (hp : F.graph.size = p) (hS : Ready p S) (hv : ∀ j, j < p → F.val j = S.val j) :
    Sim p S.graph.size F S := by
  have hpl : ∀ j, j < p → place p S.graph.size j = j := fun j hj => if_pos hj
  refine ⟨⟨fun i hi => ?_, fun i hi q hq => ?_, hS.active.trans hF.active.symm⟩, fun i hi => ?_, hp.ge, by omega, hF.active⟩
  · rw [hp] at hi
    rw [hpl i hi]
    refine ⟨?_, ?_, ?_, ?_, ?_, ?_⟩
    · rw [hS.shape i hi, hF.shape i hi, hv i hi]
    · rw [hS.parents i hi, hF.parents i hi]
      rfl
    · rw [hS.req i hi, hF.req i hi]
    · rw [hS.grad i hi, hF.grad i hi]
    · exact fun hne => absurd (hF.parents i hi) hne
    · exact fun hne => absurd (hF.parents i hi) hne
  · rw [hp] at hi
    rw [hF.parents i hi] at hq
    simp at hq
  · rw [hp] at hi
    rw [hpl i hi, hv i hi]

/-! ## The optimizer -/

/-- `SGD.step` when all parameters have gradients -/
theorem sgdStep_ok (lr : ℝ) (js : List Nat) (S : State ℝ) (hjs : js.Nodup)
    (hg : ∀ j ∈ js, ∃ g, (S.graph.node j).grad = some g ∧ g.shape = (S.val j).shape) :
    ∃ S', sgdStep lr js S = .ok S' ∧ S'.graph = S.graph ∧ (∀ j, j ∉ js → S'.val j = S.val j) ∧
      ∀ j ∈ js, ∀ g, (S.graph.node j).grad = some g → (S'.val j).shape = (S.val j).shape ∧
        ∀ o, (S'.val j).at_ o = (S.val j).at_ o - g.at_ o * lr := by
  induction js generalizing S with
  | nil => exact ⟨S, rfl, rfl, fun _ _ => rfl, by simp⟩
  | cons k ks ih =>
    obtain ⟨hk, hks⟩ := List.nodup_cons.mp hjs
    obtain ⟨g, g1, g2⟩ := hg k List.mem_cons_self
    have hne : ∀ j, j ∈ ks → j ≠ k := fun j hj he => hk (he ▸ hj)
    obtain ⟨S', s1, s2, s3, s4⟩ := ih
      { S with val := Function.update S.val k ⟨(S.val k).shape, fun o => (S.val k).at_ o - g.at_ o * lr⟩ } hks (by
        intro j hj
        obtain ⟨g', a1, a2⟩ := hg j (List.mem_cons_of_mem _ hj)
        refine ⟨g', a1, ?_⟩
        dsimp only
        rw [Function.update_of_ne (hne j hj)]
        exact a2)
    refine ⟨S', ?_, s2, ?_, ?_⟩
    · rw [sgdStep, g1]
      dsimp only
      rw [if_pos g2]
      exact s1
    · intro j hj
      rw [s3 j fun h => hj (List.mem_cons_of_mem _ h)]
      refine Function.update_of_ne (fun he => hj ?_) ..
      rw [he]
      exact List.mem_cons_self
    · intro j hj g' hg'
      rcases List.mem_cons.mp hj with rfl | hj
      · rw [s3 j hk]
        dsimp only
        rw [Function.update_self]
        obtain rfl : g = g' := Option.some.inj (g1.symm.trans hg')
        exact ⟨rfl, fun _ => rfl⟩
      · have := s4 j hj g' hg'
        dsimp only at this
        rwa [Function.update_of_ne (hne j hj)] at this

/-- `SGD.step` when a parameter has no gradient -/
theorem sgdStep_none (lr : ℝ) (js : List Nat) (S : State ℝ) (hjs : js.Nodup)
    (hg : ∀ j ∈ js, ∀ g, (S.graph.node j).grad = some g → g.shape = (S.val j).shape) (k : Nat) (hk : k ∈ js)
    (hn : (S.graph.node k).grad = none) : sgdStep lr js S = .error .typeError := by
  induction js generalizing S with
  | nil => simp at hk
  | cons i is ih =>
    obtain ⟨hi, his⟩ := List.nodup_cons.mp hjs
    rw [sgdStep]
    cases hgi : (S.graph.node i).grad with
    | none => rfl
    | some g =>
      dsimp only
      rw [if_pos (hg i List.mem_cons_self g hgi)]
      have hki : k ≠ i := by
        rintro rfl
        rw [hgi] at hn
        cases hn
      refine ih _ his ?_ ((List.mem_cons.mp hk).resolve_left hki) hn
      intro j hj g' hg'
      dsimp only
      rw [Function.update_of_ne fun he : j = i => hi (he ▸ hj)]
      exact hg j (List.mem_cons_of_mem _ hj) g' hg'

/-- `SGD.zero_grad` -/
theorem zeroGrads_node (js : List Nat) (G : Graph (Tensor ℝ)) :
    (zeroGrads js G).size = G.size ∧ (zeroGrads js G).active = G.active ∧
    ∀ i, (zeroGrads js G).node i = if i ∈ js then { G.node i with grad := none } else G.node i := by
  unfold zeroGrads
  induction js generalizing G with
  | nil => exact ⟨rfl, rfl, fun i => by simp⟩
  | cons j js ih =>
    rw [List.foldl_cons]
    obtain ⟨h1, h2, h3⟩ := ih (G.modify j fun n => { n with grad := none })
    refine ⟨h1, h2, fun i => ?_⟩
    rw [h3]
    by_cases hij : i = j
    · subst hij
      simp [Graph.modify]
    · simp [Graph.modify, hij]

end SyMPC.Grad
