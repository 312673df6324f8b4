import Verif.Lemmas.Training

/-!
# C87: a training loop is gradient descent
-/

namespace SyMPC.Grad

open Tensor Autograd Classical

/-! ## Specification -/

/-- The tensors that a round uses in a session of its own: the parameters `θ`, then its data. -/
def inputs (p : Nat) (θ data : Nat → Tensor ℝ) (i : Nat) : Tensor ℝ := if i < p then θ i else data i

/-- The computation of the loss in a session of its own. -/
noncomputable def alone (p : Nat) (rd : Round ℝ) (θ : Nat → Tensor ℝ) : Py (State ℝ) :=
  run Real.sigmoid (inputs p θ rd.data) (List.replicate p (.leaf true) ++ rd.prog)

/-- The loss of a round as a function of the parameters. -/
noncomputable def lossOf (p : Nat) (rd : Round ℝ) (θ : Nat → Tensor ℝ) : ℝ := total (alone p rd θ) rd.loss

/-- One step of gradient descent from the parameters `θ` to `θ'`: every element of a parameter is decreased by the learning rate times the
derivative of the loss by this element. -/
structure Descends (p : Nat) (lr : ℝ) (rd : Round ℝ) (θ θ' : Nat → Tensor ℝ) : Prop where
  shape : ∀ j, j < p → (θ' j).shape = (θ j).shape
  value : ∀ j, j < p → ∀ idx, ValidIdx (θ j).shape idx → ∃ d, HasDerivAt (fun t => lossOf p rd (nudge θ j idx t)) d 0 ∧
    (θ' j).at_ idx = (θ j).at_ idx - lr * d

/-- Gradient descent over several rounds. -/
def Path (p : Nat) (lr : ℝ) : List (Round ℝ) → (Nat → Tensor ℝ) → (Nat → Tensor ℝ) → Prop
  | [], θ, θ' => ∀ j, j < p → θ' j = θ j
  | rd :: rds, θ, θ' => ∃ θ₁, Descends p lr rd θ θ₁ ∧ Path p lr rds θ₁ θ'

/-- The loss of the round can be computed and differentiated at the parameters `θ`, as for C48: `F` is the session after computing it. -/
structure Good (p depth : Nat) (rd : Round ℝ) (θ : Nat → Tensor ℝ) (F : State ℝ) : Prop where
  run : alone p rd θ = .ok F
  fine : Fine (inputs p θ rd.data) State.empty (List.replicate p (.leaf true) ++ rd.prog)
  op : (F.graph.node rd.loss).parents ≠ []
  req : (F.graph.node rd.loss).requiresGrad = true
  scalar : (F.val rd.loss).shape.length ≤ 1
  used : UsedFor F.graph rd.loss
  depth : rd.loss < depth

/-- every parameter is used for the loss -/
def UsesAll (p : Nat) (rd : Round ℝ) (F : State ℝ) : Prop := ∀ j, j < p → Anc F.graph rd.loss j

/-- The loop can go on from the parameters `θ`, wherever gradient descent leads. -/
def Trainable (p depth : Nat) (lr : ℝ) : List (Round ℝ) → (Nat → Tensor ℝ) → Prop
  | [], _ => True
  | rd :: rds, θ => (∃ F, Good p depth rd θ F ∧ UsesAll p rd F) ∧ ∀ θ', Descends p lr rd θ θ' → Trainable p depth lr rds θ'

/-! ## One round -/

theorem inputs_nudge (p : Nat) (θ data : Nat → Tensor ℝ) (j : Nat) (hj : j < p) (idx : List Nat) (t : ℝ) :
    inputs p (nudge θ j idx t) data = nudge (inputs p θ data) j idx t := by
  funext i
  by_cases hij : i = j
  · subst hij
    simp [inputs, nudge, hj]
  · simp only [nudge, Function.update_of_ne hij]
    simp only [inputs, Function.update_of_ne hij]

/-- the round in the session of the loop, up to `backward` -/
theorem until_backward (p depth : Nat) (rd : Round ℝ) (S F : State ℝ) (hS : Ready p S) (hg : Good p depth rd S.val F) :
    ∃ S₁ G, computeLoss Real.sigmoid p rd S = .ok S₁ ∧ backward depth (place p S.graph.size rd.loss) S₁ = (.ok (), G) ∧
      G.active = true ∧ p ≤ G.size ∧ ∀ j, j < p → S₁.val j = S.val j ∧ (G.node j).parents = [] ∧ (G.node j).requiresGrad = true ∧
        (G.node j).shape = (S.val j).shape ∧
        (¬ Anc F.graph rd.loss j → (G.node j).grad = none) ∧
        (Anc F.graph rd.loss j → ∃ v, (G.node j).grad = some v ∧ v.shape = (S.val j).shape ∧
          ∀ idx, ValidIdx (S.val j).shape idx → HasDerivAt (fun t => lossOf p rd (nudge S.val j idx t)) (v.at_ idx) 0) := by
  have hrun := hg.run
  unfold alone at hrun
  -- the session with the parameters only
  obtain ⟨F₀, f1, f2, f3, f4, f5⟩ := parameters_run p (inputs p S.val rd.data)
  have hfold : rd.prog.foldlM (step Real.sigmoid (inputs p S.val rd.data)) F₀ = .ok F := by
    have e : run Real.sigmoid (inputs p S.val rd.data) (List.replicate p (.leaf true) ++ rd.prog)
        = (withParameters Real.sigmoid p (inputs p S.val rd.data)) >>= fun F => rd.prog.foldlM (step Real.sigmoid (inputs p S.val rd.data)) F := by
      unfold run withParameters run
      rw [List.foldlM_append]
    rw [e, f1] at hrun
    exact hrun
  have hstart : Sim p S.graph.size F₀ S := start_sim f3 f2 hS fun j hj => by
    rw [f4 j hj, inputs, if_pos hj]
  obtain ⟨S₁, s1, s2⟩ := loss_sim hS.params (inputs p S.val rd.data) rd.data
    (fun i hi => by rw [inputs, if_neg (by omega)]) rd.prog F₀ S F hstart ((f5 _).mp hg.fine) hfold
  -- what the session of the round alone looks like
  obtain ⟨T, D, -, t2, t3, t4, -, -, t7, -⟩ := run_rel (fun _ => inputs p S.val rd.data) (fun _ _ => 0) (fun i => deriv_const _)
    (List.replicate p (Step.leaf true) ++ rd.prog) (fun _ => State.empty) _ rel_empty hg.fine (fun _ _ _ _ => rfl) F (by unfold run at hrun; exact hrun)
  subst t2
  have hleaf : ∀ j, j < p → (List.replicate p (Step.leaf true) ++ rd.prog)[j]? = some (.leaf true) := by
    intro j hj
    rw [List.getElem?_append_left (by simpa using hj), List.getElem?_replicate, if_pos hj]
  have hloss : rd.loss < (T 0).graph.size := by
    by_contra hc
    exact hg.op (t3.built.outside _ (by omega))
  obtain ⟨G', g1, g2, g3, g4⟩ := C48_gradients_partial (inputs p S.val rd.data) _ (T 0) rd.loss depth hrun hg.fine hg.op hg.req hg.scalar
    hg.used hg.depth
  -- the two backpropagations
  have hn := s2.graph.node rd.loss hloss
  have hb : (backward depth (place p S.graph.size rd.loss) S₁).1 = .ok () ∧
      GSim (place p S.graph.size) (T 0).graph.size G' (backward depth (place p S.graph.size rd.loss) S₁).2 := by
    have e := backward_sim (place_injective hS.params) depth rd.loss (ones ((T 0).graph.node rd.loss).shape) _ _ hloss s2.graph
    unfold backward Graph.backwardLoss at g1 ⊢
    rw [hn.req, hn.shape]
    split at g1
    · rename_i hc
      rw [hg.req] at hc
      cases hc
    rw [if_neg (by assumption)]
    split at g1
    · cases g1
    rw [if_neg (by assumption)]
    rw [g1] at e
    exact e
  have hsame := backwardLoss_same depth (place p S.graph.size rd.loss) S₁
  revert hb hsame
  rcases hback : backward depth (place p S.graph.size rd.loss) S₁ with ⟨r, H⟩
  rintro ⟨rfl, hsim⟩ hsame
  dsimp only at hsim hsame
  have hpF : p ≤ (T 0).graph.size := s2.params
  refine ⟨S₁, H, s1, hback, hsim.active.trans g2, ?_, fun j hj => ?_⟩
  · rw [hsame.size, s2.size]
    have := hS.params
    omega
  have hpl : place p S.graph.size j = j := if_pos hj
  have hval := s2.val j (by omega)
  have hnode := s2.graph.node j (by omega)
  have hgn := hsim.node j (by omega)
  rw [hpl] at hval hnode hgn
  obtain ⟨-, l1, l2, l3⟩ := t7 j true (hleaf j hj)
  rw [show State.empty.graph.size + j = j from Nat.zero_add j] at l1 l2 l3
  have hin : inputs p S.val rd.data j = S.val j := if_pos hj
  rw [hin] at l3
  have hd := g4 j (hleaf j hj)
  rw [hin] at hd
  refine ⟨hval.trans l3, ?_, ?_, ?_, ?_, ?_⟩
  · rw [hsame.parents, hnode.parents, l1]
    rfl
  · rw [hsame.req, hnode.req, l2]
  · rw [hsame.shape, hnode.shape, t3.shape j (by omega), l3]
  · intro hna
    rw [hgn.grad]
    exact g3 j fun h => hna h.1
  · intro ha
    obtain ⟨v, v1, v2, v3⟩ := hd.1 ha
    refine ⟨v, by rw [hgn.grad, v1], v2, fun idx hidx => ?_⟩
    have := v3 idx hidx
    unfold lossOf alone
    simp only [inputs_nudge p S.val rd.data j hj]
    exact this

/-- C87: a round (the loss, `backward`, `step`, `zero_grad`) in a session with whatever other tensors succeeds if every parameter is used
for the loss, moves the parameters one step of gradient descent, and leaves them ready for the next round. -/
theorem C87_round (p depth : Nat) (lr : ℝ) (rd : Round ℝ) (S F : State ℝ) (hS : Ready p S) (hg : Good p depth rd S.val F)
    (hall : UsesAll p rd F) :
    ∃ S', trainRound Real.sigmoid p depth lr rd S = .ok S' ∧ Ready p S' ∧ Descends p lr rd S.val S'.val := by
  obtain ⟨S₁, G, h1, h2, h3, h4, h5⟩ := until_backward p depth rd S F hS hg
  obtain ⟨S₂, e1, e2, -, e4⟩ := sgdStep_ok lr (List.range p) ⟨S₁.val, G⟩ List.nodup_range (by
    intro j hj
    rw [List.mem_range] at hj
    obtain ⟨a1, -, -, -, -, a6⟩ := h5 j hj
    obtain ⟨v, v1, v2, -⟩ := a6 (hall j hj)
    exact ⟨v, v1, by rw [a1]; exact v2⟩)
  obtain ⟨z1, z2, z3⟩ := zeroGrads_node (List.range p) S₂.graph
  have hz : ∀ j, j < p → (zeroGrads (List.range p) S₂.graph).node j = { G.node j with grad := none } := by
    intro j hj
    rw [z3, if_pos (List.mem_range.mpr hj), e2]
  have hv : ∀ j, j < p → ∃ v : Tensor ℝ, (S₂.val j).shape = (S.val j).shape ∧ (∀ o, (S₂.val j).at_ o = (S.val j).at_ o - v.at_ o * lr) ∧
      ∀ idx, ValidIdx (S.val j).shape idx → HasDerivAt (fun t => lossOf p rd (nudge S.val j idx t)) (v.at_ idx) 0 := by
    intro j hj
    obtain ⟨a1, -, -, -, -, a6⟩ := h5 j hj
    obtain ⟨v, v1, -, v3⟩ := a6 (hall j hj)
    obtain ⟨b1, b2⟩ := e4 j (List.mem_range.mpr hj) v v1
    rw [a1] at b1 b2
    exact ⟨v, b1, b2, v3⟩
  refine ⟨{ S₂ with graph := zeroGrads (List.range p) S₂.graph }, ?_, ?_, ?_⟩
  · unfold trainRound
    rw [h1]
    dsimp only [bind, Except.bind]
    rw [h2]
    dsimp only
    rw [e1]
    rfl
  · refine ⟨?_, ?_, fun j hj => ?_, fun j hj => ?_, fun j hj => ?_, fun j hj => ?_⟩
    · rw [z1, e2]
      exact h4
    · rw [z2, e2]
      exact h3
    · rw [hz j hj]
      exact (h5 j hj).2.1
    · rw [hz j hj]
      exact (h5 j hj).2.2.1
    · rw [hz j hj]
    · rw [hz j hj]
      obtain ⟨v, b1, -, -⟩ := hv j hj
      exact (h5 j hj).2.2.2.1.trans b1.symm
  · refine ⟨fun j hj => ?_, fun j hj idx hidx => ?_⟩
    · obtain ⟨v, b1, -, -⟩ := hv j hj
      exact b1
    · obtain ⟨v, -, b2, b3⟩ := hv j hj
      exact ⟨v.at_ idx, b3 idx hidx, by rw [b2, mul_comm]⟩

/-- C87: if some parameter is not used for the loss, the round fails with `TypeError`. -/
theorem C87_unused_parameter (p depth : Nat) (lr : ℝ) (rd : Round ℝ) (S F : State ℝ) (hS : Ready p S) (hg : Good p depth rd S.val F)
    (hnot : ¬ UsesAll p rd F) : trainRound Real.sigmoid p depth lr rd S = .error .typeError := by
  obtain ⟨S₁, G, h1, h2, -, -, h5⟩ := until_backward p depth rd S F hS hg
  unfold UsesAll at hnot
  push Not at hnot
  obtain ⟨k, hk, hka⟩ := hnot
  have e := sgdStep_none lr (List.range p) ⟨S₁.val, G⟩ List.nodup_range (by
    intro j hj g hgj
    rw [List.mem_range] at hj
    obtain ⟨a1, -, -, -, a5, a6⟩ := h5 j hj
    dsimp only at hgj ⊢
    by_cases ha : Anc F.graph rd.loss j
    · obtain ⟨v, v1, v2, -⟩ := a6 ha
      rw [v1] at hgj
      obtain rfl := Option.some.inj hgj
      rw [a1, v2]
    · rw [a5 ha] at hgj
      cases hgj) k (List.mem_range.mpr hk) ((h5 k hk).2.2.2.2.1 hka)
  unfold trainRound
  rw [h1]
  dsimp only [bind, Except.bind]
  rw [h2]
  dsimp only
  rw [e]

/-! ## The loop -/

theorem train_path (p depth : Nat) (lr : ℝ) (rds : List (Round ℝ)) (S : State ℝ) (hS : Ready p S) (h : Trainable p depth lr rds S.val) :
    ∃ S', train Real.sigmoid p depth lr rds S = .ok S' ∧ Ready p S' ∧ Path p lr rds S.val S'.val := by
  induction rds generalizing S with
  | nil => exact ⟨S, rfl, hS, fun _ _ => rfl⟩
  | cons rd rds ih =>
    obtain ⟨⟨F, hg, hall⟩, hnext⟩ := h
    obtain ⟨S₁, r1, r2, r3⟩ := C87_round p depth lr rd S F hS hg hall
    obtain ⟨S', q1, q2, q3⟩ := ih S₁ r2 (hnext _ r3)
    refine ⟨S', ?_, q2, _, r3, q3⟩
    unfold train at q1 ⊢
    rw [List.foldlM_cons, r1]
    exact q1

/-! Only the parameters matter. -/

theorem inputs_congr (p : Nat) (θ θ' data : Nat → Tensor ℝ) (h : ∀ j, j < p → θ' j = θ j) : inputs p θ' data = inputs p θ data := by
  funext i
  unfold inputs
  split
  · exact h i (by assumption)
  · rfl

theorem good_congr {p depth : Nat} {rd : Round ℝ} {θ θ' : Nat → Tensor ℝ} {F : State ℝ} (h : ∀ j, j < p → θ' j = θ j)
    (hg : Good p depth rd θ F) : Good p depth rd θ' F := by
  have e := inputs_congr p θ θ' rd.data h
  refine ⟨?_, ?_, hg.op, hg.req, hg.scalar, hg.used, hg.depth⟩
  · unfold alone
    rw [e]
    exact hg.run
  · rw [e]
    exact hg.fine

theorem descends_congr {p : Nat} {lr : ℝ} {rd : Round ℝ} {θ θ' θ₁ : Nat → Tensor ℝ} (h : ∀ j, j < p → θ' j = θ j)
    (hd : Descends p lr rd θ θ₁) : Descends p lr rd θ' θ₁ := by
  have e := inputs_congr p θ θ' rd.data h
  refine ⟨fun j hj => by rw [hd.shape j hj, h j hj], fun j hj idx hidx => ?_⟩
  rw [h j hj] at hidx ⊢
  have := hd.value j hj idx hidx
  unfold lossOf alone at this ⊢
  simp only [inputs_nudge _ _ _ j hj] at this ⊢
  rw [e]
  exact this

theorem trainable_congr {p depth : Nat} {lr : ℝ} {rds : List (Round ℝ)} {θ θ' : Nat → Tensor ℝ} (h : ∀ j, j < p → θ' j = θ j)
    (ht : Trainable p depth lr rds θ) : Trainable p depth lr rds θ' := by
  cases rds with
  | nil => trivial
  | cons rd rds =>
    obtain ⟨⟨F, hg, hall⟩, hn⟩ := ht
    exact ⟨⟨F, good_congr h hg, hall⟩, fun θ₁ hd => hn θ₁ (descends_congr (fun j hj => (h j hj).symm) hd)⟩

theorem path_congr {p : Nat} {lr : ℝ} {rds : List (Round ℝ)} {θ θ' θ₁ : Nat → Tensor ℝ} (h : ∀ j, j < p → θ' j = θ j)
    (hp : Path p lr rds θ θ₁) : Path p lr rds θ' θ₁ := by
  cases rds with
  | nil => exact fun j hj => (hp j hj).trans (h j hj).symm
  | cons rd rds =>
    obtain ⟨θ₂, h1, h2⟩ := hp
    exact ⟨θ₂, descends_congr h h1, h2⟩

/-- C87: a training loop of any number of rounds, each with its own loss and data, succeeds and is gradient descent from the initial
parameters `θ`. -/
theorem C87_training (p depth : Nat) (lr : ℝ) (rds : List (Round ℝ)) (θ : Nat → Tensor ℝ) (h : Trainable p depth lr rds θ) :
    ∃ S', (withParameters Real.sigmoid p θ >>= train Real.sigmoid p depth lr rds) = .ok S' ∧ Path p lr rds θ S'.val := by
  obtain ⟨S₀, f1, -, f3, f4, -⟩ := parameters_run p θ
  obtain ⟨S', t1, -, t3⟩ := train_path p depth lr rds S₀ f3 (trainable_congr f4 h)
  refine ⟨S', ?_, path_congr (fun j hj => (f4 j hj).symm) t3⟩
  rw [f1]
  exact t1

/-! ## Linear regression

The parameter `w` is a vector of length 2; each round has an example `(x, y)` and the loss `((w * x).sum() - y) ** 2`. -/

/-- the round with the example `(x, y)` -/
def regression (x : List Nat → ℝ) (y : ℝ) : Round ℝ :=
  ⟨[.leaf false, .leaf false, .op (.mul 0 1), .op (.sum 3), .op (.sub 4 2), .op (.pow 5 2)],
    fun i => if i = 1 then ⟨[2], x⟩ else ⟨[], fun _ => y⟩, 6⟩

theorem regression_good (x : List Nat → ℝ) (y : ℝ) (w : List Nat → ℝ) :
    ∃ F, Good 1 7 (regression x y) (fun _ => ⟨[2], w⟩) F ∧ UsesAll 1 (regression x y) F := by
  obtain ⟨F, h1, h2, h3, h4, p6, p5, p4, p3, p2, p1, p0, p7⟩ : ∃ F, alone 1 (regression x y) (fun _ => ⟨[2], w⟩) = .ok F ∧
      Fine (inputs 1 (fun _ => ⟨[2], w⟩) (regression x y).data) State.empty (List.replicate 1 (.leaf true) ++ (regression x y).prog) ∧
      (F.graph.node 6).requiresGrad = true ∧ (F.val 6).shape = [] ∧ (F.graph.node 6).parents = [5] ∧ (F.graph.node 5).parents = [4, 2] ∧
      (F.graph.node 4).parents = [3] ∧ (F.graph.node 3).parents = [0, 1] ∧ (F.graph.node 2).parents = [] ∧
      (F.graph.node 1).parents = [] ∧ (F.graph.node 0).parents = [] ∧ ∀ i, (F.graph.node (i + 7)).parents = [] := by
    refine ⟨_, rfl, ?_, rfl, rfl, rfl, rfl, rfl, rfl, rfl, rfl, rfl, fun i => rfl⟩
    refine ⟨trivial, fun S h => ?_⟩
    obtain rfl := Except.ok.inj h
    refine ⟨trivial, fun S h => ?_⟩
    obtain rfl := Except.ok.inj h
    refine ⟨trivial, fun S h => ?_⟩
    obtain rfl := Except.ok.inj h
    refine ⟨⟨(by simp : ∀ p ∈ [0, 1], p < 3), ?_⟩, fun S h => ?_⟩
    · intro s h
      obtain rfl := Except.ok.inj h
      exact (by simp : ∀ d ∈ [2], d ≠ 0)
    obtain rfl := Except.ok.inj h
    refine ⟨⟨(by simp : ∀ p ∈ [3], p < 4), trivial⟩, fun S h => ?_⟩
    obtain rfl := Except.ok.inj h
    refine ⟨⟨(by simp : ∀ p ∈ [4, 2], p < 5), ?_⟩, fun S h => ?_⟩
    · intro s h
      obtain rfl := Except.ok.inj h
      exact (by simp : ∀ d ∈ ([] : List Nat), d ≠ 0)
    obtain rfl := Except.ok.inj h
    exact ⟨⟨(by simp : ∀ p ∈ [5], p < 6), trivial⟩, fun _ _ => trivial⟩
  have a5 : Anc F.graph 6 5 := .step .root (by simp [p6])
  have a4 : Anc F.graph 6 4 := .step a5 (by simp [p5])
  have a3 : Anc F.graph 6 3 := .step a4 (by simp [p4])
  refine ⟨F, ⟨h1, h2, show (F.graph.node 6).parents ≠ [] by simp [p6], h3, show (F.val 6).shape.length ≤ 1 by simp [h4], ?_,
    (by decide : 6 < 7)⟩, ?_⟩
  · intro i p hp _ _ _
    match i, hp with
    | 0, hp => simp [p0] at hp
    | 1, hp => simp [p1] at hp
    | 2, hp => simp [p2] at hp
    | 3, _ => exact a3
    | 4, _ => exact a4
    | 5, _ => exact a5
    | 6, _ => exact .root
    | i + 7, hp => simp [p7] at hp
  · intro j hj
    obtain rfl : j = 0 := by omega
    exact .step a3 (by simp [p3])

/-- any number of rounds of linear regression meets the hypothesis of `C87_training` -/
theorem regression_trainable (lr : ℝ) (examples : List ((List Nat → ℝ) × ℝ)) (θ : Nat → Tensor ℝ) (h : (θ 0).shape = [2]) :
    Trainable 1 7 lr (examples.map fun e => regression e.1 e.2) θ := by
  induction examples generalizing θ with
  | nil => trivial
  | cons e es ih =>
    obtain ⟨F, f1, f2⟩ := regression_good e.1 e.2 (θ 0).at_
    refine ⟨⟨F, good_congr ?_ f1, f2⟩, fun θ' hd => ih θ' ?_⟩
    · intro j hj
      obtain rfl : j = 0 := by omega
      rw [← h]
    · rw [hd.shape 0 (by decide), h]

/-- so linear regression on a secret vector, with as many secret examples as one likes, is gradient descent -/
example (lr : ℝ) (examples : List ((List Nat → ℝ) × ℝ)) (w : List Nat → ℝ) :
    ∃ S', (withParameters Real.sigmoid 1 (fun _ => ⟨[2], w⟩) >>=
        train Real.sigmoid 1 7 lr (examples.map fun e => regression e.1 e.2)) = .ok S' ∧
      Path 1 lr (examples.map fun e => regression e.1 e.2) (fun _ => ⟨[2], w⟩) S'.val :=
  C87_training 1 7 lr _ _ (regression_trainable lr examples _ rfl)

/-- the loss as a formula -/
theorem regression_loss (x : List Nat → ℝ) (y : ℝ) (w : List Nat → ℝ) :
    lossOf 1 (regression x y) (fun _ => ⟨[2], w⟩) = (w [0] * x [0] + w [1] * x [1] - y) ^ 2 := by
  have e : lossOf 1 (regression x y) (fun _ => ⟨[2], w⟩)
      = ∑ o ∈ positions [], (fun a : ℝ => a ^ 2) (([[0], [1]].map fun i : List Nat => w i * x i).sum - y) := rfl
  rw [e, show positions [] = {[]} from rfl]
  simp

/-- one step of the least mean squares rule for the weights `(a, b)` and the example `(x, y)` -/
noncomputable def lms (lr : ℝ) (w : ℝ × ℝ) (e : (List Nat → ℝ) × ℝ) : ℝ × ℝ :=
  (w.1 - lr * (2 * (w.1 * e.1 [0] + w.2 * e.1 [1] - e.2) * e.1 [0]), w.2 - lr * (2 * (w.1 * e.1 [0] + w.2 * e.1 [1] - e.2) * e.1 [1]))

theorem regression_step (lr : ℝ) (e : (List Nat → ℝ) × ℝ) (θ θ' : Nat → Tensor ℝ) (h : (θ 0).shape = [2])
    (hd : Descends 1 lr (regression e.1 e.2) θ θ') :
    ((θ' 0).at_ [0], (θ' 0).at_ [1]) = lms lr ((θ 0).at_ [0], (θ 0).at_ [1]) e := by
  have hl : ∀ k t, lossOf 1 (regression e.1 e.2) (nudge θ 0 k t)
      = (Function.update (θ 0).at_ k ((θ 0).at_ k + t) [0] * e.1 [0] + Function.update (θ 0).at_ k ((θ 0).at_ k + t) [1] * e.1 [1] - e.2) ^ 2 := by
    intro k t
    rw [← regression_loss]
    unfold lossOf alone
    rw [inputs_congr 1 (fun _ => ⟨[2], Function.update (θ 0).at_ k ((θ 0).at_ k + t)⟩) (nudge θ 0 k t)]
    intro j hj
    obtain rfl : j = 0 := by omega
    rw [nudge, Function.update_self, h]
  obtain ⟨d0, a1, a2⟩ := hd.value 0 (by decide) [0] (by rw [h]; simp [ValidIdx])
  obtain ⟨d1, b1, b2⟩ := hd.value 0 (by decide) [1] (by rw [h]; simp [ValidIdx])
  simp only [hl] at a1 b1
  have e1 : ∀ v : ℝ, Function.update (θ 0).at_ [0] v [1] = (θ 0).at_ [1] := fun v => Function.update_of_ne (by simp) ..
  have e2 : ∀ v : ℝ, Function.update (θ 0).at_ [1] v [0] = (θ 0).at_ [0] := fun v => Function.update_of_ne (by simp) ..
  simp only [Function.update_self, e1, e2] at a1 b1
  have hline : ∀ c x z : ℝ, HasDerivAt (fun t : ℝ => ((c + t) * x + z) ^ 2) (2 * (c * x + z) * x) 0 := by
    intro c x z
    have h1 : HasDerivAt (fun t : ℝ => (c + t) * x + z) x 0 := by
      simpa using (((hasDerivAt_id (0 : ℝ)).const_add c).mul_const x).add_const z
    simpa using h1.fun_pow 2
  have c0 : d0 = 2 * ((θ 0).at_ [0] * e.1 [0] + (θ 0).at_ [1] * e.1 [1] - e.2) * e.1 [0] := by
    refine a1.unique ?_
    have := hline ((θ 0).at_ [0]) (e.1 [0]) ((θ 0).at_ [1] * e.1 [1] - e.2)
    simp only [← add_sub_assoc] at this
    exact this
  have c1 : d1 = 2 * ((θ 0).at_ [0] * e.1 [0] + (θ 0).at_ [1] * e.1 [1] - e.2) * e.1 [1] := by
    refine b1.unique ?_
    have := hline ((θ 0).at_ [1]) (e.1 [1]) ((θ 0).at_ [0] * e.1 [0] - e.2)
    simp only [← add_sub_assoc, add_comm _ ((θ 0).at_ [0] * e.1 [0])] at this
    exact this
  rw [a2, b2, c0, c1]
  rfl

theorem regression_path (lr : ℝ) (examples : List ((List Nat → ℝ) × ℝ)) (θ θ' : Nat → Tensor ℝ) (h : (θ 0).shape = [2])
    (hp : Path 1 lr (examples.map fun e => regression e.1 e.2) θ θ') :
    ((θ' 0).at_ [0], (θ' 0).at_ [1]) = examples.foldl (lms lr) ((θ 0).at_ [0], (θ 0).at_ [1]) := by
  induction examples generalizing θ with
  | nil => rw [hp 0 (by decide), List.foldl_nil]
  | cons e es ih =>
    obtain ⟨θ₁, h1, h2⟩ := hp
    rw [List.foldl_cons, ← regression_step lr e θ θ₁ h h1]
    exact ih θ₁ (by rw [h1.shape 0 (by decide), h]) h2

/-- C87: linear regression on a secret vector with as many secret examples as one likes computes what the least mean squares rule says. -/
theorem C87_regression (lr : ℝ) (examples : List ((List Nat → ℝ) × ℝ)) (w : List Nat → ℝ) :
    ∃ S', (withParameters Real.sigmoid 1 (fun _ => ⟨[2], w⟩) >>=
        train Real.sigmoid 1 7 lr (examples.map fun e => regression e.1 e.2)) = .ok S' ∧
      ((S'.val 0).at_ [0], (S'.val 0).at_ [1]) = examples.foldl (lms lr) (w [0], w [1]) := by
  obtain ⟨S', h1, h2⟩ := C87_training 1 7 lr _ _ (regression_trainable lr examples (fun _ => ⟨[2], w⟩) rfl)
  exact ⟨S', h1, regression_path lr examples _ _ rfl h2⟩

/-- two examples -/
example : [((fun idx => if idx = [0] then 3 else 1), 4), ((fun idx => if idx = [0] then 0 else 2), 1)].foldl (lms (1 / 4)) (1, 2)
    = ((-1 / 2 : ℝ), (-1 / 2 : ℝ)) := by
  norm_num [lms]

/-- a round that meets the hypotheses of `C87_unused_parameter`: of two parameters, the loss `θ₀.sum()` uses the first -/
example (w : List Nat → ℝ) : ∃ F, Good 2 3 ⟨[.op (.sum 0)], fun _ => ⟨[], w⟩, 2⟩ (fun _ => ⟨[2], w⟩) F ∧
    ¬ UsesAll 2 ⟨[.op (.sum 0)], fun _ => ⟨[], w⟩, 2⟩ F := by
  obtain ⟨F, h1, h2, h3, h4, p2, p1, p0, p3⟩ : ∃ F, alone 2 ⟨[.op (.sum 0)], fun _ => ⟨[], w⟩, 2⟩ (fun _ => ⟨[2], w⟩) = .ok F ∧
      Fine (inputs 2 (fun _ => ⟨[2], w⟩) fun _ => ⟨[], w⟩) State.empty (List.replicate 2 (.leaf true) ++ [.op (.sum 0)]) ∧
      (F.graph.node 2).requiresGrad = true ∧ (F.val 2).shape = [] ∧ (F.graph.node 2).parents = [0] ∧
      (F.graph.node 1).parents = [] ∧ (F.graph.node 0).parents = [] ∧ ∀ i, (F.graph.node (i + 3)).parents = [] := by
    refine ⟨_, rfl, ?_, rfl, rfl, rfl, rfl, rfl, fun i => rfl⟩
    refine ⟨trivial, fun S h => ?_⟩
    obtain rfl := Except.ok.inj h
    refine ⟨trivial, fun S h => ?_⟩
    obtain rfl := Except.ok.inj h
    exact ⟨⟨(by simp : ∀ p ∈ [0], p < 2), trivial⟩, fun _ _ => trivial⟩
  refine ⟨F, ⟨h1, h2, show (F.graph.node 2).parents ≠ [] by simp [p2], h3, show (F.val 2).shape.length ≤ 1 by simp [h4], ?_,
    (by decide : 2 < 3)⟩, fun hall => ?_⟩
  · intro i p hp _ _ _
    match i, hp with
    | 0, hp => simp [p0] at hp
    | 1, hp => simp [p1] at hp
    | 2, _ => exact .root
    | i + 3, hp => simp [p3] at hp
  · have : ∀ j, Anc F.graph 2 j → j = 2 ∨ j = 0 := by
      intro j hj
      induction hj with
      | root => exact .inl rfl
      | step _ hp ih =>
        rcases ih with rfl | rfl
        · rw [p2] at hp
          exact .inr (List.mem_singleton.mp hp)
        · rw [p0] at hp
          simp at hp
    have h := this 1 (hall 1 (by decide))
    omega

end SyMPC.Grad
