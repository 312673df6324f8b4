import Verif.Props.Grad
import Mathlib.Algebra.Order.Field.Rat

/-!
# C48: what `backward` does not do

Programs for which the gradients are not the derivatives, and states in which recording stays switched off.
-/

namespace SyMPC.Grad

open Tensor Autograd

/-! ## Recording stays off -/

section
variable {V : Type}

/-- C48 (negation): `backward` on a leaf switches recording off for good. -/
theorem C48_leaf_stops_recording (add : V → V → V) (ones : List Nat → V) (depth i : Nat) (G : Graph V)
    (hreq : (G.node i).requiresGrad = true) (hs : (G.node i).shape.length ≤ 1) (hp : (G.node i).parents = []) :
    (G.backwardLoss add ones (depth + 1) i).1 = .ok () ∧ (G.backwardLoss add ones (depth + 1) i).2.active = false := by
  unfold Graph.backwardLoss Graph.backward
  rw [if_neg (by rw [hreq]; simp), if_neg (by omega)]
  simp only [hreq, Bool.true_eq_false, if_false, hp, List.length_nil, if_true]
  exact ⟨trivial, rfl⟩

/-- C48 (negation): a loss that was itself used twice in other operations sends nothing to its operands, silently, and
recording stays off. -/
theorem C48_used_loss_sends_nothing (add : V → V → V) (ones : List Nat → V) (depth i : Nat) (G : Graph V)
    (hreq : (G.node i).requiresGrad = true) (hs : (G.node i).shape.length ≤ 1) (hp : (G.node i).parents ≠ [])
    (hout : 2 ≤ (G.node i).nrOutEdges) :
    (G.backwardLoss add ones (depth + 1) i).1 = .ok () ∧ (G.backwardLoss add ones (depth + 1) i).2.active = false ∧
      ∀ j, j ≠ i → ((G.backwardLoss add ones (depth + 1) i).2.node j).grad = (G.node j).grad := by
  unfold Graph.backwardLoss Graph.backward
  rw [if_neg (by rw [hreq]; simp), if_neg (by omega)]
  have hl : ¬ (G.node i).parents.length = 0 := by simpa using hp
  have hgt : (G.node i).nrOutEdges - 1 > 0 := by omega
  simp only [hreq, Bool.true_eq_false, if_false, hl, hgt, if_true]
  refine ⟨trivial, rfl, fun j hj => ?_⟩
  simp only [Graph.modify, Function.update_of_ne hj]

/-- C48 (negation): `backward()` on a tensor with two or more dimensions raises, and recording stays off. -/
theorem C48_refused_loss_stops_recording (add : V → V → V) (ones : List Nat → V) (depth i : Nat) (G : Graph V)
    (hreq : (G.node i).requiresGrad = true) (hs : 2 ≤ (G.node i).shape.length) :
    G.backwardLoss add ones depth i = (.error .valueError, { G with active := false }) := by
  unfold Graph.backwardLoss
  rw [if_neg (by rw [hreq]; simp), if_pos (by omega)]

/-- C48 (negation): after an operation that raised while it was recorded (for example `x + y` with shapes that do not fit) every
later operation is done without a record: its result never requires a gradient. -/
theorem C48_failed_operation_stops_recording (G : Graph V) (h : G.active = true) (ps : List Nat) (e : PyErr) (qs s : List Nat)
    (fn : V → Py (List V)) :
    (G.forward ps (.error e)).1 = .error e ∧
      let G' := (G.forward ps (.error e)).2
      (G'.forward qs (.ok (s, fn))).1 = .ok () ∧ ((G'.forward qs (.ok (s, fn))).2.node G'.size).requiresGrad = false ∧
        ((G'.forward qs (.ok (s, fn))).2.node G'.size).parents = [] := by
  simp only [Graph.forward, h, if_true, Bool.false_eq_true, if_false, Graph.leaf, Function.update_self, and_self]

/-- a leaf that meets the hypotheses of the first theorem, and one that is refused -/
example : ((Graph.empty : Graph V).leaf [] true).node 0 = ⟨[], [], true, 0, none, none⟩ ∧
    ((Graph.empty : Graph V).leaf [2, 3] true).node 0 = ⟨[2, 3], [], true, 0, none, none⟩ := ⟨rfl, rfl⟩

/-- `y = x.sum(); y + y`: the tensor `y` is used twice -/
example (fn : V → Py (List V)) : let G := (((Graph.empty.leaf [3] true).forward [0] (.ok ([], fn))).2.forward [1, 1] (.ok ([], fn))).2
    (G.node 1).nrOutEdges = 2 ∧ (G.node 1).parents = [0] ∧ (G.node 1).requiresGrad = true := ⟨rfl, rfl, rfl⟩

end

/-! ## Programs -/

/-- the gradient of tensor `j` after `loss.backward()` has been called `n` times on tensor `r` -/
def gradients (leaves : Nat → Tensor ℚ) (prog : List (Step ℚ)) (r n j : Nat) : Py (Option (Tensor ℚ)) := do
  let S ← run (fun a => a) leaves prog
  let G ← (List.range n).foldlM (fun G _ => match G.backwardLoss addT ones 100 r with
    | (.ok (), G) => .ok G
    | (.error e, _) => .error e) S.graph
  return (G.node j).grad

/-- a tensor without dimensions -/
def scalar (a : ℚ) : Tensor ℚ := ⟨[], fun _ => a⟩

/-- the elements at the given positions, for comparison -/
def elements (g : Py (Option (Tensor ℚ))) : Option (Option (List Nat × List ℚ)) :=
  g.toOption.map fun g => g.map fun v => (v.shape, (indices v.shape).map v.at_)

/-- `loss = (x * w + x).sum()`: the derivatives are `w + 1` and `x` -/
example : elements (gradients (fun i => if i = 0 then ofList [2, 3] else ofList [5, 7])
    [.leaf true, .leaf true, .op (.mul 0 1), .op (.add 2 0), .op (.sum 3)] 4 1 0) = some (some ([2], [6, 8])) := by
  decide +kernel

/-- `loss = (x * x).sum()` for a scalar `x = 5` has the derivative 10. -/
theorem C48_square : elements (gradients (fun _ => scalar 5) [.leaf true, .op (.mul 0 0), .op (.sum 1)] 2 1 0) = some (some ([], [10])) := by
  decide +kernel

/-- C48 (negation): the same with another use of the intermediate result, which has nothing to do with the loss
(`y = x * x; z = y + 1; loss = y.sum(); loss.backward()`): `x.grad` stays `None`. -/
theorem C48_side_use_loses_gradient :
    elements (gradients (fun _ => scalar 5) [.leaf true, .op (.mul 0 0), .op (.addPub 1 (scalar 1)), .op (.sum 1)] 3 1 0) = some none := by
  decide +kernel

/-- C48 (negation): a second `loss.backward()` adds three times the gradient, because the gradients of the loss and of
its operands are kept: 40 instead of 20. -/
theorem C48_second_backward :
    elements (gradients (fun _ => scalar 5) [.leaf true, .op (.mul 0 0), .op (.sum 1)] 2 2 0) = some (some ([], [40])) := by
  decide +kernel

/-- C48 (negation): `loss = (1 - x).sum()`.  `rsub` computes `x - 1` without a record and multiplies by -1
(`mpc_tensor.py:441-450`), so that the loss does not require a gradient and `x.grad` stays `None`. -/
theorem C48_rsub_loses_gradient :
    elements (gradients (fun _ => scalar 5)
      [.leaf true, .untracked (.subPub 0 (scalar 1)), .op (.mulPub 1 (scalar (-1))), .op (.sum 2)] 3 1 0) = some none := by
  decide +kernel

/-- C48 (negation): the gradient of a scalar that is divided by a public vector is a vector: `GradDiv` does not reverse the
broadcasting. -/
theorem C48_division_shape :
    elements (gradients (fun _ => scalar 6) [.leaf true, .op (.divPub 0 (ofList [2, 3])), .op (.sum 1)] 2 1 0)
      = some (some ([2], [1 / 2, 1 / 3])) := by
  decide +kernel

/-! ## Products with vectors -/

/-- C48 (negation): the gradient of a matrix times a vector cannot be computed, except for matrices with one row: `backward`
raises. -/
theorem C48_matrix_vector_fails (x y grad : Tensor ℚ) (n k : Nat) (hx : x.shape = [n, k]) (hy : y.shape = [k]) (hg : grad.shape = [n])
    (hn : n ≠ 1) : gradMatMul x y grad = .error .runtimeError := by
  unfold gradMatMul unsqueeze1
  simp [hx, hy, hg, bind, Except.bind, pure, Except.pure, transpose, matmul, hn]

/-- C48 (negation): for two vectors as well. -/
theorem C48_vector_vector_fails (x y grad : Tensor ℚ) (k : Nat) (_hx : x.shape = [k]) (hy : y.shape = [k]) (hg : grad.shape = []) :
    ∃ e, gradMatMul x y grad = .error e := by
  unfold gradMatMul unsqueeze1
  simp [hy, hg, bind, Except.bind]

/-- C48 (negation): and for a vector times a matrix, except for matrices with one column. -/
theorem C48_vector_matrix_fails (x y grad : Tensor ℚ) (k m : Nat) (hx : x.shape = [k]) (hy : y.shape = [k, m]) (hg : grad.shape = [m])
    (hm : m ≠ 1) : gradMatMul x y grad = .error .runtimeError := by
  unfold gradMatMul
  simp [hx, hy, hg, bind, Except.bind, pure, Except.pure, unsqueeze0, transpose, matmul, Ne.symm hm]

/-- such a product is computed without an error in the forward direction -/
example : ((matmul (ofRows [[1, 2], [3, 4]]) (ofList [5, (6 : ℚ)])).toOption.map fun r => (r.shape, r.at_ [0], r.at_ [1]))
    = some ([2], 17, 39) := by
  decide +kernel

/-! ## Convolutions -/

/-- an image or kernels whose elements are `0, 1, 2, …` -/
def counting (s : List Nat) : Tensor ℚ := ⟨s, fun idx => flat s idx⟩

/-- the arguments of one number for both dimensions -/
def sizes (s p d g : Nat) : ConvSizes := ⟨.one s, .one p, .one d, g⟩

/-- `loss = x.conv2d(w, stride=2).sum()` for a 4×4 image and two 2×2 kernels: both gradients -/
example :
    let prog : List (Step ℚ) := [.leaf true, .leaf true, .op (.conv2d 0 1 (sizes 2 0 1 1)), .op (.sum 2)]
    let leaves := fun i => if i = 0 then counting [1, 1, 4, 4] else counting [2, 1, 2, 2]
    elements (gradients leaves prog 3 1 0) = some (some ([1, 1, 4, 4], [4, 6, 4, 6, 8, 10, 8, 10, 4, 6, 4, 6, 8, 10, 8, 10])) ∧
    elements (gradients leaves prog 3 1 1) = some (some ([2, 1, 2, 2], [20, 24, 36, 40, 20, 24, 36, 40])) := by
  decide +kernel

/-- C48 (negation): the gradient of a convolution of several images, or of images with several channels, cannot be computed:
the convolution with `groups` for the gradient of the kernels is refused (see `C63_refused`), in every run. -/
theorem C48_conv2d_channels_fail (x w grad : Tensor ℚ) (a : ConvSizes) (n c h v o ci kh kw gh gv : Nat) (hx : x.shape = [n, c, h, v])
    (hw : w.shape = [o, ci, kh, kw]) (hg : grad.shape = [n, o, gh, gv]) (hn : n * c ≠ 1) : ∃ e, gradConv2d x w a grad = .error e := by
  have kernel : ∀ s p d g, ∃ e, gradKernel x grad kh kw s p d g = .error e := by
    intro s p d g
    obtain ⟨xs, xa⟩ := x
    obtain ⟨gs, ga⟩ := grad
    dsimp only at hx hg
    subst hx hg
    unfold gradKernel repeatChannels
    simp only [ok_bind]
    unfold reshape
    simp only [List.getD_cons_zero, List.getD_cons_succ]
    rw [if_pos (by simp [numel]; ring), ok_bind, if_pos (by simp [numel]; ring), ok_bind]
    have e : ∀ (x g : Tensor ℚ) (b : Conv.Args) (f : Tensor ℚ → Py (Tensor ℚ)) (m i j : Nat), x.shape = [1, n * c, h, v] →
        g.shape = [m, 1, i, j] → ∃ e, (Conv.ConvOp.secret .conv2d b x g >>= f) = .error e := by
      intro x g b f m i j hx hg
      unfold Conv.ConvOp.secret
      cases Conv.ConvOp.run .conv2d b x g with
      | error e => exact ⟨e, rfl⟩
      | ok r =>
        refine ⟨.runtimeError, ?_⟩
        have : Conv.ConvOp.conv2d.shape .default [1, n * c, h, v] [m, 1, i, j] = .error .runtimeError :=
          if_pos (show 1 = 0 ∨ m < 1 ∨ m % 1 ≠ 0 ∨ n * c ≠ 1 * 1 by omega)
        rw [ok_bind, hx, hg, this]
        rfl
    refine e _ _ _ _ (n * (o * (c / g))) gh gv ?_ ?_ <;> rfl
  unfold gradConv2d
  rw [hx, hw, hg]
  dsimp only
  split
  · next s p d _ _ _ =>
    obtain ⟨e, he⟩ := kernel s p d a.groups
    cases inputPadding gh h kh s p d with
    | error e => exact ⟨e, rfl⟩
    | ok oh =>
      cases inputPadding gv v kw s p d with
      | error e => exact ⟨e, rfl⟩
      | ok ov =>
        rw [ok_bind, ok_bind]
        cases Conv.ConvOp.secret .convTranspose2d ⟨(s, s), (oh, ov), (d, d), a.groups⟩ grad w with
        | error e => exact ⟨e, rfl⟩
        | ok _ => exact ⟨e, by rw [ok_bind, he]; rfl⟩
  · exact ⟨_, rfl⟩

/-- C48 (negation): a stride, padding or dilation that is given as a pair raises `TypeError` in `backward`. -/
theorem C48_conv2d_pairs_fail (x w grad : Tensor ℚ) (a : ConvSizes) (n c h v o ci kh kw m q gh gv : Nat)
    (hx : x.shape = [n, c, h, v]) (hw : w.shape = [o, ci, kh, kw]) (hg : grad.shape = [m, q, gh, gv])
    (hp : (∃ i j, a.stride = .pair i j) ∨ (∃ i j, a.padding = .pair i j) ∨ ∃ i j, a.dilation = .pair i j) :
    gradConv2d x w a grad = .error .typeError := by
  unfold gradConv2d
  rw [hx, hw, hg]
  dsimp only
  split
  · next s p d e1 e2 e3 => rcases hp with ⟨i, j, e⟩ | ⟨i, j, e⟩ | ⟨i, j, e⟩ <;> simp_all
  · rfl

/-- the convolutions of the two theorems are computed in the forward direction -/
example : ((Conv.ConvOp.secret .conv2d (sizes 1 0 1 1).args (counting [2, 1, 2, 2]) (counting [1, 1, 2, 2])).toOption.map
      fun r => (r.shape, (indices r.shape).map r.at_)) = some ([2, 1, 1, 1], [14, 38]) ∧
    ((Conv.ConvOp.secret .conv2d (ConvSizes.args ⟨.pair 1 2, .one 0, .one 1, 1⟩) (counting [1, 1, 3, 4]) (counting [1, 1, 2, 2])).toOption.map
      fun r => (r.shape, (indices r.shape).map r.at_)) = some ([1, 1, 2, 2], [24, 36, 48, 60]) := by
  decide +kernel

/-- C48 (negation): the gradient of the image has the height `h` of the image only if `2 * padding` is three times the rows of
the image below the last window: the padding that `_grad_input_padding` computes for the output of the transposed convolution is
passed as its input padding, and the padding itself is not passed. -/
theorem C48_conv2d_image_height (x w grad xg wg : Tensor ℚ) (s p d g n c h v o ci kh kw m q gh gv : Nat)
    (hx : x.shape = [n, c, h, v]) (hw : w.shape = [o, ci, kh, kw]) (hg : grad.shape = [m, q, gh, gv])
    (hr : gradConv2d x w (sizes s p d g) grad = .ok [xg, wg]) :
    ∃ rest h' v', rest < s ∧ (gh - 1) * s + d * (kh - 1) + 1 + rest = h + 2 * p ∧ xg.shape = [m, ci * g, h', v'] ∧
      h' + 3 * rest = h + 2 * p ∧ (h' = h ↔ 2 * p = 3 * rest) := by
  unfold gradConv2d sizes at hr
  rw [hx, hw, hg] at hr
  dsimp only at hr
  cases e1 : inputPadding gh h kh s p d with
  | error e => rw [e1] at hr; cases hr
  | ok oh =>
    cases e2 : inputPadding gv v kw s p d with
    | error e => rw [e1, e2] at hr; cases hr
    | ok ov =>
      rw [e1, e2, ok_bind, ok_bind] at hr
      cases e3 : Conv.ConvOp.secret .convTranspose2d ⟨(s, s), (oh, ov), (d, d), g⟩ grad w with
      | error e => rw [e3] at hr; cases hr
      | ok xg' =>
        rw [e3, ok_bind] at hr
        cases e4 : gradKernel x grad kh kw s p d g with
        | error e => rw [e4] at hr; cases hr
        | ok wg' =>
          rw [e4, ok_bind] at hr
          obtain ⟨rfl, -⟩ : xg' = xg ∧ wg' = wg := by simpa using Except.ok.inj hr
          unfold Conv.ConvOp.secret Conv.ConvOp.run at e3
          rw [hg, hw] at e3
          cases e5 : Conv.ConvOp.convTranspose2d.shape ⟨(s, s), (oh, ov), (d, d), g⟩ [m, q, gh, gv] [o, ci, kh, kw] with
          | error e => rw [e5] at e3; cases e3
          | ok sh =>
            rw [e5, ok_bind, pure_eq_ok, ok_bind] at e3
            cases e6 : Conv.ConvOp.convTranspose2d.shape .default [m, q, gh, gv] [o, ci, kh, kw] with
            | error e => rw [e6] at e3; cases e3
            | ok sh' =>
              rw [e6, ok_bind] at e3
              obtain rfl := Except.ok.inj e3
              obtain ⟨n', c', hh', v', o', ci', kh', kw', i, j, r1, r2, rfl, hs, -, r5⟩ := Conv.shape_ok e5
              cases r1
              cases r2
              obtain ⟨r6, -⟩ := r5
              unfold Conv.outDimT at r6
              split at r6
              · cases r6
              next hc =>
                unfold inputPadding at e1
                dsimp only at e1
                split at e1
                · cases e1
                next hc' =>
                  have q1 := Except.ok.inj e1
                  have q2 := Except.ok.inj r6
                  dsimp only at hc hc' q1 q2 hs
                  obtain ⟨G, rfl⟩ : ∃ G, gh = G + 1 := ⟨gh - 1, by omega⟩
                  obtain ⟨K, rfl⟩ : ∃ K, kh = K + 1 := ⟨kh - 1, by omega⟩
                  have z1 : ((G + 1 : Nat) : Int) - 1 = G := by omega
                  have z2 : ((K + 1 : Nat) : Int) - 1 = K := by omega
                  rw [z1, z2] at hc' q1
                  rw [Nat.add_sub_cancel, Nat.add_sub_cancel] at q2 hc
                  have z3 : (G : Int) * s = (G * s : Nat) := by push_cast; rfl
                  have z4 : (d : Int) * K = (d * K : Nat) := by push_cast; rfl
                  rw [z3, z4] at hc' q1
                  rw [Nat.add_sub_cancel, Nat.add_sub_cancel]
                  generalize G * s = A at *
                  generalize d * K = B at *
                  exact ⟨oh, i, j, by omega, by omega, rfl, by omega, by omega⟩

/-- C48 (negation): with `padding=1` the gradient of a 3×3 image has the shape 5×5; with `stride=2` that of a 4×4 image, of which the
last row and column are in no window of a 3×3 kernel, has the shape 1×1. -/
theorem C48_conv2d_wrong_shape :
    let prog : ConvSizes → List (Step ℚ) := fun a => [.leaf true, .leaf true, .op (.conv2d 0 1 a), .op (.sum 2)]
    (elements (gradients (fun i => if i = 0 then counting [1, 1, 3, 3] else counting [1, 1, 3, 3]) (prog (sizes 1 1 1 1)) 3 1 0)).map
      (·.map (·.1)) = some (some [1, 1, 5, 5]) ∧
    elements (gradients (fun i => if i = 0 then counting [1, 1, 4, 4] else counting [1, 1, 3, 3]) (prog (sizes 2 0 1 1)) 3 1 0)
      = some (some ([1, 1, 1, 1], [4])) := by
  decide +kernel

/-- C48 (negation): for a kernel with one row and two columns, `narrow` cuts the two dimensions of its gradient in the wrong order and
raises. -/
theorem C48_conv2d_rectangle_fails :
    (gradConv2d (counting [1, 1, 3, 3]) (counting [1, 1, 1, 2]) (sizes 1 0 1 1) (ones [1, 1, 3, 2])).toOption.isNone = true := by
  decide +kernel

/-! ## Values of recorded convolutions -/

/-- C48: a recorded convolution with a secret bias (which gets no gradient, see below) has the value that the textbook gives: each element is
that of the cross-correlation plus the number of its channel in the bias. -/
theorem C48_conv2d_value (x w b : Tensor ℚ) (a : ConvSizes) (N O I J : Nat) (sh : List Nat)
    (hs : Conv.ConvOp.conv2d.shape a.args x.shape w.shape = .ok [N, O, I, J])
    (hd : Conv.ConvOp.conv2d.shape .default x.shape w.shape = .ok sh) (hb : b.shape = [O]) :
    ∃ r fn, convForward x w (some b) a = .ok (r, fn) ∧ r.shape = [N, O, I, J] ∧
      ∀ n m i j, n < N → m < O → i < I → j < J →
        r.at_ [n, m, i, j] = Conv.textbook .conv2d a.args x.shape w.shape x.at_ w.at_ n m i j + b.at_ [m] := by
  have hsec : Conv.ConvOp.secret .conv2d a.args x w = .ok ⟨[N, O, I, J], Conv.ConvOp.at .conv2d a.args x.shape w.shape x.at_ w.at_⟩ := by
    unfold Conv.ConvOp.secret Conv.ConvOp.run
    rw [hs, ok_bind, pure_eq_ok, ok_bind, hd, ok_bind, pure_eq_ok]
  have hO : O ≠ 0 := by
    rintro rfl
    obtain ⟨n, c, hh, v, o, ci, kh, kw, i, j, -, -, e, -, -, hz⟩ := Conv.shape_ok hs
    cases e
    obtain ⟨-, -, p1, p2, -⟩ := hz
    exact absurd p1 (Nat.not_lt.mpr p2)
  obtain ⟨r, h1, h2, h3⟩ := zip_wide (· + ·) (⟨[N, O, I, J], Conv.ConvOp.at .conv2d a.args x.shape w.shape x.at_ w.at_⟩ : Tensor ℚ)
    ⟨[O, 1, 1], fun idx => b.at_ (idx.take 1)⟩ ⟨by simp, by simp⟩
  refine ⟨r, gradConv2d x w a, ?_, h2, fun n m i j hn hm hi hj => ?_⟩
  · unfold convForward
    rw [hsec, ok_bind]
    dsimp only
    have : withBias ⟨[N, O, I, J], Conv.ConvOp.at .conv2d a.args x.shape w.shape x.at_ w.at_⟩ b = .ok r := by
      unfold withBias
      rw [hb]
      cases O with
      | zero => exact absurd rfl hO
      | succ O => exact h1
    rw [this, ok_bind, pure_eq_ok]
  · rw [h3 [n, m, i, j] (show ValidIdx [N, O, I, J] [n, m, i, j] from ⟨hn, hm, hi, hj, trivial⟩)]
    dsimp only
    rw [Conv.at_textbook .conv2d a.args _ _ _ hs]
    congr 1
    show b.at_ ((sourceIdx [O, 1, 1] [n, m, i, j]).take 1) = _
    unfold sourceIdx
    by_cases h : O = 1
    · subst h
      obtain rfl : m = 0 := by omega
      rfl
    · simp [h]

example : Conv.ConvOp.conv2d.shape (sizes 2 0 1 1).args [1, 1, 4, 4] [2, 1, 2, 2] = .ok [1, 2, 2, 2] ∧
    Conv.ConvOp.conv2d.shape .default [1, 1, 4, 4] [2, 1, 2, 2] = .ok [1, 2, 3, 3] := by decide

/-- C48 (negation): a `Conv2d` layer passes its kernels and its bias by keyword (`conv.py:64-83`), and only positional operands are
recorded: their gradients stay `None`, so that `SGD` does not train them.  The image gets its gradient. -/
theorem C48_conv2d_layer_not_trained :
    let prog : List (Step ℚ) := [.leaf true, .leaf true, .leaf true, .op (.conv2dLayer 0 1 (some 2) (sizes 2 0 1 1)), .op (.sum 3)]
    let leaves := fun i => if i = 0 then counting [1, 1, 4, 4] else if i = 1 then counting [2, 1, 2, 2] else ofList [1, 2]
    elements (gradients leaves prog 4 1 0) = some (some ([1, 1, 4, 4], [4, 6, 4, 6, 8, 10, 8, 10, 4, 6, 4, 6, 8, 10, 8, 10])) ∧
    elements (gradients leaves prog 4 1 1) = some none ∧ elements (gradients leaves prog 4 1 2) = some none := by
  decide +kernel

/-- C48 (negation): with a secret bias as third positional operand the convolution is computed, and `backward` raises: it has no third
gradient. -/
theorem C48_conv2d_bias_fails :
    let prog : List (Step ℚ) := [.leaf true, .leaf true, .leaf true, .op (.conv2dBias 0 1 2 (sizes 2 0 1 1)), .op (.sum 3)]
    let leaves := fun i => if i = 0 then counting [1, 1, 4, 4] else if i = 1 then counting [2, 1, 2, 2] else ofList [1, 2]
    elements (gradients leaves prog 4 0 0) = some none ∧
    (match gradients leaves prog 4 1 0 with | .error .indexError => true | _ => false) = true := by
  decide +kernel

end SyMPC.Grad
