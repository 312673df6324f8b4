import Verif.Lemmas.Shape
import Verif.Props.Shape
import Verif.Model.RstShape

/-!
# C82: replicated secrets compute with shapes like torch

A replicated secret holds a torch tensor when there are three shares of the tensor's shape that add up to it, every party has the two
that belong to it, and the secret reports the tensor's shape.  Operations keep this, with the tensor that torch computes in the clear, for
both security types.  Exceptions: the methods that replicated shares do not have, public operands that make a sum larger than the secret
(the other shares keep their shape), and products without elements with malicious security.
-/

namespace SyMPC.RShape

open Tensor Shape

variable {T : Type}

/-- a tensor with the given shape and elements -/
def Piece (s : List Nat) (f : List Nat → T) (t : Tensor T) : Prop := t.shape = s ∧ ∀ o, ValidIdx s o → t.at_ o = f o

theorem Piece.refl (t : Tensor T) : Piece t.shape t.at_ t := ⟨rfl, fun _ _ => rfl⟩

theorem zip_piece {A B C : Type} (g : A → B → C) {s : List Nat} {f : List Nat → A} {h : List Nat → B} {a : Tensor A} {b : Tensor B}
    (ha : Piece s f a) (hb : Piece s h b) : ∃ r, Tensor.zip g a b = .ok r ∧ Piece s (fun o => g (f o) (h o)) r := by
  obtain ⟨r, h1, h2, h3⟩ := Grad.zip_same g a b (hb.1.trans ha.1.symm)
  refine ⟨r, h1, h2.trans ha.1, fun o ho => ?_⟩
  rw [h3 o (ha.1 ▸ ho), ha.2 o ho, hb.2 o ho]

theorem sum3_piece [Add T] {s : List Nat} {f g h : List Nat → T} {a b c : Tensor T} (ha : Piece s f a) (hb : Piece s g b)
    (hc : Piece s h c) : ∃ r, sum3 a b c = .ok r ∧ Piece s (fun o => f o + g o + h o) r := by
  obtain ⟨r, h1, h2⟩ := zip_piece (· + ·) ha hb
  obtain ⟨q, i1, i2⟩ := zip_piece (· + ·) h2 hc
  refine ⟨q, ?_, i2⟩
  unfold sum3
  rw [h1, ok_bind, i1]

/-- the six tensors that the parties have of three shares -/
structure Pieces (s : List Nat) (f0 f1 f2 : List Nat → T) (h : Trio (Held T)) : Prop where
  a0 : Piece s f0 h.p0.1
  b0 : Piece s f1 h.p0.2
  a1 : Piece s f1 h.p1.1
  b1 : Piece s f2 h.p1.2
  a2 : Piece s f2 h.p2.1
  b2 : Piece s f0 h.p2.2

theorem pieces_distribute {s : List Nat} {f0 f1 f2 : List Nat → T} {l : Trio (Tensor T)} (h0 : Piece s f0 l.p0) (h1 : Piece s f1 l.p1)
    (h2 : Piece s f2 l.p2) : Pieces s f0 f1 f2 (distribute l) := ⟨h0, h1, h1, h2, h2, h0⟩

theorem semi_piece [Add T] {s : List Nat} {f0 f1 f2 : List Nat → T} {h : Trio (Held T)} (hp : Pieces s f0 f1 f2 h) :
    ∃ r, reconstructSemi h = .ok r ∧ Piece s (fun o => f0 o + f1 o + f2 o) r := sum3_piece hp.a0 hp.a1 hp.b1

variable [CommRing T]

theorem run_piece (op : BinOp) {xs ys z : List Nat} {f g : List Nat → T} {a b : Tensor T} (ha : Piece xs f a) (hb : Piece ys g b)
    (hs : op.shape xs ys = .ok z) : ∃ r, op.run a b = .ok r ∧ Piece z (elem op xs ys f g) r := by
  obtain ⟨h1, h2⟩ := ha
  obtain ⟨i1, i2⟩ := hb
  refine ⟨_, run_ok op a b z (by rw [h1, i1]; exact hs), rfl, fun o ho => ?_⟩
  show elem op a.shape b.shape a.at_ b.at_ o = _
  rw [h1, i1]
  exact elem_congr hs h2 i2 o ho

theorem run_piece_error (op : BinOp) {xs ys : List Nat} {f g : List Nat → T} {a b : Tensor T} (ha : Piece xs f a) (hb : Piece ys g b)
    {e : PyErr} (hs : op.shape xs ys = .error e) : op.run a b = .error e :=
  run_error op a b e (by rw [ha.1, hb.1]; exact hs)

/-- three shares of a tensor -/
def Split (l : Trio (Tensor T)) (v : Tensor T) : Prop :=
  l.p0.shape = v.shape ∧ l.p1.shape = v.shape ∧ l.p2.shape = v.shape ∧
    ∀ o, ValidIdx v.shape o → l.p0.at_ o + l.p1.at_ o + l.p2.at_ o = v.at_ o

/-- the parties have shares of the tensor, and its shape is reported -/
def Holds (x : RSecret T) (v : Tensor T) : Prop :=
  (∃ f0 f1 f2, Pieces v.shape f0 f1 f2 x.held ∧ ∀ o, ValidIdx v.shape o → f0 o + f1 o + f2 o = v.at_ o) ∧ x.shape = .size v.shape

theorem Holds.same {x : RSecret T} {v w : Tensor T} (h : Holds x v) (hs : Same v w) : Holds x w := by
  obtain ⟨⟨f0, f1, f2, h1, h2⟩, h3⟩ := h
  refine ⟨⟨f0, f1, f2, hs.1 ▸ h1, fun o ho => ?_⟩, by rw [h3, hs.1]⟩
  rw [← hs.1] at ho
  rw [h2 o ho, hs.2 o ho]

/-- sharing a tensor or a number -/
theorem C82_share (secret : Operand T) (draws : Nat → List Nat → T) : ∃ x, ofSecret secret draws = .ok x ∧ Holds x secret.enc := by
  refine ⟨_, rfl, ⟨_, _, _, pieces_distribute (Piece.refl _) (Piece.refl _) (Piece.refl _), fun o _ => ?_⟩, rfl⟩
  show draws 0 o + (draws 1 o - draws 0 o) + (secret.enc.at_ o - draws 1 o) = _
  ring

omit [CommRing T] in
theorem differs_false [DecidableEq T] {s : List Nat} {f : List Nat → T} {a b : Tensor T} (ha : Piece s f a) (hb : Piece s f b) :
    differs a b = .ok false := by
  obtain ⟨d, h1, h2⟩ := zip_piece (fun x y : T => decide (x ≠ y)) ha hb
  unfold differs
  rw [h1, ok_bind]
  show Except.ok _ = _
  rw [Except.ok.injEq, List.any_eq_false]
  intro o ho
  rw [h2.1] at ho
  rw [h2.2 o ((mem_indices _ _).mp ho)]
  simp

theorem malicious_piece [DecidableEq T] {s : List Nat} {f0 f1 f2 : List Nat → T} {h : Trio (Held T)} (hp : Pieces s f0 f1 f2 h) :
    ∃ r, reconstructMalicious h = .ok r ∧ Piece s (fun o => f0 o + f1 o + f2 o) r := by
  obtain ⟨v, a1, a2⟩ := sum3_piece hp.a0 hp.a1 hp.b1
  obtain ⟨v1, b1, b2⟩ := sum3_piece hp.a1 hp.a2 hp.b2
  obtain ⟨v2, c1, c2⟩ := sum3_piece hp.a2 hp.a0 hp.b0
  have b3 : Piece s (fun o => f0 o + f1 o + f2 o) v1 := ⟨b2.1, fun o ho => by rw [b2.2 o ho]; ring⟩
  have c3 : Piece s (fun o => f0 o + f1 o + f2 o) v2 := ⟨c2.1, fun o ho => by rw [c2.2 o ho]; ring⟩
  refine ⟨v, ?_, a2⟩
  unfold reconstructMalicious
  rw [a1, ok_bind, b1, ok_bind, differs_false b3 a2, ok_bind, c1]
  simp only [Bool.false_eq_true, if_false, ok_bind, differs_false c3 a2]
  rfl

/-- reconstructing gives the tensor -/
theorem C82_reconstruct [DecidableEq T] (security : Security) {x : RSecret T} {v : Tensor T} (h : Holds x v) :
    ∃ r, reconstruct security x = .ok r ∧ Same r v := by
  obtain ⟨⟨f0, f1, f2, h1, h2⟩, -⟩ := h
  have key : ∀ r, Piece v.shape (fun o => f0 o + f1 o + f2 o) r → Same r v := fun r hr =>
    ⟨hr.1, fun o ho => by rw [hr.1] at ho; rw [hr.2 o ho]; exact h2 o ho⟩
  cases security with
  | semiHonest =>
    obtain ⟨r, i1, i2⟩ := semi_piece h1
    exact ⟨r, i1, key r i2⟩
  | malicious =>
    obtain ⟨r, i1, i2⟩ := malicious_piece h1
    exact ⟨r, i1, key r i2⟩

omit [CommRing T] in
theorem differs_piece [DecidableEq T] {s : List Nat} {f g : List Nat → T} {a b : Tensor T} (ha : Piece s f a) (hb : Piece s g b) :
    differs a b = .ok (decide (∃ o, o ∈ indices s ∧ f o ≠ g o)) := by
  obtain ⟨d, h1, h2⟩ := zip_piece (fun x y : T => decide (x ≠ y)) ha hb
  unfold differs
  rw [h1, ok_bind]
  show Except.ok _ = _
  rw [Except.ok.injEq, Bool.eq_iff_iff, List.any_eq_true, decide_eq_true_eq, h2.1]
  refine exists_congr fun o => and_congr_right fun ho => ?_
  rw [h2.2 o ((mem_indices _ _).mp ho), decide_eq_true_eq]

/-- What malicious reconstruction decides, whatever six tensors of one shape the parties send: it gives the first party's sum when the
three sums agree, and raises `ValueError` otherwise. -/
theorem C82_reconstruct_decides [DecidableEq T] {x : RSecret T} {s : List Nat} {a0 b0 a1 b1 a2 b2 : List Nat → T}
    (h0 : Piece s a0 x.held.p0.1) (h0' : Piece s b0 x.held.p0.2) (h1 : Piece s a1 x.held.p1.1) (h1' : Piece s b1 x.held.p1.2)
    (h2 : Piece s a2 x.held.p2.1) (h2' : Piece s b2 x.held.p2.2) :
    ((∀ o, ValidIdx s o → a1 o + a2 o + b2 o = a0 o + a1 o + b1 o ∧ a2 o + a0 o + b0 o = a0 o + a1 o + b1 o) →
      ∃ r, reconstruct .malicious x = .ok r ∧ r.shape = s ∧ ∀ o, ValidIdx s o → r.at_ o = a0 o + a1 o + b1 o) ∧
    ((∃ o, ValidIdx s o ∧ ¬ (a1 o + a2 o + b2 o = a0 o + a1 o + b1 o ∧ a2 o + a0 o + b0 o = a0 o + a1 o + b1 o)) →
      reconstruct .malicious x = .error .valueError) := by
  obtain ⟨v, i1, i2⟩ := sum3_piece h0 h1 h1'
  obtain ⟨v1, j1, j2⟩ := sum3_piece h1 h2 h2'
  obtain ⟨v2, k1, k2⟩ := sum3_piece h2 h0 h0'
  have hr : reconstruct .malicious x = (do
      if decide (∃ o, o ∈ indices s ∧ a1 o + a2 o + b2 o ≠ a0 o + a1 o + b1 o) then throw .valueError
      if decide (∃ o, o ∈ indices s ∧ a2 o + a0 o + b0 o ≠ a0 o + a1 o + b1 o) then throw .valueError
      return v) := by
    unfold reconstruct reconstructMalicious
    dsimp only
    rw [i1, ok_bind, j1, ok_bind, differs_piece j2 i2, ok_bind]
    split
    · rfl
    · simp only [k1, ok_bind, differs_piece k2 i2]
  rw [hr]
  refine ⟨fun h => ⟨v, ?_, i2⟩, fun ⟨o, ho, hne⟩ => ?_⟩
  · have n1 : ¬ ∃ o, o ∈ indices s ∧ a1 o + a2 o + b2 o ≠ a0 o + a1 o + b1 o := fun ⟨o, ho, hne⟩ => hne (h o ((mem_indices _ _).mp ho)).1
    have n2 : ¬ ∃ o, o ∈ indices s ∧ a2 o + a0 o + b0 o ≠ a0 o + a1 o + b1 o := fun ⟨o, ho, hne⟩ => hne (h o ((mem_indices _ _).mp ho)).2
    rw [decide_eq_false n1, decide_eq_false n2]
    rfl
  · by_cases hd : ∃ o, o ∈ indices s ∧ a1 o + a2 o + b2 o ≠ a0 o + a1 o + b1 o
    · rw [decide_eq_true hd]
      rfl
    · have hd2 : ∃ o, o ∈ indices s ∧ a2 o + a0 o + b0 o ≠ a0 o + a1 o + b1 o := by
        refine ⟨o, (mem_indices _ _).mpr ho, fun h2 => hne ⟨?_, h2⟩⟩
        by_contra h1
        exact hd ⟨o, (mem_indices _ _).mpr ho, h1⟩
      rw [decide_eq_false hd, decide_eq_true hd2]
      rfl

/-! ### Sums of secrets -/

theorem heldOp_piece (op : BinOp) {xs ys z : List Nat} {f g f' g' : List Nat → T} {a b : Held T} (ha : Piece xs f a.1) (ha' : Piece xs f' a.2)
    (hb : Piece ys g b.1) (hb' : Piece ys g' b.2) (hs : op.shape xs ys = .ok z) :
    ∃ r, heldOp op (a, b) = .ok r ∧ Piece z (elem op xs ys f g) r.1 ∧ Piece z (elem op xs ys f' g') r.2 := by
  obtain ⟨r, h1, h2⟩ := run_piece op ha hb hs
  obtain ⟨q, i1, i2⟩ := run_piece op ha' hb' hs
  refine ⟨(r, q), ?_, h2, i2⟩
  unfold heldOp
  rw [h1, ok_bind, i1, ok_bind]
  rfl

theorem trio_run {A B : Type} (f : A → Py B) (t : Trio A) {a b c : B} (ha : f t.p0 = .ok a) (hb : f t.p1 = .ok b) (hc : f t.p2 = .ok c) :
    t.run f = .ok ⟨a, b, c⟩ := by
  unfold Trio.run
  rw [ha, ok_bind, hb, ok_bind, hc]
  rfl

theorem pieces_op (op : BinOp) {xs ys z : List Nat} {f0 f1 f2 g0 g1 g2 : List Nat → T} {x y : Trio (Held T)} (hx : Pieces xs f0 f1 f2 x)
    (hy : Pieces ys g0 g1 g2 y) (hs : op.shape xs ys = .ok z) :
    ∃ r, (x.zip y).run (heldOp op) = .ok r ∧ Pieces z (elem op xs ys f0 g0) (elem op xs ys f1 g1) (elem op xs ys f2 g2) r := by
  obtain ⟨a, a1, a2, a3⟩ := heldOp_piece op hx.a0 hx.b0 hy.a0 hy.b0 hs
  obtain ⟨b, b1, b2, b3⟩ := heldOp_piece op hx.a1 hx.b1 hy.a1 hy.b1 hs
  obtain ⟨c, c1, c2, c3⟩ := heldOp_piece op hx.a2 hx.b2 hy.a2 hy.b2 hs
  exact ⟨⟨a, b, c⟩, trio_run _ _ a1 b1 c1, a2, a3, b2, b3, c2, c3⟩

/-- sums and differences of two secrets: as torch, with broadcasting -/
theorem C82_private {x y : RSecret T} {v w : Tensor T} (hx : Holds x v) (hy : Holds y w) (op : BinOp) (hop : op = .add ∨ op = .sub) :
    (∀ u, op.run v w = .ok u → ∃ r, opPrivate op x y = .ok r ∧ Holds r u) ∧
      (∀ e, op.run v w = .error e → opPrivate op x y = .error e) := by
  obtain ⟨⟨f0, f1, f2, h1, h2⟩, h3⟩ := hx
  obtain ⟨⟨g0, g1, g2, i1, i2⟩, i3⟩ := hy
  unfold opPrivate
  rw [h3, i3, getShape_size]
  cases hs : op.shape v.shape w.shape with
  | error e =>
    rw [run_error op v w e hs]
    refine ⟨fun _ h => (by cases h), fun e' he => ?_⟩
    cases he
    unfold Trio.run heldOp
    dsimp only [Trio.zip]
    rw [run_piece_error op h1.a0 i1.a0 hs]
    rfl
  | ok z =>
    rw [run_ok op v w z hs]
    refine ⟨fun u h => ?_, fun _ h => by cases h⟩
    cases h
    obtain ⟨r, j1, j2⟩ := pieces_op op h1 i1 hs
    refine ⟨⟨r, .size z⟩, by rw [j1]; rfl, ⟨_, _, _, j2, fun o ho => ?_⟩, rfl⟩
    obtain ⟨b1, b2⟩ := broadcast_of_shape (by rcases hop with rfl | rfl <;> decide) hs
    have e1 := h2 _ (sourceIdx_valid _ _ _ b1 ho)
    have e2 := i2 _ (sourceIdx_valid _ _ _ b2 ho)
    rcases hop with rfl | rfl
    · change _ + _ + (_ + _) + (_ + _) = v.at_ _ + w.at_ _
      rw [← e1, ← e2]
      ring
    · change _ - _ + (_ - _) + (_ - _) = v.at_ _ - w.at_ _
      rw [← e1, ← e2]
      ring

/-! ### Methods -/

theorem method_piece (m : Method) {s z : List Nat} {src : List Nat → List (List Nat)} (hp : m.plan s = .ok (z, src)) {f : List Nat → T}
    {t : Tensor T} (ht : Piece s f t) : ∃ r, m.run t = .ok r ∧ Piece z (fun o => ((src o).map f).sum) r := by
  refine ⟨⟨z, fun o => ((src o).map t.at_).sum⟩, ?_, rfl, fun o ho => ?_⟩
  · unfold Method.run
    rw [ht.1, hp]
    rfl
  · exact list_sum_congr _ _ _ fun p hm => ht.2 p (plan_valid hp o ho p hm)

/-- the methods of replicated shares do on secrets what torch does on tensors -/
theorem C82_methods {x : RSecret T} {v : Tensor T} (h : Holds x v) (m : Method) (hm : supported m) :
    (∀ w, m.run v = .ok w → ∃ r, hook m x = .ok r ∧ Holds r w) ∧ (∀ e, m.run v = .error e → hook m x = .error e) := by
  obtain ⟨⟨f0, f1, f2, h1, h2⟩, h3⟩ := h
  have hh : hook m x = (do
      let held ← x.held.run (heldMethod m)
      let s ← x.shape.tuple
      let r ← m.run (⟨s, fun _ => 0⟩ : Tensor Int)
      return ⟨held, .size r.shape⟩) := by
    unfold hook
    rw [hm]
    rfl
  rw [hh, h3]
  cases hp : m.plan v.shape with
  | error e =>
    have key : ∀ s : Tensor T, s.shape = v.shape → m.run s = .error e := by
      intro s hs
      unfold Method.run
      rw [hs, hp]
      rfl
    rw [key v rfl]
    refine ⟨fun w hw => (by cases hw), fun e' he => ?_⟩
    cases he
    unfold Trio.run heldMethod
    rw [key _ h1.a0.1]
    rfl
  | ok p =>
    obtain ⟨z, src⟩ := p
    obtain ⟨w, w1, w2⟩ := method_piece m hp (Piece.refl v)
    obtain ⟨a, a1, a2⟩ := method_piece m hp h1.a0
    obtain ⟨a', a1', a2'⟩ := method_piece m hp h1.b0
    obtain ⟨b, b1, b2⟩ := method_piece m hp h1.a1
    obtain ⟨b', b1', b2'⟩ := method_piece m hp h1.b1
    obtain ⟨c, c1, c2⟩ := method_piece m hp h1.a2
    obtain ⟨c', c1', c2'⟩ := method_piece m hp h1.b2
    rw [w1]
    refine ⟨fun u hu => ?_, fun _ h => by cases h⟩
    cases hu
    have hr : x.held.run (heldMethod m) = .ok ⟨(a, a'), (b, b'), (c, c')⟩ := by
      refine trio_run _ _ ?_ ?_ ?_ <;> unfold heldMethod
      · rw [a1, ok_bind, a1']; rfl
      · rw [b1, ok_bind, b1']; rfl
      · rw [c1, ok_bind, c1']; rfl
    have hz : m.run (⟨v.shape, fun _ => 0⟩ : Tensor Int) = .ok ⟨z, fun o => ((src o).map fun _ => (0 : Int)).sum⟩ := by
      unfold Method.run
      rw [show (⟨v.shape, fun _ => 0⟩ : Tensor Int).shape = v.shape from rfl, hp]
      rfl
    refine ⟨⟨⟨(a, a'), (b, b'), (c, c')⟩, .size z⟩, ?_, ⟨_, _, _, ⟨w2.1 ▸ a2, w2.1 ▸ a2', w2.1 ▸ b2, w2.1 ▸ b2', w2.1 ▸ c2, w2.1 ▸ c2'⟩, fun o ho => ?_⟩, by rw [w2.1]⟩
    · rw [hr, ok_bind]
      simp only [Reported.tuple, ok_bind]
      rw [hz]
      rfl
    · rw [w2.1] at ho
      rw [w2.2 o ho, ← List.sum_map_add, ← List.sum_map_add]
      exact list_sum_congr _ _ _ fun p hmem => h2 p (plan_valid hp o ho p hmem)

/-- the other methods of `MPCTensor` raise `AttributeError` -/
theorem C82_methods_missing (x : RSecret T) (m : Method)
    (hm : m ∈ [.squeeze, .flatten, .dim] ∨ (∃ i j, m = .transpose i j) ∨ (∃ s, m = .reshape s) ∨ ∃ d i n, m = .narrow d i n) :
    hook m x = .error .attributeError := by
  have : supported m = false := by
    rcases hm with hm | ⟨_, _, rfl⟩ | ⟨_, rfl⟩ | ⟨_, _, _, rfl⟩
    · simp only [List.mem_cons, List.not_mem_nil, or_false] at hm
      rcases hm with rfl | rfl | rfl <;> rfl
    all_goals rfl
  unfold hook
  rw [this]
  rfl

/-! ### Truncation -/

theorem holds_split {x : RSecret T} {v : Tensor T} (h : Holds x v) : Split ⟨x.held.p0.1, x.held.p1.1, x.held.p1.2⟩ v := by
  obtain ⟨⟨f0, f1, f2, h1, h2⟩, -⟩ := h
  exact ⟨h1.a0.1, h1.a1.1, h1.b1.1, fun o ho => by rw [← h2 o ho, ← h1.a0.2 o ho, ← h1.a1.2 o ho, ← h1.b1.2 o ho]⟩

/-- what three shares give after the truncation -/
def cutValue (cut : T → T) (s : List Nat) (z : Trio (Tensor T)) : Tensor T := ⟨s, fun o => cut (z.p0.at_ o) + cut (z.p1.at_ o + z.p2.at_ o)⟩

omit [CommRing T] in
theorem map_piece {A B : Type} (g : A → B) {s : List Nat} {f : List Nat → A} {t : Tensor A} (h : Piece s f t) :
    Piece s (fun o => g (f o)) (Grad.map g t) := ⟨h.1, fun o ho => congrArg g (h.2 o ho)⟩

theorem truncation_ok (cut : T → T) (rand : List Nat → T) {z : Trio (Tensor T)} {v : Tensor T} (h : Split z v) :
    ∃ held, truncation cut rand z (.size v.shape) = .ok held ∧ Holds ⟨held, .size v.shape⟩ (cutValue cut v.shape z) := by
  obtain ⟨h0, h1, h2, -⟩ := h
  have r : Piece v.shape rand ⟨v.shape, rand⟩ := ⟨rfl, fun _ _ => rfl⟩
  obtain ⟨a, a1, a2⟩ := zip_piece (· + ·) (h1 ▸ Piece.refl z.p1 : Piece v.shape z.p1.at_ z.p1) (h2 ▸ Piece.refl z.p2 : Piece v.shape z.p2.at_ z.p2)
  obtain ⟨b, b1, b2⟩ := zip_piece (· - ·) (map_piece cut a2) r
  have c := map_piece cut (h0 ▸ Piece.refl z.p0 : Piece v.shape z.p0.at_ z.p0)
  refine ⟨distribute ⟨Grad.map cut z.p0, b, ⟨v.shape, rand⟩⟩, ?_, ⟨_, _, _, pieces_distribute c b2 r, fun o _ => ?_⟩, rfl⟩
  · unfold truncation
    simp only [Reported.tuple, ok_bind]
    rw [a1, ok_bind, b1]
    rfl
  · show _ = cut (z.p0.at_ o) + cut (z.p1.at_ o + z.p2.at_ o)
    ring

/-! ### Public operands -/

theorem heldPublic_piece (op : BinOp) {xs ys z : List Nat} {f f' g : List Nat → T} {a : Held T} {y : Tensor T} (ha : Piece xs f a.1)
    (ha' : Piece xs f' a.2) (hy : Piece ys g y) (hs : op.shape xs ys = .ok z) :
    ∃ r, heldPublic op y a = .ok r ∧ Piece z (elem op xs ys f g) r.1 ∧ Piece z (elem op xs ys f' g) r.2 := by
  obtain ⟨r, h1, h2⟩ := run_piece op ha hy hs
  obtain ⟨q, i1, i2⟩ := run_piece op ha' hy hs
  refine ⟨(r, q), ?_, h2, i2⟩
  unfold heldPublic
  rw [h1, ok_bind, i1]
  rfl

/-- three summands in the first factor -/
theorem elem_sum3_left {op : BinOp} (hop : op = .mul ∨ op = .matmul) (xs ys : List Nat) (f0 f1 f2 g : List Nat → T) (o : List Nat) :
    elem op xs ys f0 g o + elem op xs ys f1 g o + elem op xs ys f2 g o = elem op xs ys (fun i => f0 i + f1 i + f2 i) g o := by
  rw [elem_add_left hop xs ys (fun i => f0 i + f1 i), elem_add_left hop]

/-- products with an encoded public operand, before the truncation -/
theorem publicProduct {x : RSecret T} {v : Tensor T} (hx : Holds x v) (op : BinOp) (hop : op = .mul ∨ op = .matmul) (y : Operand T) :
    (∀ u, op.run v y.enc = .ok u → ∃ r, opPublic op x y = .ok r ∧ Holds r u) ∧
      (∀ e, op.run v y.enc = .error e → opPublic op x y = .error e) := by
  obtain ⟨⟨f0, f1, f2, h1, h2⟩, h3⟩ := hx
  have happ : applyPublic op x y = x.held.run (heldPublic op y.enc) := by rcases hop with rfl | rfl <;> rfl
  unfold opPublic
  rw [h3, enc_shape, getShape_size, happ]
  have hy := Piece.refl y.enc
  cases hs : op.shape v.shape y.enc.shape with
  | error e =>
    rw [run_error op v y.enc e hs]
    refine ⟨fun _ h => (by cases h), fun e' he => ?_⟩
    cases he
    unfold Trio.run heldPublic
    rw [run_piece_error op h1.a0 hy hs]
    rfl
  | ok z =>
    rw [run_ok op v y.enc z hs]
    refine ⟨fun u h => ?_, fun _ h => by cases h⟩
    cases h
    obtain ⟨a, a1, a2, a3⟩ := heldPublic_piece op h1.a0 h1.b0 hy hs
    obtain ⟨b, b1, b2, b3⟩ := heldPublic_piece op h1.a1 h1.b1 hy hs
    obtain ⟨c, c1, c2, c3⟩ := heldPublic_piece op h1.a2 h1.b2 hy hs
    refine ⟨⟨⟨a, b, c⟩, .size z⟩, by rw [trio_run _ _ a1 b1 c1]; rfl, ⟨_, _, _, ⟨a2, a3, b2, b3, c2, c3⟩, fun o ho => ?_⟩, rfl⟩
    rw [elem_sum3_left hop]
    exact elem_congr hs h2 (fun _ _ => rfl) o ho

/-- sums with an encoded public operand that is not larger than the secret -/
theorem publicSum {x : RSecret T} {v : Tensor T} (hx : Holds x v) (op : BinOp) (hop : op = .add ∨ op = .sub) (y : Operand T) :
    (∀ u, op.run v y.enc = .ok u → u.shape = v.shape → ∃ r, opPublic op x y = .ok r ∧ Holds r u) ∧
      (∀ e, op.run v y.enc = .error e → opPublic op x y = .error e) := by
  obtain ⟨⟨f0, f1, f2, h1, h2⟩, h3⟩ := hx
  have happ : applyPublic op x y = (do
      let a ← op.run x.held.p0.1 y.enc
      let b ← op.run x.held.p2.2 y.enc
      return ⟨(a, x.held.p0.2), x.held.p1, (x.held.p2.1, b)⟩) := by rcases hop with rfl | rfl <;> rfl
  unfold opPublic
  rw [h3, enc_shape, getShape_size, happ]
  have hy := Piece.refl y.enc
  cases hs : op.shape v.shape y.enc.shape with
  | error e =>
    rw [run_error op v y.enc e hs]
    refine ⟨fun _ h => (by cases h), fun e' he => ?_⟩
    cases he
    rw [run_piece_error op h1.a0 hy hs]
    rfl
  | ok z =>
    rw [run_ok op v y.enc z hs]
    refine ⟨fun u h hk => ?_, fun _ h => by cases h⟩
    cases h
    have hk : z = v.shape := hk
    subst hk
    obtain ⟨a, a1, a2⟩ := run_piece op h1.a0 hy hs
    obtain ⟨b, b1, b2⟩ := run_piece op h1.b2 hy hs
    refine ⟨⟨⟨(a, x.held.p0.2), x.held.p1, (x.held.p2.1, b)⟩, .size v.shape⟩, ?_, ⟨_, _, _, ⟨a2, h1.b0, h1.a1, h1.b1, h1.a2, b2⟩, fun o ho => ?_⟩,
      rfl⟩
    · rw [a1, ok_bind, b1]
      rfl
    · have e1 := h2 o ho
      have e2 : sourceIdx v.shape o = o := Grad.sourceIdx_self _ _ ho
      rcases hop with rfl | rfl
      · change f0 (sourceIdx v.shape o) + _ + _ + _ = v.at_ (sourceIdx v.shape o) + _
        rw [e2, ← e1]
        ring
      · change f0 (sourceIdx v.shape o) - _ + _ + _ = v.at_ (sourceIdx v.shape o) - _
        rw [e2, ← e1]
        ring

/-- operations with public operands, before the truncation: as torch -/
theorem public_ok {x : RSecret T} {v : Tensor T} (hx : Holds x v) (op : BinOp) (y : Operand T) (hf : Fits op v y) :
    (∀ u, op.run v y.plain = .ok u → ∃ r, opPublic op x y = .ok r ∧ Holds r u) ∧
      (∀ e, op.run v y.plain = .error e → opPublic op x y = .error e) := by
  have hcases : (op = .add ∨ op = .sub) ∨ (op = .mul ∨ op = .matmul) := by cases op <;> simp
  cases y with
  | number a =>
    obtain ⟨u, u', h1, h2, h3, h4⟩ := number_same op hf.1 v hf.2 a
    rw [h2]
    refine ⟨fun w hw => ?_, fun _ h => by cases h⟩
    cases hw
    rcases hcases with hop | hop
    · obtain ⟨r, i1, i4⟩ := (publicSum hx op hop (.number a)).1 u h1 h3
      exact ⟨r, i1, i4.same h4⟩
    · obtain ⟨r, i1, i2⟩ := (publicProduct hx op hop (.number a)).1 u h1
      exact ⟨r, i1, i2.same h4⟩
  | tensor t =>
    rcases hcases with hop | hop
    · exact ⟨fun u hu => (publicSum hx op hop (.tensor t)).1 u hu (hf hop u hu), (publicSum hx op hop (.tensor t)).2⟩
    · exact publicProduct hx op hop (.tensor t)

/-! ### Products of secrets -/

/-- what a party computes of the product of three shares with three others -/
def cross (op : BinOp) (xs ys z : List Nat) (gen : Nat → Nat → T) (rank : Nat) (f f' g g' : List Nat → T) (o : List Nat) : T :=
  elem op xs ys f g o + elem op xs ys f' g o + elem op xs ys f g' o +
    (gen rank (Grad.flat z o) - gen ((rank + 1) % 3) (Grad.flat z o))

omit [CommRing T] in
theorem drawn_piece (gen : Nat → T) (s : List Nat) : Piece s (fun o => gen (Grad.flat s o)) (drawn gen s) := ⟨rfl, fun _ _ => rfl⟩

theorem zValue_piece (op : BinOp) (gen : Nat → Nat → T) (rank : Nat) {xs ys z : List Nat} {f f' g g' : List Nat → T} {a b : Held T}
    (ha : Piece xs f a.1) (ha' : Piece xs f' a.2) (hb : Piece ys g b.1) (hb' : Piece ys g' b.2) (hs : op.shape xs ys = .ok z) :
    ∃ r, zValue op gen rank a b = .ok r ∧ Piece z (cross op xs ys z gen rank f f' g g') r := by
  obtain ⟨p, p1, p2⟩ := run_piece op ha hb hs
  obtain ⟨q, q1, q2⟩ := run_piece op ha' hb hs
  obtain ⟨r, r1, r2⟩ := run_piece op ha hb' hs
  obtain ⟨s, s1, s2⟩ := sum3_piece p2 q2 r2
  obtain ⟨m, m1, m2⟩ := zip_piece (· - ·) (drawn_piece (gen rank) z) (drawn_piece (gen ((rank + 1) % 3)) z)
  obtain ⟨t, t1, t2⟩ := zip_piece (· + ·) s2 m2
  refine ⟨t, ?_, t2⟩
  unfold zValue crossTerms
  rw [p1, ok_bind, q1, ok_bind, r1, ok_bind, s1, ok_bind, ha.1, hb.1, hs, ok_bind, m1, ok_bind, t1]

theorem elem_sum3_right {op : BinOp} (hop : op = .mul ∨ op = .matmul) (xs ys : List Nat) (f g0 g1 g2 : List Nat → T) (o : List Nat) :
    elem op xs ys f g0 o + elem op xs ys f g1 o + elem op xs ys f g2 o = elem op xs ys f (fun i => g0 i + g1 i + g2 i) o := by
  rw [elem_add_right hop xs ys f (fun i => g0 i + g1 i), elem_add_right hop]

/-- the shares of a product add up to it: the masks cancel -/
theorem mulSemi_ok (op : BinOp) (hop : op = .mul ∨ op = .matmul) (gen : Nat → Nat → T) {x y : RSecret T} {v w : Tensor T} (hx : Holds x v)
    (hy : Holds y w) :
    (∀ u, op.run v w = .ok u → ∃ z, mulSemi op gen x y = .ok (z, .size u.shape) ∧ Split z u) ∧
      (∀ e, op.run v w = .error e → mulSemi op gen x y = .error e) := by
  obtain ⟨⟨f0, f1, f2, h1, h2⟩, h3⟩ := hx
  obtain ⟨⟨g0, g1, g2, i1, i2⟩, i3⟩ := hy
  unfold mulSemi
  rw [h3, i3, getShape_size]
  cases hs : op.shape v.shape w.shape with
  | error e =>
    rw [run_error op v w e hs]
    refine ⟨fun _ h => (by cases h), fun e' he => ?_⟩
    cases he
    unfold zValue crossTerms
    rw [run_piece_error op h1.a0 i1.a0 hs]
    rfl
  | ok s =>
    rw [run_ok op v w s hs]
    refine ⟨fun u h => ?_, fun _ h => by cases h⟩
    cases h
    obtain ⟨a, a1, a2⟩ := zValue_piece op gen 0 h1.a0 h1.b0 i1.a0 i1.b0 hs
    obtain ⟨b, b1, b2⟩ := zValue_piece op gen 1 h1.a1 h1.b1 i1.a1 i1.b1 hs
    obtain ⟨c, c1, c2⟩ := zValue_piece op gen 2 h1.a2 h1.b2 i1.a2 i1.b2 hs
    refine ⟨⟨a, b, c⟩, ?_, a2.1, b2.1, c2.1, fun o ho => ?_⟩
    · rw [a1, ok_bind, b1, ok_bind, c1]
      rfl
    · have ho : ValidIdx s o := ho
      show a.at_ o + b.at_ o + c.at_ o = elem op v.shape w.shape v.at_ w.at_ o
      rw [a2.2 o ho, b2.2 o ho, c2.2 o ho]
      have e : elem op v.shape w.shape v.at_ w.at_ o =
          elem op v.shape w.shape (fun i => f0 i + f1 i + f2 i) (fun i => g0 i + g1 i + g2 i) o :=
        elem_congr hs (fun i hi => (h2 i hi).symm) (fun i hi => (i2 i hi).symm) o ho
      rw [e, ← elem_sum3_left hop, ← elem_sum3_right hop, ← elem_sum3_right hop, ← elem_sum3_right hop]
      unfold cross
      simp only [show (0 + 1) % 3 = 1 from rfl, show (1 + 1) % 3 = 2 from rfl, show (2 + 1) % 3 = 0 from rfl]
      ring

theorem Split.holds {z : Trio (Tensor T)} {v : Tensor T} (h : Split z v) : Holds ⟨distribute z, .size v.shape⟩ v := by
  obtain ⟨h0, h1, h2, h3⟩ := h
  exact ⟨⟨_, _, _, pieces_distribute (h0 ▸ Piece.refl z.p0) (h1 ▸ Piece.refl z.p1) (h2 ▸ Piece.refl z.p2), h3⟩, rfl⟩

theorem random_holds (gen : Nat → Nat → T) (s : List Nat) :
    Holds (random gen s) ⟨s, fun o => gen 0 (Grad.flat s o) + gen 1 (Grad.flat s o) + gen 2 (Grad.flat s o)⟩ :=
  ⟨⟨_, _, _, ⟨drawn_piece _ s, drawn_piece _ s, drawn_piece _ s, drawn_piece _ s, drawn_piece _ s, drawn_piece _ s⟩, fun _ _ => rfl⟩, rfl⟩

theorem Holds.semi {x : RSecret T} {v : Tensor T} (h : Holds x v) : ∃ r, reconstructSemi x.held = .ok r ∧ Piece v.shape v.at_ r := by
  obtain ⟨⟨f0, f1, f2, h1, h2⟩, -⟩ := h
  obtain ⟨r, i1, i2⟩ := semi_piece h1
  exact ⟨r, i1, i2.1, fun o ho => (i2.2 o ho).trans (h2 o ho)⟩

variable [DecidableEq T]

/-- the triple made for two shapes: `some` position is needed for the check to pass -/
theorem deal_ok (op : BinOp) (hop : op = .mul ∨ op = .matmul) (d : RDraws T) {xs ys z : List Nat} (hs : op.shape xs ys = .ok z) :
    ((∃ o, ValidIdx z o) → ∃ t va vb vc, deal op d xs ys = .ok t ∧ Holds ⟨t.a, .size xs⟩ va ∧ Holds ⟨t.b, .size ys⟩ vb ∧ Holds ⟨t.c, .size z⟩ vc ∧
      va.shape = xs ∧ vb.shape = ys ∧ vc.shape = z ∧ ∀ o, ValidIdx z o → vc.at_ o = elem op xs ys va.at_ vb.at_ o) ∧
    ((¬ ∃ o, ValidIdx z o) → deal op d xs ys = .error .valueError) := by
  have ha := random_holds d.a xs
  have hb := random_holds d.b ys
  obtain ⟨c, c1, c2⟩ := (mulSemi_ok op hop d.c ha hb).1 _ (run_ok op ⟨xs, _⟩ ⟨ys, _⟩ z hs)
  have hc := c2.holds
  obtain ⟨va, a1, a2⟩ := ha.semi
  obtain ⟨vb, b1, b2⟩ := hb.semi
  obtain ⟨vc, e1, e2⟩ := hc.semi
  obtain ⟨ab, f1, f2⟩ := run_piece op a2 b2 hs
  obtain ⟨wrong, g1, g2⟩ := zip_piece (fun x y : T => decide (x ≠ y)) e2 f2
  have hdeal : deal op d xs ys = if (indices wrong.shape).all wrong.at_ then .error .valueError
      else .ok ⟨(random d.a xs).held, (random d.b ys).held, distribute c⟩ := by
    unfold deal
    simp only [c1, ok_bind, a1, b1, e1, f1, g1]
    split <;> rfl
  have hnone : ∀ o, ValidIdx z o → wrong.at_ o = false := by
    intro o ho
    rw [g2.2 o ho]
    simp
  rw [hdeal, g2.1]
  refine ⟨fun ⟨o, ho⟩ => ⟨_, _, _, _, if_neg fun hall => ?_, ha, hb, hc, rfl, rfl, rfl, fun _ _ => rfl⟩, fun he => if_pos ?_⟩
  · rw [List.all_eq_true] at hall
    have := hall o ((mem_indices _ _).mpr ho)
    rw [hnone o ho] at this
    cases this
  · rw [List.all_eq_true]
    intro o ho
    exact absurd ⟨o, (mem_indices _ _).mp ho⟩ he

omit [DecidableEq T] in
theorem heldAdd_piece {s : List Nat} {f f' g g' : List Nat → T} {a b : Held T} (ha : Piece s f a.1) (ha' : Piece s f' a.2)
    (hb : Piece s g b.1) (hb' : Piece s g' b.2) :
    ∃ r, heldOp .add (a, b) = .ok r ∧ Piece s (fun o => f o + g o) r.1 ∧ Piece s (fun o => f' o + g' o) r.2 := by
  obtain ⟨r, h1, h2⟩ := zip_piece (· + ·) ha hb
  obtain ⟨q, i1, i2⟩ := zip_piece (· + ·) ha' hb'
  refine ⟨(r, q), ?_, h2, i2⟩
  unfold heldOp
  simp only [BinOp.run]
  rw [h1, ok_bind, i1]
  rfl

omit [DecidableEq T] in
theorem heldSub_piece {s : List Nat} {f f' g g' : List Nat → T} {a b : Held T} (ha : Piece s f a.1) (ha' : Piece s f' a.2)
    (hb : Piece s g b.1) (hb' : Piece s g' b.2) :
    ∃ r, heldOp .sub (a, b) = .ok r ∧ Piece s (fun o => f o - g o) r.1 ∧ Piece s (fun o => f' o - g' o) r.2 := by
  obtain ⟨r, h1, h2⟩ := zip_piece (· - ·) ha hb
  obtain ⟨q, i1, i2⟩ := zip_piece (· - ·) ha' hb'
  refine ⟨(r, q), ?_, h2, i2⟩
  unfold heldOp
  simp only [BinOp.run]
  rw [h1, ok_bind, i1]
  rfl

omit [DecidableEq T] in
theorem mask_piece {xs ys : List Nat} {f f' g g' a a' b b' : List Nat → T} {x y p q : Held T} (hx : Piece xs f x.1) (hx' : Piece xs f' x.2)
    (hy : Piece ys g y.1) (hy' : Piece ys g' y.2) (hp : Piece xs a p.1) (hp' : Piece xs a' p.2) (hq : Piece ys b q.1) (hq' : Piece ys b' q.2) :
    ∃ r, falconMask xs ys ((x, y), p, q) = .ok r ∧ (Piece xs (fun o => f o - a o) r.1.1 ∧ Piece xs (fun o => f' o - a' o) r.1.2) ∧
      (Piece ys (fun o => g o - b o) r.2.1 ∧ Piece ys (fun o => g' o - b' o) r.2.2) := by
  obtain ⟨r, h1, h2⟩ := heldSub_piece hx hx' hp hp'
  obtain ⟨s, i1, i2⟩ := heldSub_piece hy hy' hq hq'
  refine ⟨(r, s), ?_, h2, i2⟩
  unfold falconMask
  simp only [lookUp, hx.1, hy.1, and_self, if_true, ok_bind, h1, i1]
  rfl

/-- what a share of the verification is -/
def left (op : BinOp) (xs ys : List Nat) (eps delta : List Nat → T) (first : Bool) (z a b c : List Nat → T) (o : List Nat) : T :=
  z o - (c o + elem op xs ys a delta o + elem op xs ys eps b o + if first then elem op xs ys eps delta o else 0)

omit [DecidableEq T] in
theorem verification_piece (op : BinOp) {xs ys s : List Nat} (hs : op.shape xs ys = .ok s) (rank : Nat) {e d : List Nat → T} {eps delta : Tensor T}
    (he : Piece xs e eps) (hd : Piece ys d delta) {z z' a a' b b' c c' : List Nat → T} {hz ha hb hc : Held T} (z1 : Piece s z hz.1)
    (z2 : Piece s z' hz.2) (a1 : Piece xs a ha.1) (a2 : Piece xs a' ha.2) (b1 : Piece ys b hb.1) (b2 : Piece ys b' hb.2) (c1 : Piece s c hc.1)
    (c2 : Piece s c' hc.2) :
    ∃ r, verification op eps delta xs ys rank hz ha hb hc = .ok r ∧ Piece s (left op xs ys e d (rank = 0) z a b c) r.1 ∧
      Piece s (left op xs ys e d (rank = 2) z' a' b' c') r.2 := by
  obtain ⟨ed, k1, k2⟩ := run_piece op he hd hs
  obtain ⟨eb0, l1, l2⟩ := run_piece op he b1 hs
  obtain ⟨da0, m1, m2⟩ := run_piece op a1 hd hs
  obtain ⟨eb1, n1, n2⟩ := run_piece op he b2 hs
  obtain ⟨da1, o1, o2⟩ := run_piece op a2 hd hs
  obtain ⟨s1, p1, p2, p3⟩ := heldAdd_piece (b := (da0, da1)) c1 c2 m2 o2
  obtain ⟨s2, q1, q2, q3⟩ := heldAdd_piece (b := (eb0, eb1)) p2 p3 l2 n2
  have hif : ∀ (P : Prop) [Decidable P] {f : List Nat → T} {t : Tensor T}, Piece s f t →
      ∃ r, (if P then Tensor.zip (· + ·) t ed else pure t : Py (Tensor T)) = .ok r ∧
        Piece s (fun o => f o + if P then elem op xs ys e d o else 0) r := by
    intro P _ f t ht
    by_cases hP : P
    · obtain ⟨r, h1, h2⟩ := zip_piece (· + ·) ht k2
      exact ⟨r, by rw [if_pos hP, h1], by simpa only [if_pos hP] using h2⟩
    · exact ⟨t, by rw [if_neg hP]; rfl, by simpa only [if_neg hP, add_zero] using ht⟩
  obtain ⟨t0, r1, r2⟩ := hif (rank = 0) q2
  obtain ⟨t1, u1, u2⟩ := hif (rank = 2) q3
  obtain ⟨r, v1, v2, v3⟩ := heldSub_piece (b := (t0, t1)) z1 z2 r2 u2
  refine ⟨r, ?_, ?_, ?_⟩
  · unfold verification
    simp only [lookUp, he.1, hd.1, and_self, if_true, ok_bind, k1, l1, m1, n1, o1, p1, q1]
    by_cases h0 : rank = 0
    · have h2 : ¬ rank = 2 := by omega
      rw [if_pos h0] at r1 ⊢
      rw [if_neg h2] at u1
      simp only [r1, ok_bind, if_neg h2, u1, v1]
    · rw [if_neg h0] at r1 ⊢
      by_cases h2 : rank = 2
      · rw [if_pos h2] at u1
        simp only [r1, ok_bind, if_pos h2, u1, v1]
      · rw [if_neg h2] at u1
        simp only [r1, ok_bind, if_neg h2, u1, v1]
  · exact ⟨v2.1, fun o ho => (v2.2 o ho).trans (by simp only [left, decide_eq_true_eq])⟩
  · exact ⟨v3.1, fun o ho => (v3.2 o ho).trans (by simp only [left, decide_eq_true_eq])⟩

omit [DecidableEq T] in
theorem elem_expand (op : BinOp) (hop : op = .mul ∨ op = .matmul) (xs ys : List Nat) (f f' g g' : List Nat → T) (o : List Nat) :
    elem op xs ys (fun i => f i + f' i) (fun i => g i + g' i) o =
      elem op xs ys f g o + elem op xs ys f g' o + elem op xs ys f' g o + elem op xs ys f' g' o := by
  rw [elem_add_left hop, elem_add_right hop, elem_add_right hop]
  ring

/-- the six tensors that the parties have of three shares, one of which party 2 has changed -/
structure Bent (s : List Nat) (f0 f1 f2 e : List Nat → T) (h : Trio (Held T)) : Prop where
  a0 : Piece s f0 h.p0.1
  b0 : Piece s f1 h.p0.2
  a1 : Piece s f1 h.p1.1
  b1 : Piece s f2 h.p1.2
  a2 : Piece s (fun o => f2 o + e o) h.p2.1
  b2 : Piece s f0 h.p2.2

/-- the verification when party 2 has changed its first share of the left factor by `e` -/
theorem mulMalicious_bent (op : BinOp) (hop : op = .mul ∨ op = .matmul) (d : RDraws T) {x y : RSecret T} {xs ys s : List Nat}
    {f0 f1 f2 e g0 g1 g2 : List Nat → T} (h1 : Bent xs f0 f1 f2 e x.held) (h3 : x.shape = .size xs) (i1 : Pieces ys g0 g1 g2 y.held)
    (i3 : y.shape = .size ys) (hs : op.shape xs ys = .ok s) (hex : ∃ o, ValidIdx s o) :
    ((∀ o, ValidIdx s o → elem op xs ys e (fun i => g2 i + g0 i) o = 0) → ∃ r, mulMalicious op d x y = .ok r ∧
      Holds r ⟨s, elem op xs ys (fun i => f0 i + f1 i + f2 i) (fun i => g0 i + g1 i + g2 i)⟩) ∧
    ((∃ o, ValidIdx s o ∧ elem op xs ys e (fun i => g2 i + g0 i) o ≠ 0) → mulMalicious op d x y = .error .valueError) := by
  obtain ⟨a, d1, d2⟩ := zValue_piece op d.mask 0 h1.a0 h1.b0 i1.a0 i1.b0 hs
  obtain ⟨b, d3, d4⟩ := zValue_piece op d.mask 1 h1.a1 h1.b1 i1.a1 i1.b1 hs
  obtain ⟨c, d5, d6⟩ := zValue_piece op d.mask 2 h1.a2 h1.b2 i1.a2 i1.b2 hs
  have j1 : mulSemi op d.mask x y = .ok (⟨a, b, c⟩, .size s) := by
    unfold mulSemi
    rw [h3, i3, getShape_size, hs, d1, ok_bind, d3, ok_bind, d5]
    rfl
  have hz : ∀ o, ValidIdx s o → a.at_ o + b.at_ o + c.at_ o =
      elem op xs ys (fun i => f0 i + f1 i + f2 i) (fun i => g0 i + g1 i + g2 i) o + elem op xs ys e (fun i => g2 i + g0 i) o := by
    intro o ho
    rw [d2.2 o ho, d4.2 o ho, d6.2 o ho, ← elem_sum3_left hop, ← elem_sum3_right hop, ← elem_sum3_right hop, ← elem_sum3_right hop]
    unfold cross
    rw [elem_add_left hop, elem_add_left hop, elem_add_right hop]
    simp only [show (0 + 1) % 3 = 1 from rfl, show (1 + 1) % 3 = 2 from rfl, show (2 + 1) % 3 = 0 from rfl]
    ring
  have n1 : Pieces s a.at_ b.at_ c.at_ (distribute ⟨a, b, c⟩) :=
    pieces_distribute (d2.1 ▸ Piece.refl a) (d4.1 ▸ Piece.refl b) (d6.1 ▸ Piece.refl c)
  obtain ⟨t, va, vb, vc, t1, t2, t3, t4, ea, eb, ec, hc⟩ := (deal_ok op hop d hs).1 hex
  obtain ⟨⟨a0, a1, a2, k1, k2⟩, -⟩ := t2
  obtain ⟨⟨b0, b1, b2, l1, l2⟩, -⟩ := t3
  obtain ⟨⟨c0, c1, c2, m1, m2⟩, -⟩ := t4
  rw [ea] at k1 k2
  rw [eb] at l1 l2
  rw [ec] at m1 m2
  obtain ⟨k0, k01, k02, k03⟩ := mask_piece h1.a0 h1.b0 i1.a0 i1.b0 k1.a0 k1.b0 l1.a0 l1.b0
  obtain ⟨k4, k41, k42, k43⟩ := mask_piece h1.a1 h1.b1 i1.a1 i1.b1 k1.a1 k1.b1 l1.a1 l1.b1
  obtain ⟨k5, k51, k52, k53⟩ := mask_piece h1.a2 h1.b2 i1.a2 i1.b2 k1.a2 k1.b2 l1.a2 l1.b2
  obtain ⟨eps, p1, p2⟩ := sum3_piece k02.1 k42.1 k42.2
  obtain ⟨delta, q1, q2⟩ := sum3_piece k03.1 k43.1 k43.2
  have p1 : reconstructSemi ⟨k0.1, k4.1, k5.1⟩ = .ok eps := p1
  have q1 : reconstructSemi ⟨k0.2, k4.2, k5.2⟩ = .ok delta := q1
  obtain ⟨r0, u1, u2, u3⟩ := verification_piece op hs 0 p2 q2 n1.a0 n1.b0 k1.a0 k1.b0 l1.a0 l1.b0 m1.a0 m1.b0
  obtain ⟨r1, v1, v2, v3⟩ := verification_piece op hs 1 p2 q2 n1.a1 n1.b1 k1.a1 k1.b1 l1.a1 l1.b1 m1.a1 m1.b1
  obtain ⟨r2, w1, w2, w3⟩ := verification_piece op hs 2 p2 q2 n1.a2 n1.b2 k1.a2 k1.b2 l1.a2 l1.b2 m1.a2 m1.b2
  obtain ⟨r, x1, x2⟩ := malicious_piece (h := ⟨r0, r1, r2⟩) ⟨u2, u3, v2, v3, w2, w3⟩
  have hmask : ((x.held.zip y.held).zip (t.a.zip t.b)).run (falconMask xs ys) = .ok ⟨k0, k4, k5⟩ := trio_run _ _ k01 k41 k51
  have hr : ∀ o, ValidIdx s o → r.at_ o = elem op xs ys e (fun i => g2 i + g0 i) o := by
    intro o ho
    rw [x2.2 o ho]
    dsimp only
    unfold left
    simp only [decide_eq_true_eq, if_true, show ((0 : Nat) = 2) = False by simp, show ((1 : Nat) = 2) = False by simp, if_false]
    generalize hE : (fun o => f0 o - a0 o + (f1 o - a1 o) + (f2 o - a2 o)) = E
    generalize hD : (fun o => g0 o - b0 o + (g1 o - b1 o) + (g2 o - b2 o)) = D
    have e1 : a.at_ o + b.at_ o + c.at_ o =
        elem op xs ys (fun i => E i + (a0 i + a1 i + a2 i)) (fun i => D i + (b0 i + b1 i + b2 i)) o + elem op xs ys e (fun i => g2 i + g0 i) o := by
      rw [hz o ho]
      congr 1
      refine elem_congr hs (fun i hi => ?_) (fun i hi => ?_) o ho
      · rw [← hE]
        ring
      · rw [← hD]
        ring
    have e2 : c0 o + c1 o + c2 o = elem op xs ys (fun i => a0 i + a1 i + a2 i) (fun i => b0 i + b1 i + b2 i) o := by
      rw [m2 o ho, hc o ho]
      exact elem_congr hs (fun i hi => (k2 i hi).symm) (fun i hi => (l2 i hi).symm) o ho
    rw [elem_expand op hop, ← e2, ← elem_sum3_left hop, ← elem_sum3_right hop] at e1
    linear_combination e1
  have hmul : mulMalicious op d x y = if (indices r.shape).all fun o => r.at_ o = 0 then .ok ⟨distribute ⟨a, b, c⟩, .size s⟩ else .error .valueError := by
    unfold mulMalicious
    rw [h3, i3]
    simp only [Reported.tuple, ok_bind, j1, t1, hmask, p1, q1, u1, v1, w1, x1]
    split <;> rfl
  rw [hmul]
  refine ⟨fun h => ⟨_, if_pos ?_, ⟨_, _, _, n1, fun o ho => ?_⟩, rfl⟩, fun ⟨o, ho, hne⟩ => if_neg fun hall => hne ?_⟩
  · rw [List.all_eq_true]
    intro o ho
    rw [x2.1] at ho
    rw [decide_eq_true_eq, hr o ((mem_indices _ _).mp ho), h o ((mem_indices _ _).mp ho)]
  · rw [hz o ho, h o ho, add_zero]
  · rw [List.all_eq_true] at hall
    have := hall o (by rw [x2.1]; exact (mem_indices _ _).mpr ho)
    rw [decide_eq_true_eq] at this
    rw [← hr o ho, this]

omit [DecidableEq T] in
theorem elem_zero_left (op : BinOp) (hop : op = .mul ∨ op = .matmul) (xs ys : List Nat) (g : List Nat → T) (o : List Nat) :
    elem op xs ys (fun _ => 0) g o = 0 := by
  have := elem_add_left hop xs ys (fun _ => 0) (fun _ => 0) g o
  simp only [add_zero] at this
  exact left_eq_add.mp this

/-- products with malicious security: honest parties pass the verification; without elements no triple is accepted -/
theorem mulMalicious_ok (op : BinOp) (hop : op = .mul ∨ op = .matmul) (d : RDraws T) {x y : RSecret T} {v w : Tensor T} (hx : Holds x v)
    (hy : Holds y w) :
    (∀ u, op.run v w = .ok u → (∃ o, ValidIdx u.shape o) → ∃ r, mulMalicious op d x y = .ok r ∧ Holds r u) ∧
      (∀ u, op.run v w = .ok u → (¬ ∃ o, ValidIdx u.shape o) → mulMalicious op d x y = .error .valueError) ∧
      (∀ e, op.run v w = .error e → mulMalicious op d x y = .error e) := by
  have hz := mulSemi_ok op hop d.mask hx hy
  cases hs : op.shape v.shape w.shape with
  | error e =>
    rw [run_error op v w e hs]
    refine ⟨fun _ h => (by cases h), fun _ h => (by cases h), fun e' he => ?_⟩
    cases he
    unfold mulMalicious
    rw [hx.2, hy.2, hz.2 e (run_error op v w e hs)]
    rfl
  | ok s =>
    have hrun := run_ok op v w s hs
    obtain ⟨z, j1, -⟩ := hz.1 _ hrun
    rw [hrun]
    refine ⟨fun u h hex => ?_, fun u h hex => ?_, fun _ h => by cases h⟩
    · cases h
      obtain ⟨⟨f0, f1, f2, h1, h2⟩, h3⟩ := hx
      obtain ⟨⟨g0, g1, g2, i1, i2⟩, i3⟩ := hy
      have hb : Bent v.shape f0 f1 f2 (fun _ => 0) x.held := ⟨h1.a0, h1.b0, h1.a1, h1.b1, ⟨h1.a2.1, fun o ho => (h1.a2.2 o ho).trans (add_zero _).symm⟩, h1.b2⟩
      obtain ⟨r, k1, k2⟩ := (mulMalicious_bent op hop d hb h3 i1 i3 hs hex).1 fun o _ => elem_zero_left op hop _ _ _ o
      exact ⟨r, k1, k2.same ⟨rfl, fun o ho => elem_congr hs h2 i2 o ho⟩⟩
    · cases h
      unfold mulMalicious
      rw [hx.2, hy.2]
      simp only [Reported.tuple, ok_bind, j1, (deal_ok op hop d hs).2 hex]
      rfl

/-- Malicious security notices a party that has changed a share: when party 2 multiplies with a first share of the left factor that is
off by `e`, the product is refused with `ValueError`, unless the change does not change the product (`e` times the right factor's shares
of party 2 is zero everywhere). -/
theorem C82_tampered_product_refused (cut : T → T) (rand : List Nat → T) (op : BinOp) (hop : op = .mul ∨ op = .matmul) (d : RDraws T)
    {x y : RSecret T} {xs ys s : List Nat} {f0 f1 f2 e g0 g1 g2 : List Nat → T} (hx : Bent xs f0 f1 f2 e x.held) (hxs : x.shape = .size xs)
    (hy : Pieces ys g0 g1 g2 y.held) (hys : y.shape = .size ys) (hs : op.shape xs ys = .ok s)
    (he : ∃ o, ValidIdx s o ∧ elem op xs ys e (fun i => g2 i + g0 i) o ≠ 0) :
    opProduct .malicious cut rand op d x y = .error .valueError := by
  unfold opProduct mulMaster
  dsimp only
  rw [(mulMalicious_bent op hop d hx hxs hy hys hs (he.imp fun _ h => h.1)).2 he]
  rfl

/-- products of two secrets with the truncation: what is truncated adds up to the product -/
theorem product_ok (security : Security) (cut : T → T) (rand : List Nat → T) (op : BinOp) (hop : op = .mul ∨ op = .matmul) (d : RDraws T)
    {x y : RSecret T} {v w : Tensor T} (hx : Holds x v) (hy : Holds y w) :
    (∀ u, op.run v w = .ok u → (security = .malicious → ∃ o, ValidIdx u.shape o) →
      ∃ r z, opProduct security cut rand op d x y = .ok (r, z) ∧ Split z u ∧ Holds r (cutValue cut u.shape z)) ∧
    (∀ e, op.run v w = .error e → opProduct security cut rand op d x y = .error e) := by
  have key : ∀ u z, op.run v w = .ok u → mulMaster security op d x y = .ok (z, .size u.shape) → Split z u →
      ∃ r z, opProduct security cut rand op d x y = .ok (r, z) ∧ Split z u ∧ Holds r (cutValue cut u.shape z) := by
    intro u z hu hz hs
    obtain ⟨held, h1, h2⟩ := truncation_ok cut rand hs
    refine ⟨_, z, ?_, hs, h2⟩
    unfold opProduct
    rw [hz, ok_bind]
    dsimp only
    rw [h1, ok_bind, hx.2, hy.2, getShape_size]
    cases hsh : op.shape v.shape w.shape with
    | error e => rw [run_error op v w e hsh] at hu; cases hu
    | ok s => rw [run_ok op v w s hsh] at hu; cases hu; rfl
  cases security with
  | semiHonest =>
    obtain ⟨h1, h2⟩ := mulSemi_ok op hop d.mask hx hy
    refine ⟨fun u hu _ => ?_, fun e he => ?_⟩
    · obtain ⟨z, i1, i2⟩ := h1 u hu
      exact key u z hu i1 i2
    · unfold opProduct mulMaster
      dsimp only
      rw [h2 e he]
      rfl
  | malicious =>
    obtain ⟨h1, -, h2⟩ := mulMalicious_ok op hop d hx hy
    refine ⟨fun u hu hne => ?_, fun e he => ?_⟩
    · obtain ⟨r, i1, i2⟩ := h1 u hu (hne rfl)
      refine key u _ hu ?_ (holds_split i2)
      unfold mulMaster
      dsimp only
      rw [i1, ok_bind, i2.2]
      rfl
    · unfold opProduct mulMaster
      dsimp only
      rw [h2 e he]
      rfl

omit [DecidableEq T] in
theorem cutValue_id {z : Trio (Tensor T)} {v : Tensor T} (h : Split z v) : Same (cutValue id v.shape z) v :=
  ⟨rfl, fun o ho => by
    rw [← h.2.2.2 o ho, add_assoc]
    rfl⟩

/-- products of two secrets, without fixed point numbers, are the products of torch: the masks of the parties cancel, and the
verification of malicious security passes -/
theorem C82_product (security : Security) (rand : List Nat → T) (op : BinOp) (hop : op = .mul ∨ op = .matmul) (d : RDraws T) {x y : RSecret T}
    {v w : Tensor T} (hx : Holds x v) (hy : Holds y w) :
    (∀ u, op.run v w = .ok u → (security = .malicious → ∃ o, ValidIdx u.shape o) →
      ∃ r z, opProduct security id rand op d x y = .ok (r, z) ∧ Holds r u) ∧
    (∀ e, op.run v w = .error e → opProduct security id rand op d x y = .error e) := by
  obtain ⟨h1, h2⟩ := product_ok security id rand op hop d hx hy
  refine ⟨fun u hu hne => ?_, h2⟩
  obtain ⟨r, z, i1, i2, i3⟩ := h1 u hu hne
  exact ⟨r, z, i1, i3.same (cutValue_id i2)⟩

/-- With malicious security a product without elements raises `ValueError`: `all` of no elements is true, so that no triple is accepted. -/
theorem C82_empty_malicious_refused (cut : T → T) (rand : List Nat → T) (op : BinOp) (hop : op = .mul ∨ op = .matmul) (d : RDraws T)
    {x y : RSecret T} {v w u : Tensor T} (hx : Holds x v) (hy : Holds y w) (hu : op.run v w = .ok u) (he : ¬ ∃ o, ValidIdx u.shape o) :
    opProduct .malicious cut rand op d x y = .error .valueError ∧ ∃ r z, opProduct .semiHonest cut rand op d x y = .ok (r, z) := by
  refine ⟨?_, ?_⟩
  · unfold opProduct mulMaster
    dsimp only
    rw [(mulMalicious_ok op hop d hx hy).2.1 u hu he]
    rfl
  · obtain ⟨r, z, h, -⟩ := (product_ok .semiHonest cut rand op hop d hx hy).1 u hu (fun h => by cases h)
    exact ⟨r, z, h⟩

omit [DecidableEq T] in
/-- sums, differences and products with a public operand that does not enlarge the secret: as torch -/
theorem C82_public_partial (rand : List Nat → T) {x : RSecret T} {v : Tensor T} (hx : Holds x v) (op : BinOp) (y : Operand T)
    (hf : Fits op v y) :
    (∀ u, op.run v y.plain = .ok u → ∃ r r', opPublic op x y = .ok r ∧ Holds r u ∧ truncate id rand r = .ok r' ∧ Holds r' u) ∧
      (∀ e, op.run v y.plain = .error e → opPublic op x y = .error e) := by
  obtain ⟨h1, h2⟩ := public_ok hx op y hf
  refine ⟨fun u hu => ?_, h2⟩
  obtain ⟨r, i1, i2⟩ := h1 u hu
  obtain ⟨held, j1, j2⟩ := truncation_ok id rand (holds_split i2)
  refine ⟨r, ⟨held, .size u.shape⟩, i1, i2, ?_, j2.same (cutValue_id (holds_split i2))⟩
  unfold truncate
  rw [i2.2, j1]
  rfl

/-! ### Programs -/

/-- the parties can do the step: they have the method, no public operand enlarges a secret, and with malicious security no product is
empty -/
def CanDo (security : Security) (st : Step T) (vs : List (Tensor T)) : Prop :=
  (∀ op i y v, st = .public op i y → vs[i]? = some v → Fits op v y) ∧ (∀ m i, st = .method m i → supported m) ∧
    (security = .malicious → ∀ op i j u, st = .both op i j → op.truncated → st.clear vs = .ok u → ∃ o, ValidIdx u.shape o)

/-- all steps of the program -/
def CanAll (security : Security) : List (Step T) → List (Tensor T) → Prop
  | [], _ => True
  | st :: prog, vs => CanDo security st vs ∧ ∀ r, st.clear vs = .ok r → CanAll security prog (vs ++ [r])

theorem step_ok (security : Security) (cut : T → T) {env : List (RSecret T)} {vs : List (Tensor T)} (h : List.Forall₂ Holds env vs)
    (st : Step T) (d : RDraws T × (List Nat → T)) (hf : CanDo security st vs) :
    (∀ u, st.clear vs = .ok u →
      (st.truncated = false → ∃ r, step security cut d env st = .ok (r, []) ∧ Holds r u) ∧
      (st.truncated = true → ∃ r z, step security cut d env st = .ok (r, [z]) ∧ Split z u ∧ Holds r (cutValue cut u.shape z))) ∧
    (∀ e, st.clear vs = .error e → step security cut d env st = .error e) := by
  have hlen := h.length_eq
  obtain ⟨hf1, hf2, hf3⟩ := hf
  have hget : ∀ i, (∃ x v, pyGet env i = .ok x ∧ pyGet vs i = .ok v ∧ vs[i]? = some v ∧ Holds x v) ∨
      (pyGet env i = .error .indexError ∧ pyGet vs i = .error .indexError) := by
    intro i
    by_cases hi : i < env.length
    · have hi' : i < vs.length := by omega
      exact Or.inl ⟨_, _, pyGet_ok hi, pyGet_ok hi', List.getElem?_eq_getElem hi', (List.forall₂_iff_get.mp h).2 i hi hi'⟩
    · exact Or.inr ⟨pyGet_error (by omega), pyGet_error (by omega)⟩
  cases st with
  | both op i j =>
    unfold Step.clear step at *
    dsimp only [Step.truncated] at *
    rcases hget i with ⟨x, v, e1, e2, -, e4⟩ | ⟨e1, e2⟩
    · rcases hget j with ⟨y, w, f1, f2, -, f4⟩ | ⟨f1, f2⟩
      · simp only [e1, e2, ok_bind, f1, f2] at hf3 ⊢
        by_cases hop : op = .add ∨ op = .sub
        · have ht : op.truncated = false := by rcases hop with rfl | rfl <;> rfl
          obtain ⟨h1, h2⟩ := C82_private e4 f4 op hop
          rw [if_pos hop, ht]
          refine ⟨fun u hu => ⟨fun _ => ?_, fun h => by cases h⟩, fun e he => by rw [h2 e he]; rfl⟩
          obtain ⟨r, k1, k2⟩ := h1 u hu
          exact ⟨r, by rw [k1]; rfl, k2⟩
        · have hop' : op = .mul ∨ op = .matmul := by cases op <;> simp at hop ⊢
          have ht : op.truncated = true := by rcases hop' with rfl | rfl <;> rfl
          obtain ⟨h1, h2⟩ := product_ok security cut d.2 op hop' d.1 e4 f4
          rw [if_neg hop, ht]
          refine ⟨fun u hu => ⟨fun h => (by cases h), fun _ => ?_⟩, fun e he => by rw [h2 e he]; rfl⟩
          obtain ⟨r, z, k1, k2⟩ := h1 u hu (fun hs => hf3 hs op i j u rfl ht (by simpa only [e2, f2, ok_bind] using hu))
          exact ⟨r, z, by rw [k1]; rfl, k2⟩
      · rw [e1, e2, ok_bind, ok_bind, f1, f2]
        exact ⟨fun _ h => (by cases h), fun _ h => (by cases h; rfl)⟩
    · rw [e1, e2]
      exact ⟨fun _ h => (by cases h), fun _ h => (by cases h; rfl)⟩
  | «public» op i y =>
    unfold Step.clear step
    dsimp only [Step.truncated]
    rcases hget i with ⟨x, v, e1, e2, e3, e4⟩ | ⟨e1, e2⟩
    · rw [e1, e2, ok_bind, ok_bind]
      obtain ⟨h1, h2⟩ := public_ok e4 op y (hf1 op i y v rfl e3)
      refine ⟨fun u hu => ?_, fun e he => by rw [h2 e he]; rfl⟩
      obtain ⟨r, k1, k2⟩ := h1 u hu
      rw [k1]
      simp only [ok_bind]
      refine ⟨fun ht => ⟨r, by rw [ht]; rfl, k2⟩, fun ht => ?_⟩
      obtain ⟨held, j1, j2⟩ := truncation_ok cut d.2 (holds_split k2)
      refine ⟨⟨held, .size u.shape⟩, _, ?_, holds_split k2, j2⟩
      rw [ht, if_pos rfl]
      unfold truncate
      rw [k2.2, j1]
      rfl
    · rw [e1, e2]
      exact ⟨fun _ h => (by cases h), fun _ h => (by cases h; rfl)⟩
  | method m i =>
    unfold Step.clear step
    dsimp only [Step.truncated]
    rcases hget i with ⟨x, v, e1, e2, -, e4⟩ | ⟨e1, e2⟩
    · rw [e1, e2, ok_bind, ok_bind]
      obtain ⟨h1, h2⟩ := C82_methods e4 m (hf2 m i rfl)
      refine ⟨fun u hu => ⟨fun _ => ?_, fun h => by cases h⟩, fun e he => by rw [h2 e he]; rfl⟩
      obtain ⟨r, k1, k2⟩ := h1 u hu
      exact ⟨r, by rw [k1]; rfl, k2⟩
    · rw [e1, e2]
      exact ⟨fun _ h => (by cases h), fun _ h => (by cases h; rfl)⟩

/-- A program on replicated secrets, without fixed point numbers, computes the tensors, and their shapes, that it computes on torch
tensors, and raises the same error. -/
theorem C82_programs_partial (security : Security) (prog : List (Step T × RDraws T × (List Nat → T))) {env : List (RSecret T)}
    {vs : List (Tensor T)} (h : List.Forall₂ Holds env vs) (hf : CanAll security (prog.map Prod.fst) vs) :
    (∀ ws, clear (prog.map Prod.fst) vs = .ok ws → ∃ rs log, program security id prog env = .ok (rs, log) ∧ List.Forall₂ Holds rs ws) ∧
      (∀ e, clear (prog.map Prod.fst) vs = .error e → program security id prog env = .error e) := by
  induction prog generalizing env vs with
  | nil =>
    refine ⟨fun ws hw => ?_, fun _ h => (by cases h)⟩
    cases hw
    exact ⟨env, [], rfl, h⟩
  | cons p prog ih =>
    obtain ⟨st, d⟩ := p
    obtain ⟨hf1, hf2⟩ := hf
    obtain ⟨k1, k2⟩ := step_ok security id h st d hf1
    simp only [List.map_cons, clear, program]
    cases hc : st.clear vs with
    | error e =>
      rw [k2 e hc]
      exact ⟨fun _ h => (by cases h), fun _ h => (by cases h; rfl)⟩
    | ok w =>
      have hstep : ∃ r log, step security id d env st = .ok (r, log) ∧ Holds r w := by
        cases ht : st.truncated with
        | false =>
          obtain ⟨r, i1, i2⟩ := (k1 w hc).1 ht
          exact ⟨r, _, i1, i2⟩
        | true =>
          obtain ⟨r, z, i1, i2, i3⟩ := (k1 w hc).2 ht
          exact ⟨r, _, i1, i3.same (cutValue_id i2)⟩
      obtain ⟨r, log, i1, i2⟩ := hstep
      obtain ⟨j1, j2⟩ := ih (List.rel_append h (List.Forall₂.cons i2 .nil)) (hf2 w hc)
      rw [i1, ok_bind, ok_bind]
      refine ⟨fun ws hw => ?_, fun e he => ?_⟩
      · obtain ⟨rs, log', l1, l2⟩ := j1 ws hw
        exact ⟨rs, log ++ log', by dsimp only; rw [l1]; rfl, l2⟩
      · dsimp only
        rw [j2 e he]
        rfl

/-! ### Where the shapes go wrong -/

/-- a secret of one element, shared as 2, 3 and 4 -/
def exNine : RSecret Int := ⟨distribute ⟨tensor [1] [2], tensor [1] [3], tensor [1] [4]⟩, .size [1]⟩

/-- some draws -/
def exRDraws : RDraws Int := ⟨fun g i => 7 * g * g + 3 * g * i + i, fun g i => 5 * g - i, fun g i => g * i + 2, fun g i => 11 * g + i⟩

theorem exNine_holds : Holds exNine (tensor [1] [9]) := by
  refine ⟨⟨_, _, _, pieces_distribute (Piece.refl _) (Piece.refl _) (Piece.refl _), fun o ho => ?_⟩, rfl⟩
  match o, ho with
  | [0], _ => decide
  | [_ + 1], ho => exact absurd ho.1 (by simp)

/-- Adding a larger public tensor gives shares of different shapes.  The result reconstructs to the right tensor, but its sum does not:
it is 41 instead of 48, and malicious security does not notice. -/
theorem C82_enlarged_sum_wrong :
    look <$> BinOp.add.run (tensor [1] [9]) (tensor [2] [10, 20]) = .ok ([2], [19, 29]) ∧
    (do look <$> Method.sum.run (← BinOp.add.run (tensor [1] [9]) (tensor [2] [10, 20]))) = .ok ([], [48]) ∧
    ∀ security, (do look <$> reconstruct security (← opPublic .add exNine exTwo)) = .ok ([2], [19, 29]) ∧
      (do look <$> reconstruct security (← hook .sum (← opPublic .add exNine exTwo))) = .ok ([], [41]) := by
  refine ⟨by decide +kernel, by decide +kernel, fun security => ?_⟩
  cases security <;> decide +kernel

/-- The square of the enlarged secret is wrong without an error, because the parties' masks have different shapes and do not cancel: 838
instead of 841.  With malicious security it raises `EmptyPrimitiveStore`: the triple that was just generated has another shape. -/
theorem C82_enlarged_product_wrong :
    (do
      let t ← BinOp.add.run (tensor [1] [9]) (tensor [2] [10, 20])
      look <$> BinOp.mul.run t t) = .ok ([2], [361, 841]) ∧
    (do
      let r ← opPublic .add exNine exTwo
      look <$> reconstruct .semiHonest (← opProduct .semiHonest id (fun _ => 5) .mul exRDraws r r).1) = .ok ([2], [361, 838]) ∧
    (do
      let r ← opPublic .add exNine exTwo
      look <$> reconstruct .malicious (← opProduct .malicious id (fun _ => 5) .mul exRDraws r r).1) = .error .emptyStore := by
  refine ⟨by decide +kernel, by decide +kernel, by decide +kernel⟩

/-! ### Concrete cases -/

/-- a secret matrix -/
def exGrid : RSecret Int :=
  ⟨distribute ⟨tensor [2, 3] [1, 2, 3, 4, 5, 6], tensor [2, 3] [5, 5, 5, 5, 5, 5], tensor [2, 3] [5, 5, 5, 5, 5, 5]⟩, .size [2, 3]⟩

theorem exGrid_holds : Holds exGrid (tensor [2, 3] [11, 12, 13, 14, 15, 16]) := by
  refine ⟨⟨_, _, _, pieces_distribute (Piece.refl _) (Piece.refl _) (Piece.refl _), fun o ho => ?_⟩, rfl⟩
  have key : ∀ o ∈ indices [2, 3], (tensor [2, 3] [1, 2, 3, 4, 5, 6]).at_ o + (tensor [2, 3] [5, 5, 5, 5, 5, 5]).at_ o +
    (tensor [2, 3] [5, 5, 5, 5, 5, 5]).at_ o = (tensor [2, 3] [11, 12, 13, 14, 15, 16]).at_ o := by decide
  exact key o ((mem_indices _ _).mpr ho)

/-- party 2 has a wrong share: reconstruction and products are refused, with semi-honest security they are wrong -/
def exBent : RSecret Int := ⟨⟨(tensor [1] [2], tensor [1] [3]), (tensor [1] [3], tensor [1] [4]), (tensor [1] [5], tensor [1] [2])⟩, .size [1]⟩

example : reconstruct .malicious exBent = .error .valueError ∧
    opProduct .malicious id (fun _ => 5) .mul exRDraws exBent exNine = .error .valueError ∧
    (do look <$> reconstruct .semiHonest (← opProduct .semiHonest id (fun _ => 5) .mul exRDraws exBent exNine).1) = .ok ([1], [87]) := by
  have v : ValidIdx [1] [0] := show ValidIdx [1] [0] from ⟨by decide, trivial⟩
  have hb : Bent [1] (tensor [1] [2]).at_ (tensor [1] [3]).at_ (tensor [1] [4]).at_ (fun _ => 1) exBent.held :=
    ⟨⟨rfl, fun _ _ => rfl⟩, ⟨rfl, fun _ _ => rfl⟩, ⟨rfl, fun _ _ => rfl⟩, ⟨rfl, fun _ _ => rfl⟩, ⟨rfl, fun o ho => by
      match o, ho with
      | [0], _ => decide
      | [_ + 1], ho => exact absurd ho.1 (by simp)⟩, ⟨rfl, fun _ _ => rfl⟩⟩
  have hp : Pieces [1] (tensor [1] [2]).at_ (tensor [1] [3]).at_ (tensor [1] [4]).at_ exNine.held :=
    pieces_distribute (Piece.refl _) (Piece.refl _) (Piece.refl _)
  exact ⟨(C82_reconstruct_decides hb.a0 hb.b0 hb.a1 hb.b1 hb.a2 hb.b2).2 ⟨[0], v, by decide⟩,
    C82_tampered_product_refused id _ .mul (.inl rfl) exRDraws hb rfl hp rfl rfl ⟨[0], v, by decide⟩, by decide +kernel⟩

/-- the transpose, and a method that replicated shares do not have -/
example : (∃ r, hook .t exGrid = .ok r ∧ (do look <$> reconstruct .malicious r) = .ok ([3, 2], [11, 14, 12, 15, 13, 16])) ∧
    hook .flatten exGrid = .error .attributeError :=
  ⟨⟨_, rfl, by decide +kernel⟩, C82_methods_missing exGrid .flatten (by simp)⟩

/-- a product without elements: of a matrix of no rows with itself -/
example : ∃ x : RSecret Int, Holds x (tensor [0, 3] []) ∧ (∃ u, BinOp.mul.run (tensor [0, 3] []) (tensor [0, 3] []) = .ok u ∧ ¬ ∃ o, ValidIdx u.shape o) ∧
    opProduct .malicious id (fun _ => 5) .mul exRDraws x x = .error .valueError := by
  obtain ⟨x, -, h⟩ := C82_share (.tensor (tensor [0, 3] [])) fun _ _ => 0
  have hx : Holds x (tensor [0, 3] []) := h
  have hu : ∃ u, BinOp.mul.run (tensor [0, 3] []) (tensor [0, 3] []) = .ok u ∧ u.shape = [0, 3] := ⟨_, rfl, rfl⟩
  obtain ⟨u, h1, h2⟩ := hu
  have h3 : ¬ ∃ o, ValidIdx u.shape o := by
    rintro ⟨o, ho⟩
    rw [h2] at ho
    match o, ho with
    | a :: _, ho => exact absurd ho.1 (Nat.not_lt_zero a)
  exact ⟨x, hx, ⟨u, h1, h3⟩, (C82_empty_malicious_refused id _ .mul (.inl rfl) exRDraws hx hx h1 h3).1⟩

/-- `y = x.t(); z = x @ y; w = z * z.sum(0) - 100; w.view(-1)` -/
def exRProgram : List (Step Int × RDraws Int × (List Nat → Int)) :=
  [.method .t 0, .both .matmul 0 1, .method (.sumDim 0 false) 2, .both .mul 2 3, .public .sub 4 (.number 100), .method (.view [-1]) 5].map
    fun st => (st, exRDraws, fun i => i.sum + 3)

/-- a check of `CanDo` -/
def canCheck {T : Type} [CommRing T] (security : Security) (vs : List (Tensor T)) : Step T → Bool
  | .public op i y => (match vs[i]? with | some v => fitsCheck op v y | none => true)
  | .method m _ => supported m
  | .both op i j => match security with
    | .semiHonest => true
    | .malicious => !op.truncated || (match (Step.both op i j).clear vs with | .ok u => !(indices u.shape).isEmpty | .error _ => true)

theorem can_of_check {T : Type} [CommRing T] {security : Security} {vs : List (Tensor T)} {st : Step T} (h : canCheck security vs st = true) : CanDo security st vs := by
  cases st with
  | both op i j =>
    refine ⟨fun _ _ _ _ h => (by cases h), fun _ _ h => (by cases h), fun hs op' i' j' u hst ht hu => ?_⟩
    cases hst
    subst hs
    unfold canCheck at h
    dsimp only at h
    rw [ht, hu] at h
    dsimp only at h
    cases hi : indices u.shape with
    | nil => rw [hi] at h; cases h
    | cons o l => exact ⟨o, (mem_indices _ _).mp (by rw [hi]; simp)⟩
  | «public» op i y =>
    refine ⟨fun op' i' y' v hst hv => ?_, fun _ _ h => (by cases h), fun _ _ _ _ _ h => (by cases h)⟩
    cases hst
    unfold canCheck at h
    dsimp only at h
    rw [hv] at h
    exact fits_of_check h
  | method m i =>
    refine ⟨fun _ _ _ _ h => (by cases h), fun m' i' hst => ?_, fun _ _ _ _ _ h => (by cases h)⟩
    cases hst
    exact h

/-- a check of `CanAll` -/
def canAllCheck {T : Type} [CommRing T] (security : Security) : List (Step T) → List (Tensor T) → Bool
  | [], _ => true
  | st :: prog, vs => canCheck security vs st && (match st.clear vs with | .ok r => canAllCheck security prog (vs ++ [r]) | .error _ => true)

theorem canAll_of_check {T : Type} [CommRing T] {security : Security} (prog : List (Step T)) (vs : List (Tensor T)) (h : canAllCheck security prog vs = true) :
    CanAll security prog vs := by
  induction prog generalizing vs with
  | nil => trivial
  | cons st prog ih =>
    unfold canAllCheck at h
    obtain ⟨h1, h2⟩ := Bool.and_eq_true_iff.mp h
    refine ⟨can_of_check h1, fun r hr => ih _ ?_⟩
    rw [hr] at h2
    exact h2

example : CanAll .malicious (exRProgram.map Prod.fst) [tensor [2, 3] [11, 12, 13, 14, 15, 16]] := by
  apply canAll_of_check
  decide +kernel

/-- the results of the program with malicious security -/
example : (do
    let r ← program .malicious id exRProgram [exGrid]
    let x ← pyGet r.1 6
    look <$> reconstruct .malicious x) = .ok ([4], [423484, 660598, 528892, 825163]) := by
  decide +kernel

end SyMPC.RShape
