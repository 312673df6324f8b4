import Verif.Model.RShapeView
import Verif.Props.ShapeView
import Verif.Props.RstShape

/-!
# C95: what a party sees of a whole program on replicated shares with shapes
-/

namespace SyMPC.RShape

open Tensor Shape
open FixedPointEncoder (Val)

/-! ## Specification -/

/-- all that is drawn: for the sharing of the inputs, and in every step -/
abbrev Chance := List (Nat → List Nat → I64) × List (RDraws I64 × (List Nat → I64))

/-- by how much the drawn numbers of a step are moved: the masks of the product and the factors of the triple; the masks of the product of
the triple, depending on these factors; and the new shares of the result, depending on the masks -/
structure Shift where
  mask : Nat → Nat → I64
  a : Nat → Nat → I64
  b : Nat → Nat → I64
  c : (Nat → Nat → I64) → (Nat → Nat → I64) → Nat → Nat → I64
  rand : (Nat → Nat → I64) → List Nat → I64

/-- the drawn numbers, each moved by its amount -/
def moved (d : RDraws I64 × (List Nat → I64)) (s : Shift) : RDraws I64 × (List Nat → I64) :=
  (⟨fun g p => d.1.mask g p + s.mask g p, fun g p => d.1.a g p + s.a g p, fun g p => d.1.b g p + s.b g p,
    fun g p => d.1.c g p + s.c d.1.a d.1.b g p⟩, fun i => d.2 i + s.rand d.1.mask i)

/-- Every number that is drawn is moved by an amount that was settled before it is drawn: the sharing of the inputs by fixed amounts, and
the numbers of a step by amounts that depend on what was drawn in earlier steps and earlier in the step.  Such a map takes uniform and
independent numbers to uniform and independent numbers. -/
structure OneTimePad (σ : Chance ≃ Chance) : Prop where
  inputs : ∃ δ : Nat → Nat → List Nat → I64, ∀ r m, (σ r).1[m]? = r.1[m]?.map fun u k i => u k i + δ m k i
  steps : ∃ s : Chance → Shift, ∀ r m, (σ r).2[m]? = r.2[m]?.map fun d => moved d (s (r.1, r.2.take m))

/-- the shape of the result of a call, from the shapes of the operands -/
def outShape {A : Type} (st : Step A) (shapes : List (List Nat)) : Py (List Nat) :=
  match st with
  | .both op i j => do
    let s ← pyGet shapes i
    let t ← pyGet shapes j
    op.shape s t
  | .public op i y => do
    let s ← pyGet shapes i
    op.shape s y.enc.shape
  | .method m i => do
    let s ← pyGet shapes i
    if supported m then Prod.fst <$> m.plan s else .error .attributeError

/-- no public operand enlarges a secret that it is added to -/
def fits {A : Type} : List (Step A) → List (List Nat) → Bool
  | [], _ => true
  | st :: prog, shapes =>
    (match st with
      | .public op i y => op.truncated || (match shapes[i]? with
        | some s => (match op.shape s y.enc.shape with
          | .ok z => z == s
          | .error _ => true)
        | none => true)
      | _ => true) &&
    match outShape st shapes with
    | .ok s => fits prog (shapes ++ [s])
    | .error _ => true

/-! ## Proof -/

/-- the elements of share `k` -/
def sh (x : RSecret I64) (k : Nat) : List Nat → I64 := (x.held.at k).1.at_

/-- three shares of one shape, which is also the reported one; every party has the two that belong to it -/
structure Even (s : List Nat) (x : RSecret I64) : Prop where
  pieces : Pieces s (sh x 0) (sh x 1) (sh x 2) x.held
  shape : x.shape = .size s

/-- the share `k` is known to party `h` -/
def Known (h k : Nat) : Prop := k < 3 ∧ k ≠ (h + 2) % 3

/-- the same but for the elements of the share that party `h` does not have -/
structure Alike (h : Nat) (s : List Nat) (x x' : RSecret I64) : Prop where
  left : Even s x
  right : Even s x'
  agree : ∀ k, Known h k → ∀ o, ValidIdx s o → sh x k o = sh x' k o

theorem even_of {s : List Nat} {f0 f1 f2 : List Nat → I64} {x : RSecret I64} (p : Pieces s f0 f1 f2 x.held) (hs : x.shape = .size s) : Even s x :=
  ⟨⟨⟨p.a0.1, fun _ _ => rfl⟩, ⟨p.b0.1, fun o ho => (p.b0.2 o ho).trans (p.a1.2 o ho).symm⟩, ⟨p.a1.1, fun _ _ => rfl⟩,
    ⟨p.b1.1, fun o ho => (p.b1.2 o ho).trans (p.a2.2 o ho).symm⟩, ⟨p.a2.1, fun _ _ => rfl⟩,
    ⟨p.b2.1, fun o ho => (p.b2.2 o ho).trans (p.a0.2 o ho).symm⟩⟩, hs⟩

theorem sh_of {s : List Nat} {F : Nat → List Nat → I64} {x : RSecret I64} (p : Pieces s (F 0) (F 1) (F 2) x.held) (k : Nat) (hk : k < 3)
    (o : List Nat) (ho : ValidIdx s o) : sh x k o = F k o := by
  match k, hk with
  | 0, _ => exact p.a0.2 o ho
  | 1, _ => exact p.a1.2 o ho
  | 2, _ => exact p.a2.2 o ho

theorem alike_of {h : Nat} {s : List Nat} {F F' : Nat → List Nat → I64} {x x' : RSecret I64} (p : Pieces s (F 0) (F 1) (F 2) x.held)
    (p' : Pieces s (F' 0) (F' 1) (F' 2) x'.held) (hs : x.shape = .size s) (hs' : x'.shape = .size s)
    (ag : ∀ k, Known h k → ∀ o, ValidIdx s o → F k o = F' k o) : Alike h s x x' :=
  ⟨even_of p hs, even_of p' hs', fun k hk o ho => by rw [sh_of p k hk.1 o ho, sh_of p' k hk.1 o ho]; exact ag k hk o ho⟩

theorem Alike.symm {h : Nat} {s : List Nat} {x x' : RSecret I64} (a : Alike h s x x') : Alike h s x' x :=
  ⟨a.right, a.left, fun k hk o ho => (a.agree k hk o ho).symm⟩

theorem data_eq {s : List Nat} {f f' : List Nat → I64} {t t' : Tensor I64} (p : Piece s f t) (p' : Piece s f' t')
    (h : ∀ o, ValidIdx s o → f o = f' o) : data t = data t' := by
  unfold data
  rw [p.1, p'.1]
  congr 1
  refine List.map_congr_left fun o ho => ?_
  have ho := (mem_indices _ _).mp ho
  rw [p.2 o ho, p'.2 o ho, h o ho]

/-- the two tensors of party `k` -/
theorem Even.held {s : List Nat} {x : RSecret I64} (e : Even s x) (k : Nat) (hk : k < 3) :
    Piece s (sh x k) (x.held.at k).1 ∧ Piece s (sh x ((k + 1) % 3)) (x.held.at k).2 := by
  match k, hk with
  | 0, _ => exact ⟨e.pieces.a0, e.pieces.b0⟩
  | 1, _ => exact ⟨e.pieces.a1, e.pieces.b1⟩
  | 2, _ => exact ⟨e.pieces.a2, e.pieces.b2⟩

theorem known_own {h : Nat} (hh : h < 3) : Known h h := by unfold Known; omega

theorem known_next (h : Nat) : Known h ((h + 1) % 3) := by unfold Known; omega

theorem known_cases {h k : Nat} (hh : h < 3) (hk : Known h k) : k = h ∨ k = (h + 1) % 3 := by unfold Known at hk; omega

theorem Alike.show {h : Nat} (hh : h < 3) {s : List Nat} {x x' : RSecret I64} (a : Alike h s x x') : x.show h = x'.show h := by
  obtain ⟨p1, p2⟩ := a.left.held h hh
  obtain ⟨q1, q2⟩ := a.right.held h hh
  unfold RSecret.show
  rw [data_eq p1 q1 (a.agree h (known_own hh)), data_eq p2 q2 (a.agree _ (known_next h)), a.left.shape, a.right.shape]

/-! ### The operations -/

theorem opPrivate_error {xs ys : List Nat} {x y : RSecret I64} (ex : Even xs x) (ey : Even ys y) {op : Shape.BinOp} {e : PyErr}
    (hs : op.shape xs ys = .error e) : opPrivate op x y = .error e := by
  unfold opPrivate Trio.run heldOp
  dsimp only [Trio.zip]
  rw [run_piece_error op ex.pieces.a0 ey.pieces.a0 hs]
  rfl

theorem opPrivate_form {xs ys z : List Nat} {x y : RSecret I64} (ex : Even xs x) (ey : Even ys y) {op : Shape.BinOp}
    (hs : op.shape xs ys = .ok z) : ∃ r, opPrivate op x y = .ok r ∧ r.shape = .size z ∧
      Pieces z (elem op xs ys (sh x 0) (sh y 0)) (elem op xs ys (sh x 1) (sh y 1)) (elem op xs ys (sh x 2) (sh y 2)) r.held := by
  obtain ⟨r, h1, h2⟩ := pieces_op op ex.pieces ey.pieces hs
  refine ⟨⟨r, .size z⟩, ?_, rfl, h2⟩
  unfold opPrivate
  rw [h1, ok_bind, ex.shape, ey.shape, getShape_size, hs]
  rfl

theorem hook_form {s : List Nat} {x : RSecret I64} (ex : Even s x) {m : Method} (hm : supported m = true) :
    (∀ e, m.plan s = .error e → hook m x = .error e) ∧
    ∀ z src, m.plan s = .ok (z, src) → ∃ r, hook m x = .ok r ∧ r.shape = .size z ∧
      Pieces z (fun o => ((src o).map (sh x 0)).sum) (fun o => ((src o).map (sh x 1)).sum) (fun o => ((src o).map (sh x 2)).sum) r.held := by
  have hh : hook m x = (do
      let held ← x.held.run (heldMethod m)
      let s ← x.shape.tuple
      let r ← m.run (⟨s, fun _ => 0⟩ : Tensor Int)
      return ⟨held, .size r.shape⟩) := by
    unfold hook
    rw [hm]
    rfl
  rw [hh, ex.shape]
  have h1 := ex.pieces
  constructor
  · intro e hp
    unfold Trio.run heldMethod Method.run
    rw [h1.a0.1, hp]
    rfl
  · intro z src hp
    obtain ⟨a, a1, a2⟩ := method_piece m hp h1.a0
    obtain ⟨a', a1', a2'⟩ := method_piece m hp h1.b0
    obtain ⟨b, b1, b2⟩ := method_piece m hp h1.a1
    obtain ⟨b', b1', b2'⟩ := method_piece m hp h1.b1
    obtain ⟨c, c1, c2⟩ := method_piece m hp h1.a2
    obtain ⟨c', c1', c2'⟩ := method_piece m hp h1.b2
    have hr : x.held.run (heldMethod m) = .ok ⟨(a, a'), (b, b'), (c, c')⟩ := by
      refine trio_run _ _ ?_ ?_ ?_ <;> unfold heldMethod
      · rw [a1, ok_bind, a1']; rfl
      · rw [b1, ok_bind, b1']; rfl
      · rw [c1, ok_bind, c1']; rfl
    have hz : m.run (⟨s, fun _ => 0⟩ : Tensor Int) = .ok ⟨z, fun o => ((src o).map fun _ => (0 : Int)).sum⟩ := by
      unfold Method.run
      rw [show (⟨s, fun _ => 0⟩ : Tensor Int).shape = s from rfl, hp]
      rfl
    refine ⟨⟨⟨(a, a'), (b, b'), (c, c')⟩, .size z⟩, ?_, rfl, a2, a2', b2, b2', c2, c2'⟩
    rw [hr, ok_bind]
    simp only [Reported.tuple, ok_bind]
    rw [hz]
    rfl

theorem publicProduct_error {xs : List Nat} {x : RSecret I64} (ex : Even xs x) {op : Shape.BinOp} {y : Operand I64} {e : PyErr}
    (hs : op.shape xs y.enc.shape = .error e) : opPublic op x y = .error e := by
  have hy := Piece.refl y.enc
  unfold opPublic
  cases op <;> simp only [applyPublic, Trio.run, heldPublic, run_piece_error _ ex.pieces.a0 hy hs] <;> rfl

theorem publicProduct_form {xs z : List Nat} {x : RSecret I64} (ex : Even xs x) {op : Shape.BinOp} (hop : op.truncated = true) {y : Operand I64}
    (hs : op.shape xs y.enc.shape = .ok z) : ∃ r, opPublic op x y = .ok r ∧ r.shape = .size z ∧
      Pieces z (elem op xs y.enc.shape (sh x 0) y.enc.at_) (elem op xs y.enc.shape (sh x 1) y.enc.at_)
        (elem op xs y.enc.shape (sh x 2) y.enc.at_) r.held := by
  have happ : applyPublic op x y = x.held.run (heldPublic op y.enc) := by cases op <;> first | rfl | cases hop
  have hy := Piece.refl y.enc
  have h1 := ex.pieces
  obtain ⟨a, a1, a2, a3⟩ := heldPublic_piece op h1.a0 h1.b0 hy hs
  obtain ⟨b, b1, b2, b3⟩ := heldPublic_piece op h1.a1 h1.b1 hy hs
  obtain ⟨c, c1, c2, c3⟩ := heldPublic_piece op h1.a2 h1.b2 hy hs
  refine ⟨⟨⟨a, b, c⟩, .size z⟩, ?_, rfl, a2, a3, b2, b3, c2, c3⟩
  unfold opPublic
  rw [happ, trio_run _ _ a1 b1 c1, ok_bind, ex.shape, enc_shape, getShape_size, hs]
  rfl

theorem publicSum_form {xs : List Nat} {x : RSecret I64} (ex : Even xs x) {op : Shape.BinOp} (hop : op.truncated = false) {y : Operand I64}
    (hs : op.shape xs y.enc.shape = .ok xs) : ∃ r, opPublic op x y = .ok r ∧ r.shape = .size xs ∧
      Pieces xs (elem op xs y.enc.shape (sh x 0) y.enc.at_) (sh x 1) (sh x 2) r.held := by
  have happ : applyPublic op x y = (do
      let a ← op.run x.held.p0.1 y.enc
      let b ← op.run x.held.p2.2 y.enc
      return ⟨(a, x.held.p0.2), x.held.p1, (x.held.p2.1, b)⟩) := by cases op <;> first | rfl | cases hop
  have hy := Piece.refl y.enc
  have h1 := ex.pieces
  obtain ⟨a, a1, a2⟩ := run_piece op h1.a0 hy hs
  obtain ⟨b, b1, b2⟩ := run_piece op h1.b2 hy hs
  refine ⟨⟨⟨(a, x.held.p0.2), x.held.p1, (x.held.p2.1, b)⟩, .size xs⟩, ?_, rfl, a2, h1.b0, h1.a1, h1.b1, h1.a2, b2⟩
  unfold opPublic
  rw [happ, a1, ok_bind, b1, ok_bind, pure_bind, ex.shape, enc_shape, getShape_size, hs]
  rfl

/-- the shares after the truncation -/
def cutShare (cut : I64 → I64) (rand : List Nat → I64) (Z : Nat → List Nat → I64) (k : Nat) (o : List Nat) : I64 :=
  if k = 0 then cut (Z 0 o) else if k = 1 then cut (Z 1 o + Z 2 o) - rand o else rand o

theorem truncation_form (cut : I64 → I64) (rand : List Nat → I64) {s : List Nat} {Z : Nat → List Nat → I64} {l : Trio (Tensor I64)}
    (h0 : Piece s (Z 0) l.p0) (h1 : Piece s (Z 1) l.p1) (h2 : Piece s (Z 2) l.p2) :
    ∃ held, truncation cut rand l (.size s) = .ok held ∧ Pieces s (cutShare cut rand Z 0) (cutShare cut rand Z 1) (cutShare cut rand Z 2) held := by
  have r : Piece s rand ⟨s, rand⟩ := ⟨rfl, fun _ _ => rfl⟩
  obtain ⟨a, a1, a2⟩ := zip_piece (· + ·) h1 h2
  obtain ⟨b, b1, b2⟩ := zip_piece (· - ·) (map_piece cut a2) r
  refine ⟨distribute ⟨Grad.map cut l.p0, b, ⟨s, rand⟩⟩, ?_, pieces_distribute (map_piece cut h0) b2 r⟩
  unfold truncation
  simp only [Reported.tuple, ok_bind]
  rw [a1, ok_bind, b1]
  rfl

/-- the new shares hide the one that party 0 does not have -/
theorem cutShare_agree (cut : I64 → I64) {h : Nat} (hh : h < 3) {s : List Nat} {rand rand' : List Nat → I64} {Z Z' : Nat → List Nat → I64}
    (ag : ∀ k, Known h k → ∀ o, ValidIdx s o → Z k o = Z' k o)
    (hr : ∀ o, ValidIdx s o → rand' o = rand o + if h = 0 then cut (Z' 1 o + Z' 2 o) - cut (Z 1 o + Z 2 o) else 0) (k : Nat) (hk : Known h k)
    (o : List Nat) (ho : ValidIdx s o) : cutShare cut rand Z k o = cutShare cut rand' Z' k o := by
  unfold cutShare
  rw [hr o ho]
  have key : ∀ k, Known h k → Z k o = Z' k o := fun k hk => ag k hk o ho
  unfold Known at hk key
  match h, hh with
  | 0, _ =>
    obtain rfl | rfl : k = 0 ∨ k = 1 := by omega
    · simp [key 0 (by omega)]
    · simp only [one_ne_zero, if_false, if_true]
      ring
  | 1, _ =>
    obtain rfl | rfl : k = 1 ∨ k = 2 := by omega
    · simp [key 1 (by omega), key 2 (by omega)]
    · simp
  | 2, _ =>
    obtain rfl | rfl : k = 0 ∨ k = 2 := by omega
    · simp [key 0 (by omega)]
    · simp

/-! ### Products of secrets -/

/-- what party `k` computes of a product before the mask -/
def cr (op : Shape.BinOp) (xs ys : List Nat) (x y : RSecret I64) (k : Nat) (o : List Nat) : I64 :=
  elem op xs ys (sh x k) (sh y k) o + elem op xs ys (sh x ((k + 1) % 3)) (sh y k) o + elem op xs ys (sh x k) (sh y ((k + 1) % 3)) o

/-- the masked share of party `k` -/
def zsh (op : Shape.BinOp) (xs ys z : List Nat) (gen : Nat → Nat → I64) (x y : RSecret I64) (k : Nat) (o : List Nat) : I64 :=
  cr op xs ys x y k o + (gen k (Grad.flat z o) - gen ((k + 1) % 3) (Grad.flat z o))

theorem zValue_form {xs ys z : List Nat} {x y : RSecret I64} (ex : Even xs x) (ey : Even ys y) {op : Shape.BinOp} (hs : op.shape xs ys = .ok z)
    (gen : Nat → Nat → I64) (k : Nat) (hk : k < 3) :
    ∃ r, zValue op gen k (x.held.at k) (y.held.at k) = .ok r ∧ Piece z (zsh op xs ys z gen x y k) r := by
  obtain ⟨p1, p2⟩ := ex.held k hk
  obtain ⟨q1, q2⟩ := ey.held k hk
  exact zValue_piece op gen k p1 p2 q1 q2 hs

theorem zValue_error {xs ys : List Nat} {x y : RSecret I64} (ex : Even xs x) (ey : Even ys y) {op : Shape.BinOp} {e : PyErr}
    (hs : op.shape xs ys = .error e) (gen : Nat → Nat → I64) (k : Nat) (hk : k < 3) :
    zValue op gen k (x.held.at k) (y.held.at k) = .error e := by
  unfold zValue crossTerms
  rw [run_piece_error op (ex.held k hk).1 (ey.held k hk).1 hs]
  rfl

theorem Even.holds {s : List Nat} {x : RSecret I64} (e : Even s x) : RShape.Holds x ⟨s, fun o => sh x 0 o + sh x 1 o + sh x 2 o⟩ :=
  ⟨⟨_, _, _, e.pieces, fun _ _ => rfl⟩, e.shape⟩

theorem mulMalicious_opening (op : Shape.BinOp) (d : RDraws I64) (x y : RSecret I64) {r : RSecret I64} (h : mulMalicious op d x y = .ok r) :
    ∃ o, opening op d x y = .ok o ∧ o.1 = r := by
  unfold mulMalicious at h
  obtain ⟨xs, h1, h⟩ := of_bind h
  obtain ⟨ys, h2, h⟩ := of_bind h
  obtain ⟨⟨z, shape⟩, h3, h⟩ := of_bind h
  obtain ⟨t, h4, h⟩ := of_bind h
  obtain ⟨mask, h5, h⟩ := of_bind h
  obtain ⟨eps, h6, h⟩ := of_bind h
  obtain ⟨delta, h7, h⟩ := of_bind h
  obtain ⟨r0, -, h⟩ := of_bind h
  obtain ⟨r1, -, h⟩ := of_bind h
  obtain ⟨r2, -, h⟩ := of_bind h
  obtain ⟨q, -, h⟩ := of_bind h
  refine ⟨(⟨distribute z, shape⟩, t, eps, delta), ?_, ?_⟩
  · unfold opening
    simp only [h1, h2, h3, h4, h5, h6, h7, ok_bind]
    rfl
  · split at h
    · cases h
      rfl
    · cases h

theorem mulSemi_form {xs ys z : List Nat} {x y : RSecret I64} (ex : Even xs x) (ey : Even ys y) {op : Shape.BinOp} (hs : op.shape xs ys = .ok z)
    (gen : Nat → Nat → I64) : ∃ l, mulSemi op gen x y = .ok (l, .size z) ∧ Piece z (zsh op xs ys z gen x y 0) l.p0 ∧
      Piece z (zsh op xs ys z gen x y 1) l.p1 ∧ Piece z (zsh op xs ys z gen x y 2) l.p2 := by
  obtain ⟨a, a1, a2⟩ := zValue_form ex ey hs gen 0 (by omega)
  obtain ⟨b, b1, b2⟩ := zValue_form ex ey hs gen 1 (by omega)
  obtain ⟨c, c1, c2⟩ := zValue_form ex ey hs gen 2 (by omega)
  have a1 : zValue op gen 0 x.held.p0 y.held.p0 = .ok a := a1
  have b1 : zValue op gen 1 x.held.p1 y.held.p1 = .ok b := b1
  have c1 : zValue op gen 2 x.held.p2 y.held.p2 = .ok c := c1
  refine ⟨⟨a, b, c⟩, ?_, a2, b2, c2⟩
  have g : getShape op x.shape y.shape = .ok (.size z) := by
    rw [ex.shape, ey.shape, getShape_size, hs]
    rfl
  unfold mulSemi
  rw [a1, ok_bind, b1, ok_bind, c1, ok_bind, g]
  rfl

theorem mulSemi_error {xs ys : List Nat} {x y : RSecret I64} (ex : Even xs x) (ey : Even ys y) {op : Shape.BinOp} {e : PyErr}
    (hs : op.shape xs ys = .error e) (gen : Nat → Nat → I64) : mulSemi op gen x y = .error e := by
  have h0 : zValue op gen 0 x.held.p0 y.held.p0 = .error e := zValue_error ex ey hs gen 0 (by omega)
  unfold mulSemi
  rw [h0]
  rfl

theorem product_error {xs ys : List Nat} {x y : RSecret I64} (ex : Even xs x) (ey : Even ys y) {op : Shape.BinOp} {e : PyErr}
    (hs : op.shape xs ys = .error e) (security : Security) (cut : I64 → I64) (d : RDraws I64 × (List Nat → I64)) :
    opProduct security cut d.2 op d.1 x y = .error e := by
  cases security with
  | semiHonest =>
    unfold opProduct mulMaster
    dsimp only
    rw [mulSemi_error ex ey hs]
    rfl
  | malicious =>
    unfold opProduct mulMaster mulMalicious
    dsimp only
    rw [ex.shape, ey.shape, mulSemi_error ex ey hs]
    rfl

theorem product_empty {xs ys z : List Nat} {x y : RSecret I64} (ex : Even xs x) (ey : Even ys y) {op : Shape.BinOp} (hop : op = .mul ∨ op = .matmul)
    (hs : op.shape xs ys = .ok z) (he : ¬ ∃ o, ValidIdx z o) (cut : I64 → I64) (d : RDraws I64 × (List Nat → I64)) :
    opProduct .malicious cut d.2 op d.1 x y = .error .valueError := by
  have := (mulMalicious_ok op hop d.1 ex.holds ey.holds).2.1 _ (Shape.run_ok op _ _ z hs) he
  unfold opProduct mulMaster
  dsimp only
  rw [this]
  rfl

theorem product_form {xs ys z : List Nat} {x y : RSecret I64} (ex : Even xs x) (ey : Even ys y) {op : Shape.BinOp} (hop : op = .mul ∨ op = .matmul)
    (hs : op.shape xs ys = .ok z) (security : Security) (hex : security = .malicious → ∃ o, ValidIdx z o) (cut : I64 → I64)
    (d : RDraws I64 × (List Nat → I64)) :
    ∃ r, opProduct security cut d.2 op d.1 x y = .ok r ∧ r.1.shape = .size z ∧
      Pieces z (cutShare cut d.2 (zsh op xs ys z d.1.mask x y) 0) (cutShare cut d.2 (zsh op xs ys z d.1.mask x y) 1)
        (cutShare cut d.2 (zsh op xs ys z d.1.mask x y) 2) r.1.held := by
  obtain ⟨l, l1, l2, l3, l4⟩ := mulSemi_form ex ey hs d.1.mask
  obtain ⟨held, t1, t2⟩ := truncation_form cut d.2 (l := l) l2 l3 l4
  refine ⟨(⟨held, .size z⟩, l), ?_, rfl, t2⟩
  have g : getShape op x.shape y.shape = .ok (.size z) := by
    rw [ex.shape, ey.shape, getShape_size, hs]
    rfl
  have hm : mulMaster security op d.1 x y = .ok (l, .size z) := by
    cases security with
    | semiHonest => exact l1
    | malicious =>
      obtain ⟨r, r1, -⟩ := (mulMalicious_ok op hop d.1 ex.holds ey.holds).1 _ (Shape.run_ok op _ _ z hs) (hex rfl)
      obtain ⟨o, o1, o2⟩ := mulMalicious_opening op d.1 x y r1
      unfold mulMaster
      dsimp only
      rw [r1, ← o2]
      unfold opening at o1
      obtain ⟨xs, -, o1⟩ := of_bind o1
      obtain ⟨ys, -, o1⟩ := of_bind o1
      rw [l1, ok_bind] at o1
      obtain ⟨t, -, o1⟩ := of_bind o1
      obtain ⟨m, -, o1⟩ := of_bind o1
      obtain ⟨eps, -, o1⟩ := of_bind o1
      obtain ⟨delta, -, o1⟩ := of_bind o1
      cases o1
      rfl
  unfold opProduct
  rw [hm, ok_bind]
  dsimp only
  rw [t1, ok_bind, g]
  rfl

/-- how the masks of a product move: the generator that party `h` does not have covers the change of what the next party computes -/
def maskPad (h : Nat) (op : Shape.BinOp) (xs ys z : List Nat) (x x' y y' : RSecret I64) (g p : Nat) : I64 :=
  if g = (h + 2) % 3 then cr op xs ys x' y' ((h + 1) % 3) (Grad.unflat z p) - cr op xs ys x y ((h + 1) % 3) (Grad.unflat z p) else 0

/-- the sum of the masked shares of the parties 1 and 2 -/
def back (op : Shape.BinOp) (xs ys z : List Nat) (gen : Nat → Nat → I64) (x y : RSecret I64) (o : List Nat) : I64 :=
  cr op xs ys x y 1 o + cr op xs ys x y 2 o + gen 1 (Grad.flat z o) - gen 0 (Grad.flat z o)

/-- how the new shares of a product move -/
def randPad (cut : I64 → I64) (h : Nat) (op : Shape.BinOp) (xs ys z : List Nat) (x x' y y' : RSecret I64) (gen : Nat → Nat → I64) (o : List Nat) : I64 :=
  if h = 0 then cut (back op xs ys z gen x' y' o) - cut (back op xs ys z gen x y o) else 0

theorem back_eq (op : Shape.BinOp) (xs ys z : List Nat) (gen : Nat → Nat → I64) (x y : RSecret I64) (o : List Nat) :
    zsh op xs ys z gen x y 1 o + zsh op xs ys z gen x y 2 o = back op xs ys z gen x y o := by
  unfold zsh back
  simp only [show (1 + 1) % 3 = 2 from rfl, show (2 + 1) % 3 = 0 from rfl]
  ring

theorem zsh_agree {h : Nat} (hh : h < 3) {op : Shape.BinOp} {xs ys z : List Nat} (hs : op.shape xs ys = .ok z) {x x' y y' : RSecret I64}
    (ax : Alike h xs x x') (ay : Alike h ys y y') (gen : Nat → Nat → I64) (k : Nat) (hk : Known h k) (o : List Nat) (ho : ValidIdx z o) :
    zsh op xs ys z gen x y k o = zsh op xs ys z (fun g p => gen g p + maskPad h op xs ys z x x' y y' g p) x' y' k o := by
  unfold zsh maskPad
  rcases known_cases hh hk with rfl | rfl
  · dsimp only
    rw [if_neg (by omega), if_neg (by omega), add_zero, add_zero]
    congr 1
    unfold cr
    rw [elem_congr hs (ax.agree k (known_own hh)) (ay.agree k (known_own hh)) o ho,
      elem_congr hs (ax.agree _ (known_next k)) (ay.agree k (known_own hh)) o ho,
      elem_congr hs (ax.agree k (known_own hh)) (ay.agree _ (known_next k)) o ho]
  · dsimp only
    rw [if_neg (by omega), if_pos (by omega), Grad.unflat_flat z o ho]
    ring

/-! ### The verification of a product -/

/-- how the factors of a triple move: they cover the change of the share that party `h` does not have -/
def factorPad (h : Nat) (xs : List Nat) (x x' : RSecret I64) (g p : Nat) : I64 :=
  if g = (h + 2) % 3 then sh x' g (Grad.unflat xs p) - sh x g (Grad.unflat xs p) else 0

theorem random_pieces (gen : Nat → Nat → I64) (s : List Nat) : Pieces s (fun o => gen 0 (Grad.flat s o)) (fun o => gen 1 (Grad.flat s o))
    (fun o => gen 2 (Grad.flat s o)) (random gen s).held :=
  ⟨drawn_piece _ s, drawn_piece _ s, drawn_piece _ s, drawn_piece _ s, drawn_piece _ s, drawn_piece _ s⟩

theorem random_even (gen : Nat → Nat → I64) (s : List Nat) : Even s (random gen s) := even_of (random_pieces gen s) rfl

theorem random_alike (h : Nat) (gen : Nat → Nat → I64) (s : List Nat) (x x' : RSecret I64) :
    Alike h s (random gen s) (random (fun g p => gen g p + factorPad h s x x' g p) s) :=
  alike_of (F := fun k o => gen k (Grad.flat s o)) (F' := fun k o => gen k (Grad.flat s o) + factorPad h s x x' k (Grad.flat s o))
    (random_pieces gen s) (random_pieces (fun g p => gen g p + factorPad h s x x' g p) s) rfl rfl fun k hk o _ => by
      unfold factorPad
      rw [if_neg hk.2, add_zero]

theorem opening_fails {xs ys : List Nat} {x y : RSecret I64} (ex : Even xs x) (ey : Even ys y) {op : Shape.BinOp} (hop : op = .mul ∨ op = .matmul)
    (hs : ∀ z, op.shape xs ys = .ok z → ¬ ∃ o, ValidIdx z o) (d : RDraws I64) : ∃ e, opening op d x y = .error e := by
  unfold opening
  rw [ex.shape, ey.shape]
  simp only [Reported.tuple, ok_bind]
  cases hz : op.shape xs ys with
  | error e =>
    rw [mulSemi_error ex ey hz]
    exact ⟨e, rfl⟩
  | ok z =>
    obtain ⟨l, l1, -⟩ := mulSemi_form ex ey hz d.mask
    rw [l1]
    simp only [ok_bind, (deal_ok op hop d hz).2 (hs z hz)]
    exact ⟨_, rfl⟩

theorem opening_form {xs ys z : List Nat} {x y : RSecret I64} (ex : Even xs x) (ey : Even ys y) {op : Shape.BinOp} (hop : op = .mul ∨ op = .matmul)
    (hs : op.shape xs ys = .ok z) (hex : ∃ o, ValidIdx z o) (d : RDraws I64) :
    ∃ o : RSecret I64 × RTriple I64 × Tensor I64 × Tensor I64, opening op d x y = .ok o ∧
      Pieces z (zsh op xs ys z d.mask x y 0) (zsh op xs ys z d.mask x y 1) (zsh op xs ys z d.mask x y 2) o.1.held ∧
      o.2.1.a = (random d.a xs).held ∧ o.2.1.b = (random d.b ys).held ∧
      Pieces z (zsh op xs ys z d.c (random d.a xs) (random d.b ys) 0) (zsh op xs ys z d.c (random d.a xs) (random d.b ys) 1)
        (zsh op xs ys z d.c (random d.a xs) (random d.b ys) 2) o.2.1.c ∧
      Piece xs (fun o => sh x 0 o - d.a 0 (Grad.flat xs o) + (sh x 1 o - d.a 1 (Grad.flat xs o)) + (sh x 2 o - d.a 2 (Grad.flat xs o))) o.2.2.1 ∧
      Piece ys (fun o => sh y 0 o - d.b 0 (Grad.flat ys o) + (sh y 1 o - d.b 1 (Grad.flat ys o)) + (sh y 2 o - d.b 2 (Grad.flat ys o))) o.2.2.2 := by
  obtain ⟨l, l1, l2, l3, l4⟩ := mulSemi_form ex ey hs d.mask
  obtain ⟨t, -, -, -, t1, -⟩ := (deal_ok op hop d hs).1 hex
  obtain ⟨q, q1, q2, q3, q4⟩ := mulSemi_form (random_even d.a xs) (random_even d.b ys) hs d.c
  have ht : t = ⟨(random d.a xs).held, (random d.b ys).held, distribute q⟩ := by
    have t1 := t1
    unfold deal at t1
    dsimp only at t1
    rw [q1, ok_bind] at t1
    obtain ⟨va, -, t1⟩ := of_bind t1
    obtain ⟨vb, -, t1⟩ := of_bind t1
    obtain ⟨vc, -, t1⟩ := of_bind t1
    obtain ⟨ab, -, t1⟩ := of_bind t1
    obtain ⟨w, -, t1⟩ := of_bind t1
    split at t1
    · cases t1
    · cases t1
      rfl
  have h1 := ex.pieces
  have i1 := ey.pieces
  have k1 := random_pieces d.a xs
  have m1 := random_pieces d.b ys
  obtain ⟨k0, k01, k02, k03⟩ := mask_piece h1.a0 h1.b0 i1.a0 i1.b0 k1.a0 k1.b0 m1.a0 m1.b0
  obtain ⟨k4, k41, k42, k43⟩ := mask_piece h1.a1 h1.b1 i1.a1 i1.b1 k1.a1 k1.b1 m1.a1 m1.b1
  obtain ⟨k5, k51, k52, k53⟩ := mask_piece h1.a2 h1.b2 i1.a2 i1.b2 k1.a2 k1.b2 m1.a2 m1.b2
  obtain ⟨eps, e1, e2⟩ := sum3_piece k02.1 k42.1 k42.2
  obtain ⟨delta, f1, f2⟩ := sum3_piece k03.1 k43.1 k43.2
  have e1 : reconstructSemi ⟨k0.1, k4.1, k5.1⟩ = .ok eps := e1
  have f1 : reconstructSemi ⟨k0.2, k4.2, k5.2⟩ = .ok delta := f1
  have hmask : ((x.held.zip y.held).zip ((random d.a xs).held.zip (random d.b ys).held)).run (falconMask xs ys) = .ok ⟨k0, k4, k5⟩ :=
    trio_run _ _ k01 k41 k51
  refine ⟨(⟨distribute l, .size z⟩, ⟨(random d.a xs).held, (random d.b ys).held, distribute q⟩, eps, delta), ?_,
    pieces_distribute l2 l3 l4, rfl, rfl, pieces_distribute q2 q3 q4, e2, f2⟩
  unfold opening
  rw [ex.shape, ey.shape]
  simp only [Reported.tuple, ok_bind, l1, t1, ht, hmask, e1, f1]
  rfl

theorem pair_eq {h : Nat} (hh : h < 3) {s : List Nat} {F F' : Nat → List Nat → I64} {t t' : Trio (Held I64)} (p : Pieces s (F 0) (F 1) (F 2) t)
    (p' : Pieces s (F' 0) (F' 1) (F' 2) t') (ag : ∀ k, Known h k → ∀ o, ValidIdx s o → F k o = F' k o) : pair h t = pair h t' := by
  have a : Alike h s ⟨t, .size s⟩ ⟨t', .size s⟩ := alike_of p p' rfl rfl ag
  have := a.show hh
  unfold RSecret.show at this
  injection this with h1 h2 h3
  unfold pair
  rw [h1, h2]

/-- the sum of what is masked stays the same -/
theorem masked_sum {h : Nat} {s : List Nat} {x x' : RSecret I64} (a : Alike h s x x') (gen : Nat → Nat → I64) (o : List Nat)
    (ho : ValidIdx s o) :
    sh x 0 o - gen 0 (Grad.flat s o) + (sh x 1 o - gen 1 (Grad.flat s o)) + (sh x 2 o - gen 2 (Grad.flat s o)) =
      sh x' 0 o - (gen 0 (Grad.flat s o) + factorPad h s x x' 0 (Grad.flat s o)) + (sh x' 1 o - (gen 1 (Grad.flat s o) + factorPad h s x x' 1 (Grad.flat s o))) +
        (sh x' 2 o - (gen 2 (Grad.flat s o) + factorPad h s x x' 2 (Grad.flat s o))) := by
  have key : ∀ k, k < 3 → sh x k o - gen k (Grad.flat s o) = sh x' k o - (gen k (Grad.flat s o) + factorPad h s x x' k (Grad.flat s o)) := by
    intro k hk
    unfold factorPad
    split
    · rw [Grad.unflat_flat s o ho]
      ring
    · rename_i hne
      rw [a.agree k ⟨hk, hne⟩ o ho, add_zero]
  rw [key 0 (by omega), key 1 (by omega), key 2 (by omega)]

/-- how all the draws of a product move -/
def productPad (cut : I64 → I64) (h : Nat) (op : Shape.BinOp) (xs ys z : List Nat) (x x' y y' : RSecret I64) : Shift where
  mask := maskPad h op xs ys z x x' y y'
  a := factorPad h xs x x'
  b := factorPad h ys y y'
  c a b := maskPad h op xs ys z (random a xs) (random (fun g p => a g p + factorPad h xs x x' g p) xs) (random b ys)
    (random (fun g p => b g p + factorPad h ys y y' g p) ys)
  rand := randPad cut h op xs ys z x x' y y'

theorem shownCheck_same {h : Nat} (hh : h < 3) {op : Shape.BinOp} (hop : op = .mul ∨ op = .matmul) {xs ys z : List Nat} (hs : op.shape xs ys = .ok z)
    {x x' y y' : RSecret I64} (ax : Alike h xs x x') (ay : Alike h ys y y') (cut : I64 → I64) (d : RDraws I64 × (List Nat → I64)) :
    shownCheck h op d.1 x y = shownCheck h op (moved d (productPad cut h op xs ys z x x' y y')).1 x' y' := by
  unfold shownCheck
  by_cases hex : ∃ o, ValidIdx z o
  · obtain ⟨o, o1, o2, o3, o4, o5, o6, o7⟩ := opening_form ax.left ay.left hop hs hex d.1
    obtain ⟨o', p1, p2, p3, p4, p5, p6, p7⟩ := opening_form ax.right ay.right hop hs hex (moved d (productPad cut h op xs ys z x x' y y')).1
    rw [o1, p1]
    obtain ⟨zz, t, eps, delta⟩ := o
    obtain ⟨zz', t', eps', delta'⟩ := o'
    dsimp only at o2 o3 o4 o5 o6 o7 p2 p3 p4 p5 p6 p7 ⊢
    rw [o3, o4, p3, p4]
    rw [pair_eq hh (F := zsh op xs ys z d.1.mask x y) (F' := zsh op xs ys z (fun g p => d.1.mask g p + maskPad h op xs ys z x x' y y' g p) x' y') o2 p2
      (zsh_agree hh hs ax ay d.1.mask)]
    have ra := random_alike h d.1.a xs x x'
    have rb := random_alike h d.1.b ys y y'
    rw [pair_eq hh (t := t.c) (t' := t'.c) (F := zsh op xs ys z d.1.c (random d.1.a xs) (random d.1.b ys)) (F' := zsh op xs ys z
      (fun g p => d.1.c g p + maskPad h op xs ys z (random d.1.a xs) (random (fun g p => d.1.a g p + factorPad h xs x x' g p) xs) (random d.1.b ys)
        (random (fun g p => d.1.b g p + factorPad h ys y y' g p) ys) g p)
      (random (fun g p => d.1.a g p + factorPad h xs x x' g p) xs) (random (fun g p => d.1.b g p + factorPad h ys y y' g p) ys)) o5 p5
      (zsh_agree hh hs ra rb d.1.c)]
    rw [data_eq o6 p6 fun o ho => masked_sum ax d.1.a o ho, data_eq o7 p7 fun o ho => masked_sum ay d.1.b o ho]
    have e1 : pair h (random d.1.a xs).held = pair h (random (moved d (productPad cut h op xs ys z x x' y y')).1.a xs).held :=
      pair_eq hh ra.left.pieces ra.right.pieces ra.agree
    have e2 : pair h (random d.1.b ys).held = pair h (random (moved d (productPad cut h op xs ys z x x' y y')).1.b ys).held :=
      pair_eq hh rb.left.pieces rb.right.pieces rb.agree
    rw [e1, e2]
    have m1 : ∀ A A' B B' p, maskPad h op xs ys z A A' B B' h p = 0 := fun _ _ _ _ p => if_neg (by omega)
    have m2 : ∀ A A' B B' p, maskPad h op xs ys z A A' B B' ((h + 1) % 3) p = 0 := fun _ _ _ _ p => if_neg (by omega)
    simp only [moved, productPad, m1, m2, add_zero]
  · have hz : ∀ z', op.shape xs ys = .ok z' → ¬ ∃ o, ValidIdx z' o := fun z' h' => by
      rw [hs] at h'
      cases h'
      exact hex
    obtain ⟨e, e1⟩ := opening_fails ax.left ay.left hop hz d.1
    obtain ⟨e', e2⟩ := opening_fails ax.right ay.right hop hz (moved d (productPad cut h op xs ys z x x' y y')).1
    rw [e1, e2]

/-! ### One step -/

/-- nothing moves -/
def still : Shift := ⟨fun _ _ => 0, fun _ _ => 0, fun _ _ => 0, fun _ _ _ _ => 0, fun _ _ => 0⟩

/-- how the new shares of a product with a public operand move -/
def pubPad (cut : I64 → I64) (h : Nat) (op : Shape.BinOp) (xs : List Nat) (y : Tensor I64) (x x' : RSecret I64) (o : List Nat) : I64 :=
  if h = 0 then cut (elem op xs y.shape (sh x' 1) y.at_ o + elem op xs y.shape (sh x' 2) y.at_ o) -
    cut (elem op xs y.shape (sh x 1) y.at_ o + elem op xs y.shape (sh x 2) y.at_ o) else 0

/-- how the draws of a step move -/
def stepPad (cut : I64 → I64) (h : Nat) (shapes : List (List Nat)) (env env' : List (RSecret I64)) :
    Step I64 → Shift
  | .both op i j => match shapes[i]?, shapes[j]?, env[i]?, env'[i]?, env[j]?, env'[j]? with
    | some xs, some ys, some x, some x', some y, some y' => match op.shape xs ys with
      | .ok z => productPad cut h op xs ys z x x' y y'
      | .error _ => still
    | _, _, _, _, _, _ => still
  | .public op i y => match shapes[i]?, env[i]?, env'[i]? with
    | some xs, some x, some x' => { still with rand := fun _ => pubPad cut h op xs y.enc x x' }
    | _, _, _ => still
  | _ => still

/-- the moved draws of a step -/
def padded (cut : I64 → I64) (h : Nat) (shapes : List (List Nat)) (env env' : List (RSecret I64)) (st : Step I64)
    (d : RDraws I64 × (List Nat → I64)) : RDraws I64 × (List Nat → I64) :=
  moved d (stepPad cut h shapes env env' st)

/-- a shift that takes another back -/
def Shift.Undo (s s' : Shift) : Prop := ∀ d, moved (moved d s) s' = d

theorem productPad_undo (cut : I64 → I64) (h : Nat) (op : Shape.BinOp) (xs ys z : List Nat) (x x' y y' : RSecret I64) :
    (productPad cut h op xs ys z x x' y y').Undo (productPad cut h op xs ys z x' x y' y) := by
  have hm : ∀ A A' B B' g p, maskPad h op xs ys z A' A B' B g p = -maskPad h op xs ys z A A' B B' g p := by
    intro A A' B B' g p
    unfold maskPad
    split
    · ring
    · simp
  have hfac : ∀ s X X' g p, factorPad h s X' X g p = -factorPad h s X X' g p := by
    intro s X X' g p
    unfold factorPad
    split
    · ring
    · simp
  have hr : ∀ gen o, randPad cut h op xs ys z x' x y' y (fun g p => gen g p + maskPad h op xs ys z x x' y y' g p) o =
      -randPad cut h op xs ys z x x' y y' gen o := by
    intro gen o
    unfold randPad
    split
    · rename_i h0
      subst h0
      unfold back maskPad
      simp
    · simp
  intro d
  obtain ⟨⟨m, a, b, c⟩, r⟩ := d
  simp only [moved, productPad, hr, hfac xs x x', hfac ys y y', hm x x' y y', add_neg_cancel_right,
    hm (random a xs) (random (fun g p => a g p + factorPad h xs x x' g p) xs) (random b ys) (random (fun g p => b g p + factorPad h ys y y' g p) ys)]

theorem stepPad_undo (cut : I64 → I64) (h : Nat) (shapes : List (List Nat)) (env env' : List (RSecret I64)) (st : Step I64) :
    (stepPad cut h shapes env env' st).Undo (stepPad cut h shapes env' env st) := by
  have hstill : still.Undo still := fun d => by
    simp only [moved, still, add_zero]
  cases st with
  | method m i => exact hstill
  | «public» op i y =>
    simp only [stepPad]
    cases shapes[i]? with
    | none => exact hstill
    | some xs =>
      cases env[i]? with
      | none => cases env'[i]? <;> exact hstill
      | some x =>
        cases env'[i]? with
        | none => exact hstill
        | some x' =>
          intro d
          obtain ⟨⟨m, a, b, c⟩, r⟩ := d
          simp only [moved, still, add_zero]
          congr 1
          funext o
          dsimp only [pubPad]
          split
          · ring
          · simp
  | both op i j =>
    simp only [stepPad]
    cases shapes[i]? with
    | none => exact hstill
    | some xs =>
    cases shapes[j]? with
    | none => exact hstill
    | some ys =>
    cases env[i]? with
    | none => cases env'[i]? <;> exact hstill
    | some x =>
    cases env'[i]? with
    | none => exact hstill
    | some x' =>
    cases env[j]? with
    | none => cases env'[j]? <;> exact hstill
    | some y =>
    cases env'[j]? with
    | none => exact hstill
    | some y' =>
    dsimp only
    cases op.shape xs ys with
    | error e => exact hstill
    | ok z =>
      exact productPad_undo cut h op xs ys z x x' y y'

theorem padded_padded (cut : I64 → I64) (h : Nat) (shapes : List (List Nat)) (env env' : List (RSecret I64)) (st : Step I64)
    (d : RDraws I64 × (List Nat → I64)) : padded cut h shapes env' env st (padded cut h shapes env env' st d) = d :=
  stepPad_undo cut h shapes env env' st d

/-- secrets that differ in the share that `h` does not have -/
structure EnvAlike (h : Nat) (shapes : List (List Nat)) (env env' : List (RSecret I64)) : Prop where
  len : env.length = shapes.length
  len' : env'.length = shapes.length
  rel : ∀ (i : Nat) (s : List Nat) (x x' : RSecret I64), shapes[i]? = some s → env[i]? = some x → env'[i]? = some x' → Alike h s x x'

namespace EnvAlike

variable {h : Nat} {shapes : List (List Nat)} {env env' : List (RSecret I64)}

theorem symm (a : EnvAlike h shapes env env') : EnvAlike h shapes env' env :=
  ⟨a.len', a.len, fun i s x x' h1 h2 h3 => (a.rel i s x' x h1 h3 h2).symm⟩

/-- an operand is there in both, or in neither -/
theorem get (a : EnvAlike h shapes env env') (i : Nat) :
    (∃ s x x', shapes[i]? = some s ∧ env[i]? = some x ∧ env'[i]? = some x' ∧ Alike h s x x') ∨
      (shapes[i]? = none ∧ env[i]? = none ∧ env'[i]? = none) := by
  have l := a.len
  have l' := a.len'
  by_cases hi : i < shapes.length
  · have h1 : shapes[i]? = some shapes[i] := List.getElem?_eq_getElem hi
    have h2 : env[i]? = some env[i] := List.getElem?_eq_getElem (by omega)
    have h3 : env'[i]? = some env'[i] := List.getElem?_eq_getElem (by omega)
    exact .inl ⟨_, _, _, h1, h2, h3, a.rel i _ _ _ h1 h2 h3⟩
  · exact .inr ⟨List.getElem?_eq_none (by omega), List.getElem?_eq_none (by omega), List.getElem?_eq_none (by omega)⟩

theorem append (a : EnvAlike h shapes env env') {s : List Nat} {x x' : RSecret I64} (ax : Alike h s x x') :
    EnvAlike h (shapes ++ [s]) (env ++ [x]) (env' ++ [x']) := by
  refine ⟨by simp [a.len], by simp [a.len'], fun i t y y' h1 h2 h3 => ?_⟩
  rw [List.getElem?_append] at h1 h2 h3
  rw [a.len] at h2
  rw [a.len'] at h3
  split at h1
  · rename_i hi
    rw [if_pos hi] at h2 h3
    exact a.rel i t y y' h1 h2 h3
  · rename_i hi
    rw [if_neg hi] at h2 h3
    rw [List.getElem?_singleton] at h1 h2 h3
    split at h1
    · rename_i h0
      rw [if_pos h0] at h2 h3
      cases h1
      cases h2
      cases h3
      exact ax
    · cases h1

theorem shown (hh : h < 3) (a : EnvAlike h shapes env env') : env.map (RSecret.show h) = env'.map (RSecret.show h) := by
  refine List.ext_getElem? fun i => ?_
  rw [List.getElem?_map, List.getElem?_map]
  rcases a.get i with ⟨s, x, x', h1, h2, h3, ax⟩ | ⟨h1, h2, h3⟩
  · rw [h2, h3, Option.map_some, Option.map_some, ax.show hh]
  · rw [h2, h3]

end EnvAlike

/-- no public operand enlarges a secret that it is added to, in one step -/
def Fitting {A : Type} (st : Step A) (shapes : List (List Nat)) : Prop :=
  match st with
  | .public op i y => op.truncated = false → ∀ s z, shapes[i]? = some s → op.shape s y.enc.shape = .ok z → z = s
  | _ => True

/-- what comes of a step -/
def Result (h : Nat) (st : Step I64) (shapes : List (List Nat)) (r r' : RSecret I64 × List (Trio (Tensor I64))) : Prop :=
  ∃ s, outShape st shapes = .ok s ∧ Alike h s r.1 r'.1

theorem step_same {security : Security} {cut : I64 → I64} {h : Nat} (hh : h < 3) {shapes : List (List Nat)} {env env' : List (RSecret I64)}
    (a : EnvAlike h shapes env env') (st : Step I64) (hf : Fitting st shapes) (d : RDraws I64 × (List Nat → I64)) :
    SameEnd (Result h st shapes) (step security cut d env st) (step security cut (padded cut h shapes env env' st d) env' st) := by
  cases st with
  | both op i j =>
    rcases a.get i with ⟨xs, x, x', h1, h2, h3, ax⟩ | ⟨h1, h2, h3⟩
    swap
    · simp only [step, pyGet_of_none h2, pyGet_of_none h3]
      rfl
    rcases a.get j with ⟨ys, y, y', i1, i2, i3, ay⟩ | ⟨i1, i2, i3⟩
    swap
    · simp only [step, pyGet_of_some h2, pyGet_of_some h3, ok_bind, pyGet_of_none i2, pyGet_of_none i3]
      rfl
    have hout : outShape (.both op i j : Step I64) shapes = op.shape xs ys := by
      simp only [outShape, pyGet_of_some h1, pyGet_of_some i1, ok_bind]
    simp only [step, pyGet_of_some h2, pyGet_of_some h3, ok_bind, pyGet_of_some i2, pyGet_of_some i3]
    by_cases hop : op = .add ∨ op = .sub
    · rw [if_pos hop, if_pos hop]
      cases hs : op.shape xs ys with
      | error e =>
        rw [opPrivate_error ax.left ay.left hs, opPrivate_error ax.right ay.right hs]
        rfl
      | ok z =>
        obtain ⟨r, e1, e2, e3⟩ := opPrivate_form ax.left ay.left hs
        obtain ⟨r', f1, f2, f3⟩ := opPrivate_form ax.right ay.right hs
        rw [e1, f1]
        refine ⟨z, hout.trans hs, alike_of (F := fun k => elem op xs ys (sh x k) (sh y k)) (F' := fun k => elem op xs ys (sh x' k) (sh y' k))
          e3 f3 e2 f2 fun k hk o ho => elem_congr hs (ax.agree k hk) (ay.agree k hk) o ho⟩
    · rw [if_neg hop, if_neg hop]
      cases hs : op.shape xs ys with
      | error e =>
        rw [product_error ax.left ay.left hs, product_error ax.right ay.right hs]
        rfl
      | ok z =>
        have hp : padded cut h shapes env env' (.both op i j) d = moved d (productPad cut h op xs ys z x x' y y') := by
          simp only [padded, stepPad, h1, h2, h3, i1, i2, i3, hs]
        rw [hp]
        have hop' : op = .mul ∨ op = .matmul := by
          cases op <;> simp_all
        by_cases hex : security = .malicious → ∃ o, ValidIdx z o
        swap
        · rw [Classical.not_imp] at hex
          obtain ⟨rfl, hex⟩ := hex
          rw [product_empty ax.left ay.left hop' hs hex, product_empty ax.right ay.right hop' hs hex]
          rfl
        obtain ⟨r, e1, e2, e3⟩ := product_form ax.left ay.left hop' hs security hex cut d
        obtain ⟨r', f1, f2, f3⟩ := product_form ax.right ay.right hop' hs security hex cut (moved d (productPad cut h op xs ys z x x' y y'))
        rw [e1, f1]
        refine ⟨z, hout.trans hs, alike_of e3 f3 e2 f2 fun k hk o ho => ?_⟩
        refine cutShare_agree cut hh (zsh_agree hh hs ax ay d.1.mask) (fun o ho => ?_) k hk o ho
        show d.2 o + randPad cut h op xs ys z x x' y y' d.1.mask o = _
        congr 1
        unfold randPad
        split
        · rename_i h0
          subst h0
          rw [back_eq, back_eq]
          congr 2
          unfold back maskPad
          simp
        · rfl
  | «public» op i y =>
    rcases a.get i with ⟨xs, x, x', h1, h2, h3, ax⟩ | ⟨h1, h2, h3⟩
    swap
    · simp only [step, pyGet_of_none h2, pyGet_of_none h3]
      rfl
    have hout : outShape (.public op i y : Step I64) shapes = op.shape xs y.enc.shape := by
      simp only [outShape, pyGet_of_some h1, ok_bind]
    simp only [step, pyGet_of_some h2, pyGet_of_some h3, ok_bind]
    cases hs : op.shape xs y.enc.shape with
    | error e =>
      rw [publicProduct_error ax.left hs, publicProduct_error ax.right hs]
      rfl
    | ok z =>
      cases hop : op.truncated with
      | false =>
        have hz := hf hop xs z h1 hs
        subst hz
        obtain ⟨r, e1, e2, e3⟩ := publicSum_form ax.left hop hs
        obtain ⟨r', f1, f2, f3⟩ := publicSum_form ax.right hop hs
        rw [e1, f1]
        refine ⟨z, hout.trans hs, alike_of (F := fun k => if k = 0 then elem op z y.enc.shape (sh x 0) y.enc.at_ else sh x k)
          (F' := fun k => if k = 0 then elem op z y.enc.shape (sh x' 0) y.enc.at_ else sh x' k) e3 f3 e2 f2 fun k hk o ho => ?_⟩
        split
        · rename_i h0
          subst h0
          exact elem_congr hs (ax.agree 0 hk) (fun _ _ => rfl) o ho
        · exact ax.agree k hk o ho
      | true =>
        obtain ⟨r, e1, e2, e3⟩ := publicProduct_form ax.left hop hs
        obtain ⟨r', f1, f2, f3⟩ := publicProduct_form ax.right hop hs
        obtain ⟨t, t1, t2⟩ := truncation_form cut d.2 (Z := fun k => elem op xs y.enc.shape (sh x k) y.enc.at_)
          (l := ⟨r.held.p0.1, r.held.p1.1, r.held.p1.2⟩) e3.a0 e3.a1 e3.b1
        obtain ⟨t', t1', t2'⟩ := truncation_form cut (padded cut h shapes env env' (.public op i y) d).2
          (Z := fun k => elem op xs y.enc.shape (sh x' k) y.enc.at_) (l := ⟨r'.held.p0.1, r'.held.p1.1, r'.held.p1.2⟩) f3.a0 f3.a1 f3.b1
        have g1 : truncate cut d.2 r = .ok ⟨t, .size z⟩ := by
          unfold truncate
          rw [e2, t1]
          rfl
        have g2 : truncate cut (padded cut h shapes env env' (.public op i y) d).2 r' = .ok ⟨t', .size z⟩ := by
          unfold truncate
          rw [f2, t1']
          rfl
        rw [e1, f1]
        simp only [ok_bind, if_true, g1, g2]
        refine ⟨z, hout.trans hs, alike_of t2 t2' rfl rfl fun k hk o ho => ?_⟩
        refine cutShare_agree cut hh (fun k hk o ho => elem_congr hs (ax.agree k hk) (fun _ _ => rfl) o ho) (fun o ho => ?_) k hk o ho
        simp only [padded, moved, stepPad, h1, h2, h3, pubPad]
  | method m i =>
    rcases a.get i with ⟨xs, x, x', h1, h2, h3, ax⟩ | ⟨h1, h2, h3⟩
    swap
    · simp only [step, pyGet_of_none h2, pyGet_of_none h3]
      rfl
    have hout : outShape (.method m i : Step I64) shapes = if supported m then Prod.fst <$> m.plan xs else .error .attributeError := by
      simp only [outShape, pyGet_of_some h1, ok_bind]
    simp only [step, pyGet_of_some h2, pyGet_of_some h3, ok_bind]
    cases hm : supported m with
    | false =>
      have : ∀ x : RSecret I64, hook m x = .error .attributeError := by
        intro x
        unfold hook
        rw [hm]
        rfl
      rw [this, this]
      rfl
    | true =>
      obtain ⟨e1, e2⟩ := hook_form ax.left hm
      obtain ⟨f1, f2⟩ := hook_form ax.right hm
      cases hp : m.plan xs with
      | error e =>
        rw [e1 e hp, f1 e hp]
        rfl
      | ok p =>
        obtain ⟨z, src⟩ := p
        obtain ⟨r, g1, g2, g3⟩ := e2 z src hp
        obtain ⟨r', g1', g2', g3'⟩ := f2 z src hp
        rw [g1, g1']
        refine ⟨z, by rw [hout, hm, hp]; rfl, alike_of (F := fun k o => ((src o).map (sh x k)).sum) (F' := fun k o => ((src o).map (sh x' k)).sum)
          g3 g3' g2 g2' fun k hk o ho => list_sum_congr _ _ _ fun q hq => ax.agree k hk q (plan_valid hp o ho q hq)⟩

/-- a party draws and computes the same -/
theorem shownStep_same {security : Security} {cut : I64 → I64} {h : Nat} (hh : h < 3) {shapes : List (List Nat)} {env env' : List (RSecret I64)}
    (a : EnvAlike h shapes env env') (st : Step I64) (d : RDraws I64 × (List Nat → I64)) :
    shownStep security h d.1 env st = shownStep security h (padded cut h shapes env env' st d).1 env' st := by
  cases st with
  | «public» op i y => rfl
  | method m i => rfl
  | both op i j =>
    simp only [shownStep]
    by_cases hop : op = .add ∨ op = .sub
    · rw [if_pos hop, if_pos hop]
    rw [if_neg hop, if_neg hop]
    rcases a.get i with ⟨xs, x, x', h1, h2, h3, ax⟩ | ⟨h1, h2, h3⟩
    swap
    · simp only [h2, h3]
    rcases a.get j with ⟨ys, y, y', i1, i2, i3, ay⟩ | ⟨i1, i2, i3⟩
    swap
    · simp only [h2, h3, i2, i3]
    simp only [h2, h3, i2, i3]
    have hop' : op = .mul ∨ op = .matmul := by
      cases op <;> simp_all
    cases hs : op.shape xs ys with
    | error e =>
      rw [zValue_error ax.left ay.left hs _ h hh, zValue_error ax.right ay.right hs _ h hh]
      cases security with
      | semiHonest => rfl
      | malicious =>
        have hz : ∀ z', op.shape xs ys = .ok z' → ¬ ∃ o, ValidIdx z' o := fun z' h' => by
          rw [hs] at h'
          cases h'
        obtain ⟨e1, g1⟩ := opening_fails ax.left ay.left hop' hz d.1
        obtain ⟨e2, g2⟩ := opening_fails ax.right ay.right hop' hz (padded cut h shapes env env' (.both op i j) d).1
        simp only [shownCheck, g1, g2]
    | ok z =>
      have hp : padded cut h shapes env env' (.both op i j) d = moved d (productPad cut h op xs ys z x x' y y') := by
        simp only [padded, stepPad, h1, h2, h3, i1, i2, i3, hs]
      rw [hp]
      congr 1
      · have hm : (moved d (productPad cut h op xs ys z x x' y y')).1.mask = fun g p => d.1.mask g p + maskPad h op xs ys z x x' y y' g p := rfl
        rw [hm]
        obtain ⟨r, e1, e2⟩ := zValue_form ax.left ay.left hs d.1.mask h hh
        obtain ⟨r', f1, f2⟩ := zValue_form ax.right ay.right hs (fun g p => d.1.mask g p + maskPad h op xs ys z x x' y y' g p) h hh
        rw [e1, f1]
        dsimp only
        rw [data_eq e2 f2 (zsh_agree hh hs ax ay d.1.mask h (known_own hh))]
        have m1 : ∀ p, maskPad h op xs ys z x x' y y' h p = 0 := fun p => if_neg (by omega)
        have m2 : ∀ p, maskPad h op xs ys z x x' y y' ((h + 1) % 3) p = 0 := fun p => if_neg (by omega)
        simp only [m1, m2, add_zero]
      · cases security with
        | semiHonest => rfl
        | malicious => exact shownCheck_same hh hop' hs ax ay cut d

/-! ### Programs -/

theorem fits_cons {A : Type} {st : Step A} {prog : List (Step A)} {shapes : List (List Nat)} (h : fits (st :: prog) shapes = true) :
    Fitting st shapes ∧ ∀ s, outShape st shapes = .ok s → fits prog (shapes ++ [s]) = true := by
  unfold fits at h
  rw [Bool.and_eq_true] at h
  obtain ⟨h1, h2⟩ := h
  refine ⟨?_, fun s hs => by rw [hs] at h2; exact h2⟩
  cases st with
  | both op i j => trivial
  | method m i => trivial
  | «public» op i y =>
    intro hop s z hs hz
    simpa [hop, hs, hz] using h1

theorem enc_map {A B : Type} (f : A → B) (y : Operand A) : (y.map f).enc.shape = y.enc.shape := by cases y <;> rfl

theorem outShape_map {A B : Type} (f : A → B) (st : Step A) (shapes : List (List Nat)) : outShape (st.map f) shapes = outShape st shapes := by
  cases st with
  | both op i j => rfl
  | method m i => rfl
  | «public» op i y => simp only [outShape, Step.map, enc_map]

theorem fitting_map {A B : Type} (f : A → B) {st : Step A} {shapes : List (List Nat)} (h : Fitting st shapes) : Fitting (st.map f) shapes := by
  cases st with
  | both op i j => trivial
  | method m i => trivial
  | «public» op i y =>
    simp only [Fitting, Step.map, enc_map] at h ⊢
    exact h

section
variable (c : Config) (security : Security) (h : Nat)

/-- the moved draws of a call of the user -/
def paddedCall (shapes : List (List Nat)) (env env' : List (RSecret I64)) (st : Step Val) (d : RDraws I64 × (List Nat → I64)) :
    RDraws I64 × (List Nat → I64) :=
  padded (shiftPow 64 c) h shapes env env' (st.map c.encoder.encode) d

/-- a call of the user -/
def call (d : RDraws I64 × (List Nat → I64)) (env : List (RSecret I64)) (st : Step Val) : Py (RSecret I64 × List (Trio (Tensor I64))) :=
  step security (shiftPow 64 c) d env (st.map c.encoder.encode)

/-- the moved tape -/
def padTape : List (Step Val) → List (RDraws I64 × (List Nat → I64)) → List (List Nat) → List (RSecret I64) → List (RSecret I64) →
    List (RDraws I64 × (List Nat → I64))
  | [], tape, _, _, _ => tape
  | _ :: _, [], _, _, _ => []
  | st :: prog, d :: tape, shapes, env, env' =>
    paddedCall c h shapes env env' st d ::
      match call c security d env st, call c security (paddedCall c h shapes env env' st d) env' st, outShape st shapes with
      | .ok r, .ok r', .ok s => padTape prog tape (shapes ++ [s]) (env ++ [r.1]) (env' ++ [r'.1])
      | _, _, _ => tape

/-- the secrets that both runs have reached after some steps -/
def reach : List (Step Val) → List (RDraws I64 × (List Nat → I64)) → List (List Nat) → List (RSecret I64) → List (RSecret I64) →
    Option (List (List Nat) × List (RSecret I64) × List (RSecret I64))
  | _, [], shapes, env, env' => some (shapes, env, env')
  | [], _ :: _, _, _, _ => none
  | st :: prog, d :: tape, shapes, env, env' =>
    match call c security d env st, call c security (paddedCall c h shapes env env' st d) env' st, outShape st shapes with
    | .ok r, .ok r', .ok s => reach prog tape (shapes ++ [s]) (env ++ [r.1]) (env' ++ [r'.1])
    | _, _, _ => none

/-- how the draws of a later step move -/
def laterPad (prog : List (Step Val)) (past : List (RDraws I64 × (List Nat → I64))) (shapes : List (List Nat)) (env env' : List (RSecret I64)) :
    Shift :=
  match prog[past.length]?, reach c security h prog past shapes env env' with
  | some st, some e => stepPad (shiftPow 64 c) h e.1 e.2.1 e.2.2 (st.map c.encoder.encode)
  | _, _ => still

theorem padTape_get (prog : List (Step Val)) (tape : List (RDraws I64 × (List Nat → I64))) (shapes : List (List Nat))
    (env env' : List (RSecret I64)) (m : Nat) :
    (padTape c security h prog tape shapes env env')[m]? = tape[m]?.map fun d =>
      moved d (laterPad c security h prog (tape.take m) shapes env env') := by
  have hstill : ∀ (l : List (RDraws I64 × (List Nat → I64))) (m : Nat), l[m]? = l[m]?.map fun d => moved d still := by
    intro l m
    simp only [moved, still, add_zero, Option.map_id']
  induction prog generalizing tape shapes env env' m with
  | nil =>
    unfold padTape laterPad
    simp only [List.getElem?_nil]
    exact hstill tape m
  | cons st prog ih =>
    cases tape with
    | nil => simp [padTape]
    | cons d tape =>
      cases m with
      | zero => rfl
      | succ m =>
        unfold padTape
        simp only [List.getElem?_cons_succ, List.take_succ_cons]
        unfold laterPad
        simp only [List.length_cons, List.getElem?_cons_succ, reach]
        cases call c security d env st with
        | error e =>
          simp only
          cases prog[(tape.take m).length]? <;> exact hstill tape m
        | ok r =>
          cases call c security (paddedCall c h shapes env env' st d) env' st with
          | error e =>
            simp only
            cases prog[(tape.take m).length]? <;> exact hstill tape m
          | ok r' =>
            cases outShape st shapes with
            | error e =>
              simp only
              cases prog[(tape.take m).length]? <;> exact hstill tape m
            | ok s => exact ih tape (shapes ++ [s]) (env ++ [r.1]) (env' ++ [r'.1]) m

variable {c security h}

theorem call_same (hh : h < 3) {shapes : List (List Nat)} {env env' : List (RSecret I64)} (a : EnvAlike h shapes env env') (st : Step Val)
    (hf : Fitting st shapes) (d : RDraws I64 × (List Nat → I64)) :
    SameEnd (fun r r' => ∃ s, outShape st shapes = .ok s ∧ Alike h s r.1 r'.1) (call c security d env st)
      (call c security (paddedCall c h shapes env env' st d) env' st) := by
  have := step_same (security := security) (cut := shiftPow 64 c) hh a (st.map c.encoder.encode) (fitting_map _ hf) d
  unfold Result at this
  simp only [outShape_map] at this
  exact this

theorem padTape_padTape (hh : h < 3) (prog : List (Step Val)) (tape : List (RDraws I64 × (List Nat → I64))) {shapes : List (List Nat)}
    {env env' : List (RSecret I64)} (a : EnvAlike h shapes env env') (hf : fits prog shapes = true) :
    padTape c security h prog (padTape c security h prog tape shapes env env') shapes env' env = tape := by
  induction prog generalizing tape shapes env env' with
  | nil => rfl
  | cons st prog ih =>
    cases tape with
    | nil => rfl
    | cons d tape =>
      obtain ⟨f1, f2⟩ := fits_cons hf
      have hc := call_same (c := c) (security := security) hh a st f1 d
      have hpp : paddedCall c h shapes env' env st (paddedCall c h shapes env env' st d) = d := padded_padded _ h shapes env env' _ d
      simp only [padTape, hpp]
      congr 1
      revert hc
      cases call c security d env st with
      | error e =>
        cases call c security (paddedCall c h shapes env env' st d) env' st with
        | error e' => intro; rfl
        | ok r' => intro hc; cases hc
      | ok r =>
        cases call c security (paddedCall c h shapes env env' st d) env' st with
        | error e' => intro hc; cases hc
        | ok r' =>
          rintro ⟨s, hs, hc⟩
          rw [hs]
          exact ih tape (a.append hc) (f2 s hs)

theorem shown_padTape (hh : h < 3) (prog : List (Step Val)) (tape : List (RDraws I64 × (List Nat → I64))) {shapes : List (List Nat)}
    {env env' : List (RSecret I64)} (a : EnvAlike h shapes env env') (hf : fits prog shapes = true) :
    shown c security h (prog.zip (padTape c security h prog tape shapes env env')) env' = shown c security h (prog.zip tape) env := by
  induction prog generalizing tape shapes env env' with
  | nil => rfl
  | cons st prog ih =>
    cases tape with
    | nil => rfl
    | cons d tape =>
      obtain ⟨f1, f2⟩ := fits_cons hf
      have hc := call_same (c := c) (security := security) hh a st f1 d
      have hs : shownStep security h d.1 env (st.map c.encoder.encode) = shownStep security h (paddedCall c h shapes env env' st d).1 env' (st.map c.encoder.encode) :=
        shownStep_same hh a _ d
      simp only [padTape, List.zip_cons_cons, shown]
      rw [hs]
      congr 1
      have e1 : step security (shiftPow 64 c) d env (st.map c.encoder.encode) = call c security d env st := rfl
      have e2 : step security (shiftPow 64 c) (paddedCall c h shapes env env' st d) env' (st.map c.encoder.encode) =
        call c security (paddedCall c h shapes env env' st d) env' st := rfl
      rw [e1, e2]
      revert hc
      cases call c security d env st with
      | error e =>
        cases call c security (paddedCall c h shapes env env' st d) env' st with
        | error e' => intro hc; cases hc; rfl
        | ok r' => intro hc; cases hc
      | ok r =>
        cases call c security (paddedCall c h shapes env env' st d) env' st with
        | error e' => intro hc; cases hc
        | ok r' =>
          rintro ⟨s, hs, hc⟩
          dsimp only
          rw [hs, hc.show hh, ih tape (a.append hc) (f2 s hs)]

end

/-! ### Inputs -/

/-- the replicated shares of the inputs -/
def replicatedInputs (c : Config) (inputs : List (Tensor Val)) (draws : List (Nat → List Nat → I64)) : List (RSecret I64) :=
  (inputs.zip draws).map fun p =>
    ⟨distribute ⟨piece 3 p.1.shape (fun i => c.encoder.encode (p.1.at_ i)) p.2 0, piece 3 p.1.shape (fun i => c.encoder.encode (p.1.at_ i)) p.2 1,
      piece 3 p.1.shape (fun i => c.encoder.encode (p.1.at_ i)) p.2 2⟩, .size p.1.shape⟩

theorem fixedInputs_form (c : Config) (inputs : List (Tensor Val)) (draws : List (Nat → List Nat → I64)) :
    fixedInputs c (inputs.zip draws) = .ok (replicatedInputs c inputs draws) := by
  unfold fixedInputs replicatedInputs
  exact mapM_ok _ _ _ fun p _ => rfl

theorem inputs_alike (c : Config) (h : Nat) (ins ins' : List (Tensor Val)) (hs : ins.map Tensor.shape = ins'.map Tensor.shape)
    (draws : List (Nat → List Nat → I64)) :
    EnvAlike h ((ins.zip draws).map (·.1.shape)) (replicatedInputs c ins draws) (replicatedInputs c ins' (padInputs c ((h + 2) % 3) ins ins' draws)) := by
  have hlen : ins.length = ins'.length := by simpa using congrArg List.length hs
  refine ⟨by simp [replicatedInputs], by simp [replicatedInputs, padInputs, hlen], fun m s x x' h1 h2 h3 => ?_⟩
  simp only [replicatedInputs, padInputs, List.getElem?_map, zip_getElem, List.getElem?_mapIdx] at h1 h2 h3
  cases hi : ins[m]? with
  | none => rw [hi] at h1; simp at h1
  | some t =>
  cases hi' : ins'[m]? with
  | none => rw [hi'] at h3; simp at h3
  | some t' =>
  cases hd : draws[m]? with
  | none => rw [hi, hd] at h1; simp at h1
  | some u =>
  have e : t.shape = t'.shape := by
    have := congrArg (fun l => l[m]?) hs
    simpa [List.getElem?_map, hi, hi'] using this
  simp only [hi, hd, Option.map_some, Option.some.injEq] at h1 h2
  simp only [hi', hd, inputPad, hi, Option.map_some, Option.some.injEq] at h3
  subst h1 h2 h3
  rw [← e]
  refine alike_of (F := fun k => (piece 3 t.shape (fun i => c.encoder.encode (t.at_ i)) u k).at_) (F' := fun k => (piece 3 t.shape
      (fun i => c.encoder.encode (t'.at_ i)) (fun k i => u k i + chain ((h + 2) % 3) (fun i => c.encoder.encode (t'.at_ i) - c.encoder.encode (t.at_ i)) k i) k).at_)
    (pieces_distribute (Piece.refl _) (Piece.refl _) (Piece.refl _)) (pieces_distribute (Piece.refl _) (Piece.refl _) (Piece.refl _)) rfl rfl fun k hk o _ => ?_
  have hv : (fun i => c.encoder.encode (t'.at_ i)) = fun i => c.encoder.encode (t.at_ i) +
      (c.encoder.encode (t'.at_ i) - c.encoder.encode (t.at_ i)) := by
    funext i
    ring
  rw [hv]
  have := piece_move (n := 3) (h := (h + 2) % 3) (by omega) (by omega) t.shape (fun i => c.encoder.encode (t.at_ i))
    (fun i => c.encoder.encode (t'.at_ i) - c.encoder.encode (t.at_ i)) u k hk.1
  rw [this]
  simp only [if_neg hk.2, add_zero]

/-! ## The property -/

/-- C95 (partial): three parties with replicated shares, with semi-honest and with malicious security.  Whatever the program (sums, products,
matrix products and forwarded methods, with fixed point numbers), what one party sees says nothing about the secrets but their shapes.  If
the secrets are replaced by others of the same shapes, then moving every drawn number by an amount settled before it is drawn gives exactly
the same view: the two shares that the party holds of every value, the numbers of its two generators, its masked shares of products, with
malicious security also its shares of the triple and the opened values, and shapes and exceptions.
Missing: the code draws from half of the ring (`C04_half_range_leaks`), and public operands that enlarge the secret that they are added to,
for which the shares no longer have one shape (`C82_enlarged_sum_wrong`).  The party follows the protocol. -/
theorem C95_one_party_partial (c : Config) (security : Security) (h : Nat) (hh : h < 3) (ins ins' : List (Tensor Val))
    (hs : ins.map Tensor.shape = ins'.map Tensor.shape) (prog : List (Step Val))
    (hf : fits prog (ins.map Tensor.shape) = true) :
    ∃ σ : Chance ≃ Chance, OneTimePad σ ∧
      ∀ r, ins.length ≤ r.1.length → view c security h ins' prog (σ r).1 (σ r).2 = view c security h ins prog r.1 r.2 := by
  have hlen : ins.length = ins'.length := by simpa using congrArg List.length hs
  have hsh : ∀ (ins : List (Tensor Val)) (draws : List (Nat → List Nat → I64)), ins.length ≤ draws.length →
      (ins.zip draws).map (·.1.shape) = ins.map Tensor.shape := by
    intro ins draws hl
    have := List.map_fst_zip (l₁ := ins) (l₂ := draws) hl
    conv_rhs => rw [← this]
    rw [List.map_map]
    rfl
  have hal : ∀ draws : List (Nat → List Nat → I64), ins.length ≤ draws.length → EnvAlike h (ins.map Tensor.shape) (replicatedInputs c ins draws)
      (replicatedInputs c ins' (padInputs c ((h + 2) % 3) ins ins' draws)) := by
    intro draws hl
    have := inputs_alike c h ins ins' hs draws
    rwa [hsh ins draws hl] at this
  have hal' : ∀ draws : List (Nat → List Nat → I64), ins.length ≤ draws.length → EnvAlike h (ins.map Tensor.shape) (replicatedInputs c ins' draws)
      (replicatedInputs c ins (padInputs c ((h + 2) % 3) ins' ins draws)) := by
    intro draws hl
    have := inputs_alike c h ins' ins hs.symm draws
    rwa [hsh ins' draws (by omega), ← hs] at this
  have hpl : ∀ (a b : List (Tensor Val)) (draws : List (Nat → List Nat → I64)), (padInputs c ((h + 2) % 3) a b draws).length = draws.length := by
    intro a b draws
    simp [padInputs]
  refine ⟨⟨fun r => (padInputs c ((h + 2) % 3) ins ins' r.1, if ins.length ≤ r.1.length then
      padTape c security h prog r.2 (ins.map Tensor.shape) (replicatedInputs c ins r.1) (replicatedInputs c ins' (padInputs c ((h + 2) % 3) ins ins' r.1)) else r.2),
    fun r => (padInputs c ((h + 2) % 3) ins' ins r.1, if ins.length ≤ r.1.length then
      padTape c security h prog r.2 (ins.map Tensor.shape) (replicatedInputs c ins' r.1) (replicatedInputs c ins (padInputs c ((h + 2) % 3) ins' ins r.1)) else r.2), ?_, ?_⟩,
    ⟨?_, ?_⟩, ?_⟩
  · intro r
    dsimp only
    rw [padInputs_padInputs, hpl]
    split
    · rename_i hl
      rw [padTape_padTape hh prog r.2 (hal r.1 hl) hf]
    · rfl
  · intro r
    dsimp only
    rw [padInputs_padInputs, hpl]
    split
    · rename_i hl
      rw [padTape_padTape hh prog r.2 (hal' r.1 hl) hf]
    · rfl
  · exact ⟨inputPad c ((h + 2) % 3) ins ins', fun r m => by simp [padInputs]⟩
  · refine ⟨fun r => if ins.length ≤ r.1.length then (laterPad c security h prog r.2 (ins.map Tensor.shape) (replicatedInputs c ins r.1)
        (replicatedInputs c ins' (padInputs c ((h + 2) % 3) ins ins' r.1))) else still, fun r m => ?_⟩
    by_cases hl : ins.length ≤ r.1.length
    · simp only [Equiv.coe_fn_mk, if_pos hl]
      exact padTape_get c security h prog r.2 _ _ _ m
    · simp only [Equiv.coe_fn_mk, if_neg hl, moved, still, add_zero, Option.map_id']
  · intro r hl
    have a := hal r.1 hl
    simp only [view, Equiv.coe_fn_mk, fixedInputs_form c, if_pos hl]
    rw [a.shown hh, shown_padTape hh prog r.2 a hf]

/-! ## Examples -/

/-- what kind of thing is seen -/
def exKind : Seen I64 → String
  | .secret .. => "secret"
  | .product .. => "product"
  | .checked .. => "check"
  | .raised _ => "exception"

/-- no public operand of the program enlarges a secret -/
example : fits exFixedSteps ((exFixedInputs.map (·.1)).map Tensor.shape) = true := by decide +kernel

/-- the program runs to its end, with two products of secrets -/
example : (let v := (view {} .semiHonest 1 (exFixedInputs.map (·.1)) exFixedSteps (exFixedInputs.map (·.2)) (exFixedSteps.map fun _ =>
      (⟨fun g i => BitVec.ofNat 64 (7 * g + i), fun _ _ => 1, fun _ _ => 2, fun _ _ => 3⟩, fun i => BitVec.ofNat 64 i.sum))).map exKind
    ((v.count "secret", v.count "product", v.count "exception"))) = (8, 2, 0) := by
  decide +kernel

/-- with malicious security each of them is verified -/
example : (let v := (view {} .malicious 1 (exFixedInputs.map (·.1)) exFixedSteps (exFixedInputs.map (·.2)) (exFixedSteps.map fun _ =>
      (⟨fun g i => BitVec.ofNat 64 (7 * g + i), fun _ _ => 1, fun _ _ => 2, fun _ _ => 3⟩, fun i => BitVec.ofNat 64 i.sum))).map exKind
    ((v.count "secret", v.count "product", v.count "check", v.count "exception"))) = (8, 2, 2, 0) := by
  decide +kernel

/-- the amounts matter: with the same draws, other secrets are seen otherwise by the parties 1 and 2 -/
example : ∀ h ∈ [1, 2], (match view {} .semiHonest h [exTensor [1] [.int 5]] [] [fun _ _ => 3] [], view {} .semiHonest h [exTensor [1] [.int 6]] [] [fun _ _ => 3] [] with
    | [.secret a b _], [.secret a' b' _] => decide ((a, b) ≠ (a', b'))
    | _, _ => false) = true := by
  decide +kernel

/-- the condition on public operands matters: a number added to a tensor without dimensions gives it one -/
example : fits [.public .add 0 (.number (.int 1) : Operand Val)] [[]] = false := by decide +kernel

end SyMPC.RShape
