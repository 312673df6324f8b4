import Verif.Model.RLying
import Verif.Props.RShapeView

/-!
# C96: a lying party in programs on replicated shares with malicious security
-/

namespace SyMPC.RShape

open Tensor Shape
open FixedPointEncoder (Val)

/-! ## Specification -/

/-- the lies that the protocol is up to: none about the triple, and, but for the last party, none about the masked operands and none about
what is truncated -/
def Lies.Bounded (p : Nat) (l : Lies I64) : Prop :=
  l.c = none ∧ (p ≠ 2 → l.eps = (none, none) ∧ l.delta = (none, none) ∧ l.sent = (none, none))

/-- the same program when all are honest, and the opening of one of its secrets -/
def openHonest (c : Config) (prog : List (Step Val × (RDraws I64 × (List Nat → I64)) × Lies I64)) (i : Nat) (env : List (RSecret I64)) :
    Py (Tensor I64) := do
  let r ← fixed c .malicious (prog.map fun q => (q.1, q.2.1)) env
  let x ← pyGet r.1 i
  reconstruct .malicious x

/-! ## Proof -/

theorem told_piece (l : Lie I64) {s : List Nat} {f : List Nat → I64} {t : Tensor I64} (h : Piece s f t) : ∃ g, Piece s g (l.told t) := by
  cases l with
  | none => exact ⟨f, h⟩
  | some e => exact ⟨_, h.1, fun _ _ => rfl⟩

theorem told_eq (l : Lie I64) {t : Tensor I64} (h : ∀ o, ValidIdx t.shape o → (l.told t).at_ o = t.at_ o) : l.told t = t := by
  cases l with
  | none => rfl
  | some e =>
    obtain ⟨s, f⟩ := t
    simp only [Lie.told, Tensor.mk.injEq, true_and]
    funext o
    split
    · rename_i ho
      have := h o ((mem_indices _ _).mp ho)
      simp only [Lie.told, if_pos ho] at this
      exact this
    · rfl

theorem told_shape (l : Lie I64) (t : Tensor I64) : (l.told t).shape = t.shape := by cases l <;> rfl

theorem toldHeld_none (h : Held I64) : toldHeld (none, none) h = h := rfl

theorem change_id {A : Type} (p : Nat) (f : A → A) (hf : ∀ a, f a = a) (t : Trio A) : t.change p f = t := by
  unfold Trio.change
  split <;> rw [hf]

/-- Opening with one liar: when it does not fail, it gives what the honest parties have. -/
theorem malicious_lying {p : Nat} (hp : p < 3) (l : Lie I64 × Lie I64) {s : List Nat} {f0 f1 f2 : List Nat → I64} {h : Trio (Held I64)}
    (hh : Pieces s f0 f1 f2 h) :
    reconstructMalicious (h.change p (toldHeld l)) = .error .valueError ∨
      ∃ r, reconstructMalicious (h.change p (toldHeld l)) = .ok r ∧ Piece s (fun o => f0 o + f1 o + f2 o) r := by
  have key : ∀ {x : RSecret I64} {a0 b0 a1 b1 a2 b2 : List Nat → I64}, Piece s a0 x.held.p0.1 → Piece s b0 x.held.p0.2 → Piece s a1 x.held.p1.1 →
      Piece s b1 x.held.p1.2 → Piece s a2 x.held.p2.1 → Piece s b2 x.held.p2.2 →
      (∀ o, ValidIdx s o → a1 o + a2 o + b2 o = a0 o + a1 o + b1 o ∧ a2 o + a0 o + b0 o = a0 o + a1 o + b1 o → a0 o + a1 o + b1 o = f0 o + f1 o + f2 o) →
      reconstructMalicious x.held = .error .valueError ∨ ∃ r, reconstructMalicious x.held = .ok r ∧ Piece s (fun o => f0 o + f1 o + f2 o) r := by
    intro x a0 b0 a1 b1 a2 b2 h0 h0' h1 h1' h2 h2' hsum
    obtain ⟨d1, d2⟩ := C82_reconstruct_decides h0 h0' h1 h1' h2 h2'
    by_cases hd : ∀ o, ValidIdx s o → a1 o + a2 o + b2 o = a0 o + a1 o + b1 o ∧ a2 o + a0 o + b0 o = a0 o + a1 o + b1 o
    · obtain ⟨r, r1, r2, r3⟩ := d1 hd
      exact .inr ⟨r, r1, r2, fun o ho => (r3 o ho).trans (hsum o ho (hd o ho))⟩
    · push Not at hd
      obtain ⟨o, ho, hne⟩ := hd
      exact .inl (d2 ⟨o, ho, fun h => hne h.1 h.2⟩)
  match p, hp with
  | 0, _ =>
    obtain ⟨g, g1⟩ := told_piece l.1 hh.a0
    obtain ⟨g', g1'⟩ := told_piece l.2 hh.b0
    refine key (x := ⟨h.change 0 (toldHeld l), .size s⟩) g1 g1' hh.a1 hh.b1 hh.a2 hh.b2 fun o _ he => ?_
    rw [← he.1]
    ring
  | 1, _ =>
    obtain ⟨g, g1⟩ := told_piece l.1 hh.a1
    obtain ⟨g', g1'⟩ := told_piece l.2 hh.b1
    refine key (x := ⟨h.change 1 (toldHeld l), .size s⟩) hh.a0 hh.b0 g1 g1' hh.a2 hh.b2 fun o _ he => ?_
    rw [← he.2]
    ring
  | 2, _ =>
    obtain ⟨g, g1⟩ := told_piece l.1 hh.a2
    obtain ⟨g', g1'⟩ := told_piece l.2 hh.b2
    exact key (x := ⟨h.change 2 (toldHeld l), .size s⟩) hh.a0 hh.b0 hh.a1 hh.b1 g1 g1' fun o _ _ => rfl

theorem dealLying_honest (p : Nat) (l : Lies I64) (hl : l.c = none) (op : Shape.BinOp) (d : RDraws I64) (xs ys : List Nat) :
    dealLying p l op d xs ys = deal op d xs ys := by
  unfold dealLying deal
  rw [hl]
  simp only [change_id p (Lie.told none) fun _ => rfl]

/-- the opened masked operands do not depend on the lies -/
theorem mask_honest {p : Nat} (hp : p < 3) {l : Lies I64} (hl : l.Bounded p) (m : Trio (Held I64 × Held I64)) :
    reconstructSemi ⟨(m.change p fun m => (toldHeld l.eps m.1, toldHeld l.delta m.2)).p0.1, (m.change p fun m => (toldHeld l.eps m.1, toldHeld l.delta m.2)).p1.1,
        (m.change p fun m => (toldHeld l.eps m.1, toldHeld l.delta m.2)).p2.1⟩ = reconstructSemi ⟨m.p0.1, m.p1.1, m.p2.1⟩ ∧
    reconstructSemi ⟨(m.change p fun m => (toldHeld l.eps m.1, toldHeld l.delta m.2)).p0.2, (m.change p fun m => (toldHeld l.eps m.1, toldHeld l.delta m.2)).p1.2,
        (m.change p fun m => (toldHeld l.eps m.1, toldHeld l.delta m.2)).p2.2⟩ = reconstructSemi ⟨m.p0.2, m.p1.2, m.p2.2⟩ := by
  by_cases h2 : p = 2
  · subst h2
    exact ⟨rfl, rfl⟩
  · obtain ⟨e1, e2, -⟩ := hl.2 h2
    rw [e1, e2, change_id p (fun m => (toldHeld (none, none) m.1, toldHeld (none, none) m.2)) fun _ => rfl]
    exact ⟨rfl, rfl⟩

/-- a product is refused or right -/
theorem mulLying_honest {p : Nat} (hp : p < 3) {l : Lies I64} (hl : l.Bounded p) {xs ys : List Nat} {x y : RSecret I64} (ex : Even xs x) (ey : Even ys y)
    {op : Shape.BinOp} (hop : op = .mul ∨ op = .matmul) (d : RDraws I64) :
    mulLying p l op d x y = mulMalicious op d x y ∨ mulLying p l op d x y = .error .valueError := by
  cases hs : op.shape xs ys with
  | error e =>
    left
    unfold mulLying mulMalicious
    rw [ex.shape, ey.shape, mulSemi_error ex ey hs]
    rfl
  | ok s =>
  obtain ⟨z, j1, j2, j3, j4⟩ := mulSemi_form ex ey hs d.mask
  by_cases hex : ∃ o, ValidIdx s o
  swap
  · right
    unfold mulLying
    rw [ex.shape, ey.shape]
    simp only [Reported.tuple, ok_bind, j1, dealLying_honest p l hl.1, (deal_ok op hop d hs).2 hex]
    rfl
  have h1 := ex.pieces
  have i1 := ey.pieces
  -- the shares of the product, one of which is not what it should be
  obtain ⟨zl, hzl⟩ : ∃ zl : Trio (Tensor I64), zl = z.change p l.z.told := ⟨_, rfl⟩
  have hzl' : zl.p0.shape = s ∧ zl.p1.shape = s ∧ zl.p2.shape = s := by
    subst hzl
    unfold Trio.change
    split <;> simp only [told_shape] <;> exact ⟨j2.1, j3.1, j4.1⟩
  have n1 : Pieces s zl.p0.at_ zl.p1.at_ zl.p2.at_ (distribute zl) :=
    pieces_distribute (hzl'.1 ▸ Piece.refl _) (hzl'.2.1 ▸ Piece.refl _) (hzl'.2.2 ▸ Piece.refl _)
  obtain ⟨t, va, vb, vc, t1, t2, t3, t4, ea, eb, ec, hc⟩ := (deal_ok op hop d hs).1 hex
  obtain ⟨⟨a0, a1, a2, k1, k2⟩, -⟩ := t2
  obtain ⟨⟨b0, b1, b2, l1, l2⟩, -⟩ := t3
  obtain ⟨⟨c0, c1, c2, m1, m2⟩, -⟩ := t4
  rw [ea] at k1 k2
  rw [eb] at l1 l2
  rw [ec] at m1 m2
  obtain ⟨k0, k01, k02, k03⟩ := mask_piece h1.a0 h1.b0 i1.a0 i1.b0 k1.a0 k1.b0 l1.a0 l1.b0
  obtain ⟨k4, k41, k42, k43⟩ := mask_piece h1.a1 h1.b1 i1.a1 i1.b1 k1.a1 k1.b1 l1.a1 l1.b1
  obtain ⟨k5, k51, k52, k53⟩ := mask_piece h1.a2 h1.b2 i1.a2 i1.b2 k1.a2 k1.b2 l1.a2 l1.b2
  obtain ⟨eps, p1, p2⟩ := sum3_piece k02.1 k42.1 k42.2
  obtain ⟨delta, q1, q2⟩ := sum3_piece k03.1 k43.1 k43.2
  have p1 : reconstructSemi ⟨k0.1, k4.1, k5.1⟩ = .ok eps := p1
  have q1 : reconstructSemi ⟨k0.2, k4.2, k5.2⟩ = .ok delta := q1
  obtain ⟨r0, u1, u2, u3⟩ := verification_piece op hs 0 p2 q2 n1.a0 n1.b0 k1.a0 k1.b0 l1.a0 l1.b0 m1.a0 m1.b0
  obtain ⟨r1, v1, v2, v3⟩ := verification_piece op hs 1 p2 q2 n1.a1 n1.b1 k1.a1 k1.b1 l1.a1 l1.b1 m1.a1 m1.b1
  obtain ⟨r2, w1, w2, w3⟩ := verification_piece op hs 2 p2 q2 n1.a2 n1.b2 k1.a2 k1.b2 l1.a2 l1.b2 m1.a2 m1.b2
  have hmask : ((x.held.zip y.held).zip (t.a.zip t.b)).run (falconMask xs ys) = .ok ⟨k0, k4, k5⟩ := trio_run _ _ k01 k41 k51
  obtain ⟨o1, o2⟩ := mask_honest hp hl ⟨k0, k4, k5⟩
  have hmul : mulLying p l op d x y = (do
      let r ← reconstructMalicious ((⟨r0, r1, r2⟩ : Trio (Held I64)).change p (toldHeld l.rest))
      if (indices r.shape).all fun o => r.at_ o = 0 then return ⟨distribute zl, .size s⟩ else throw .valueError) := by
    unfold mulLying
    rw [ex.shape, ey.shape]
    simp only [Reported.tuple, ok_bind, j1, dealLying_honest p l hl.1, t1, hmask, o1, o2, p1, q1]
    rw [← hzl]
    rw [u1, ok_bind, v1, ok_bind, w1, ok_bind]
  rcases malicious_lying hp l.rest (h := ⟨r0, r1, r2⟩) ⟨u2, u3, v2, v3, w2, w3⟩ with hr | ⟨r, x1, x2⟩
  · right
    rw [hmul, hr]
    rfl
  rw [hmul, x1, ok_bind]
  split
  swap
  · exact .inr rfl
  rename_i hall
  left
  rw [List.all_eq_true] at hall
  have hr : ∀ o, ValidIdx s o → zl.p0.at_ o + zl.p1.at_ o + zl.p2.at_ o = z.p0.at_ o + z.p1.at_ o + z.p2.at_ o := by
    intro o ho
    have h0 : r.at_ o = 0 := of_decide_eq_true (hall o (by rw [x2.1]; exact (mem_indices _ _).mpr ho))
    rw [x2.2 o ho] at h0
    dsimp only at h0
    unfold left at h0
    simp only [decide_eq_true_eq, if_true, show ((0 : Nat) = 2) = False by simp, show ((1 : Nat) = 2) = False by simp, if_false] at h0
    generalize hE : (fun o => sh x 0 o - a0 o + (sh x 1 o - a1 o) + (sh x 2 o - a2 o)) = E at h0
    generalize hD : (fun o => sh y 0 o - b0 o + (sh y 1 o - b1 o) + (sh y 2 o - b2 o)) = D at h0
    have hz : z.p0.at_ o + z.p1.at_ o + z.p2.at_ o = elem op xs ys (fun i => sh x 0 i + sh x 1 i + sh x 2 i) (fun i => sh y 0 i + sh y 1 i + sh y 2 i) o := by
      rw [j2.2 o ho, j3.2 o ho, j4.2 o ho, ← elem_sum3_left hop, ← elem_sum3_right hop, ← elem_sum3_right hop, ← elem_sum3_right hop]
      unfold zsh cr
      simp only [show (0 + 1) % 3 = 1 from rfl, show (1 + 1) % 3 = 2 from rfl, show (2 + 1) % 3 = 0 from rfl]
      ring
    have e1 : z.p0.at_ o + z.p1.at_ o + z.p2.at_ o =
        elem op xs ys (fun i => E i + (a0 i + a1 i + a2 i)) (fun i => D i + (b0 i + b1 i + b2 i)) o := by
      rw [hz]
      refine elem_congr hs (fun i hi => ?_) (fun i hi => ?_) o ho
      · rw [← hE]
        ring
      · rw [← hD]
        ring
    have e2 : c0 o + c1 o + c2 o = elem op xs ys (fun i => a0 i + a1 i + a2 i) (fun i => b0 i + b1 i + b2 i) o := by
      rw [m2 o ho, hc o ho]
      exact elem_congr hs (fun i hi => (k2 i hi).symm) (fun i hi => (l2 i hi).symm) o ho
    rw [elem_expand op hop, ← e2, ← elem_sum3_left hop, ← elem_sum3_right hop] at e1
    linear_combination h0 - e1
  have hzz : zl = z := by
    subst hzl
    obtain ⟨z0, z1, z2⟩ := z
    obtain rfl | rfl | rfl : p = 0 ∨ p = 1 ∨ p = 2 := by omega
    · have : l.z.told z0 = z0 := told_eq _ fun o ho => by
        simpa [Trio.change] using hr o (j2.1 ▸ ho)
      simp only [Trio.change, this]
    · have : l.z.told z1 = z1 := told_eq _ fun o ho => by
        simpa [Trio.change] using hr o (j3.1 ▸ ho)
      simp only [Trio.change, this]
    · have : l.z.told z2 = z2 := told_eq _ fun o ho => by
        simpa [Trio.change] using hr o (j4.1 ▸ ho)
      simp only [Trio.change, this]
  obtain ⟨r', r1', -⟩ := (mulMalicious_ok op hop d ex.holds ey.holds).1 _ (Shape.run_ok op _ _ s hs) hex
  obtain ⟨o, o1, o2⟩ := mulMalicious_opening op d x y r1'
  rw [r1', ← o2]
  unfold opening at o1
  rw [j1] at o1
  obtain ⟨xs, -, o1⟩ := of_bind o1
  obtain ⟨ys, -, o1⟩ := of_bind o1
  rw [ok_bind] at o1
  obtain ⟨t, -, o1⟩ := of_bind o1
  obtain ⟨m, -, o1⟩ := of_bind o1
  obtain ⟨eps, -, o1⟩ := of_bind o1
  obtain ⟨delta, -, o1⟩ := of_bind o1
  cases o1
  rw [hzz]
  rfl

theorem truncateLying_honest {p : Nat} (hp : p < 3) {l : Lies I64} (hl : l.Bounded p) (cut : I64 → I64) (rand : List Nat → I64) (x : RSecret I64) :
    truncateLying p l cut rand x = truncate cut rand x := by
  by_cases h2 : p = 2
  · subst h2
    rfl
  · obtain ⟨-, -, e3⟩ := hl.2 h2
    unfold truncateLying
    rw [e3, change_id p (toldHeld (none, none)) fun _ => rfl]

/-- a step is refused or right -/
theorem stepLying_honest {p : Nat} (hp : p < 3) {l : Lies I64} (hl : l.Bounded p) (cut : I64 → I64) (d : RDraws I64 × (List Nat → I64))
    {shapes : List (List Nat)} {env : List (RSecret I64)} (a : EnvAlike 0 shapes env env) (st : Step I64) :
    stepLying p l cut d env st = Prod.fst <$> step .malicious cut d env st ∨ stepLying p l cut d env st = .error .valueError := by
  cases st with
  | method m i =>
    left
    simp only [stepLying, step]
    cases pyGet env i with
    | error e => rfl
    | ok x =>
      simp only [ok_bind]
      cases hook m x <;> rfl
  | «public» op i y =>
    left
    simp only [stepLying, step, truncateLying_honest hp hl]
    cases pyGet env i with
    | error e => rfl
    | ok x =>
      simp only [ok_bind]
      cases opPublic op x y with
      | error e => rfl
      | ok r =>
        simp only [ok_bind]
        split
        · cases truncate cut d.2 r <;> rfl
        · rfl
  | both op i j =>
    simp only [stepLying, step]
    rcases a.get i with ⟨xs, x, x', h1, h2, -, ax⟩ | ⟨h1, h2, -⟩
    swap
    · left
      rw [pyGet_of_none h2]
      rfl
    rcases a.get j with ⟨ys, y, y', i1, i2, -, ay⟩ | ⟨i1, i2, -⟩
    swap
    · left
      simp only [pyGet_of_some h2, ok_bind, pyGet_of_none i2]
      rfl
    simp only [pyGet_of_some h2, ok_bind, pyGet_of_some i2]
    by_cases hop : op = .add ∨ op = .sub
    · left
      rw [if_pos hop, if_pos hop]
      cases opPrivate op x y <;> rfl
    rw [if_neg hop, if_neg hop]
    have hop' : op = .mul ∨ op = .matmul := by
      cases op <;> simp_all
    unfold opProductLying
    rcases mulLying_honest hp hl ax.left ay.left hop' d.1 with e | e
    · left
      rw [e]
      unfold opProduct mulMaster
      dsimp only
      cases mulMalicious op d.1 x y with
      | error e => rfl
      | ok z =>
        simp only [ok_bind, truncateLying_honest hp hl, truncate, pure_bind]
        cases truncation cut d.2 ⟨z.held.p0.1, z.held.p1.1, z.held.p1.2⟩ z.shape with
        | error e => rfl
        | ok h =>
          simp only [ok_bind, pure_bind]
          cases getShape op x.shape y.shape <;> rfl
    · right
      rw [e]
      rfl

/-- the secrets that a program reaches are well shared -/
theorem step_even (c : Config) {shapes : List (List Nat)} {env : List (RSecret I64)} (a : EnvAlike 0 shapes env env) (st : Step Val)
    (hf : Fitting st shapes) (d : RDraws I64 × (List Nat → I64)) {r : RSecret I64 × List (Trio (Tensor I64))}
    (h : step .malicious (shiftPow 64 c) d env (st.map c.encoder.encode) = .ok r) :
    ∃ s, outShape st shapes = .ok s ∧ EnvAlike 0 (shapes ++ [s]) (env ++ [r.1]) (env ++ [r.1]) := by
  have hc := call_same (c := c) (security := .malicious) (h := 0) (by omega) a st hf d
  have e1 : call c .malicious d env st = .ok r := h
  rw [e1] at hc
  revert hc
  cases call c .malicious (paddedCall c 0 shapes env env st d) env st with
  | error e => intro hc; cases hc
  | ok r' =>
    rintro ⟨s, hs, ha⟩
    exact ⟨s, hs, a.append ⟨ha.left, ha.left, fun _ _ _ _ => rfl⟩⟩

theorem programLying_honest (c : Config) {p : Nat} (hp : p < 3) (prog : List (Step Val × (RDraws I64 × (List Nat → I64)) × Lies I64))
    (hl : ∀ q ∈ prog, q.2.2.Bounded p) {shapes : List (List Nat)} {env : List (RSecret I64)} (a : EnvAlike 0 shapes env env)
    (hf : fits (prog.map (·.1)) shapes = true) :
    programLying p (shiftPow 64 c) (prog.map fun q => (q.1.map c.encoder.encode, q.2)) env = .error .valueError ∨
    (programLying p (shiftPow 64 c) (prog.map fun q => (q.1.map c.encoder.encode, q.2)) env =
      Prod.fst <$> fixed c .malicious (prog.map fun q => (q.1, q.2.1)) env ∧
      ∀ r, programLying p (shiftPow 64 c) (prog.map fun q => (q.1.map c.encoder.encode, q.2)) env = .ok r → ∃ shapes, EnvAlike 0 shapes r r) := by
  induction prog generalizing shapes env with
  | nil =>
    right
    refine ⟨rfl, fun r hr => ?_⟩
    cases hr
    exact ⟨shapes, a⟩
  | cons q prog ih =>
    obtain ⟨st, d, l⟩ := q
    obtain ⟨f1, f2⟩ := fits_cons hf
    have hb : l.Bounded p := hl _ (List.mem_cons_self ..)
    simp only [List.map_cons, programLying]
    rcases stepLying_honest hp hb (shiftPow 64 c) d a (st.map c.encoder.encode) with e | e
    swap
    · left
      rw [e]
      rfl
    rw [e]
    have hstep := fun r => step_even c a st f1 d (r := r)
    simp only [fixed, List.map_cons, program]
    revert hstep
    cases step .malicious (shiftPow 64 c) d env (st.map c.encoder.encode) with
    | error e =>
      intro _
      exact .inr ⟨rfl, fun r hr => by cases hr⟩
    | ok r =>
      intro hstep
      obtain ⟨s, hs, a'⟩ := hstep _ rfl
      rcases ih (fun q hq => hl q (List.mem_cons_of_mem _ hq)) a' (f2 s hs) with h1 | ⟨h1, h2⟩
      · exact .inl h1
      · refine .inr ⟨?_, h2⟩
        show programLying p _ _ _ = _
        rw [h1]
        unfold fixed
        simp only [ok_bind]
        cases program .malicious (shiftPow 64 c) ((prog.map fun q => (q.1, q.2.1)).map fun p => (p.1.map c.encoder.encode, p.2)) (env ++ [r.1]) <;> rfl

/-! ## The property -/

/-- C96 (partial): three parties with replicated shares and malicious security, one of which lies.  Whatever elements it sends instead of the
right ones, as its masked shares of products, as its parts of the verifications and as its shares of what is opened, the program and the
opening raise `ValueError`, or they end as they would if all were honest: with the same value, or with the same exception.  For the last
party this covers all its messages but those for the triple.
Missing, as the code notices no lies there: what the triple is made from (`C96_triple_forged`), and for the other two parties the masked
operands (`C96_guess_forged`) and the shares that are truncated (`C96_truncation_forged`). -/
theorem C96_one_liar_partial (c : Config) (p : Nat) (hp : p < 3) (inputs : List (Tensor Val × (Nat → List Nat → I64))) (env : List (RSecret I64))
    (he : fixedInputs c inputs = .ok env) (prog : List (Step Val × (RDraws I64 × (List Nat → I64)) × Lies I64))
    (hf : fits (prog.map (·.1)) (inputs.map (·.1.shape)) = true) (hl : ∀ q ∈ prog, q.2.2.Bounded p) (i : Nat) (last : Lie I64 × Lie I64) :
    match openLying c p prog i last env with
    | .error e => e = .valueError ∨ openHonest c prog i env = .error e
    | .ok v => ∃ w, openHonest c prog i env = .ok w ∧ v.shape = w.shape ∧ ∀ o, ValidIdx v.shape o → v.at_ o = w.at_ o := by
  have a : EnvAlike 0 (inputs.map (·.1.shape)) env env := by
    have := inputs_alike c 0 (inputs.map (·.1)) (inputs.map (·.1)) rfl (inputs.map (·.2))
    have hz : (inputs.map (·.1)).zip (inputs.map (·.2)) = inputs := by
      have : ∀ l : List (Tensor Val × (Nat → List Nat → I64)), (l.map (·.1)).zip (l.map (·.2)) = l := by
        intro l
        induction l with
        | nil => rfl
        | cons q l ih => simp [ih]
      exact this inputs
    have hre : replicatedInputs c (inputs.map (·.1)) (inputs.map (·.2)) = env := by
      have := fixedInputs_form c (inputs.map (·.1)) (inputs.map (·.2))
      rw [hz, he] at this
      cases this
      rfl
    rw [hz, hre] at this
    exact ⟨this.len, this.len, fun m s x x' h1 h2 h3 => by
      rw [h2] at h3
      cases h3
      have hlen : m < env.length := (List.getElem?_eq_some_iff.mp h2).1
      obtain ⟨y, hy⟩ : ∃ y, (replicatedInputs c (inputs.map (·.1)) (padInputs c ((0 + 2) % 3) (inputs.map (·.1)) (inputs.map (·.1)) (inputs.map (·.2))))[m]? = some y := by
        refine ⟨_, List.getElem?_eq_getElem ?_⟩
        rw [this.len', ← this.len]
        exact hlen
      have hx := (this.rel m s x y h1 h2 hy).left
      exact ⟨hx, hx, fun _ _ _ _ => rfl⟩⟩
  have hp' := programLying_honest c hp prog hl a hf
  unfold openLying openHonest
  rcases hp' with h1 | ⟨h1, h2⟩
  · rw [h1]
    exact .inl rfl
  · revert h2
    rw [h1]
    cases fixed c .malicious (prog.map fun q => (q.1, q.2.1)) env with
    | error e => exact fun _ => .inr rfl
    | ok r =>
      intro h2
      obtain ⟨shapes, a'⟩ := h2 r.1 rfl
      have e1 : (Prod.fst <$> (Except.ok r : Py (List (RSecret I64) × List (Trio (Tensor I64))))) = .ok r.1 := rfl
      rw [e1]
      simp only [ok_bind]
      rcases a'.get i with ⟨s, x, x', j1, j2, -, ax⟩ | ⟨j1, j2, -⟩
      swap
      · rw [pyGet_of_none j2]
        exact .inr rfl
      simp only [pyGet_of_some j2, ok_bind]
      obtain ⟨w, w1, w2⟩ := malicious_piece ax.left.pieces
      have w1 : reconstruct .malicious x = .ok w := w1
      have e2 : reconstructLying p last x = reconstructMalicious (x.held.change p (toldHeld last)) := rfl
      rw [e2]
      rcases malicious_lying hp last ax.left.pieces with h | ⟨v, v1, v2⟩
      · rw [h]
        exact .inl rfl
      · rw [v1]
        exact ⟨w, w1, v2.1.trans w2.1.symm, fun o ho => by
          have ho : ValidIdx s o := v2.1 ▸ ho
          rw [v2.2 o ho, w2.2 o ho]⟩

theorem mulLying_none (p : Nat) (op : Shape.BinOp) (d : RDraws I64) (x y : RSecret I64) : mulLying p {} op d x y = mulMalicious op d x y := by
  unfold mulLying mulMalicious
  simp only [dealLying_honest p {} rfl, change_id p (Lie.told none) fun _ => rfl, change_id p (toldHeld (none, none)) fun _ => rfl,
    change_id p (fun m : Held I64 × Held I64 => (toldHeld (none, none) m.1, toldHeld (none, none) m.2)) fun _ => rfl]

theorem truncateLying_none (p : Nat) (cut : I64 → I64) (rand : List Nat → I64) (x : RSecret I64) :
    truncateLying p {} cut rand x = truncate cut rand x := by
  unfold truncateLying
  rw [change_id p (toldHeld (none, none)) fun _ => rfl]

theorem stepLying_none (p : Nat) (cut : I64 → I64) (d : RDraws I64 × (List Nat → I64)) (env : List (RSecret I64)) (st : Step I64) :
    stepLying p {} cut d env st = Prod.fst <$> step .malicious cut d env st := by
  cases st with
  | method m i =>
    simp only [stepLying, step]
    cases pyGet env i with
    | error e => rfl
    | ok x =>
      simp only [ok_bind]
      cases hook m x <;> rfl
  | «public» op i y =>
    simp only [stepLying, step, truncateLying_none]
    cases pyGet env i with
    | error e => rfl
    | ok x =>
      simp only [ok_bind]
      cases opPublic op x y with
      | error e => rfl
      | ok r =>
        simp only [ok_bind]
        split
        · cases truncate cut d.2 r <;> rfl
        · rfl
  | both op i j =>
    simp only [stepLying, step]
    cases pyGet env i with
    | error e => rfl
    | ok x =>
    cases pyGet env j with
    | error e => rfl
    | ok y =>
    simp only [ok_bind]
    split
    · cases opPrivate op x y <;> rfl
    · unfold opProductLying opProduct mulMaster
      rw [mulLying_none]
      dsimp only
      cases mulMalicious op d.1 x y with
      | error e => rfl
      | ok z =>
        simp only [ok_bind, truncateLying_none, truncate, pure_bind]
        cases truncation cut d.2 ⟨z.held.p0.1, z.held.p1.1, z.held.p1.2⟩ z.shape with
        | error e => rfl
        | ok h =>
          simp only [ok_bind, pure_bind]
          cases getShape op x.shape y.shape <;> rfl

/-- Without lies the program runs as it does when all are honest. -/
theorem C96_without_lies (c : Config) (p : Nat) (prog : List (Step Val × (RDraws I64 × (List Nat → I64)) × Lies I64)) (hl : ∀ q ∈ prog, q.2.2 = {})
    (i : Nat) (env : List (RSecret I64)) : openLying c p prog i (none, none) env = openHonest c prog i env := by
  have key : programLying p (shiftPow 64 c) (prog.map fun q => (q.1.map c.encoder.encode, q.2)) env =
      Prod.fst <$> fixed c .malicious (prog.map fun q => (q.1, q.2.1)) env := by
    unfold fixed
    induction prog generalizing env with
    | nil => rfl
    | cons q prog ih =>
      obtain ⟨st, d, l⟩ := q
      obtain rfl : l = {} := hl _ (List.mem_cons_self ..)
      simp only [List.map_cons, programLying, program, stepLying_none]
      cases step .malicious (shiftPow 64 c) d env (st.map c.encoder.encode) with
      | error e => rfl
      | ok r =>
        have := ih (fun q hq => hl q (List.mem_cons_of_mem _ hq)) (env ++ [r.1])
        show programLying p _ _ _ = _
        rw [this]
        simp only [ok_bind]
        cases program .malicious (shiftPow 64 c) ((prog.map fun q => (q.1, q.2.1)).map fun p => (p.1.map c.encoder.encode, p.2)) (env ++ [r.1]) <;> rfl
  unfold openLying openHonest
  rw [key]
  cases fixed c .malicious (prog.map fun q => (q.1, q.2.1)) env with
  | error e => rfl
  | ok r =>
    show (pyGet r.1 i >>= fun x => reconstructLying p (none, none) x) = _
    simp only [ok_bind]
    cases pyGet r.1 i with
    | error e => rfl
    | ok x =>
      simp only [ok_bind, reconstructLying]
      rw [change_id p (toldHeld (none, none)) fun _ => rfl]

/-! ## What an accepted product is -/

/-- what is opened of the masked operand `x - a`, when party `p` says `l` instead of its two shares: the first share of party 0 and both of
party 1 are used -/
def saidOpen (p : Nat) (l : Lie I64 × Lie I64) (x : RSecret I64) (gen : Nat → Nat → I64) (s : List Nat) (o : List Nat) : I64 :=
  let honest := fun k => sh x k o - gen k (Grad.flat s o)
  let said := fun (l : Lie I64) (v : I64) => match l with
    | none => v
    | some f => f o
  (if p = 0 then said l.1 (honest 0) else honest 0) + (if p = 1 then said l.1 (honest 1) else honest 1) +
    (if p = 1 then said l.2 (honest 2) else honest 2)

/-- the mask `a` -/
def maskSum (gen : Nat → Nat → I64) (s : List Nat) (o : List Nat) : I64 :=
  gen 0 (Grad.flat s o) + gen 1 (Grad.flat s o) + gen 2 (Grad.flat s o)

theorem told_said (l : Lie I64) {s : List Nat} {f : List Nat → I64} {t : Tensor I64} (h : Piece s f t) :
    Piece s (fun o => match l with | none => f o | some g => g o) (l.told t) := by
  cases l with
  | none => exact h
  | some g =>
    refine ⟨h.1, fun o ho => ?_⟩
    show (if o ∈ indices t.shape then g o else t.at_ o) = g o
    rw [if_pos (by rw [h.1]; exact (mem_indices _ _).mpr ho)]

/-- what is opened of masked operands -/
theorem said_piece {p : Nat} (hp : p < 3) (l : Lie I64 × Lie I64) {s : List Nat} (x : RSecret I64) (gen : Nat → Nat → I64) {m : Trio (Held I64)}
    (h0 : Piece s (fun o => sh x 0 o - gen 0 (Grad.flat s o)) m.p0.1) (h1 : Piece s (fun o => sh x 1 o - gen 1 (Grad.flat s o)) m.p1.1)
    (h2 : Piece s (fun o => sh x 2 o - gen 2 (Grad.flat s o)) m.p1.2) :
    ∃ r, reconstructSemi (m.change p (toldHeld l)) = .ok r ∧ Piece s (saidOpen p l x gen s) r := by
  obtain rfl | rfl | rfl : p = 0 ∨ p = 1 ∨ p = 2 := by omega
  · exact sum3_piece (told_said l.1 h0) h1 h2
  · exact sum3_piece h0 (told_said l.1 h1) (told_said l.2 h2)
  · exact sum3_piece h0 h1 h2

/-- C96, products: whatever one party says (but for the making of the triple), a product that is accepted has shares of the product of what was
opened of the masked operands, plus the masks.  So the party cannot change a product but by changing the factors, by what it adds to them when
they are opened. -/
theorem C96_accepted_product {p : Nat} (hp : p < 3) {l : Lies I64} (hl : l.c = none) {xs ys z : List Nat} {x y : RSecret I64} (ex : Even xs x)
    (ey : Even ys y) {op : Shape.BinOp} (hop : op = .mul ∨ op = .matmul) (hs : op.shape xs ys = .ok z) (d : RDraws I64) {r : RSecret I64}
    (h : mulLying p l op d x y = .ok r) :
    Holds r ⟨z, elem op xs ys (fun i => saidOpen p l.eps x d.a xs i + maskSum d.a xs i) (fun i => saidOpen p l.delta y d.b ys i + maskSum d.b ys i)⟩ := by
  obtain ⟨w, j1, j2, j3, j4⟩ := mulSemi_form ex ey hs d.mask
  have h1 := ex.pieces
  have i1 := ey.pieces
  obtain ⟨zl, hzl⟩ : ∃ zl : Trio (Tensor I64), zl = w.change p l.z.told := ⟨_, rfl⟩
  have hzl' : zl.p0.shape = z ∧ zl.p1.shape = z ∧ zl.p2.shape = z := by
    subst hzl
    unfold Trio.change
    split <;> simp only [told_shape] <;> exact ⟨j2.1, j3.1, j4.1⟩
  have n1 : Pieces z zl.p0.at_ zl.p1.at_ zl.p2.at_ (distribute zl) :=
    pieces_distribute (hzl'.1 ▸ Piece.refl _) (hzl'.2.1 ▸ Piece.refl _) (hzl'.2.2 ▸ Piece.refl _)
  have hex : ∃ o, ValidIdx z o := by
    by_contra hex
    have : mulLying p l op d x y = .error .valueError := by
      unfold mulLying
      rw [ex.shape, ey.shape]
      simp only [Reported.tuple, ok_bind, j1, dealLying_honest p l hl, (deal_ok op hop d hs).2 hex]
      rfl
    rw [this] at h
    cases h
  obtain ⟨t, -, -, -, t1, -⟩ := (deal_ok op hop d hs).1 hex
  obtain ⟨q, q1, q2, q3, q4⟩ := mulSemi_form (random_even d.a xs) (random_even d.b ys) hs d.c
  have ht : t = ⟨(random d.a xs).held, (random d.b ys).held, distribute q⟩ := by
    have t1 := t1
    unfold deal at t1
    dsimp only at t1
    rw [q1, ok_bind] at t1
    obtain ⟨va, -, t1⟩ := of_bind t1
    obtain ⟨vb, -, t1⟩ := of_bind t1
    obtain ⟨vc, -, t1⟩ := of_bind t1
    obtain ⟨ab, -, t1⟩ := of_bind t1
    obtain ⟨wr, -, t1⟩ := of_bind t1
    split at t1
    · cases t1
    · cases t1
      rfl
  subst ht
  have k1 := random_pieces d.a xs
  have l1 := random_pieces d.b ys
  have m1 := pieces_distribute q2 q3 q4
  obtain ⟨k0, k01, k02, k03⟩ := mask_piece h1.a0 h1.b0 i1.a0 i1.b0 k1.a0 k1.b0 l1.a0 l1.b0
  obtain ⟨k4, k41, k42, k43⟩ := mask_piece h1.a1 h1.b1 i1.a1 i1.b1 k1.a1 k1.b1 l1.a1 l1.b1
  obtain ⟨k5, k51, k52, k53⟩ := mask_piece h1.a2 h1.b2 i1.a2 i1.b2 k1.a2 k1.b2 l1.a2 l1.b2
  obtain ⟨eps, p1, p2⟩ := said_piece hp l.eps x d.a (m := ⟨k0.1, k4.1, k5.1⟩) k02.1 k42.1 k42.2
  obtain ⟨delta, q1', q2'⟩ := said_piece hp l.delta y d.b (m := ⟨k0.2, k4.2, k5.2⟩) k03.1 k43.1 k43.2
  have hm : ∀ (f g : Held I64 → Held I64), (⟨((⟨k0, k4, k5⟩ : Trio (Held I64 × Held I64)).change p fun m => (f m.1, g m.2)).p0.1,
      ((⟨k0, k4, k5⟩ : Trio (Held I64 × Held I64)).change p fun m => (f m.1, g m.2)).p1.1,
      ((⟨k0, k4, k5⟩ : Trio (Held I64 × Held I64)).change p fun m => (f m.1, g m.2)).p2.1⟩ : Trio (Held I64)) = (⟨k0.1, k4.1, k5.1⟩ : Trio (Held I64)).change p f ∧
      (⟨((⟨k0, k4, k5⟩ : Trio (Held I64 × Held I64)).change p fun m => (f m.1, g m.2)).p0.2,
      ((⟨k0, k4, k5⟩ : Trio (Held I64 × Held I64)).change p fun m => (f m.1, g m.2)).p1.2,
      ((⟨k0, k4, k5⟩ : Trio (Held I64 × Held I64)).change p fun m => (f m.1, g m.2)).p2.2⟩ : Trio (Held I64)) = (⟨k0.2, k4.2, k5.2⟩ : Trio (Held I64)).change p g := by
    intro f g
    unfold Trio.change
    split <;> exact ⟨rfl, rfl⟩
  obtain ⟨hm1, hm2⟩ := hm (toldHeld l.eps) (toldHeld l.delta)
  obtain ⟨r0, u1, u2, u3⟩ := verification_piece op hs 0 p2 q2' n1.a0 n1.b0 k1.a0 k1.b0 l1.a0 l1.b0 m1.a0 m1.b0
  obtain ⟨r1, v1, v2, v3⟩ := verification_piece op hs 1 p2 q2' n1.a1 n1.b1 k1.a1 k1.b1 l1.a1 l1.b1 m1.a1 m1.b1
  obtain ⟨r2, w1, w2, w3⟩ := verification_piece op hs 2 p2 q2' n1.a2 n1.b2 k1.a2 k1.b2 l1.a2 l1.b2 m1.a2 m1.b2
  have hmask : ((x.held.zip y.held).zip ((random d.a xs).held.zip (random d.b ys).held)).run (falconMask xs ys) = .ok ⟨k0, k4, k5⟩ :=
    trio_run _ _ k01 k41 k51
  have hmul : mulLying p l op d x y = (do
      let r ← reconstructMalicious ((⟨r0, r1, r2⟩ : Trio (Held I64)).change p (toldHeld l.rest))
      if (indices r.shape).all fun o => r.at_ o = 0 then return ⟨distribute zl, .size z⟩ else throw .valueError) := by
    unfold mulLying
    rw [ex.shape, ey.shape]
    simp only [Reported.tuple, ok_bind, j1, dealLying_honest p l hl, t1, hmask, hm1, hm2, p1, q1']
    rw [← hzl, u1, ok_bind, v1, ok_bind, w1, ok_bind]
  rw [hmul] at h
  rcases malicious_lying hp l.rest (h := ⟨r0, r1, r2⟩) ⟨u2, u3, v2, v3, w2, w3⟩ with hr | ⟨v, x1, x2⟩
  · rw [hr] at h
    cases h
  rw [x1, ok_bind] at h
  split at h
  swap
  · cases h
  rename_i hall
  cases h
  rw [List.all_eq_true] at hall
  refine ⟨⟨_, _, _, n1, fun o ho => ?_⟩, rfl⟩
  have h0 : v.at_ o = 0 := of_decide_eq_true (hall o (by rw [x2.1]; exact (mem_indices _ _).mpr ho))
  rw [x2.2 o ho] at h0
  dsimp only at h0
  unfold left at h0
  simp only [decide_eq_true_eq, if_true, show ((0 : Nat) = 2) = False by simp, show ((1 : Nat) = 2) = False by simp, if_false] at h0
  have e2 : zsh op xs ys z d.c (random d.a xs) (random d.b ys) 0 o + zsh op xs ys z d.c (random d.a xs) (random d.b ys) 1 o +
      zsh op xs ys z d.c (random d.a xs) (random d.b ys) 2 o = elem op xs ys (maskSum d.a xs) (maskSum d.b ys) o := by
    have : elem op xs ys (maskSum d.a xs) (maskSum d.b ys) o = elem op xs ys (fun i => sh (random d.a xs) 0 i + sh (random d.a xs) 1 i + sh (random d.a xs) 2 i)
      (fun i => sh (random d.b ys) 0 i + sh (random d.b ys) 1 i + sh (random d.b ys) 2 i) o := rfl
    rw [this, ← elem_sum3_left hop, ← elem_sum3_right hop, ← elem_sum3_right hop, ← elem_sum3_right hop]
    unfold zsh cr
    simp only [show (0 + 1) % 3 = 1 from rfl, show (1 + 1) % 3 = 2 from rfl, show (2 + 1) % 3 = 0 from rfl]
    ring
  dsimp only
  rw [elem_expand op hop, ← e2]
  unfold maskSum
  rw [← elem_sum3_left hop, ← elem_sum3_right hop]
  linear_combination h0

/-! ## Lies that are not noticed -/

/-- the elements of a tensor -/
def exElems (r : Py (Tensor I64)) : Py (List I64) := (fun t => (indices t.shape).map t.at_) <$> r

/-- inputs with two elements -/
def exPair (a b : Int) : Tensor Val × (Nat → List Nat → I64) := (exTensor [2] [.int a, .int b], fun k _ => BitVec.ofNat 64 (11 * k + 5))

/-- the draws of the examples -/
def exLyingDraws : RDraws I64 × (List Nat → I64) :=
  (⟨fun g i => BitVec.ofNat 64 (7 * g + i), fun g i => BitVec.ofNat 64 (g + 2 * i), fun g _ => BitVec.ofNat 64 (3 * g), fun g _ => BitVec.ofNat 64 g⟩,
    fun _ => 9)

/-- the product of two inputs, when party `p` lies, opened -/
def exProduct (p : Nat) (l : Lies I64) : Py (List I64) := do
  let env ← fixedInputs {} [exPair 2 3, exPair 5 7]
  exElems (openLying {} p [(.both .mul 0 1, exLyingDraws, l)] 2 (none, none) env)

/-- the shares that the parties have of a product before they lie -/
def exShares (gen : Nat → Nat → I64) (x y : RSecret I64) : Trio (List Nat → I64) :=
  match mulSemi .mul gen x y with
  | .ok (z, _) => ⟨z.p0.at_, z.p1.at_, z.p2.at_⟩
  | .error _ => ⟨fun _ => 0, fun _ => 0, fun _ => 0⟩

/-- the shares of an input -/
def exShared (t : Tensor Val × (Nat → List Nat → I64)) : RSecret I64 :=
  match fixedInputs {} [t] with
  | .ok [x] => x
  | _ => ⟨distribute ⟨exTensor [2] [], exTensor [2] [], exTensor [2] []⟩, .size [2]⟩

/-- the second element is changed by `v` -/
def exBy (v : I64) (f : List Nat → I64) (o : List Nat) : I64 := if o = [1] then f o + v else f o

/-- without lies the products are right: 2 times 5 and 3 times 7, up to one quantum -/
example : exProduct 0 {} = .ok [10 * 65536 - 1, 21 * 65536 - 1] := by decide +kernel

/-- Party 0 hands over a wrong share for the truncation of a product: the product is wrong, and nobody notices. -/
theorem C96_truncation_forged :
    ∃ l : Lies I64, l.c = none ∧ l.eps = (none, none) ∧ l.delta = (none, none) ∧ l.z = none ∧ l.rest = (none, none) ∧
      ∃ v w, exProduct 0 l = .ok v ∧ exProduct 0 {} = .ok w ∧ v ≠ w :=
  ⟨{ sent := (some (exBy 0x200000000#64 (exShares exLyingDraws.1.mask (exShared (exPair 2 3)) (exShared (exPair 5 7))).p0), none) },
    rfl, rfl, rfl, rfl, rfl, [10 * 65536 - 1, 23 * 65536 - 1], [10 * 65536 - 1, 21 * 65536 - 1], by decide +kernel, by decide +kernel, by decide +kernel⟩

/-- The last party changes one element of its masked share of the product, and the same element of its masked share of the product of the
triple: the triple is accepted as it is not wrong everywhere, the verification passes, and the product is wrong. -/
theorem C96_triple_forged :
    ∃ l : Lies I64, l.eps = (none, none) ∧ l.delta = (none, none) ∧ l.rest = (none, none) ∧ l.sent = (none, none) ∧
      ∃ v w, exProduct 2 l = .ok v ∧ exProduct 2 {} = .ok w ∧ v ≠ w :=
  ⟨{ z := some (exBy 0x200000000#64 (exShares exLyingDraws.1.mask (exShared (exPair 2 3)) (exShared (exPair 5 7))).p2),
     c := some (exBy 0x200000000#64 (exShares exLyingDraws.1.c (random exLyingDraws.1.a [2]) (random exLyingDraws.1.b [2])).p2) },
    rfl, rfl, rfl, rfl, [10 * 65536 - 1, 23 * 65536 - 1], [10 * 65536 - 1, 21 * 65536 - 1], by decide +kernel, by decide +kernel, by decide +kernel⟩

/-- the lies of a party that guesses a factor -/
def exGuess : Lies I64 :=
  { z := some (exBy 0x700000000#64 (exShares exLyingDraws.1.mask (exShared (exPair 2 3)) (exShared (exPair 5 7))).p0),
    eps := (some (exBy 0x10000#64 fun o => sh (exShared (exPair 2 3)) 0 o - exLyingDraws.1.a 0 (Grad.flat [2] o)), none) }

/-- Party 0 guesses that the second factor is 7 at one position, adds 1 to the first factor there when it is opened in masked form, and adds 7
to its share of the product: the verification passes, and the product is wrong. -/
theorem C96_guess_forged :
    ∃ l : Lies I64, l.c = none ∧ l.delta = (none, none) ∧ l.rest = (none, none) ∧ l.sent = (none, none) ∧
      ∃ v w, exProduct 0 l = .ok v ∧ exProduct 0 {} = .ok w ∧ v ≠ w :=
  ⟨exGuess, rfl, rfl, rfl, rfl, [10 * 65536 - 1, 28 * 65536 - 1], [10 * 65536 - 1, 21 * 65536 - 1], by decide +kernel, by decide +kernel, by decide +kernel⟩

/-! ## Examples -/

/-- a lie about the product that is noticed -/
example : exProduct 2 { z := some fun _ => 5 } = .error .valueError := by decide +kernel

/-- a lie about the verification that is noticed -/
example : exProduct 1 { rest := (some fun _ => 5, none) } = .error .valueError := by decide +kernel

/-- lies of the last party that do not matter -/
example : exProduct 2 { eps := (some fun _ => 5, none), delta := (none, some fun _ => 6), sent := (some fun _ => 7, some fun _ => 8) } =
    .ok [10 * 65536 - 1, 21 * 65536 - 1] := by
  decide +kernel

/-- the hypotheses of the theorem are met, with lies in every message that it covers -/
example : (∃ env, fixedInputs {} [exPair 2 3, exPair 5 7] = .ok env) ∧
    fits [.both .mul 0 1, .both .add 2 0, .public .mul 3 (.number (.int 3) : Operand Val)] [[2], [2]] = true ∧
    Lies.Bounded 2 { z := some fun _ => 5, eps := (some fun _ => 1, none), rest := (some fun _ => 5, none), sent := (none, some fun _ => 4) } ∧
    Lies.Bounded 0 { z := some fun _ => 5, rest := (some fun _ => 5, none) } :=
  ⟨⟨_, rfl⟩, by decide +kernel, ⟨rfl, fun h => absurd rfl h⟩, rfl, fun _ => ⟨rfl, rfl, rfl⟩⟩

/-- the hypotheses of `C96_accepted_product` are met by a lie that changes what is opened of the first factor and is accepted -/
example : Even [2] (exShared (exPair 2 3)) ∧ Even [2] (exShared (exPair 5 7)) ∧
    (mulLying 0 exGuess .mul exLyingDraws.1 (exShared (exPair 2 3)) (exShared (exPair 5 7))).toOption.isSome = true ∧
    saidOpen 0 exGuess.eps (exShared (exPair 2 3)) exLyingDraws.1.a [2] [1] + maskSum exLyingDraws.1.a [2] [1] = 0x40000#64 :=
  ⟨even_of (pieces_distribute (Piece.refl _) (Piece.refl _) (Piece.refl _)) rfl, even_of (pieces_distribute (Piece.refl _) (Piece.refl _) (Piece.refl _)) rfl,
    by decide +kernel, by decide +kernel⟩

end SyMPC.RShape
