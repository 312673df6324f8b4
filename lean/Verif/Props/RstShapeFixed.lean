import Verif.Props.RstShape
import Verif.Props.ShapeFixed
import Verif.Spec.RstShape

/-!
# C83: whole programs on replicated shares with shapes and fixed point numbers
-/

namespace SyMPC.RShape

open Tensor Shape
open FixedPointEncoder (Val)
open Program (Estimate given numOf)

variable {S : ℚ}

/-- the secrets hold tensors of 64 bit numbers, the estimates have the true numbers, and under the condition `P` the tensors are as near
to them as estimated -/
def Tracks (S : ℚ) (P : Prop) (x : RSecret I64) (q : Tensor ℚ) (e : Tensor Estimate) : Prop :=
  ∃ v, Holds x v ∧ v.shape = e.shape ∧ Rel Shape.Num q e ∧ (P → Rel (Lift S) v e)

theorem Tracks.mono {P P' : Prop} (h : P' → P) {x : RSecret I64} {q : Tensor ℚ} {e : Tensor Estimate} (ht : Tracks S P x q e) :
    Tracks S P' x q e := by
  obtain ⟨v, h1, h2, h3, h4⟩ := ht
  exact ⟨v, h1, h2, h3, fun hp => h4 (h hp)⟩

/-- so for all tensors of a program -/
def AllTrack (S : ℚ) (P : Prop) (env : List (RSecret I64)) (qs : List (Tensor ℚ)) (es : List (Tensor Estimate)) : Prop :=
  env.length = qs.length ∧ env.length = es.length ∧
    ∀ (i : Nat) x q e, env[i]? = some x → qs[i]? = some q → es[i]? = some e → Tracks S P x q e

theorem AllTrack.push {P P' : Prop} (hp : P' → P) {env : List (RSecret I64)} {qs : List (Tensor ℚ)} {es : List (Tensor Estimate)}
    (h : AllTrack S P env qs es) {x : RSecret I64} {q : Tensor ℚ} {e : Tensor Estimate} (ht : Tracks S P' x q e) :
    AllTrack S P' (env ++ [x]) (qs ++ [q]) (es ++ [e]) := by
  obtain ⟨h1, h2, h3⟩ := h
  refine ⟨by simp [h1], by simp [h2], fun i y p f hy hq he => ?_⟩
  by_cases hi : i < env.length
  · rw [List.getElem?_append_left hi] at hy
    rw [List.getElem?_append_left (by omega)] at hq he
    exact (h3 i y p f hy hq he).mono hp
  · rw [List.getElem?_append_right (by omega)] at hy
    rw [List.getElem?_append_right (by omega)] at hq he
    have : i - env.length = 0 := by
      by_contra hne
      rw [List.getElem?_eq_none (by simp; omega)] at hy
      cases hy
    rw [this] at hy
    rw [← h1, this] at hq
    rw [← h2, this] at he
    cases hy; cases hq; cases he
    exact ht

theorem AllTrack.values {P : Prop} {env : List (RSecret I64)} {qs : List (Tensor ℚ)} {es : List (Tensor Estimate)} (h : AllTrack S P env qs es) :
    ∃ vs, List.Forall₂ Holds env vs ∧ List.Forall₂ (Rel fun _ _ => True) vs es ∧ List.Forall₂ (Rel Shape.Num) qs es ∧
      (P → List.Forall₂ (Rel (Lift S)) vs es) := by
  obtain ⟨h1, h2, h3⟩ := h
  induction env generalizing qs es with
  | nil =>
    obtain rfl := List.eq_nil_of_length_eq_zero h1.symm
    obtain rfl := List.eq_nil_of_length_eq_zero h2.symm
    exact ⟨[], .nil, .nil, .nil, fun _ => .nil⟩
  | cons x env ih =>
    match qs, es, h1, h2 with
    | q :: qs, e :: es, h1, h2 =>
      obtain ⟨vs, i1, i2, i3, i4⟩ := ih (qs := qs) (es := es) (by simpa using h1) (by simpa using h2)
        fun i y p f hy hq he => h3 (i + 1) y p f hy hq he
      obtain ⟨v, j1, j2, j3, j4⟩ := h3 0 x q e rfl rfl rfl
      exact ⟨v :: vs, .cons j1 i1, .cons ⟨j2, fun _ _ => trivial⟩ i2, .cons j3 i3, fun hp => .cons (j4 hp) (i4 hp)⟩

/-- the truncation of two summands is off by less than two quanta -/
theorem shift_near (c : Config) (h1 : 0 < c.encoder.scale) (h2 : c.encoder.scale < 2 ^ 63) (x y : I64)
    (hw : -2 ^ 63 ≤ x.toInt + y.toInt ∧ x.toInt + y.toInt < 2 ^ 63) :
    |((shiftPow 64 c x + shiftPow 64 c y).toInt : ℚ) * c.encoder.scale - (x + y).toInt| ≤ 2 * c.encoder.scale := by
  have := RProgram.near_cut c (.inr ⟨h1, h2⟩) h1 (fun l (_ : Unit) => if l = 0 then x else if l = 1 then y else 0) (fun _ => 0) ()
    (by simpa using hw.1) (by simpa using hw.2)
  have e1 : RProgram.val (RProgram.cut ((powKit 64).tensor Unit) c (fun l (_ : Unit) => if l = 0 then x else if l = 1 then y else 0) fun _ => 0) ()
      = shiftPow 64 c x + shiftPow 64 c y := by
    show shiftPow 64 c x + (shiftPow 64 c (y + 0) - 0) + 0 = _
    simp
  have e2 : RProgram.val (fun (l : Fin 3) (_ : Unit) => if l = 0 then x else if l = 1 then y else 0) () = x + y := by
    show x + y + 0 = _
    simp
  rw [e1, e2] at this
  exact this

/-- the same step is possible with other numbers of the same shapes -/
theorem canDo_map {A B : Type} [CommRing A] [CommRing B] {security : Security} {vs : List (Tensor A)} {qs : List (Tensor B)}
    (hl : List.Forall₂ (fun v q => v.shape = q.shape) vs qs) (f : Val → A) (g : Val → B) {st : Step Val}
    (hu : ∀ u, (st.map f).clear vs = .ok u → ∃ w, (st.map g).clear qs = .ok w ∧ u.shape = w.shape) (hc : CanDo security (st.map g) qs) :
    CanDo security (st.map f) vs := by
  obtain ⟨h1, h2, h3⟩ := hc
  cases st with
  | both op i j =>
    refine ⟨fun _ _ _ _ h => (by cases h), fun _ _ h => (by cases h), fun hs op' i' j' u hst ht hc => ?_⟩
    cases hst
    obtain ⟨w, k1, k2⟩ := hu u hc
    rw [k2]
    exact h3 hs op i j w rfl ht k1
  | method m i => exact ⟨fun _ _ _ _ h => (by cases h), fun m' i' hst => h2 m' i' (by cases hst; rfl), fun _ _ _ _ _ h => (by cases h)⟩
  | «public» op i y =>
    refine ⟨fun op' i' y' v hst hv => ?_, fun _ _ h => (by cases h), fun _ _ _ _ _ h => (by cases h)⟩
    cases hst
    have hi : i < vs.length := (List.getElem?_eq_some_iff.mp hv).1
    have hi' : i < qs.length := hl.length_eq ▸ hi
    have hq : qs[i]? = some qs[i] := List.getElem?_eq_getElem hi'
    have hsh := (List.forall₂_iff_get.mp hl).2 i hi hi'
    have e : vs.get ⟨i, hi⟩ = v := (List.getElem?_eq_some_iff.mp hv).2
    rw [e] at hsh
    exact fits_shape hsh f g (h1 op i _ _ rfl hq)

theorem step_near (security : Security) (c : Config) (h1 : 0 < c.encoder.scale) (h2 : c.encoder.scale < 2 ^ 63) {P : Prop} {env : List (RSecret I64)}
    {qs : List (Tensor ℚ)} {es : List (Tensor Estimate)} (h : AllTrack c.encoder.scale P env qs es) (st : Step Val)
    (d : RDraws I64 × (List Nat → I64)) (hf : CanDo security (st.map numOf) qs) :
    (∀ w, (st.map numOf).clear qs = .ok w → ∃ r l f u, step security (shiftPow 64 c) d env (st.map c.encoder.encode) = .ok (r, l) ∧
      st.estimate c.encoder.scale 2 es = .ok (f, u) ∧
      Tracks c.encoder.scale (P ∧ st.Encodes c.encoder.scale ∧ (∀ t ∈ u, Narrow c.encoder.scale t) ∧ ∀ z ∈ l, NoWrap z) r w f) ∧
    (∀ e, (st.map numOf).clear qs = .error e → step security (shiftPow 64 c) d env (st.map c.encoder.encode) = .error e) := by
  have hS : (0 : ℚ) < c.encoder.scale := by exact_mod_cast h1
  obtain ⟨vs, g1, g2, g3, g4⟩ := h.values
  have r1 := step_rel true_compat g2 c.encoder.encode (given (c.encoder.scale : ℚ)) st fun _ _ _ _ _ _ => trivial
  have r2 := step_rel num_compat g3 numOf (given (c.encoder.scale : ℚ)) st fun _ _ _ _ _ _ => num_given _ _
  have hshapes : List.Forall₂ (fun (v : Tensor I64) (q : Tensor ℚ) => v.shape = q.shape) vs qs := by
    rw [List.forall₂_iff_get]
    have l1 := g2.length_eq
    have l2 := g3.length_eq
    refine ⟨by omega, fun i hi hi' => ?_⟩
    have k1 := ((List.forall₂_iff_get.mp g2).2 i hi (by omega)).1
    have k2 := ((List.forall₂_iff_get.mp g3).2 i hi' (by omega)).1
    exact k1.trans k2.symm
  have hcan : CanDo security (st.map c.encoder.encode) vs := by
    refine canDo_map hshapes _ numOf (fun u hu => ?_) hf
    rcases r1 with ⟨v, f', hv, hfe', hsh⟩ | ⟨e, hv, -⟩
    · rcases r2 with ⟨w, f, hw, hfe, hrel⟩ | ⟨e, -, he⟩
      · rw [hfe] at hfe'
        rw [hv] at hu
        cases hu; cases hfe'
        exact ⟨w, hw, hsh.1.trans hrel.1.symm⟩
      · rw [he] at hfe'; cases hfe'
    · rw [hv] at hu; cases hu
  obtain ⟨s1, s2⟩ := step_ok security (shiftPow 64 c) g1 (st.map c.encoder.encode) d hcan
  have htr : (st.map c.encoder.encode).truncated = st.truncated := by cases st <;> rfl
  rw [htr] at s1
  rcases r2 with ⟨w, f, hw, hfe, hrel⟩ | ⟨e, hw, he⟩
  · rcases r1 with ⟨v, f', hv, hfe', hsh⟩ | ⟨e, -, he⟩
    swap
    · rw [hfe] at he; cases he
    rw [hfe] at hfe'
    cases hfe'
    rw [hw]
    refine ⟨fun w' hw' => ?_, fun _ h => by cases h⟩
    cases hw'
    have hlift : P → st.Encodes c.encoder.scale → Rel (after (Lift c.encoder.scale) (Lift (c.encoder.scale * c.encoder.scale)) st.truncated) v f := by
      intro hP hE
      rcases step_rel (lift_compat hS) (g4 hP) c.encoder.encode (given (c.encoder.scale : ℚ)) st (fun op i y hst o ho =>
        lift_given c h1 _ (hE op i y hst o ho)) with ⟨v', f', a1, a2, a3⟩ | ⟨e, a1, -⟩
      · rw [hv] at a1
        rw [hfe] at a2
        cases a1; cases a2
        exact a3
      · rw [hv] at a1; cases a1
    have hnum : Rel Shape.Num w f := by
      refine hrel.mono fun a b hab => ?_
      unfold after at hab
      split at hab <;> exact hab
    unfold Step.estimate
    rw [hfe]
    by_cases ht : st.truncated = true
    · obtain ⟨r, z, t1, t2, t3⟩ := (s1 v hv).2 ht
      rw [ok_bind, if_pos ht]
      refine ⟨r, [z], _, _, t1, rfl, _, t3, hsh.1, ⟨hnum.1, fun o ho => hnum.2 o ho⟩, fun hP => ⟨hsh.1, fun o ho => ?_⟩⟩
      obtain ⟨p1, p2, p3, p4⟩ := hP
      have ho : ValidIdx v.shape o := ho
      have hL := (hlift p1 p2).2 o ho
      unfold after at hL
      rw [if_pos ht] at hL
      refine lift_divided h1 _ _ _ hL (p3 f (by simp) o (hsh.1 ▸ ho)) ?_
      have hwrap := p4 z (by simp) o (by rw [t2.1]; exact ho)
      have := shift_near c h1 h2 _ _ hwrap
      rw [← t2.2.2.2 o ho, add_assoc]
      exact this
    · obtain ⟨r, t1, t2⟩ := (s1 v hv).1 (by simpa using ht)
      rw [ok_bind, if_neg ht]
      refine ⟨r, [], _, _, t1, rfl, v, t2, hsh.1, hnum, fun hP => ?_⟩
      have := hlift hP.1 hP.2.1
      unfold after at this
      rwa [if_neg ht] at this
  · rcases r1 with ⟨v, f', -, hfe', -⟩ | ⟨e', hv, he'⟩
    · rw [he] at hfe'; cases hfe'
    rw [he] at he'
    cases he'
    rw [hw]
    refine ⟨fun _ h => (by cases h), fun e' he' => ?_⟩
    cases he'
    exact s2 _ hv

theorem program_near (security : Security) (c : Config) (h1 : 0 < c.encoder.scale) (h2 : c.encoder.scale < 2 ^ 63)
    (prog : List (Step Val × RDraws I64 × (List Nat → I64))) {P : Prop} {env : List (RSecret I64)} {qs : List (Tensor ℚ)}
    {es : List (Tensor Estimate)} (h : AllTrack c.encoder.scale P env qs es) (hf : CanAll security (prog.map fun p => p.1.map numOf) qs) :
    (∀ ws, clear (prog.map fun p => p.1.map numOf) qs = .ok ws → ∃ rs log fs us, fixed c security prog env = .ok (rs, log) ∧
      Shape.estimate c.encoder.scale 2 (prog.map Prod.fst) es = .ok (fs, us) ∧
      AllTrack c.encoder.scale (P ∧ (∀ p ∈ prog, p.1.Encodes c.encoder.scale) ∧ (∀ t ∈ us, Narrow c.encoder.scale t) ∧ ∀ z ∈ log, NoWrap z) rs ws fs) ∧
    (∀ e, clear (prog.map fun p => p.1.map numOf) qs = .error e → fixed c security prog env = .error e) := by
  unfold fixed
  induction prog generalizing P env qs es with
  | nil =>
    refine ⟨fun ws hw => ?_, fun _ h => (by cases h)⟩
    cases hw
    exact ⟨env, [], es, [], rfl, rfl, h.1, h.2.1, fun i x q e hx hq he => (h.2.2 i x q e hx hq he).mono fun hp => hp.1⟩
  | cons p prog ih =>
    obtain ⟨st, d⟩ := p
    obtain ⟨hf1, hf2⟩ := hf
    obtain ⟨k1, k2⟩ := step_near security c h1 h2 h st d hf1
    simp only [List.map_cons, clear, program, Shape.estimate]
    cases hc : (st.map numOf).clear qs with
    | error e =>
      rw [k2 e hc]
      exact ⟨fun _ h => (by cases h), fun _ h => (by cases h; rfl)⟩
    | ok w =>
      obtain ⟨r, l, f, u, i1, i2, i3⟩ := k1 w hc
      rw [i1, i2]
      simp only [ok_bind]
      obtain ⟨m1, m2⟩ := ih (h.push (fun hp => hp.1) i3) (hf2 w hc)
      refine ⟨fun ws hw => ?_, fun e he => ?_⟩
      · obtain ⟨rs, log, fs, us, n1, n2, n3⟩ := m1 ws hw
        rw [n1, n2]
        refine ⟨_, _, _, _, rfl, rfl, n3.1, n3.2.1, fun i x q e hx hq he => (n3.2.2 i x q e hx hq he).mono ?_⟩
        rintro ⟨p1, p2, p3, p4⟩
        simp only [List.mem_cons, forall_eq_or_imp] at p2
        simp only [List.mem_append] at p3 p4
        exact ⟨⟨p1, p2.1, fun t ht => p3 t (Or.inl ht), fun t ht => p4 t (Or.inl ht)⟩, p2.2, fun t ht => p3 t (Or.inr ht),
          fun t ht => p4 t (Or.inr ht)⟩
      · rw [m2 e he]
        rfl

/-- the inputs hold what was encoded -/
theorem inputs_near (c : Config) (h1 : 0 < c.encoder.scale) (inputs : List (Tensor Val × (Nat → List Nat → I64))) :
    ∃ env, fixedInputs c inputs = .ok env ∧ AllTrack c.encoder.scale (∀ p ∈ inputs, Encodes c.encoder.scale p.1) env
      (inputs.map fun p => Grad.map numOf p.1) (inputs.map fun p => Grad.map (given (c.encoder.scale : ℚ)) p.1) := by
  have key : ∀ p : Tensor Val × (Nat → List Nat → I64), ∃ x, ofSecret (.tensor (Grad.map c.encoder.encode p.1)) p.2 = .ok x ∧
      Holds x (Grad.map c.encoder.encode p.1) := fun p => C82_share (.tensor (Grad.map c.encoder.encode p.1)) p.2
  choose g hg using key
  refine ⟨inputs.map g, mapM_ok _ g _ fun p _ => (hg p).1, by simp, by simp, fun i x q e hx hq he => ?_⟩
  simp only [List.getElem?_map, Option.map_eq_some_iff] at hx hq he
  obtain ⟨p, hp, rfl⟩ := hx
  obtain ⟨p', hp', rfl⟩ := hq
  obtain ⟨p'', hp'', rfl⟩ := he
  rw [hp] at hp' hp''
  cases hp'; cases hp''
  refine ⟨_, (hg p).2, rfl, ⟨rfl, fun o _ => num_given _ _⟩, fun hP => ⟨rfl, fun o ho => ?_⟩⟩
  exact lift_given c h1 _ (hP p (List.mem_of_getElem? hp) o ho)

/-- C83: what a program of sums, differences, products, matrix products, public operands and methods on replicated fixed point tensors
does, with semi-honest and with malicious security and whatever is drawn.  It raises the error that torch raises in the clear, and no
other.  Otherwise every tensor reports the shape of torch's result and opens to a tensor of that shape.  If the inputs and public operands
are encoded without overflow, the products before the truncation have room and their summands do not wrap, every element that has room
decodes to a number as near to torch's as estimated, with two quanta for each truncation. -/
theorem C83_replicated_programs (security : Security) (c : Config) (hb : 2 ≤ c.encoderBase ∨ c.encoderPrecision = 0)
    (h2 : c.encoder.scale < 2 ^ 63) (inputs : List (Tensor Val × (Nat → List Nat → I64)))
    (prog : List (Step Val × RDraws I64 × (List Nat → I64)))
    (hf : CanAll security (prog.map fun p => p.1.map numOf) (inputs.map fun p => Grad.map numOf p.1)) :
    (∀ e, clear (prog.map fun p => p.1.map numOf) (inputs.map fun p => Grad.map numOf p.1) = .error e →
      (fixedInputs c inputs >>= fixed c security prog) = .error e) ∧
    ∀ qs, clear (prog.map fun p => p.1.map numOf) (inputs.map fun p => Grad.map numOf p.1) = .ok qs →
      ∃ rs log es us, (fixedInputs c inputs >>= fixed c security prog) = .ok (rs, log) ∧
        Shape.estimate c.encoder.scale 2 (prog.map Prod.fst) (inputs.map fun p => Grad.map (given (c.encoder.scale : ℚ)) p.1) = .ok (es, us) ∧
        rs.length = qs.length ∧ es.length = qs.length ∧
        ∀ (k : Nat) r q e, rs[k]? = some r → qs[k]? = some q → es[k]? = some e →
          r.shape = .size q.shape ∧ e.shape = q.shape ∧ ∃ v, reconstruct security r = .ok v ∧ v.shape = q.shape ∧
            ((∀ p ∈ inputs, Encodes c.encoder.scale p.1) → (∀ p ∈ prog, p.1.Encodes c.encoder.scale) →
              (∀ t ∈ us, Narrow c.encoder.scale t) → (∀ z ∈ log, NoWrap z) →
              ∀ o, ValidIdx q.shape o → (e.at_ o).Room c.encoder.scale →
                ∃ d, c.encoder.decode (.long (v.at_ o)) = .ok d ∧ |d - q.at_ o| ≤ (e.at_ o).err) := by
  have h1 : 0 < c.encoder.scale := by
    show 0 < c.encoderBase ^ c.encoderPrecision
    rcases hb with h | h
    · exact Nat.pow_pos (by omega)
    · rw [h]; norm_num
  have hS : (0 : ℚ) < c.encoder.scale := by exact_mod_cast h1
  obtain ⟨env, i1, i2⟩ := inputs_near c h1 inputs
  rw [i1, ok_bind]
  obtain ⟨k1, k2⟩ := program_near security c h1 h2 prog i2 hf
  refine ⟨k2, fun qs hqs => ?_⟩
  obtain ⟨rs, log, es, us, m1, m2, m3, m4, m5⟩ := k1 qs hqs
  refine ⟨rs, log, es, us, m1, m2, m3, m4 ▸ m3, fun k r q e hr hq he => ?_⟩
  obtain ⟨v, n1, n2, n3, n4⟩ := m5 k r q e hr hq he
  obtain ⟨v', j1, j2⟩ := C82_reconstruct security n1
  have hvq : v.shape = q.shape := n2.trans n3.1.symm
  refine ⟨by rw [n1.2, hvq], n3.1.symm, v', j1, j2.1.trans hvq, fun p1 p2 p3 p4 o ho hroom => ?_⟩
  have hL := (n4 ⟨p1, p2, p3, p4⟩).2 o (hvq ▸ ho)
  have hv' : v'.at_ o = v.at_ o := j2.2 o (by rw [j2.1, hvq]; exact ho)
  have hnum : q.at_ o = (e.at_ o).num := n3.2 o ho
  refine ⟨_, C02_decode_exact _ _ hb h2 _, ?_⟩
  have hz := hL.toInt hS hroom
  rw [hv', hnum]
  have e' : ((v.at_ o).toInt : ℚ) / ((c.encoderBase ^ c.encoderPrecision : Nat) : ℚ) - (e.at_ o).num
      = (((v.at_ o).toInt : ℚ) - (e.at_ o).num * c.encoder.scale) / c.encoder.scale := by
    rw [sub_div, mul_div_cancel_right₀ _ hS.ne']
    rfl
  rw [e', abs_div, abs_of_pos hS, div_le_iff₀ hS]
  exact hz

/-! ### A concrete case -/

/-- the draws of the example -/
def exFixedRDraws : RDraws I64 :=
  ⟨fun g i => BitVec.ofNat 64 (700 * g + 3 * g * i + i), fun g i => BitVec.ofNat 64 (5 * g + i + 99), fun g i => BitVec.ofNat 64 (g * i + 2),
    fun g i => BitVec.ofNat 64 (11 * g + i)⟩

/-- the program `exFixedSteps` of `Props/ShapeFixed.lean` -/
def exFixedR : List (Step Val × RDraws I64 × (List Nat → I64)) := exFixedSteps.map fun st => (st, exFixedRDraws, fun i => BitVec.ofNat 64 (i.sum + 1234))

/-- the parties can do all of it -/
example : CanAll .malicious (exFixedR.map fun p => p.1.map numOf) (exFixedInputs.map fun p => Grad.map numOf p.1) := by
  apply canAll_of_check
  decide +kernel

/-- the opened tensor of a secret, in quanta -/
def exLookR (security : Security) (x : RSecret I64) : Option (List Nat × List Int) :=
  (reconstruct security x).toOption.map fun t => (t.shape, (indices t.shape).map fun o => (t.at_ o).toInt)

/-- the last tensor with semi-honest security, in quanta: 252516 / 65536 is 3.8531, torch's number is 3.8533 -/
example : ((fixedInputs {} exFixedInputs >>= fixed {} .semiHonest exFixedR).toOption.bind fun r => r.1.getLast?.bind (exLookR .semiHonest)) =
    some ([2, 2], [252516, 128230, 420868, -4550]) := by
  decide +kernel

/-- the first four steps with malicious security, and no summands wrap -/
example : ((fixedInputs {} exFixedInputs >>= fixed {} .malicious (exFixedR.take 4)).toOption.bind fun r => r.1.getLast?.bind (exLookR .malicious)).isSome ∧
    ((fixedInputs {} exFixedInputs >>= fixed {} .malicious (exFixedR.take 4)).toOption.map fun r => r.2.all fun z => (indices z.p0.shape).all fun o =>
      decide (-2 ^ 63 ≤ (z.p0.at_ o).toInt + (z.p1.at_ o + z.p2.at_ o).toInt ∧ (z.p0.at_ o).toInt + (z.p1.at_ o + z.p2.at_ o).toInt < 2 ^ 63)) =
      some true := by
  decide +kernel

end SyMPC.RShape
