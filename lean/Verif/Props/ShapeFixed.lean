import Verif.Lemmas.ShapeRel
import Verif.Props.Shape
import Verif.Spec.ShapeFixed
import Verif.Props.Accuracy
import Verif.Props.NProgram

/-!
# C81: whole programs with shapes and fixed point numbers
-/

namespace SyMPC.Shape

open Tensor
open FixedPointEncoder (Val)
open Program (Estimate given numOf toInt_of_abs near_given)

/-- the 64 bit number is an integer near a number, up to multiples of `2^64` -/
def Lift (S : ℚ) (u : I64) (a : Estimate) : Prop := ∃ z : Int, u = BitVec.ofInt 64 z ∧ |(z : ℚ) - a.num * S| ≤ a.err * S

variable {S : ℚ}

theorem lift_zero : Lift S 0 0 := ⟨0, rfl, by simp [show (0 : Estimate).num = 0 from rfl, show (0 : Estimate).err = 0 from rfl]⟩

theorem lift_add (u : I64) (a : Estimate) (w : I64) (b : Estimate) (hu : Lift S u a) (hw : Lift S w b) : Lift S (u + w) (a + b) := by
  obtain ⟨z, hz, h1⟩ := hu
  obtain ⟨y, hy, h2⟩ := hw
  refine ⟨z + y, by rw [BitVec.ofInt_add, hz, hy], ?_⟩
  show |((z + y : Int) : ℚ) - (a.num + b.num) * S| ≤ (a.err + b.err) * S
  push_cast
  calc _ = |((z : ℚ) - a.num * S) + (y - b.num * S)| := by congr 1; ring
    _ ≤ _ := abs_add_le _ _
    _ ≤ _ := by linarith

theorem lift_sub (u : I64) (a : Estimate) (w : I64) (b : Estimate) (hu : Lift S u a) (hw : Lift S w b) : Lift S (u - w) (a - b) := by
  obtain ⟨z, hz, h1⟩ := hu
  obtain ⟨y, hy, h2⟩ := hw
  refine ⟨z - y, ?_, ?_⟩
  · have h : BitVec.ofInt 64 z = BitVec.ofInt 64 (z - y) + BitVec.ofInt 64 y := by rw [← BitVec.ofInt_add]; simp
    rw [hz, hy, sub_eq_iff_eq_add, h]
  · show |((z - y : Int) : ℚ) - (a.num - b.num) * S| ≤ (a.err + b.err) * S
    push_cast
    calc _ = |((z : ℚ) - a.num * S) - (y - b.num * S)| := by congr 1; ring
      _ ≤ _ := abs_sub _ _
      _ ≤ _ := by linarith

theorem lift_mul (hS : 0 < S) (u : I64) (a : Estimate) (w : I64) (b : Estimate) (hu : Lift S u a) (hw : Lift S w b) :
    Lift (S * S) (u * w) (a * b) := by
  obtain ⟨z, hz, h1⟩ := hu
  obtain ⟨y, hy, h2⟩ := hw
  refine ⟨z * y, by rw [BitVec.ofInt_mul, hz, hy], ?_⟩
  show |((z * y : Int) : ℚ) - a.num * b.num * (S * S)| ≤ (|a.num| * b.err + |b.num| * a.err + a.err * b.err) * (S * S)
  push_cast
  have e : (z : ℚ) * y - a.num * b.num * (S * S)
      = (a.num * S) * (y - b.num * S) + (b.num * S) * (z - a.num * S) + (z - a.num * S) * (y - b.num * S) := by ring
  rw [e]
  have i1 : |(a.num * S) * (y - b.num * S)| ≤ (|a.num| * S) * (b.err * S) := by
    rw [abs_mul, abs_mul, abs_of_pos hS]
    exact mul_le_mul_of_nonneg_left h2 (by positivity)
  have i2 : |(b.num * S) * (z - a.num * S)| ≤ (|b.num| * S) * (a.err * S) := by
    rw [abs_mul, abs_mul, abs_of_pos hS]
    exact mul_le_mul_of_nonneg_left h1 (by positivity)
  have i3 : |((z : ℚ) - a.num * S) * (y - b.num * S)| ≤ (a.err * S) * (b.err * S) := by
    rw [abs_mul]
    exact mul_le_mul h1 h2 (abs_nonneg _) ((abs_nonneg _).trans h1)
  refine (abs_add_three _ _ _).trans ((add_le_add (add_le_add i1 i2) i3).trans (le_of_eq ?_))
  ring

theorem lift_compat (hS : 0 < S) : Compat (Lift S) (Lift (S * S)) :=
  ⟨lift_zero, fun a a' b b' => lift_add a a' b b', fun a a' b b' => lift_sub a a' b b', fun a a' b b' => lift_mul hS a a' b b', lift_zero,
    fun a a' b b' => lift_add a a' b b'⟩

theorem true_compat {A B : Type} [Add A] [Sub A] [Mul A] [Zero A] [Add B] [Sub B] [Mul B] [Zero B] :
    Compat (fun (_ : A) (_ : B) => True) fun _ _ => True :=
  ⟨trivial, fun _ _ _ _ _ _ => trivial, fun _ _ _ _ _ _ => trivial, fun _ _ _ _ _ _ => trivial, trivial, fun _ _ _ _ _ _ => trivial⟩

/-- the true number of an estimate -/
def Num (q : ℚ) (a : Estimate) : Prop := q = a.num

theorem num_compat : Compat Num Num := by
  refine ⟨rfl, ?_, ?_, ?_, rfl, ?_⟩ <;>
  · intro a a' b b' h1 h2
    unfold Num at *
    rw [h1, h2]
    rfl

theorem num_given (S : ℚ) (v : Val) : Num (numOf v) (given S v) := by cases v <;> rfl

/-- the integer is determined when there is room -/
theorem Lift.toInt {u : I64} {a : Estimate} (hS : 0 < S) (h : Lift S u a) (hr : (|a.num| + a.err) * S < 2 ^ 63) :
    |(u.toInt : ℚ) - a.num * S| ≤ a.err * S := by
  obtain ⟨z, rfl, hz⟩ := h
  have hsize : |(z : ℚ)| < 2 ^ 63 := by
    refine lt_of_le_of_lt ?_ hr
    have : |a.num * S| = |a.num| * S := by rw [abs_mul, abs_of_pos hS]
    calc |(z : ℚ)| = |((z : ℚ) - a.num * S) + a.num * S| := by congr 1; ring
      _ ≤ _ := abs_add_le _ _
      _ ≤ _ := by rw [this]; linarith
  rw [toInt_of_abs hsize]
  exact hz

theorem lift_given (c : Config) (hS : 0 < c.encoder.scale) (v : Val) (h : (given c.encoder.scale v).Room c.encoder.scale) :
    Lift c.encoder.scale (c.encoder.encode v) (given c.encoder.scale v) :=
  ⟨_, (BitVec.ofInt_toInt).symm, near_given c hS v h⟩

/-- a product, divided by the scale -/
theorem lift_divided {s : Nat} {t : ℚ} (h1 : 0 < s) (u v : I64) (a : Estimate) (h : Lift ((s : ℚ) * s) u a)
    (hr : (|a.num| + a.err) * s * s < 2 ^ 63) (hv : |(v.toInt : ℚ) * s - u.toInt| ≤ t * s) : Lift s v (rounded s t a) := by
  have hS : (0 : ℚ) < s := by exact_mod_cast h1
  have hz := h.toInt (by positivity) (by rw [← mul_assoc]; exact hr)
  refine ⟨_, (BitVec.ofInt_toInt).symm, ?_⟩
  generalize v.toInt = q at *
  generalize u.toInt = z at *
  show |(q : ℚ) - a.num * s| ≤ (a.err + t / s) * s
  have key : |(q : ℚ) - a.num * s| * s ≤ (a.err + t / s) * s * s := by
    calc |(q : ℚ) - a.num * s| * s = |((q : ℚ) * s - z) + (z - a.num * (s * s))| := by
          rw [← abs_of_pos hS, ← abs_mul, abs_of_pos hS]; congr 1; ring
      _ ≤ _ := abs_add_le _ _
      _ ≤ t * s + a.err * (s * s) := add_le_add hv hz
      _ = _ := by field_simp; ring
  exact le_of_mul_le_mul_right key hS

/-- a division of the shares of `n` parties that is off by at most `t` quanta where `Good` -/
def Cuts {W : Type} (n s : Nat) (t : ℚ) (cut : Cut W) (Good : W × Secret I64 → List Nat → Prop) : Prop :=
  ∀ w x u, Holds n x u → ∃ r v, cut w x = .ok r ∧ Holds n r v ∧ v.shape = u.shape ∧
    ∀ o, ValidIdx u.shape o → Good (w, x) o → |((v.at_ o).toInt : ℚ) * s - (u.at_ o).toInt| ≤ t * s

theorem fits_shape {op : BinOp} {A B : Type} [CommRing A] [CommRing B] {v : Tensor A} {w : Tensor B} (h : v.shape = w.shape) (f : Val → A)
    (g : Val → B) {y : Operand Val} (hf : Fits op w (y.map g)) : Fits op v (y.map f) := by
  cases y with
  | number a => exact ⟨hf.1, h ▸ hf.2⟩
  | tensor t =>
    intro hop u hu
    have hg := hf hop
    rw [run_eq] at hu
    change ((op.shape v.shape t.shape).map _) = _ at hu
    cases hs : op.shape v.shape t.shape with
    | error e => rw [hs] at hu; cases hu
    | ok z =>
      rw [hs] at hu
      cases hu
      rw [h]
      exact hg _ (run_ok op w (Grad.map g t) z (by rw [← h]; exact hs))

/-- the secrets hold tensors of 64 bit numbers, the estimates have the true numbers, and under the condition `P` the tensors are as near
to them as estimated -/
def Tracks (n : Nat) (S : ℚ) (P : Prop) (x : Secret I64) (q : Tensor ℚ) (e : Tensor Estimate) : Prop :=
  ∃ v, Holds n x v ∧ v.shape = e.shape ∧ Rel Num q e ∧ (P → Rel (Lift S) v e)

theorem Tracks.mono {n : Nat} {P P' : Prop} (h : P' → P) {x : Secret I64} {q : Tensor ℚ} {e : Tensor Estimate} (ht : Tracks n S P x q e) :
    Tracks n S P' x q e := by
  obtain ⟨v, h1, h2, h3, h4⟩ := ht
  exact ⟨v, h1, h2, h3, fun hp => h4 (h hp)⟩

/-- so for all tensors of a program -/
def AllTrack (n : Nat) (S : ℚ) (P : Prop) (env : List (Secret I64)) (qs : List (Tensor ℚ)) (es : List (Tensor Estimate)) : Prop :=
  env.length = qs.length ∧ env.length = es.length ∧
    ∀ (i : Nat) x q e, env[i]? = some x → qs[i]? = some q → es[i]? = some e → Tracks n S P x q e

theorem AllTrack.push {n : Nat} {P P' : Prop} (hp : P' → P) {env : List (Secret I64)} {qs : List (Tensor ℚ)} {es : List (Tensor Estimate)}
    (h : AllTrack n S P env qs es) {x : Secret I64} {q : Tensor ℚ} {e : Tensor Estimate} (ht : Tracks n S P' x q e) :
    AllTrack n S P' (env ++ [x]) (qs ++ [q]) (es ++ [e]) := by
  obtain ⟨h1, h2, h3⟩ := h
  refine ⟨by simp [h1], by simp [h2], fun i y p f hy hq he => ?_⟩
  by_cases hi : i < env.length
  · rw [List.getElem?_append_left hi] at hy
    rw [List.getElem?_append_left (by omega)] at hq he
    exact (h3 i y p f hy hq he).mono hp
  · rw [List.getElem?_append_right (by omega)] at hy
    rw [List.getElem?_append_right (by omega)] at hq he
    have : i - env.length = 0 := by
      by_contra hne
      rw [List.getElem?_eq_none (by simp; omega)] at hy
      cases hy
    rw [this] at hy
    rw [← h1, this] at hq
    rw [← h2, this] at he
    cases hy; cases hq; cases he
    exact ht

theorem AllTrack.values {n : Nat} {P : Prop} {env : List (Secret I64)} {qs : List (Tensor ℚ)} {es : List (Tensor Estimate)} (h : AllTrack n S P env qs es) :
    ∃ vs, List.Forall₂ (Holds n) env vs ∧ List.Forall₂ (Rel fun _ _ => True) vs es ∧ List.Forall₂ (Rel Num) qs es ∧
      (P → List.Forall₂ (Rel (Lift S)) vs es) := by
  obtain ⟨h1, h2, h3⟩ := h
  induction env generalizing qs es with
  | nil =>
    obtain rfl := List.eq_nil_of_length_eq_zero h1.symm
    obtain rfl := List.eq_nil_of_length_eq_zero h2.symm
    exact ⟨[], .nil, .nil, .nil, fun _ => .nil⟩
  | cons x env ih =>
    match qs, es, h1, h2 with
    | q :: qs, e :: es, h1, h2 =>
      obtain ⟨vs, i1, i2, i3, i4⟩ := ih (qs := qs) (es := es) (by simpa using h1) (by simpa using h2)
        fun i y p f hy hq he => h3 (i + 1) y p f hy hq he
      obtain ⟨v, j1, j2, j3, j4⟩ := h3 0 x q e rfl rfl rfl
      exact ⟨v :: vs, .cons j1 i1, .cons ⟨j2, fun _ _ => trivial⟩ i2, .cons j3 i3, fun hp => .cons (j4 hp) (i4 hp)⟩

/-- dividing both shares by the scale -/
theorem cuts_two (c : Config) (h1 : 0 < c.encoder.scale) (h2 : c.encoder.scale < 2 ^ 63) : Cuts 2 c.encoder.scale 2 (cutTwo c) NoWrap := by
  intro w x u h
  obtain ⟨⟨g1, g2, g3⟩, g4⟩ := h
  obtain ⟨shares, shape⟩ := x
  match shares, g1 with
  | [a, b], _ =>
    refine ⟨_, ⟨u.shape, fun o => floordiv (a.at_ o) (BitVec.ofInt 64 c.encoder.scale) + floordiv (b.at_ o) (BitVec.ofInt 64 c.encoder.scale)⟩, rfl,
      ⟨⟨rfl, fun t ht => ?_, fun o ho => ?_⟩, g4⟩, rfl, fun o ho hw => ?_⟩
    · simp only [truncate, List.map_cons, List.map_nil, List.mem_cons, List.not_mem_nil, or_false] at ht
      rcases ht with rfl | rfl
      · exact g2 a (by simp)
      · exact g2 b (by simp)
    · simp [truncate, Grad.map]
    · have hw := hw a b rfl
      have hu : u.at_ o = a.at_ o + b.at_ o := by
        rw [← g3 o ho]
        simp
      have hsum : (a.at_ o + b.at_ o).toInt = (a.at_ o).toInt + (b.at_ o).toInt := by
        rw [BitVec.toInt_add]
        exact bmod64_eq hw.1 hw.2
      have hq := two_quotients (a.at_ o) (b.at_ o) c.encoder.scale (by exact_mod_cast h1) (by exact_mod_cast h2) (Or.inr hw)
      have hd := (tdiv_add (a.at_ o).toInt (b.at_ o).toInt c.encoder.scale (by exact_mod_cast h1)).2
      dsimp only
      rw [hq, hu, hsum]
      exact_mod_cast hd.le

/-- what is drawn for a division of three or more parties, see `Drawn` -/
def NoRare (n : Nat) (p : WrapRandT (List Nat) × Secret I64) (o : List Nat) : Prop := Drawn n p.1 (p.2.shares.map (·.at_)) o

/-- the division of three or more parties -/
theorem cuts_many (env : Env) (s : Session) (n : Nat) (h : NProgram.Suits env s n) :
    Cuts s.nrParties s.config.encoder.scale s.nrParties (cutMany f32 env s) (NoRare s.nrParties) := by
  intro w x u hx
  obtain ⟨⟨g1, g2, g3⟩, g4⟩ := hx
  set shares : List (ShareTensor (List Nat → I64)) := (x.shares.zip s.rankToUuid).map fun p => ⟨p.1.at_, some p.2, s.config, s.ringSize⟩ with hsh
  have hl : s.rankToUuid.length = x.shares.length := by rw [h.live.ranks, g1]
  have htags : shares.map (·.sessionUuid) = s.rankToUuid.map some := by
    rw [hsh, List.map_map]
    conv_rhs => rw [← List.map_snd_zip (l₁ := x.shares) (l₂ := s.rankToUuid) (by omega), List.map_map]
    rfl
  have htens : shares.map (·.tensor) = x.shares.map (·.at_) := by
    rw [hsh, List.map_map]
    conv_rhs => rw [← List.map_fst_zip (l₁ := x.shares) (l₂ := s.rankToUuid) (by omega), List.map_map]
    rfl
  have hwf : MPCTensor.WF env ⟨s, shares⟩ := ⟨h.live.toReady, htags⟩
  obtain ⟨res, q, a1, a2, a3, a4, a5⟩ := C27_tensors_pow2_partial env s h.live h.ring (by rw [h.parties]; omega) (by rw [h.parties]; exact h.many)
    h.base h.pos h.small w ⟨s, shares⟩ hwf rfl _ (WF.reconstruct hwf) s.config.encoderPrecision (by have := h.small; omega)
  have hscale : ((s.config.encoder.scale : Nat) : Int) = 2 ^ s.config.encoderPrecision := NProgram.scale_eq h
  have hres : res.shares.length = x.shares.length := by
    have := congrArg List.length a2.tags
    rw [a3] at this
    simpa [hl] using this
  have hq : q = (res.shares.map (·.tensor)).sum := by
    have := WF.reconstruct a2
    rw [a4] at this
    cases this
    rfl
  refine ⟨⟨(res.shares.zip x.shares).map fun p => ⟨p.2.shape, p.1.tensor⟩, x.shape⟩, ⟨u.shape, q⟩, ?_, ⟨⟨?_, fun t ht => ?_, fun o ho => ?_⟩, ?_⟩, rfl, fun o ho hg => ?_⟩
  · unfold cutMany
    rw [← hsh, hscale]
    dsimp only
    rw [a1, ok_bind]
    rfl
  · simp [hres, g1]
  · simp only [List.mem_map] at ht
    obtain ⟨p, hp, rfl⟩ := ht
    exact g2 p.2 (List.of_mem_zip hp).2
  · dsimp only
    rw [hq, sum_at, List.map_map, List.map_map]
    conv_rhs => rw [← List.map_fst_zip (l₁ := res.shares) (l₂ := x.shares) (by omega), List.map_map]
    rfl
  · exact g4
  · have hd := a5 o (by
      unfold NoRare at hg
      rw [htens]
      exact hg)
    have hu : (shares.map (·.tensor)).sum o = u.at_ o := by
      rw [htens, sum_at, List.map_map]
      exact g3 o ho
    dsimp only at hd ⊢
    rw [hu] at hd
    have hd' : |(q o).toInt * (s.config.encoder.scale : Int) - (u.at_ o).toInt| ≤ (s.nrParties : Int) * s.config.encoder.scale := by
      rw [hscale]
      refine hd.trans ?_
      rw [mul_sub]
      omega
    exact_mod_cast hd'

theorem step_near {W : Type} {n : Nat} (hn : 2 ≤ n) (c : Config) (h1 : 0 < c.encoder.scale) {t : ℚ} {cut : Cut W}
    {Good : W × Secret I64 → List Nat → Prop} (hcut : Cuts n c.encoder.scale t cut Good) {P : Prop} {env : List (Secret I64)}
    {qs : List (Tensor ℚ)} {es : List (Tensor Estimate)} (h : AllTrack n c.encoder.scale P env qs es) (st : Step Val) (d : Draws I64 × W)
    (hf : ∀ op i y v, st.map numOf = .public op i y → qs[i]? = some v → Fits op v y) :
    (∀ w, (st.map numOf).clear qs = .ok w → ∃ r l f u, st.fixed c cut d env = .ok (r, l) ∧ st.estimate c.encoder.scale t es = .ok (f, u) ∧
      Tracks n c.encoder.scale (P ∧ st.Encodes c.encoder.scale ∧ (∀ t ∈ u, Narrow c.encoder.scale t) ∧ ∀ x ∈ l, Throughout Good x) r w f) ∧
    (∀ e, (st.map numOf).clear qs = .error e → st.fixed c cut d env = .error e) := by
  have hS : (0 : ℚ) < c.encoder.scale := by exact_mod_cast h1
  obtain ⟨vs, g1, g2, g3, g4⟩ := h.values
  have hfit : ∀ op i y v, st.map c.encoder.encode = .public op i y → vs[i]? = some v → Fits op v y := by
    intro op i y v hst hv
    cases st with
    | both => cases hst
    | method => cases hst
    | «public» op' i' y' =>
      cases hst
      have hi : i < vs.length := (List.getElem?_eq_some_iff.mp hv).1
      have l1 := g2.length_eq
      have l2 := g3.length_eq
      have hq : qs[i]? = some qs[i] := List.getElem?_eq_getElem (by omega)
      refine fits_shape ?_ _ numOf (hf op i _ _ rfl hq)
      have k1 := ((List.forall₂_iff_get.mp g2).2 i hi (by omega)).1
      have k2 := ((List.forall₂_iff_get.mp g3).2 i (by omega) (by omega)).1
      have e : vs.get ⟨i, hi⟩ = v := (List.getElem?_eq_some_iff.mp hv).2
      rw [e] at k1
      exact k1.trans k2.symm
  obtain ⟨s1, s2⟩ := step_ok hn g1 (st.map c.encoder.encode) d.1 hfit
  have r1 := step_rel true_compat g2 c.encoder.encode (given (c.encoder.scale : ℚ)) st fun _ _ _ _ _ _ => trivial
  have r2 := step_rel num_compat g3 numOf (given (c.encoder.scale : ℚ)) st fun _ _ _ _ _ _ => num_given _ _
  rcases r2 with ⟨w, f, hw, hfe, hrel⟩ | ⟨e, hw, he⟩
  · rcases r1 with ⟨v, f', hv, hfe', hsh⟩ | ⟨e, -, he⟩
    swap
    · rw [hfe] at he; cases he
    rw [hfe] at hfe'
    cases hfe'
    obtain ⟨r, hr, hh⟩ := s1 v hv
    rw [hw]
    refine ⟨fun w' hw' => ?_, fun _ h => by cases h⟩
    cases hw'
    have hlift : P → st.Encodes c.encoder.scale → Rel (after (Lift c.encoder.scale) (Lift (c.encoder.scale * c.encoder.scale)) st.truncated) v f := by
      intro hP hE
      rcases step_rel (lift_compat hS) (g4 hP) c.encoder.encode (given (c.encoder.scale : ℚ)) st (fun op i y hst o ho =>
        lift_given c h1 _ (hE op i y hst o ho)) with ⟨v', f', a1, a2, a3⟩ | ⟨e, a1, -⟩
      · rw [hv] at a1
        rw [hfe] at a2
        cases a1; cases a2
        exact a3
      · rw [hv] at a1; cases a1
    have hnum : Rel Num w f := by
      refine hrel.mono fun a b hab => ?_
      unfold after at hab
      split at hab <;> exact hab
    unfold Step.fixed Step.estimate
    rw [hr, hfe]
    by_cases ht : st.truncated
    · rw [ok_bind, ok_bind, if_pos ht, if_pos ht]
      obtain ⟨r', v', t1, t2, t3, t4⟩ := hcut d.2 r v hh
      rw [t1, ok_bind]
      refine ⟨_, _, _, _, rfl, rfl, v', t2, t3.trans hsh.1, ⟨hnum.1, fun o ho => hnum.2 o ho⟩, fun hP => ⟨t3.trans hsh.1, fun o ho => ?_⟩⟩
      obtain ⟨p1, p2, p3, p4⟩ := hP
      rw [t3] at ho
      have hL := (hlift p1 p2).2 o ho
      unfold after at hL
      rw [if_pos ht] at hL
      exact lift_divided h1 _ _ _ hL (p3 f (by simp) o (hsh.1 ▸ ho)) (t4 o ho (p4 (d.2, r) (by simp) v.shape hh.2 o ho))
    · rw [ok_bind, ok_bind, if_neg ht, if_neg ht]
      refine ⟨_, _, _, _, rfl, rfl, v, hh, hsh.1, hnum, fun hP => ?_⟩
      have := hlift hP.1 hP.2.1
      unfold after at this
      rwa [if_neg ht] at this
  · rcases r1 with ⟨v, f', -, hfe', -⟩ | ⟨e', hv, he'⟩
    · rw [he] at hfe'; cases hfe'
    rw [he] at he'
    cases he'
    rw [hw]
    refine ⟨fun _ h => (by cases h), fun e' he' => ?_⟩
    cases he'
    unfold Step.fixed
    rw [s2 _ hv]
    rfl

theorem program_near {W : Type} {n : Nat} (hn : 2 ≤ n) (c : Config) (h1 : 0 < c.encoder.scale) {t : ℚ} {cut : Cut W}
    {Good : W × Secret I64 → List Nat → Prop} (hcut : Cuts n c.encoder.scale t cut Good) (prog : List (Step Val × Draws I64 × W)) {P : Prop}
    {env : List (Secret I64)} {qs : List (Tensor ℚ)} {es : List (Tensor Estimate)} (h : AllTrack n c.encoder.scale P env qs es)
    (hf : AllFit (prog.map fun p => p.1.map numOf) qs) :
    (∀ ws, clear (prog.map fun p => p.1.map numOf) qs = .ok ws → ∃ rs log fs us, fixed c cut prog env = .ok (rs, log) ∧
      estimate c.encoder.scale t (prog.map Prod.fst) es = .ok (fs, us) ∧
      AllTrack n c.encoder.scale (P ∧ (∀ p ∈ prog, p.1.Encodes c.encoder.scale) ∧ (∀ t ∈ us, Narrow c.encoder.scale t) ∧ ∀ x ∈ log, Throughout Good x) rs ws fs) ∧
    (∀ e, clear (prog.map fun p => p.1.map numOf) qs = .error e → fixed c cut prog env = .error e) := by
  induction prog generalizing P env qs es with
  | nil =>
    refine ⟨fun ws hw => ?_, fun _ h => (by cases h)⟩
    cases hw
    exact ⟨env, [], es, [], rfl, rfl, h.1, h.2.1, fun i x q e hx hq he => (h.2.2 i x q e hx hq he).mono fun hp => hp.1⟩
  | cons p prog ih =>
    obtain ⟨st, d⟩ := p
    obtain ⟨hf1, hf2⟩ := hf
    obtain ⟨k1, k2⟩ := step_near hn c h1 hcut h st d hf1
    simp only [List.map_cons, clear, fixed, estimate]
    cases hc : (st.map numOf).clear qs with
    | error e =>
      rw [k2 e hc]
      exact ⟨fun _ h => (by cases h), fun _ h => (by cases h; rfl)⟩
    | ok w =>
      obtain ⟨r, l, f, u, i1, i2, i3⟩ := k1 w hc
      rw [i1, i2]
      simp only [ok_bind]
      obtain ⟨m1, m2⟩ := ih (h.push (fun hp => hp.1) i3) (hf2 w hc)
      refine ⟨fun ws hw => ?_, fun e he => ?_⟩
      · obtain ⟨rs, log, fs, us, n1, n2, n3⟩ := m1 ws hw
        rw [n1, n2]
        refine ⟨_, _, _, _, rfl, rfl, n3.1, n3.2.1, fun i x q e hx hq he => (n3.2.2 i x q e hx hq he).mono ?_⟩
        rintro ⟨p1, p2, p3, p4⟩
        simp only [List.mem_cons, forall_eq_or_imp] at p2
        simp only [List.mem_append] at p3 p4
        exact ⟨⟨p1, p2.1, fun t ht => p3 t (Or.inl ht), fun t ht => p4 t (Or.inl ht)⟩, p2.2, fun t ht => p3 t (Or.inr ht),
          fun t ht => p4 t (Or.inr ht)⟩
      · rw [m2 e he]
        rfl

/-- the inputs hold what was encoded -/
theorem inputs_near {n : Nat} (hn : 2 ≤ n) (c : Config) (h1 : 0 < c.encoder.scale) (inputs : List (Tensor Val × (Nat → List Nat → I64))) :
    ∃ env, fixedInputs c n inputs = .ok env ∧ AllTrack n c.encoder.scale (∀ p ∈ inputs, Encodes c.encoder.scale p.1) env
      (inputs.map fun p => Grad.map numOf p.1) (inputs.map fun p => Grad.map (given (c.encoder.scale : ℚ)) p.1) := by
  have key : ∀ p : Tensor Val × (Nat → List Nat → I64), ∃ x, ofSecret (.tensor (Grad.map c.encoder.encode p.1)) n p.2 = .ok x ∧
      Holds n x (Grad.map c.encoder.encode p.1) := fun p => (C66_share n (.tensor (Grad.map c.encoder.encode p.1)) p.2).1 hn
  choose g hg using key
  refine ⟨inputs.map g, mapM_ok _ g _ fun p _ => (hg p).1, by simp, by simp, fun i x q e hx hq he => ?_⟩
  simp only [List.getElem?_map, Option.map_eq_some_iff] at hx hq he
  obtain ⟨p, hp, rfl⟩ := hx
  obtain ⟨p', hp', rfl⟩ := hq
  obtain ⟨p'', hp'', rfl⟩ := he
  rw [hp] at hp' hp''
  cases hp'; cases hp''
  refine ⟨_, (hg p).2, rfl, ⟨rfl, fun o _ => num_given _ _⟩, fun hP => ⟨rfl, fun o ho => ?_⟩⟩
  exact lift_given c h1 _ (hP p (List.mem_of_getElem? hp) o ho)

/-- What a program of sums, differences, products, matrix products, public operands and forwarded methods on fixed point tensors of `n`
parties does, `t` being the number of quanta by which a division by the scale may be off where `Good`.  It raises the error that torch
raises in the clear, and no other.  Otherwise every tensor reports the shape of torch's result and opens to a tensor of that shape.  If
the inputs and public operands are encoded without overflow, the products before the division by the scale have room and the divisions
are good, every element that has room decodes to a number as near to torch's as estimated. -/
def Accurate {W : Type} (n : Nat) (c : Config) (t : ℚ) (cut : Cut W) (Good : W × Secret I64 → List Nat → Prop)
    (inputs : List (Tensor Val × (Nat → List Nat → I64))) (prog : List (Step Val × Draws I64 × W)) : Prop :=
  (∀ e, clear (prog.map fun p => p.1.map numOf) (inputs.map fun p => Grad.map numOf p.1) = .error e →
    (fixedInputs c n inputs >>= fixed c cut prog) = .error e) ∧
  ∀ qs, clear (prog.map fun p => p.1.map numOf) (inputs.map fun p => Grad.map numOf p.1) = .ok qs →
    ∃ rs log es us, (fixedInputs c n inputs >>= fixed c cut prog) = .ok (rs, log) ∧
      estimate c.encoder.scale t (prog.map Prod.fst) (inputs.map fun p => Grad.map (given (c.encoder.scale : ℚ)) p.1) = .ok (es, us) ∧
      rs.length = qs.length ∧ es.length = qs.length ∧
      ∀ (k : Nat) r q e, rs[k]? = some r → qs[k]? = some q → es[k]? = some e →
        r.shape = .size q.shape ∧ e.shape = q.shape ∧ ∃ v, sumShares r.shares = .ok v ∧ v.shape = q.shape ∧
          ((∀ p ∈ inputs, Encodes c.encoder.scale p.1) → (∀ p ∈ prog, p.1.Encodes c.encoder.scale) →
            (∀ t ∈ us, Narrow c.encoder.scale t) → (∀ x ∈ log, Throughout Good x) →
            ∀ o, ValidIdx q.shape o → (e.at_ o).Room c.encoder.scale →
              ∃ d, c.encoder.decode (.long (v.at_ o)) = .ok d ∧ |d - q.at_ o| ≤ (e.at_ o).err)

theorem accurate {W : Type} {n : Nat} (hn : 2 ≤ n) (c : Config) (hb : 2 ≤ c.encoderBase ∨ c.encoderPrecision = 0) (h1 : 0 < c.encoder.scale)
    (h2 : c.encoder.scale < 2 ^ 63) {t : ℚ} {cut : Cut W} {Good : W × Secret I64 → List Nat → Prop} (hcut : Cuts n c.encoder.scale t cut Good)
    (inputs : List (Tensor Val × (Nat → List Nat → I64))) (prog : List (Step Val × Draws I64 × W))
    (hf : AllFit (prog.map fun p => p.1.map numOf) (inputs.map fun p => Grad.map numOf p.1)) : Accurate n c t cut Good inputs prog := by
  have hS : (0 : ℚ) < c.encoder.scale := by exact_mod_cast h1
  obtain ⟨env, i1, i2⟩ := inputs_near hn c h1 inputs
  unfold Accurate
  rw [i1, ok_bind]
  obtain ⟨k1, k2⟩ := program_near hn c h1 hcut prog i2 hf
  refine ⟨k2, fun qs hqs => ?_⟩
  obtain ⟨rs, log, es, us, m1, m2, m3, m4, m5⟩ := k1 qs hqs
  refine ⟨rs, log, es, us, m1, m2, m3, m4 ▸ m3, fun k r q e hr hq he => ?_⟩
  obtain ⟨v, n1, n2, n3, n4⟩ := m5 k r q e hr hq he
  obtain ⟨v', j1, j2⟩ := C66_reconstruct (by omega) n1
  have hvq : v.shape = q.shape := n2.trans n3.1.symm
  refine ⟨by rw [n1.2, hvq], n3.1.symm, v', j1, j2.1.trans hvq, fun p1 p2 p3 p4 o ho hroom => ?_⟩
  have hL := (n4 ⟨p1, p2, p3, p4⟩).2 o (hvq ▸ ho)
  have hv' : v'.at_ o = v.at_ o := j2.2 o (by rw [j2.1, hvq]; exact ho)
  have hnum : q.at_ o = (e.at_ o).num := n3.2 o ho
  refine ⟨_, C02_decode_exact _ _ hb h2 _, ?_⟩
  have hz := hL.toInt hS hroom
  rw [hv', hnum]
  have e' : ((v.at_ o).toInt : ℚ) / ((c.encoderBase ^ c.encoderPrecision : Nat) : ℚ) - (e.at_ o).num
      = (((v.at_ o).toInt : ℚ) - (e.at_ o).num * c.encoder.scale) / c.encoder.scale := by
    rw [sub_div, mul_div_cancel_right₀ _ hS.ne']
    rfl
  rw [e', abs_div, abs_of_pos hS, div_le_iff₀ hS]
  exact hz

/-- C81: programs in two-party sessions, whatever is drawn: two quanta for each division, unless the shares of a product wrap. -/
theorem C81_two_party_programs (c : Config) (hb : 2 ≤ c.encoderBase ∨ c.encoderPrecision = 0) (h1 : 0 < c.encoder.scale)
    (h2 : c.encoder.scale < 2 ^ 63) (inputs : List (Tensor Val × (Nat → List Nat → I64))) (prog : List (Step Val × Draws I64 × Unit))
    (hf : AllFit (prog.map fun p => p.1.map numOf) (inputs.map fun p => Grad.map numOf p.1)) :
    Accurate 2 c 2 (cutTwo c) NoWrap inputs prog :=
  accurate le_rfl c hb h1 h2 (cuts_two c h1 h2) inputs prog hf

/-- C81: programs of three or more parties in the ring `2^64` with a binary encoder of at most 24 bits, whatever is drawn: as many quanta
for each division as there are parties, unless one of the rare numbers excluded by `Drawn` was drawn for it. -/
theorem C81_many_party_programs (env : Env) (s : Session) (n : Nat) (h : NProgram.Suits env s n)
    (inputs : List (Tensor Val × (Nat → List Nat → I64))) (prog : List (Step Val × Draws I64 × WrapRandT (List Nat)))
    (hf : AllFit (prog.map fun p => p.1.map numOf) (inputs.map fun p => Grad.map numOf p.1)) :
    Accurate s.nrParties s.config s.nrParties (cutMany f32 env s) (NoRare s.nrParties) inputs prog := by
  have hs : s.config.encoder.scale = 2 ^ s.config.encoderPrecision := by
    show s.config.encoderBase ^ s.config.encoderPrecision = _
    rw [h.base]
  refine accurate (by rw [h.parties]; omega) s.config (.inl h.base.ge) ?_ ?_ (cuts_many env s n h) inputs prog hf
  · rw [hs]
    positivity
  · rw [hs]
    exact Nat.pow_lt_pow_right (by norm_num) (lt_of_le_of_lt h.small (by norm_num))

/-! ### A concrete case -/

/-- a tensor with the given elements -/
def exTensor {T : Type} [Inhabited T] (s : List Nat) (l : List T) : Tensor T := ⟨s, fun i => l.getD (Grad.flat s i) default⟩

instance : Inhabited Val := ⟨.int 0⟩

/-- the draws of the example -/
def exFixedDraws : Draws I64 :=
  ⟨fun i => BitVec.ofNat 64 (i.sum + 7), fun i => BitVec.ofNat 64 (3 * i.sum + 2), fun k i => BitVec.ofNat 64 (1000 * k + i.sum + 12345),
    fun k i => BitVec.ofNat 64 (5 * k + i.sum + 99), fun k _ => BitVec.ofNat 64 (k + 777777)⟩

/-- secret rows `x`, secret weights `w` -/
def exFixedInputs : List (Tensor Val × (Nat → List Nat → I64)) :=
  [(exTensor [2, 3] [.float (3 / 2), .int (-2), .float (1 / 10), .float (1 / 4), .float (7 / 10), .int 3], fun _ i => BitVec.ofNat 64 (i.sum + 31415)),
    (exTensor [2, 3] [.float (1 / 3), .float (-1 / 2), .int 1, .int 2, .int 0, .float (1 / 7)], fun _ i => BitVec.ofNat 64 (7 * i.sum + 2718))]

/-- a linear layer and more: `y = x @ w.T + b; z = (y * 0.5).sum(0); y * z` -/
def exFixedSteps : List (Step Val) :=
  [.method .T 1, .both .matmul 0 2, .public .add 3 (.tensor (exTensor [2] [.float (1 / 10), .int (-1)])),
    .public .mul 4 (.number (.float (1 / 2))), .method (.sumDim 0 false) 5, .both .mul 4 6]

/-- the program for two parties -/
def exFixedTwo : List (Step Val × Draws I64 × Unit) := exFixedSteps.map fun st => (st, exFixedDraws, ())

/-- the opened tensor of a secret, in quanta -/
def exLook (x : Secret I64) : Option (List Nat × List Int) :=
  (sumShares x.shares).toOption.map fun t => (t.shape, (indices t.shape).map fun o => (t.at_ o).toInt)

/-- no public operand enlarges a secret -/
example : AllFit (exFixedTwo.map fun p => p.1.map numOf) (exFixedInputs.map fun p => Grad.map numOf p.1) := by
  apply allFit_of_check
  decide +kernel

/-- torch's last tensor is `[[3.8533, 1.9567], [6.4222, -0.0694]]`; the errors are estimated below one in a thousand -/
example : ((clear (exFixedTwo.map fun p => p.1.map numOf) (exFixedInputs.map fun p => Grad.map numOf p.1)).toOption.bind fun r =>
      r.getLast?.map fun t => (t.shape, (indices t.shape).map t.at_)) = some ([2, 2], [289 / 75, 2397 / 1225, 289 / 45, -17 / 245]) ∧
    ((estimate 65536 2 exFixedSteps (exFixedInputs.map fun p => Grad.map (given 65536) p.1)).toOption.bind fun r =>
      r.1.getLast?.map fun t => (indices t.shape).all fun o => (t.at_ o).err < 1 / 1000) = some true := by
  decide +kernel

/-- the last tensor for two parties, in quanta: 252525 / 65536 is 3.8532 -/
example : ((fixedInputs {} 2 exFixedInputs >>= fixed {} (cutTwo {}) exFixedTwo).toOption.bind fun r => r.1.getLast?.bind exLook) =
    some ([2, 2], [252525, 128235, 420882, -4548]) := by
  decide +kernel

/-- the inputs and operands can be encoded, the products have room, and their shares do not wrap -/
example : (exFixedInputs.all fun p => (indices p.1.shape).all fun o => decide ((|(given 65536 (p.1.at_ o)).num| + (given 65536 (p.1.at_ o)).err) * 65536 < 2 ^ 63)) ∧
    ((estimate 65536 2 exFixedSteps (exFixedInputs.map fun p => Grad.map (given 65536) p.1)).toOption.map fun r => r.2.all fun t =>
      (indices t.shape).all fun o => decide ((|(t.at_ o).num| + (t.at_ o).err) * 65536 * 65536 < 2 ^ 63)) = some true ∧
    ((fixedInputs {} 2 exFixedInputs >>= fixed {} (cutTwo {}) exFixedTwo).toOption.map fun r => r.2.all fun p =>
      match p.2.shares with
      | [a, b] => (indices a.shape).all fun o => decide (-2 ^ 63 ≤ (a.at_ o).toInt + (b.at_ o).toInt ∧ (a.at_ o).toInt + (b.at_ o).toInt < 2 ^ 63)
      | _ => false) = some true := by
  decide +kernel

/-- torch raises: a matrix of shape `[2, 3]` times itself -/
example : (fixedInputs {} 2 exFixedInputs >>= fixed {} (cutTwo {}) [(.both .matmul 0 0, exFixedDraws, ())]).toOption.isNone := by
  decide +kernel

/-- three parties: `x = [1.5, -2]`, `x @ x`, in quanta: 409600 / 65536 is 6.25 -/
def exFixedThree : List (Step Val × Draws I64 × WrapRandT (List Nat)) :=
  [(.both .matmul 0 0, exFixedDraws, ⟨fun i => BitVec.ofNat 64 (i.sum + 1000), fun k _ => BitVec.ofNat 64 (50 * k), fun _ _ => 3⟩)]

example : ((fixedInputs exSession.config 3 [(exTensor [2] [.float (3 / 2), .int (-2)], fun k i => BitVec.ofNat 64 (i.sum + 31415 * k))] >>=
    fixed exSession.config (cutMany f32 exEnv exSession) exFixedThree).toOption.bind fun r => r.1.getLast?.bind exLook) = some ([], [409600]) := by
  decide +kernel

example : NProgram.Suits exEnv exSession 0 := NProgram.exSuits

end SyMPC.Shape
