import Verif.Props.Blind
import Verif.Props.RstShape

/-!
# C91 with replicated shares

Three parties with replicated shares and semi-honest security: what the caller sees without opening does not depend on the secrets.
-/

namespace SyMPC.RShape

open Tensor Shape
open FixedPointEncoder (Val)

variable {T : Type}

/-! ## Specification -/

/-- A history of calls on the secrets `env`; the caller catches every exception and goes on.  The outcomes of all calls in order. -/
def runAll (c : Config) : List (Step Val × RDraws I64 × (List Nat → I64)) → List (RSecret I64) → List (Py (RSecret I64))
  | [], _ => []
  | (st, d) :: prog, env =>
    match step .semiHonest (shiftPow 64 c) d env (st.map c.encoder.encode) with
    | .ok r => .ok r.1 :: runAll c prog (env ++ [r.1])
    | .error e => .error e :: runAll c prog env

/-- The inputs are shared, then the calls are made. -/
def everything (c : Config) (inputs : List (Tensor Val × (Nat → List Nat → I64))) (prog : List (Step Val × RDraws I64 × (List Nat → I64))) :
    List (Py (RSecret I64)) :=
  match fixedInputs c inputs with
  | .error e => [.error e]
  | .ok env => env.map .ok ++ runAll c prog env

/-- What the caller sees of each outcome without opening it, as in `Shape.seen`. -/
def seen (render : Reported → String) (clients : List String) (attrs : Nat → Bool × Option String) (l : List (Py (RSecret T))) :
    List (Py (Reported × Py Nat × String)) :=
  l.mapIdx fun i o => o.map fun x => (x.shape, Shape.len (⟨[], x.shape⟩ : Secret T),
    Printing.str render ⟨Printing.ptrs clients "ReplicatedSharedTensorPointer" [x.held.p0, x.held.p1, x.held.p2], x.shape, (attrs i).1, (attrs i).2⟩)

/-- the same calls, up to the elements of public operands and what is drawn -/
def SameCalls (prog prog' : List (Step Val × RDraws I64 × (List Nat → I64))) : Prop :=
  prog.map (fun p => p.1.map fun _ => ()) = prog'.map fun p => p.1.map fun _ => ()

/-! ## Proof -/

/-- one thing for each of the three -/
def Trio.map {A B : Type} (f : A → B) (t : Trio A) : Trio B := ⟨f t.p0, f t.p1, f t.p2⟩

/-- two shares without their elements -/
def hbare (h : Held T) : Held Unit := (bare h.1, bare h.2)

/-- a secret without the elements of its shares -/
def RSecret.bare (x : RSecret T) : RSecret Unit := ⟨x.held.map hbare, x.shape⟩

/-- nothing drawn -/
def noRDraws : RDraws Unit × (List Nat → Unit) := (⟨fun _ _ => (), fun _ _ => (), fun _ _ => (), fun _ _ => ()⟩, fun _ => ())

theorem run_natural {A A' B B' : Type} (F : B → B') (G : A → A') (f : A → Py B) (f' : A' → Py B') (h : ∀ a, F <$> f a = f' (G a)) (t : Trio A) :
    Trio.map F <$> t.run f = (t.map G).run f' := by
  unfold Trio.run Trio.map
  simp only [← h, map_bind, map_pure, bind_map_left]

theorem distribute_bare (l : Trio (Tensor T)) : (distribute l).map hbare = distribute (l.map Shape.bare) := rfl

theorem rofSecret_bare [Sub T] (x : Operand T) (draws : Nat → List Nat → T) (draws' : Nat → List Nat → Unit) :
    RSecret.bare <$> ofSecret x draws = ofSecret (x.map fun _ => ()) draws' := by
  unfold ofSecret
  rw [← ofSecret_bare x 3 draws draws']
  simp only [map_bind, bind_map_left]
  refine bind_congr fun s => ?_
  obtain ⟨shares, shape⟩ := s
  match shares with
  | [] => rfl
  | [_] => rfl
  | [_, _] => rfl
  | [_, _, _] => rfl
  | _ :: _ :: _ :: _ :: _ => rfl

section

variable [Add T] [Sub T] [Mul T] [Zero T]

omit [Sub T] [Mul T] [Zero T] in
theorem add_bare (x y : Tensor T) : Tensor.zip (· + ·) (bare x) (bare y) = bare <$> Tensor.zip (· + ·) x y := (zip_bare _ _ x y).symm

omit [Add T] [Mul T] [Zero T] in
theorem sub_bare (x y : Tensor T) : Tensor.zip (· - ·) (bare x) (bare y) = bare <$> Tensor.zip (· - ·) x y := (zip_bare _ _ x y).symm

omit [Sub T] [Mul T] [Zero T] in
theorem sum3_bare (a b c : Tensor T) : bare <$> sum3 a b c = sum3 (bare a) (bare b) (bare c) := by
  unfold sum3
  simp only [map_bind, add_bare, bind_map_left]

theorem heldOp_bare (op : Shape.BinOp) (p : Held T × Held T) : hbare <$> heldOp op p = heldOp op (hbare p.1, hbare p.2) := by
  unfold heldOp hbare
  simp only [← run_bare, map_bind, map_pure, bind_map_left]

theorem ropPrivate_bare (op : Shape.BinOp) (x y : RSecret T) : RSecret.bare <$> opPrivate op x y = opPrivate op x.bare y.bare := by
  have h : (x.bare.held.zip y.bare.held).run (heldOp op) = Trio.map hbare <$> (x.held.zip y.held).run (heldOp op) :=
    (run_natural hbare (fun p : Held T × Held T => (hbare p.1, hbare p.2)) _ _ (heldOp_bare op) (x.held.zip y.held)).symm
  unfold opPrivate
  rw [h]
  simp only [map_bind, map_pure, bind_map_left]
  rfl

theorem heldPublic_bare (op : Shape.BinOp) (y : Tensor T) (h : Held T) : hbare <$> heldPublic op y h = heldPublic op (bare y) (hbare h) := by
  unfold heldPublic hbare
  simp only [← run_bare, map_bind, map_pure, bind_map_left]

theorem applyPublic_bare (op : Shape.BinOp) (x : RSecret T) (y : Operand T) :
    Trio.map hbare <$> applyPublic op x y = applyPublic op x.bare (y.map fun _ => ()) := by
  have hy : (Operand.map (fun _ => ()) y).enc = bare y.enc := by cases y <;> rfl
  have hprod : ∀ op : Shape.BinOp, Trio.map hbare <$> x.held.run (heldPublic op y.enc) = x.bare.held.run (heldPublic op (bare y.enc)) :=
    fun op => run_natural hbare hbare _ _ (heldPublic_bare op y.enc) _
  have hsum : ∀ op : Shape.BinOp, Trio.map hbare <$> (do
      let a ← op.run x.held.p0.1 y.enc
      let b ← op.run x.held.p2.2 y.enc
      return (⟨(a, x.held.p0.2), x.held.p1, (x.held.p2.1, b)⟩ : Trio (Held T))) = (do
      let a ← op.run x.bare.held.p0.1 (bare y.enc)
      let b ← op.run x.bare.held.p2.2 (bare y.enc)
      return (⟨(a, x.bare.held.p0.2), x.bare.held.p1, (x.bare.held.p2.1, b)⟩ : Trio (Held Unit))) := by
    intro op
    have e1 : x.bare.held.p0.1 = bare x.held.p0.1 := rfl
    have e2 : x.bare.held.p2.2 = bare x.held.p2.2 := rfl
    rw [e1, e2, ← run_bare, ← run_bare]
    simp only [map_bind, map_pure, bind_map_left]
    rfl
  unfold applyPublic
  rw [hy]
  cases op with
  | add => exact hsum .add
  | sub => exact hsum .sub
  | mul => exact hprod .mul
  | matmul => exact hprod .matmul

omit [Mul T] [Zero T] in
theorem truncation_bare (cut : T → T) (rand : List Nat → T) (l : Trio (Tensor T)) (shape : Reported) :
    Trio.map hbare <$> truncation cut rand l shape = truncation id noRDraws.2 (l.map Shape.bare) shape := by
  have e : ∀ s (x : Tensor T), Tensor.zip (· - ·) (Grad.map id (bare x)) (⟨s, noRDraws.2⟩ : Tensor Unit)
      = bare <$> Tensor.zip (· - ·) (Grad.map cut x) ⟨s, rand⟩ := fun s x => (zip_bare _ _ (Grad.map cut x) ⟨s, rand⟩).symm
  unfold truncation
  have e1 : (l.map Shape.bare).p1 = bare l.p1 := rfl
  have e2 : (l.map Shape.bare).p2 = bare l.p2 := rfl
  rw [e1, e2, add_bare]
  simp only [map_bind, map_pure, bind_map_left, e]
  rfl

omit [Mul T] [Zero T] in
theorem truncate_bare (cut : T → T) (rand : List Nat → T) (x : RSecret T) :
    RSecret.bare <$> truncate cut rand x = truncate id noRDraws.2 x.bare := by
  have h : truncation id noRDraws.2 ⟨x.bare.held.p0.1, x.bare.held.p1.1, x.bare.held.p1.2⟩ x.bare.shape
      = Trio.map hbare <$> truncation cut rand ⟨x.held.p0.1, x.held.p1.1, x.held.p1.2⟩ x.shape :=
    (truncation_bare cut rand ⟨x.held.p0.1, x.held.p1.1, x.held.p1.2⟩ x.shape).symm
  unfold truncate
  rw [h]
  simp only [map_bind, map_pure, bind_map_left]
  rfl

theorem ropPublic_bare (op : Shape.BinOp) (x : RSecret T) (y : Operand T) :
    RSecret.bare <$> opPublic op x y = opPublic op x.bare (y.map fun _ => ()) := by
  have hs : (Operand.map (fun _ => ()) y).shape = y.shape := by cases y <;> rfl
  unfold opPublic
  rw [← applyPublic_bare, hs]
  simp only [map_bind, map_pure, bind_map_left]
  rfl

theorem crossTerms_bare (op : Shape.BinOp) (x y : Held T) : bare <$> crossTerms op x y = crossTerms op (hbare x) (hbare y) := by
  unfold crossTerms hbare
  simp only [← run_bare, map_bind, bind_map_left, sum3_bare]

theorem zValue_bare (op : Shape.BinOp) (gen : Nat → Nat → T) (rank : Nat) (x y : Held T) :
    bare <$> zValue op gen rank x y = zValue op (fun _ _ => ()) rank (hbare x) (hbare y) := by
  have e : ∀ s, Tensor.zip (· - ·) (drawn (fun _ => ()) s) (drawn (fun _ => ()) s)
      = bare <$> Tensor.zip (· - ·) (drawn (gen rank) s) (drawn (gen ((rank + 1) % 3)) s) :=
    fun s => (zip_bare (· - ·) (· - ·) (drawn (gen rank) s) (drawn (gen ((rank + 1) % 3)) s)).symm
  unfold zValue
  rw [← crossTerms_bare]
  simp only [map_bind, bind_map_left, e, add_bare]
  rfl

theorem mulSemi_bare (op : Shape.BinOp) (gen : Nat → Nat → T) (x y : RSecret T) :
    (fun r => (r.1.map Shape.bare, r.2)) <$> mulSemi op gen x y = mulSemi op (fun _ _ => ()) x.bare y.bare := by
  have e : ∀ k (a b : Held T), zValue op (fun _ _ => ()) k (hbare a) (hbare b) = bare <$> zValue op gen k a b :=
    fun k a b => (zValue_bare op gen k a b).symm
  unfold mulSemi
  have e0 : x.bare.held.p0 = hbare x.held.p0 := rfl
  have e1 : x.bare.held.p1 = hbare x.held.p1 := rfl
  have e2 : x.bare.held.p2 = hbare x.held.p2 := rfl
  have f0 : y.bare.held.p0 = hbare y.held.p0 := rfl
  have f1 : y.bare.held.p1 = hbare y.held.p1 := rfl
  have f2 : y.bare.held.p2 = hbare y.held.p2 := rfl
  rw [e0, e1, e2, f0, f1, f2, e, e, e]
  simp only [map_bind, map_pure, bind_map_left]
  rfl

variable [DecidableEq T]

theorem ropProduct_bare (cut : T → T) (rand : List Nat → T) (op : Shape.BinOp) (d : RDraws T) (x y : RSecret T) :
    (fun r => r.1.bare) <$> opProduct .semiHonest cut rand op d x y
      = (fun r => r.1) <$> opProduct .semiHonest id noRDraws.2 op noRDraws.1 x.bare y.bare := by
  have h : mulSemi op noRDraws.1.mask x.bare y.bare = (fun r => (r.1.map Shape.bare, r.2)) <$> mulSemi op d.mask x y :=
    (mulSemi_bare op d.mask x y).symm
  unfold opProduct mulMaster
  dsimp only
  rw [h]
  simp only [map_bind, map_pure, bind_map_left, ← truncation_bare cut rand]
  rfl

omit [Sub T] [Mul T] [DecidableEq T] in
theorem rhook_bare (m : Method) (x : RSecret T) : RSecret.bare <$> hook m x = hook m x.bare := by
  have h1 : ∀ h : Held T, hbare <$> heldMethod m h = heldMethod m (hbare h) := by
    intro h
    unfold heldMethod hbare
    simp only [← methodRun_bare, map_bind, map_pure, bind_map_left]
  have h2 : x.bare.held.run (heldMethod m) = Trio.map hbare <$> x.held.run (heldMethod m) := (run_natural hbare hbare _ _ h1 _).symm
  unfold hook
  rw [h2]
  by_cases hm : supported m = true
  · simp only [hm, not_true_eq_false, if_false, map_bind, map_pure, bind_map_left]
    rfl
  · simp only [hm]
    rfl

/-- one call, without the elements -/
theorem rstep_bare (cut : T → T) (d : RDraws T × (List Nat → T)) (env : List (RSecret T)) (st : Step T) :
    (fun r => r.1.bare) <$> step .semiHonest cut d env st
      = (fun r => r.1) <$> step .semiHonest id noRDraws (env.map RSecret.bare) (st.map fun _ => ()) := by
  have hg : ∀ i, pyGet (env.map RSecret.bare) i = RSecret.bare <$> pyGet env i := by
    intro i
    unfold pyGet
    rw [List.getElem?_map]
    cases env[i]? <;> rfl
  cases st with
  | both op i j =>
    simp only [step, Step.map, hg, bind_map_left, map_bind]
    refine bind_congr fun x => bind_congr fun y => ?_
    split
    · rw [← ropPrivate_bare]
      simp only [map_bind, map_pure, bind_map_left]
    · have := ropProduct_bare cut d.2 op d.1 x y
      simp only [map_eq_bind_pure_comp, bind_assoc, pure_bind] at this ⊢
      exact this
  | «public» op i y =>
    simp only [step, Step.map, hg, bind_map_left, map_bind, ← ropPublic_bare]
    refine bind_congr fun x => bind_congr fun r => ?_
    split
    · rw [← truncate_bare cut d.2]
      simp only [map_bind, map_pure, bind_map_left]
    · rfl
  | method m i =>
    simp only [step, Step.map, hg, bind_map_left, map_bind, ← rhook_bare, map_pure]

end

theorem runAll_bare (c : Config) (prog prog' : List (Step Val × RDraws I64 × (List Nat → I64))) (hp : SameCalls prog prog') :
    ∀ env env' : List (RSecret I64), env.map RSecret.bare = env'.map RSecret.bare →
      (runAll c prog env).map (Except.map RSecret.bare) = (runAll c prog' env').map (Except.map RSecret.bare) := by
  induction prog generalizing prog' with
  | nil =>
    intro env env' _
    cases prog' with
    | nil => rfl
    | cons p q => simp [SameCalls] at hp
  | cons p prog ih =>
    intro env env' he
    cases prog' with
    | nil => simp [SameCalls] at hp
    | cons p' prog' =>
      obtain ⟨st, d⟩ := p
      obtain ⟨st', d'⟩ := p'
      simp only [SameCalls, List.map_cons, List.cons.injEq] at hp
      obtain ⟨hst, hp⟩ := hp
      have f1 := rstep_bare (shiftPow 64 c) d env (st.map c.encoder.encode)
      have g1 := rstep_bare (shiftPow 64 c) d' env' (st'.map c.encoder.encode)
      rw [stepMap_map] at f1 g1
      rw [hst, he, ← g1] at f1
      unfold runAll
      cases hx : step .semiHonest (shiftPow 64 c) d env (st.map c.encoder.encode) with
      | error e =>
        cases hy : step .semiHonest (shiftPow 64 c) d' env' (st'.map c.encoder.encode) with
        | error e' =>
          rw [hx, hy] at f1
          have : e = e' := Except.error.inj f1
          subst this
          simp only [List.map_cons]
          rw [ih prog' hp env env' he]
        | ok r' => rw [hx, hy] at f1; cases f1
      | ok r =>
        cases hy : step .semiHonest (shiftPow 64 c) d' env' (st'.map c.encoder.encode) with
        | error e' => rw [hx, hy] at f1; cases f1
        | ok r' =>
          rw [hx, hy] at f1
          have hb : r.1.bare = r'.1.bare := Except.ok.inj f1
          simp only [List.map_cons]
          rw [ih prog' hp (env ++ [r.1]) (env' ++ [r'.1]) (by simp [he, hb])]
          show Except.ok r.1.bare :: _ = Except.ok r'.1.bare :: _
          rw [hb]

theorem everything_bare (c : Config) (inputs inputs' : List (Tensor Val × (Nat → List Nat → I64))) (hi : SameShapes inputs inputs')
    (prog prog' : List (Step Val × RDraws I64 × (List Nat → I64))) (hp : SameCalls prog prog') :
    (everything c inputs prog).map (Except.map RSecret.bare) = (everything c inputs' prog').map (Except.map RSecret.bare) := by
  have hin : ∀ inputs : List (Tensor Val × (Nat → List Nat → I64)), List.map RSecret.bare <$> fixedInputs c inputs
      = (inputs.map (·.1.shape)).mapM fun s => ofSecret (.tensor (⟨s, fun _ => ()⟩ : Tensor Unit)) fun _ _ => () := fun inputs =>
    mapM_bare RSecret.bare (·.1.shape) _ (fun s => ofSecret (.tensor (⟨s, fun _ => ()⟩ : Tensor Unit)) fun _ _ => ())
      (fun p => rofSecret_bare (.tensor ⟨p.1.shape, fun i => c.encoder.encode (p.1.at_ i)⟩) p.2 _) inputs
  have h1 := hin inputs
  rw [hi, ← hin inputs'] at h1
  unfold everything
  cases hx : fixedInputs c inputs with
  | error e =>
    cases hy : fixedInputs c inputs' with
    | error e' =>
      rw [hx, hy] at h1
      have : e = e' := Except.error.inj h1
      rw [this]
    | ok env' => rw [hx, hy] at h1; cases h1
  | ok env =>
    cases hy : fixedInputs c inputs' with
    | error e' => rw [hx, hy] at h1; cases h1
    | ok env' =>
      rw [hx, hy] at h1
      have hb : env.map RSecret.bare = env'.map RSecret.bare := Except.ok.inj h1
      dsimp only
      rw [List.map_append, List.map_append, runAll_bare c prog prog' hp env env' hb, List.map_map, List.map_map]
      congr 1
      have : ∀ l : List (RSecret I64), l.map (Except.map RSecret.bare ∘ (Except.ok : _ → Py _)) = (l.map RSecret.bare).map Except.ok := by
        intro l
        rw [List.map_map]
        rfl
      rw [this, this, hb]

theorem rseen_bare (render : Reported → String) (clients : List String) (attrs : Nat → Bool × Option String) (l : List (Py (RSecret T))) :
    seen render clients attrs l = seen render clients attrs (l.map (Except.map RSecret.bare)) := by
  have hstr : ∀ (x : RSecret T) (a : Bool × Option String),
      Printing.str render ⟨Printing.ptrs clients "ReplicatedSharedTensorPointer" [x.held.p0, x.held.p1, x.held.p2], x.shape, a.1, a.2⟩
        = Printing.str render ⟨Printing.ptrs clients "ReplicatedSharedTensorPointer"
            ([x.held.p0, x.held.p1, x.held.p2].map hbare), x.bare.shape, a.1, a.2⟩ := by
    intro x a
    unfold Printing.str Printing.ptrs
    dsimp only
    rw [List.foldl_map, List.foldl_map, List.zip_map_right, List.foldl_map]
    rfl
  unfold seen
  apply List.ext_getElem
  · simp
  intro i hi _
  simp only [List.getElem_mapIdx, List.getElem_map]
  generalize l[i]'(by simpa using hi) = o
  cases o with
  | error e => rfl
  | ok x =>
    have h := hstr x (attrs i)
    simp only [Except.map, h]
    rfl

/-! ## C91 -/

/-- C91: with replicated shares and semi-honest security, too, whatever the caller sees without opening a result is the same for all secrets
of the same shapes, all random numbers and all elements of public operands. -/
theorem C91_replicated (c : Config) (render : Reported → String) (clients : List String) (attrs : Nat → Bool × Option String)
    (inputs inputs' : List (Tensor Val × (Nat → List Nat → I64))) (hi : SameShapes inputs inputs')
    (prog prog' : List (Step Val × RDraws I64 × (List Nat → I64))) (hp : SameCalls prog prog') :
    seen render clients attrs (everything c inputs prog) = seen render clients attrs (everything c inputs' prog') := by
  rw [rseen_bare, everything_bare c inputs inputs' hi prog prog' hp, ← rseen_bare]

/-! ## A concrete case -/

/-- `x @ x` (refused), `w.flatten()` (no such method), `w.T`, `x @ w.T`, `y * 0.5` -/
def exRCalls : List (Step Val × RDraws I64 × (List Nat → I64)) :=
  ([.both .matmul 0 0, .method .flatten 1, .method .T 1, .both .matmul 0 2, .public .mul 3 (.number (.float (1 / 2)))] : List (Step Val)).map
    fun st => (st, ⟨fun g i => BitVec.ofNat 64 (7 * g + i), fun _ _ => 1, fun _ _ => 2, fun _ _ => 3⟩, fun i => BitVec.ofNat 64 i.sum)

/-- the same calls with another factor and other draws -/
def exRCalls' : List (Step Val × RDraws I64 × (List Nat → I64)) :=
  ([.both .matmul 0 0, .method .flatten 1, .method .T 1, .both .matmul 0 2, .public .mul 3 (.number (.int 9))] : List (Step Val)).map
    fun st => (st, ⟨fun _ _ => 0, fun _ _ => 0, fun _ _ => 0, fun _ _ => 0⟩, fun _ => 0)

example : SameShapes exFixedInputs exCaughtInputs' ∧ SameCalls exRCalls exRCalls' := ⟨rfl, rfl⟩

example : (seen exRender ["alice", "bob", "charlie"] (fun _ => (false, none)) (everything {} exFixedInputs exRCalls)).map
      (fun o => o.toOption.map fun r => (r.1.tuple.toOption, r.2.1.toOption))
    = [some (some [2, 3], some 2), some (some [2, 3], some 2), none, none, some (some [3, 2], some 3), some (some [2, 2], some 2),
      some (some [2, 2], some 2)] := by
  decide +kernel

end SyMPC.RShape
