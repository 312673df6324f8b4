import Verif.Model.Printing
import Verif.Props.ShapeFixed
import Verif.Props.Tensor
import Mathlib.Algebra.Group.PUnit
import Mathlib.Algebra.Ring.PUnit
import Mathlib.Control.Basic

/-!
# C91: exceptions, shapes and printed forms do not depend on the secrets
-/

namespace SyMPC.Shape

open Tensor
open FixedPointEncoder (Val)

variable {T : Type}

/-! ## Specification -/

/-- A history of calls on the secrets `env`; the caller catches every exception and goes on.  The outcomes of all calls in order. -/
def runAll {W : Type} (c : Config) (cut : Cut W) : List (Step Val × Draws I64 × W) → List (Secret I64) → List (Py (Secret I64))
  | [], _ => []
  | (st, d) :: prog, env =>
    match st.fixed c cut d env with
    | .ok r => .ok r.1 :: runAll c cut prog (env ++ [r.1])
    | .error e => .error e :: runAll c cut prog env

/-- The inputs are shared among `n` parties, then the calls are made. -/
def everything {W : Type} (c : Config) (cut : Cut W) (n : Nat) (inputs : List (Tensor Val × (Nat → List Nat → I64)))
    (prog : List (Step Val × Draws I64 × W)) : List (Py (Secret I64)) :=
  match fixedInputs c n inputs with
  | .error e => [.error e]
  | .ok env => env.map .ok ++ runAll c cut prog env

/-- What the caller sees of each outcome without opening it: the exception, or shape, length and printed form.  `attrs` are `requires_grad`
and the printed `grad_fn` of each. -/
def seen (render : Reported → String) (clients : List String) (attrs : Nat → Bool × Option String) (l : List (Py (Secret T))) :
    List (Py (Reported × Py Nat × String)) :=
  l.mapIdx fun i o => o.map fun x => (x.shape, len x,
    Printing.str render ⟨Printing.ptrs clients "ShareTensorPointer" x.shares, x.shape, (attrs i).1, (attrs i).2⟩)

/-- the same calls, up to the elements of public operands and what is drawn -/
def SameCalls {W : Type} (prog prog' : List (Step Val × Draws I64 × W)) : Prop :=
  prog.map (fun p => p.1.map fun _ => ()) = prog'.map fun p => p.1.map fun _ => ()

/-- inputs of the same shapes -/
def SameShapes (inputs inputs' : List (Tensor Val × (Nat → List Nat → I64))) : Prop :=
  inputs.map (·.1.shape) = inputs'.map (·.1.shape)

/-! ## Proof: the elements play no role -/

/-- a tensor without its elements -/
abbrev bare (x : Tensor T) : Tensor Unit := Grad.map (fun _ => ()) x

/-- a secret without the elements of its shares -/
def Secret.bare (x : Secret T) : Secret Unit := ⟨x.shares.map Shape.bare, x.shape⟩

/-- nothing drawn -/
def noDraws : Draws Unit := ⟨fun _ => (), fun _ => (), fun _ _ => (), fun _ _ => (), fun _ _ => ()⟩

theorem mapM_bare {A A' B B' : Type} (F : B → B') (G : A → A') (f : A → Py B) (f' : A' → Py B')
    (h : ∀ a, F <$> f a = f' (G a)) (l : List A) : List.map F <$> l.mapM f = (l.map G).mapM f' := by
  induction l with
  | nil => rfl
  | cons a l ih =>
    simp only [List.mapM_cons, List.map_cons, map_bind, ← h, ← ih, bind_map_left, map_pure]

theorem foldlM_bare {A A' B B' : Type} (F : B → B') (G : A → A') (f : B → A → Py B) (f' : B' → A' → Py B')
    (h : ∀ b a, F <$> f b a = f' (F b) (G a)) (l : List A) (b : B) : F <$> l.foldlM f b = (l.map G).foldlM f' (F b) := by
  induction l generalizing b with
  | nil => rfl
  | cons a l ih =>
    simp only [List.foldlM_cons, List.map_cons, map_bind, ← h, bind_map_left, ih]

theorem pyGet_bare {A A' : Type} (F : A → A') (l : List A) (i : Nat) : F <$> pyGet l i = pyGet (l.map F) i := by
  unfold pyGet
  rw [List.getElem?_map]
  cases l[i]? <;> rfl

theorem zip_bare {A B C : Type} (f : A → B → C) (g : Unit → Unit → Unit) (x : Tensor A) (y : Tensor B) :
    bare <$> zip f x y = zip g (bare x) (bare y) := by
  simp only [Tensor.zip, map_bind, map_pure]
  rfl

section
variable [Add T] [Sub T] [Mul T] [Zero T]

omit [Sub T] in
theorem matmul_bare (x y : Tensor T) : bare <$> Grad.matmul x y = Grad.matmul (bare x) (bare y) := by
  unfold Grad.matmul
  have hx : (bare x).shape = x.shape := rfl
  have hy : (bare y).shape = y.shape := rfl
  rw [hx, hy]
  split
  all_goals first
    | (split <;> rfl)
    | rfl

theorem run_bare (op : BinOp) (x y : Tensor T) : bare <$> op.run x y = op.run (bare x) (bare y) := by
  cases op
  · exact zip_bare ..
  · exact zip_bare ..
  · exact zip_bare ..
  · exact matmul_bare ..

omit [Sub T] [Mul T] in
theorem methodRun_bare (m : Method) (x : Tensor T) : bare <$> m.run x = m.run (bare x) := by
  unfold Method.run
  simp only [map_bind, map_pure]
  rfl

omit [Add T] [Mul T] [Zero T] in
theorem ofSecret_bare (x : Operand T) (n : Nat) (draws : Nat → List Nat → T) (draws' : Nat → List Nat → Unit) :
    Secret.bare <$> ofSecret x n draws = ofSecret (x.map fun _ => ()) n draws' := by
  have hs : (Operand.map (fun _ => ()) x).enc.shape = x.enc.shape := by cases x <;> rfl
  unfold ofSecret
  split
  · rfl
  · rw [hs]
    simp only [Functor.map, Except.map, Secret.bare, List.map_map]
    rfl

omit [Sub T] [Mul T] [Zero T] in
theorem sumShares_bare (l : List (Tensor T)) : bare <$> sumShares l = sumShares (l.map bare) := by
  cases l with
  | nil => rfl
  | cons s rest => exact foldlM_bare bare bare _ _ (fun b a => zip_bare ..) rest s

omit [Add T] [Sub T] [Mul T] [Zero T] in
theorem zip_map_bare {A B : Type} (l : List (Tensor A)) (m : List (Tensor B)) :
    (l.map bare).zip (m.map bare) = (l.zip m).map fun p => (bare p.1, bare p.2) := by
  rw [List.zip_map]
  rfl

theorem opPublic_bare (op : BinOp) (x : Secret T) (y : Operand T) :
    Secret.bare <$> opPublic op x y = opPublic op x.bare (y.map fun _ => ()) := by
  have he : bare y.enc = (y.map fun _ => ()).enc := by cases y <;> rfl
  have hs : (y.map fun _ => ()).shape = y.shape := by cases y <;> rfl
  have hp : List.map bare <$> applyPublic op x y = applyPublic op x.bare (y.map fun _ => ()) := by
    have hall : ∀ op : BinOp, List.map bare <$> x.shares.mapM (fun s => op.run s y.enc)
        = x.bare.shares.mapM (fun s => op.run s (y.map fun _ => ()).enc) := by
      intro op
      exact mapM_bare bare bare _ _ (fun a => by rw [run_bare, he]) _
    cases op
    · unfold applyPublic Secret.bare
      dsimp only
      cases x.shares with
      | nil => rfl
      | cons s rest => simp only [List.map_cons, map_bind, map_pure, ← he, ← run_bare, bind_map_left]
    · unfold applyPublic Secret.bare
      dsimp only
      cases x.shares with
      | nil => rfl
      | cons s rest => simp only [List.map_cons, map_bind, map_pure, ← he, ← run_bare, bind_map_left]
    · exact hall .mul
    · exact hall .matmul
  unfold opPublic
  rw [← hp, hs]
  simp only [map_bind, map_pure, bind_map_left]
  rfl

theorem opPrivate_bare (op : BinOp) (x y : Secret T) : Secret.bare <$> opPrivate op x y = opPrivate op x.bare y.bare := by
  have hp : List.map bare <$> applyPrivate op x y = applyPrivate op x.bare y.bare := by
    unfold applyPrivate Secret.bare
    rw [zip_map_bare]
    exact mapM_bare _ _ _ _ (fun a => run_bare op a.1 a.2) _
  unfold opPrivate
  rw [← hp]
  simp only [map_bind, map_pure, bind_map_left]
  rfl

/-- a triple without its elements -/
def Triple.bare (t : Triple T) : Triple Unit := ⟨t.a.map Shape.bare, t.b.map Shape.bare, t.c.map Shape.bare⟩

theorem deal_bare (op : BinOp) (n : Nat) (d : Draws T) (xs ys : List Nat) :
    Triple.bare <$> deal op n d xs ys = deal op n noDraws xs ys := by
  unfold deal
  have ha := ofSecret_bare (.tensor ⟨xs, d.a⟩) n d.sharesA (fun _ _ => ())
  have hb := ofSecret_bare (.tensor ⟨ys, d.b⟩) n d.sharesB (fun _ _ => ())
  have hc := run_bare op ⟨xs, d.a⟩ ⟨ys, d.b⟩
  have hc' : ∀ c : Tensor T, Secret.bare <$> ofSecret (.tensor c) n d.sharesC = ofSecret (.tensor (bare c)) n fun _ _ => () :=
    fun c => ofSecret_bare (.tensor c) n d.sharesC (fun _ _ => ())
  have e1 : (ofSecret (.tensor ⟨xs, noDraws.a⟩) n noDraws.sharesA : Py (Secret Unit))
      = Secret.bare <$> ofSecret (.tensor ⟨xs, d.a⟩) n d.sharesA := ha.symm
  have e2 : (ofSecret (.tensor ⟨ys, noDraws.b⟩) n noDraws.sharesB : Py (Secret Unit))
      = Secret.bare <$> ofSecret (.tensor ⟨ys, d.b⟩) n d.sharesB := hb.symm
  have e3 : op.run (⟨xs, noDraws.a⟩ : Tensor Unit) ⟨ys, noDraws.b⟩ = bare <$> op.run ⟨xs, d.a⟩ ⟨ys, d.b⟩ := hc.symm
  have e4 : ∀ c : Tensor T, (ofSecret (.tensor (bare c)) n noDraws.sharesC : Py (Secret Unit))
      = Secret.bare <$> ofSecret (.tensor c) n d.sharesC := fun c => (hc' c).symm
  rw [e1, e2, e3]
  simp only [map_bind, map_pure, bind_map_left, e4]
  rfl

theorem mulParty_bare (op : BinOp) (eps delta : Tensor T) (rank : Nat) (a b c : Tensor T) :
    bare <$> mulParty op eps delta rank a b c = mulParty op (bare eps) (bare delta) rank (bare a) (bare b) (bare c) := by
  have hz : ∀ x y : Tensor T, zip (· + ·) (bare x) (bare y) = bare <$> zip (· + ·) x y := fun x y => (zip_bare _ _ x y).symm
  unfold mulParty
  simp only [map_bind, ← run_bare, bind_map_left, hz]
  split
  · simp only [map_bind]
  · simp only [map_pure]

theorem mulMaster_bare (op : BinOp) (x y : Secret T) (d : Draws T) :
    List.map bare <$> mulMaster op x y d = mulMaster op x.bare y.bare noDraws := by
  have hl : ∀ xs ys : List Nat, ((x.bare.shares.zip y.bare.shares).mapM fun p => lookUp xs ys p.1 p.2)
      = (x.shares.zip y.shares).mapM fun p => lookUp xs ys p.1 p.2 := by
    intro xs ys
    unfold Secret.bare
    rw [zip_map_bare]
    have := mapM_bare (fun u : Unit => u) (fun p : Tensor T × Tensor T => (bare p.1, bare p.2)) (fun p => lookUp xs ys p.1 p.2)
      (fun p => lookUp xs ys p.1 p.2) (fun a => id_map _) (x.shares.zip y.shares)
    rw [← this]
    simp
  have hsub : ∀ (z : Secret T) (t : List (Tensor T)), ((z.bare.shares.zip (t.map bare)).mapM fun p => BinOp.sub.run p.1 p.2)
      = List.map bare <$> (z.shares.zip t).mapM fun p => BinOp.sub.run p.1 p.2 := by
    intro z t
    unfold Secret.bare
    rw [zip_map_bare]
    exact (mapM_bare bare _ _ _ (fun a => run_bare .sub a.1 a.2) _).symm
  have hfin : ∀ (t : Triple T) (eps delta : Tensor T),
      (((t.bare.a.zip (t.bare.b.zip t.bare.c)).zipIdx).mapM fun p => mulParty op (bare eps) (bare delta) p.2 p.1.1 p.1.2.1 p.1.2.2)
      = List.map bare <$> ((t.a.zip (t.b.zip t.c)).zipIdx).mapM fun p => mulParty op eps delta p.2 p.1.1 p.1.2.1 p.1.2.2 := by
    intro t eps delta
    have e1 : (t.bare.a.zip (t.bare.b.zip t.bare.c)).zipIdx
        = ((t.a.zip (t.b.zip t.c)).zipIdx).map fun p => ((bare p.1.1, bare p.1.2.1, bare p.1.2.2), p.2) := by
      unfold Triple.bare
      dsimp only
      rw [List.zip_map, List.zip_map, List.zipIdx_map]
      rfl
    rw [e1]
    exact (mapM_bare bare _ _ _ (fun a => mulParty_bare op eps delta a.2 a.1.1 a.1.2.1 a.1.2.2) _).symm
  unfold mulMaster
  have hlen : x.bare.shares.length = x.shares.length := by simp [Secret.bare]
  have e0 : ∀ z : Secret T, z.bare.shape = z.shape := fun _ => rfl
  simp only [e0, hlen, hl, map_bind, ← deal_bare op _ d, bind_map_left]
  refine bind_congr fun xs => bind_congr fun ys => bind_congr fun t => bind_congr fun _ => ?_
  have h1 := hsub x t.a
  have h2 := hsub y t.b
  have h1' : (x.bare.shares.zip t.bare.a).mapM (fun p => BinOp.sub.run p.1 p.2) = List.map bare <$> (x.shares.zip t.a).mapM fun p => BinOp.sub.run p.1 p.2 := h1
  have h2' : (y.bare.shares.zip t.bare.b).mapM (fun p => BinOp.sub.run p.1 p.2) = List.map bare <$> (y.shares.zip t.b).mapM fun p => BinOp.sub.run p.1 p.2 := h2
  rw [h1', h2']
  simp only [bind_map_left, ← sumShares_bare, hfin]

theorem opProduct_bare (op : BinOp) (x y : Secret T) (d : Draws T) :
    Secret.bare <$> opProduct op x y d = opProduct op x.bare y.bare noDraws := by
  unfold opProduct
  rw [← mulMaster_bare op x y d]
  simp only [map_bind, map_pure, bind_map_left]
  rfl

omit [Sub T] [Mul T] in
theorem hook_bare (m : Method) (x : Secret T) : Secret.bare <$> hook m x = hook m x.bare := by
  have h : x.bare.shares.mapM m.run = List.map bare <$> x.shares.mapM m.run :=
    (mapM_bare bare bare _ _ (fun a => methodRun_bare m a) _).symm
  unfold hook
  rw [h]
  simp only [map_bind, map_pure, bind_map_left]
  rfl

/-- one call, without the elements -/
theorem step_bare (d : Draws T) (env : List (Secret T)) (st : Step T) :
    Secret.bare <$> st.secret d env = (st.map fun _ => ()).secret noDraws (env.map Secret.bare) := by
  cases st with
  | both op i j =>
    simp only [Step.secret, Step.map, ← pyGet_bare, bind_map_left, map_bind]
    refine bind_congr fun x => bind_congr fun y => ?_
    split
    · exact opPrivate_bare op x y
    · exact opProduct_bare op x y d
  | «public» op i y =>
    simp only [Step.secret, Step.map, ← pyGet_bare, bind_map_left, map_bind, opPublic_bare]
  | method m i =>
    simp only [Step.secret, Step.map, ← pyGet_bare, bind_map_left, map_bind, hook_bare]

/-! ### The number of shares -/

omit [Add T] [Sub T] [Mul T] [Zero T] in
theorem of_bind {A B : Type} {x : Py A} {f : A → Py B} {r : B} (h : x >>= f = .ok r) : ∃ a, x = .ok a ∧ f a = .ok r := by
  cases x with
  | error e => cases h
  | ok a => exact ⟨a, rfl, h⟩

omit [Add T] [Mul T] [Zero T] in
theorem ofSecret_length {x : Operand T} {n : Nat} {draws : Nat → List Nat → T} {r : Secret T} (h : ofSecret x n draws = .ok r) :
    r.shares.length = n := by
  unfold ofSecret at h
  split at h
  · cases h
  · cases h
    simp

/-- every result has as many shares as there are parties -/
theorem secret_length (n : Nat) (d : Draws T) (env : List (Secret T)) (henv : ∀ x ∈ env, x.shares.length = n) (st : Step T) (r : Secret T)
    (h : st.secret d env = .ok r) : r.shares.length = n := by
  have hget : ∀ i x, pyGet env i = .ok x → x.shares.length = n := by
    intro i x hx
    unfold pyGet at hx
    cases hi : env[i]? with
    | none => rw [hi] at hx; cases hx
    | some y =>
      rw [hi] at hx
      cases hx
      exact henv _ (List.mem_of_getElem? hi)
  cases st with
  | both op i j =>
    obtain ⟨x, hx, h⟩ := of_bind h
    obtain ⟨y, hy, h⟩ := of_bind h
    have lx := hget i x hx
    have ly := hget j y hy
    split at h
    · obtain ⟨shares, hs, h⟩ := of_bind h
      obtain ⟨g, hg, h⟩ := of_bind h
      cases h
      rw [mapM_length hs]
      simp [lx, ly]
    · obtain ⟨shares, hs, h⟩ := of_bind h
      obtain ⟨g, hg, h⟩ := of_bind h
      cases h
      obtain ⟨xs, -, hs⟩ := of_bind hs
      obtain ⟨ys, -, hs⟩ := of_bind hs
      obtain ⟨t, ht, hs⟩ := of_bind hs
      obtain ⟨v1, k1, hs⟩ := of_bind hs
      obtain ⟨v2, k2, hs⟩ := of_bind hs
      obtain ⟨v3, k3, hs⟩ := of_bind hs
      obtain ⟨v4, k4, hs⟩ := of_bind hs
      obtain ⟨v5, k5, hs⟩ := of_bind hs
      unfold deal at ht
      obtain ⟨a, ha, ht⟩ := of_bind ht
      obtain ⟨b, hb, ht⟩ := of_bind ht
      obtain ⟨c', hc', ht⟩ := of_bind ht
      obtain ⟨c, hc, ht⟩ := of_bind ht
      cases ht
      rw [mapM_length hs]
      simp [ofSecret_length ha, ofSecret_length hb, ofSecret_length hc, lx]
  | «public» op i y =>
    obtain ⟨x, hx, h⟩ := of_bind h
    have lx := hget i x hx
    obtain ⟨shares, hs, h⟩ := of_bind h
    obtain ⟨g, hg, h⟩ := of_bind h
    cases h
    have hone : ∀ op : BinOp, (op.run · y.enc) = (op.run · y.enc) := fun _ => rfl
    have htwo : ∀ op' : BinOp, applyPublic op x y = (match x.shares with
        | [] => .error .indexError
        | s :: rest => do
          let s ← op'.run s y.enc
          return s :: rest) → shares.length = n := by
      intro op' h'
      rw [hs] at h'
      cases hxs : x.shares with
      | nil => rw [hxs] at h'; cases h'
      | cons s rest =>
        rw [hxs] at h'
        obtain ⟨s', -, h'⟩ := of_bind h'.symm
        cases h'
        rw [← lx, hxs]
        rfl
    cases op with
    | add => exact htwo .add (by unfold applyPublic; dsimp only; cases x.shares <;> rfl)
    | sub => exact htwo .sub (by unfold applyPublic; dsimp only; cases x.shares <;> rfl)
    | mul => rw [← lx]; exact mapM_length hs
    | matmul => rw [← lx]; exact mapM_length hs
  | method m i =>
    obtain ⟨x, hx, h⟩ := of_bind h
    obtain ⟨shares, hs, h⟩ := of_bind h
    obtain ⟨s, hs', h⟩ := of_bind h
    obtain ⟨r', hr', h⟩ := of_bind h
    cases h
    rw [← hget i x hx]
    exact mapM_length hs

end

/-! ### Programs -/

/-- a division that works on every secret with `n` shares and keeps the shapes -/
def BlindOn {W : Type} (n : Nat) (cut : Cut W) : Prop :=
  ∀ w x, x.shares.length = n → ∃ r, cut w x = .ok r ∧ r.bare = x.bare

theorem blind_two (c : Config) : BlindOn 2 (cutTwo c) := by
  intro _ x _
  refine ⟨_, rfl, ?_⟩
  simp only [truncate, Secret.bare, List.map_map]
  rfl

theorem blind_many (env : Env) (s : Session) (n : Nat) (h : NProgram.Suits env s n) : BlindOn s.nrParties (cutMany f32 env s) := by
  intro w x g1
  set shares : List (ShareTensor (List Nat → I64)) := (x.shares.zip s.rankToUuid).map fun p => ⟨p.1.at_, some p.2, s.config, s.ringSize⟩ with hsh
  have hl : s.rankToUuid.length = x.shares.length := by rw [h.live.ranks, g1]
  have htags : shares.map (·.sessionUuid) = s.rankToUuid.map some := by
    rw [hsh, List.map_map]
    conv_rhs => rw [← List.map_snd_zip (l₁ := x.shares) (l₂ := s.rankToUuid) (by omega), List.map_map]
    rfl
  have hwf : MPCTensor.WF env ⟨s, shares⟩ := ⟨h.live.toReady, htags⟩
  obtain ⟨res, q, a1, a2, a3, -⟩ := C27_tensors_pow2_partial env s h.live h.ring (by rw [h.parties]; omega) (by rw [h.parties]; exact h.many)
    h.base h.pos h.small w ⟨s, shares⟩ hwf rfl _ (WF.reconstruct hwf) s.config.encoderPrecision (by have := h.small; omega)
  have hscale : ((s.config.encoder.scale : Nat) : Int) = 2 ^ s.config.encoderPrecision := NProgram.scale_eq h
  have hres : res.shares.length = x.shares.length := by
    have := congrArg List.length a2.tags
    rw [a3] at this
    simpa [hl] using this
  refine ⟨⟨(res.shares.zip x.shares).map fun p => ⟨p.2.shape, p.1.tensor⟩, x.shape⟩, ?_, ?_⟩
  · unfold cutMany
    rw [← hsh, hscale]
    dsimp only
    rw [a1, ok_bind]
    rfl
  · unfold Secret.bare
    congr 1
    rw [List.map_map]
    conv_rhs => rw [← List.map_snd_zip (l₁ := res.shares) (l₂ := x.shares) (by omega), List.map_map]
    rfl

theorem stepMap_map {A B C : Type} (f : A → B) (g : B → C) (st : Step A) : (st.map f).map g = st.map fun a => g (f a) := by
  cases st with
  | both op i j => rfl
  | «public» op i y => cases y <;> rfl
  | method m i => rfl

theorem fixed_bare {W : Type} {n : Nat} (c : Config) (cut : Cut W) (hcut : BlindOn n cut) (d : Draws I64 × W) (env : List (Secret I64))
    (henv : ∀ x ∈ env, x.shares.length = n) (st : Step Val) :
    (fun r => r.1.bare) <$> st.fixed c cut d env = (st.map fun _ => ()).secret noDraws (env.map Secret.bare) ∧
      ∀ r, st.fixed c cut d env = .ok r → r.1.shares.length = n := by
  have h := step_bare d.1 env (st.map c.encoder.encode)
  rw [stepMap_map] at h
  unfold Step.fixed
  rw [← h]
  cases hr : (st.map c.encoder.encode).secret d.1 env with
  | error e => exact ⟨rfl, fun r h => by cases h⟩
  | ok r =>
    have hl := secret_length n d.1 env henv _ r hr
    simp only [ok_bind]
    split
    · obtain ⟨r', h1, h2⟩ := hcut d.2 r hl
      rw [h1]
      refine ⟨?_, fun r'' h => ?_⟩
      · show Except.ok r'.bare = Except.ok r.bare
        rw [h2]
      · cases h
        have := congrArg (fun s : Secret Unit => s.shares.length) h2
        simpa [Secret.bare, hl] using this
    · refine ⟨rfl, fun r'' h => ?_⟩
      cases h
      exact hl

theorem runAll_bare {W : Type} {n : Nat} (c : Config) (cut : Cut W) (hcut : BlindOn n cut) (prog prog' : List (Step Val × Draws I64 × W))
    (hp : SameCalls prog prog') : ∀ (env env' : List (Secret I64)), (∀ x ∈ env, x.shares.length = n) → (∀ x ∈ env', x.shares.length = n) →
      env.map Secret.bare = env'.map Secret.bare →
      (runAll c cut prog env).map (Except.map Secret.bare) = (runAll c cut prog' env').map (Except.map Secret.bare) := by
  induction prog generalizing prog' with
  | nil =>
    intro env env' _ _ _
    cases prog' with
    | nil => rfl
    | cons p q => simp [SameCalls] at hp
  | cons p prog ih =>
    intro env env' h1 h2 he
    cases prog' with
    | nil => simp [SameCalls] at hp
    | cons p' prog' =>
      obtain ⟨st, d⟩ := p
      obtain ⟨st', d'⟩ := p'
      simp only [SameCalls, List.map_cons, List.cons.injEq] at hp
      obtain ⟨hst, hp⟩ := hp
      obtain ⟨f1, f2⟩ := fixed_bare c cut hcut d env h1 st
      obtain ⟨g1, g2⟩ := fixed_bare c cut hcut d' env' h2 st'
      rw [hst, he, ← g1] at f1
      unfold runAll
      cases hx : st.fixed c cut d env with
      | error e =>
        cases hy : st'.fixed c cut d' env' with
        | error e' =>
          rw [hx, hy] at f1
          have : e = e' := Except.error.inj f1
          subst this
          simp only [List.map_cons]
          rw [ih prog' hp env env' h1 h2 he]
        | ok r' => rw [hx, hy] at f1; cases f1
      | ok r =>
        cases hy : st'.fixed c cut d' env' with
        | error e' => rw [hx, hy] at f1; cases f1
        | ok r' =>
          rw [hx, hy] at f1
          have hb : r.1.bare = r'.1.bare := Except.ok.inj f1
          simp only [List.map_cons]
          rw [ih prog' hp (env ++ [r.1]) (env' ++ [r'.1]) ?_ ?_ (by simp [he, hb])]
          · show Except.ok r.1.bare :: _ = Except.ok r'.1.bare :: _
            rw [hb]
          · intro x hx'
            rcases List.mem_append.mp hx' with h | h
            · exact h1 x h
            · rw [List.mem_singleton.mp h]; exact f2 r hx
          · intro x hx'
            rcases List.mem_append.mp hx' with h | h
            · exact h2 x h
            · rw [List.mem_singleton.mp h]; exact g2 r' hy

theorem inputs_bare (c : Config) (n : Nat) (inputs : List (Tensor Val × (Nat → List Nat → I64))) :
    List.map Secret.bare <$> fixedInputs c n inputs
      = (inputs.map (·.1.shape)).mapM fun s => ofSecret (.tensor (⟨s, fun _ => ()⟩ : Tensor Unit)) n fun _ _ => () :=
  mapM_bare Secret.bare (·.1.shape) _ (fun s => ofSecret (.tensor (⟨s, fun _ => ()⟩ : Tensor Unit)) n fun _ _ => ())
    (fun p => ofSecret_bare (.tensor ⟨p.1.shape, fun i => c.encoder.encode (p.1.at_ i)⟩) n p.2 _) inputs

theorem inputs_length (c : Config) (n : Nat) (inputs : List (Tensor Val × (Nat → List Nat → I64))) (env : List (Secret I64))
    (h : fixedInputs c n inputs = .ok env) : ∀ x ∈ env, x.shares.length = n := by
  unfold fixedInputs at h
  induction inputs generalizing env with
  | nil => cases h; simp
  | cons p l ih =>
    rw [List.mapM_cons] at h
    obtain ⟨x, hx, h⟩ := of_bind h
    obtain ⟨xs, hxs, h⟩ := of_bind h
    cases h
    intro y hy
    rcases List.mem_cons.mp hy with rfl | hy
    · exact ofSecret_length hx
    · exact ih xs hxs y hy

theorem everything_bare {W : Type} {n : Nat} (c : Config) (cut : Cut W) (hcut : BlindOn n cut)
    (inputs inputs' : List (Tensor Val × (Nat → List Nat → I64))) (hi : SameShapes inputs inputs')
    (prog prog' : List (Step Val × Draws I64 × W)) (hp : SameCalls prog prog') :
    (everything c cut n inputs prog).map (Except.map Secret.bare) = (everything c cut n inputs' prog').map (Except.map Secret.bare) := by
  have h1 := inputs_bare c n inputs
  have h2 := inputs_bare c n inputs'
  rw [hi, ← h2] at h1
  unfold everything
  cases hx : fixedInputs c n inputs with
  | error e =>
    cases hy : fixedInputs c n inputs' with
    | error e' =>
      rw [hx, hy] at h1
      have : e = e' := Except.error.inj h1
      rw [this]
    | ok env' => rw [hx, hy] at h1; cases h1
  | ok env =>
    cases hy : fixedInputs c n inputs' with
    | error e' => rw [hx, hy] at h1; cases h1
    | ok env' =>
      rw [hx, hy] at h1
      have hb : env.map Secret.bare = env'.map Secret.bare := Except.ok.inj h1
      dsimp only
      rw [List.map_append, List.map_append,
        runAll_bare c cut hcut prog prog' hp env env' (inputs_length c n _ _ hx) (inputs_length c n _ _ hy) hb, List.map_map, List.map_map]
      congr 1
      have : ∀ l : List (Secret I64), l.map (Except.map Secret.bare ∘ (Except.ok : _ → Py _)) = (l.map Secret.bare).map Except.ok := by
        intro l
        rw [List.map_map]
        rfl
      rw [this, this, hb]

theorem seen_bare (render : Reported → String) (clients : List String) (attrs : Nat → Bool × Option String) (l : List (Py (Secret T))) :
    seen render clients attrs l = seen render clients attrs (l.map (Except.map Secret.bare)) := by
  have hstr : ∀ (x : Secret T) (a : Bool × Option String),
      Printing.str render ⟨Printing.ptrs clients "ShareTensorPointer" x.shares, x.shape, a.1, a.2⟩
        = Printing.str render ⟨Printing.ptrs clients "ShareTensorPointer" x.bare.shares, x.bare.shape, a.1, a.2⟩ := by
    intro x a
    unfold Printing.str Printing.ptrs Secret.bare
    dsimp only
    rw [List.foldl_map, List.foldl_map, List.zip_map_right, List.foldl_map]
    rfl
  unfold seen
  apply List.ext_getElem
  · simp
  intro i hi _
  simp only [List.getElem_mapIdx, List.getElem_map]
  generalize l[i]'(by simpa using hi) = o
  cases o with
  | error e => rfl
  | ok x =>
    have h := hstr x (attrs i)
    simp only [Except.map, h]
    rfl

/-! ## C91 -/

/-- C91: in a two-party session whatever the caller sees without opening a result, exceptions, shapes, lengths and printed forms, is the
same for all secrets of the same shapes, all random numbers and all elements of public operands; the caller may catch exceptions and go on. -/
theorem C91_two_parties (c : Config) (render : Reported → String) (clients : List String) (attrs : Nat → Bool × Option String)
    (inputs inputs' : List (Tensor Val × (Nat → List Nat → I64))) (hi : SameShapes inputs inputs')
    (prog prog' : List (Step Val × Draws I64 × Unit)) (hp : SameCalls prog prog') :
    seen render clients attrs (everything c (cutTwo c) 2 inputs prog)
      = seen render clients attrs (everything c (cutTwo c) 2 inputs' prog') := by
  rw [seen_bare, everything_bare c _ (blind_two c) inputs inputs' hi prog prog' hp, ← seen_bare]

/-- C91: the same with three or more parties and a binary encoder of at most 24 bits. -/
theorem C91_many_parties (env : Env) (s : Session) (n : Nat) (h : NProgram.Suits env s n) (render : Reported → String)
    (clients : List String) (attrs : Nat → Bool × Option String)
    (inputs inputs' : List (Tensor Val × (Nat → List Nat → I64))) (hi : SameShapes inputs inputs')
    (prog prog' : List (Step Val × Draws I64 × WrapRandT (List Nat))) (hp : SameCalls prog prog') :
    seen render clients attrs (everything s.config (cutMany f32 env s) s.nrParties inputs prog)
      = seen render clients attrs (everything s.config (cutMany f32 env s) s.nrParties inputs' prog') := by
  rw [seen_bare, everything_bare s.config _ (blind_many env s n h) inputs inputs' hi prog prog' hp, ← seen_bare]

/-! ## A concrete case -/

/-- the same program with a product torch refuses in between -/
def exCaught : List (Step Val × Draws I64 × Unit) := (.both .matmul 0 0, exFixedDraws, ()) :: exFixedTwo

/-- other calls with other public numbers and other draws -/
def exCaught' : List (Step Val × Draws I64 × Unit) :=
  ([.both .matmul 0 0, .method .T 1, .both .matmul 0 2, .public .add 3 (.tensor (exTensor [2] [.int 7, .int 8])),
    .public .mul 4 (.number (.int 1000)), .method (.sumDim 0 false) 5, .both .mul 4 6] : List (Step Val)).map fun st =>
      (st, ⟨fun _ => 5, fun _ => 6, fun _ _ => 7, fun _ _ => 8, fun _ _ => 9⟩, ())

/-- other secrets of the same shapes -/
def exCaughtInputs' : List (Tensor Val × (Nat → List Nat → I64)) :=
  [(exTensor [2, 3] (List.replicate 6 (.int 0)), fun _ _ => 1), (exTensor [2, 3] (List.replicate 6 (.int (-1))), fun _ _ => 2)]

example : SameShapes exFixedInputs exCaughtInputs' ∧ SameCalls exCaught exCaught' := ⟨rfl, rfl⟩

/-- a renderer of shapes -/
def exRender : Reported → String
  | .unknown => "None"
  | .list s => s!"{s}"
  | .size s => s!"torch.Size({s})"

/-- what the caller sees: the product is refused, the following calls succeed -/
example : (seen exRender ["alice", "bob"] (fun _ => (false, none)) (everything {} (cutTwo {}) 2 exFixedInputs exCaught)).map
      (fun o => o.toOption.map fun r => (r.1.tuple.toOption, r.2.1.toOption))
    = [some (some [2, 3], some 2), some (some [2, 3], some 2), none, some (some [3, 2], some 3), some (some [2, 2], some 2),
      some (some [2, 2], some 2), some (some [2, 2], some 2), some (some [2], some 2), some (some [2, 2], some 2)] := by
  decide +kernel

/-- the printed form of the last result -/
example : (((seen exRender ["alice", "bob"] (fun _ => (false, none)) (everything {} (cutTwo {}) 2 exFixedInputs exCaught)).getLast?.bind
      (·.toOption)).map fun r => r.2.2) = some "[MPCTensor]\nShape: torch.Size([2, 2])\nRequires Grad: False\n\t| alice -> ShareTensorPointer\n\t| bob -> ShareTensorPointer" := by
  decide +kernel

/-- the elements of the last results differ -/
example : ((everything {} (cutTwo {}) 2 exFixedInputs exCaught).getLast?.bind fun o => o.toOption.bind exLook)
    ≠ (everything {} (cutTwo {}) 2 exCaughtInputs' exCaught').getLast?.bind fun o => o.toOption.bind exLook := by
  decide +kernel

end SyMPC.Shape
