import Verif.Model.ShapeView
import Verif.Props.Blind

/-!
# C93: what the parties see of a whole program with shapes
-/

namespace SyMPC.Shape

open Tensor
open FixedPointEncoder (Val)

/-! ## Specification -/

/-- all that is drawn: for the sharing of the inputs, and in every step -/
abbrev Chance (W : Type) := List (Nat → List Nat → I64) × List (Draws I64 × W)

/-- the drawn numbers, each moved by a given amount -/
def Draws.move (d δ : Draws I64) (γ : Nat → List Nat → I64) : Draws I64 where
  a i := d.a i + δ.a i
  b i := d.b i + δ.b i
  sharesA k i := d.sharesA k i + δ.sharesA k i
  sharesB k i := d.sharesB k i + δ.sharesB k i
  sharesC k i := d.sharesC k i + γ k i

/-- Every number that is drawn is moved by an amount that was settled before it is drawn: the sharing of the inputs by fixed amounts; in a
step, the masks and their sharing by amounts that depend on what was drawn in earlier steps, and the sharing of the product of the masks by
amounts that depend on these and on the masks.  Such a map takes uniform and independent numbers to uniform and independent numbers. -/
structure OneTimePad {W : Type} (σ : Chance W ≃ Chance W) : Prop where
  inputs : ∃ δ : Nat → Nat → List Nat → I64, ∀ r m, (σ r).1[m]? = r.1[m]?.map fun u k i => u k i + δ m k i
  steps : ∃ (δ : Chance W → Draws I64) (γ : Chance W → (List Nat → I64) → (List Nat → I64) → Nat → List Nat → I64),
    ∀ r m, (σ r).2[m]? = r.2[m]?.map fun d : Draws I64 × W =>
      (d.1.move (δ (r.1, r.2.take m)) (γ (r.1, r.2.take m) d.1.a d.1.b), d.2)

/-- a division that every party does on its own share, element by element -/
def EachOwn {W : Type} (cut : Cut W) : Prop :=
  ∃ f : W → Nat → I64 → I64, ∀ w x, cut w x = .ok ⟨x.shares.mapIdx fun k => Grad.map (f w k), x.shape⟩

/-! ## Proof -/

/-! ### The opening is the one of the product -/

theorem mulMaster_opening {T : Type} [Add T] [Sub T] [Mul T] [Zero T] (op : BinOp) (x y : Secret T) (d : Draws T) :
    mulMaster op x y d = opening op x y d >>= fun r =>
      ((r.2.2.a.zip (r.2.2.b.zip r.2.2.c)).zipIdx).mapM fun p => mulParty op r.1 r.2.1 p.2 p.1.1 p.1.2.1 p.1.2.2 := by
  unfold mulMaster opening
  simp only [bind_assoc, pure_bind]

section
variable {T : Type} [Add T] [Sub T] [Mul T] [Zero T]

theorem opening_bare (op : BinOp) (x y : Secret T) (d : Draws T) :
    (fun r : Tensor T × Tensor T × Triple T => (bare r.1, bare r.2.1, r.2.2.bare)) <$> opening op x y d
      = opening op x.bare y.bare noDraws := by
  have hl : ∀ xs ys : List Nat, ((x.bare.shares.zip y.bare.shares).mapM fun p => lookUp xs ys p.1 p.2)
      = (x.shares.zip y.shares).mapM fun p => lookUp xs ys p.1 p.2 := by
    intro xs ys
    unfold Secret.bare
    rw [zip_map_bare]
    have := mapM_bare (fun u : Unit => u) (fun p : Tensor T × Tensor T => (bare p.1, bare p.2)) (fun p => lookUp xs ys p.1 p.2)
      (fun p => lookUp xs ys p.1 p.2) (fun a => id_map _) (x.shares.zip y.shares)
    rw [← this]
    simp
  have hsub : ∀ (z : Secret T) (t : List (Tensor T)), ((z.bare.shares.zip (t.map bare)).mapM fun p => BinOp.sub.run p.1 p.2)
      = List.map bare <$> (z.shares.zip t).mapM fun p => BinOp.sub.run p.1 p.2 := by
    intro z t
    unfold Secret.bare
    rw [zip_map_bare]
    exact (mapM_bare bare _ _ _ (fun a => run_bare .sub a.1 a.2) _).symm
  unfold opening
  have hlen : x.bare.shares.length = x.shares.length := by simp [Secret.bare]
  have e0 : ∀ z : Secret T, z.bare.shape = z.shape := fun _ => rfl
  simp only [e0, hlen, hl, map_bind, ← deal_bare op _ d, bind_map_left]
  refine bind_congr fun xs => bind_congr fun ys => bind_congr fun t => bind_congr fun _ => ?_
  have h1 := hsub x t.a
  have h2 := hsub y t.b
  have h1' : (x.bare.shares.zip t.bare.a).mapM (fun p => BinOp.sub.run p.1 p.2) = List.map bare <$> (x.shares.zip t.a).mapM fun p => BinOp.sub.run p.1 p.2 := h1
  have h2' : (y.bare.shares.zip t.bare.b).mapM (fun p => BinOp.sub.run p.1 p.2) = List.map bare <$> (y.shares.zip t.b).mapM fun p => BinOp.sub.run p.1 p.2 := h2
  rw [h1', h2']
  simp only [bind_map_left, ← sumShares_bare, map_pure]

end

/-! ### Secrets that differ in one share -/

/-- the same but for the elements of the share of `h` -/
structure Alike (h : Nat) (x x' : Secret I64) : Prop where
  bare : x.bare = x'.bare
  others : ∀ i, i ≠ h → x.shares[i]? = x'.shares[i]?

/-- both succeed with related results, or both raise the same exception -/
def SameEnd {A : Type} (R : A → A → Prop) (x x' : Py A) : Prop :=
  match x, x' with
  | .ok a, .ok a' => R a a'
  | .error e, .error e' => e = e'
  | _, _ => False

theorem sameEnd_of {A B : Type} {R : A → A → Prop} {x x' : Py A} (F : A → B) (h : F <$> x = F <$> x')
    (hR : ∀ a a', x = .ok a → x' = .ok a' → F a = F a' → R a a') : SameEnd R x x' := by
  cases x with
  | error e =>
    cases x' with
    | error e' => cases h; rfl
    | ok a' => cases h
  | ok a =>
    cases x' with
    | error e' => cases h
    | ok a' => exact hR a a' rfl rfl (by injection h)

theorem mapM_getElem {A B : Type} {f : A → Py B} {l : List A} {r : List B} (h : l.mapM f = .ok r) (i : Nat) :
    r[i]?.map .ok = l[i]?.map f := by
  rw [mapM_ok_iff] at h
  induction h generalizing i with
  | nil => rfl
  | cons hab _ ih =>
    cases i with
    | zero => simp [hab]
    | succ i => simpa using ih i

theorem mapM_same {A A' B : Type} {f : A → Py B} {f' : A' → Py B} {l : List A} {l' : List A'} {r r' : List B} (h : l.mapM f = .ok r) (h' : l'.mapM f' = .ok r')
    (i : Nat) (hi : l[i]?.map f = l'[i]?.map f') : r[i]? = r'[i]? := by
  rw [← mapM_getElem h, ← mapM_getElem h'] at hi
  cases h1 : r[i]? <;> cases h2 : r'[i]? <;> rw [h1, h2] at hi <;> simp_all

theorem mapM_all {A A' B : Type} {f : A → Py B} {f' : A' → Py B} {l : List A} {l' : List A'} {r r' : List B} (h : l.mapM f = .ok r) (h' : l'.mapM f' = .ok r')
    (hi : ∀ i : Nat, l[i]?.map f = l'[i]?.map f') : r = r' :=
  List.ext_getElem? fun i => mapM_same h h' i (hi i)

theorem zip_getElem {A B : Type} (l : List A) (m : List B) (i : Nat) :
    (l.zip m)[i]? = match l[i]?, m[i]? with | some a, some b => some (a, b) | _, _ => none := by
  induction l generalizing m i with
  | nil => simp
  | cons a l ih =>
    cases m with
    | nil => cases i <;> simp
    | cons b m =>
      cases i with
      | zero => rfl
      | succ i => simpa using ih m i

theorem eraseIdx_same {A : Type} {l l' : List A} {h : Nat} (hi : ∀ i, i ≠ h → l[i]? = l'[i]?) :
    l.eraseIdx h = l'.eraseIdx h := by
  refine List.ext_getElem? fun i => ?_
  rw [List.getElem?_eraseIdx, List.getElem?_eraseIdx]
  split
  · exact hi i (by omega)
  · exact hi (i + 1) (by omega)

namespace Alike

variable {h : Nat} {x x' : Secret I64}

theorem shape (a : Alike h x x') : x.shape = x'.shape := by
  have := congrArg Secret.shape a.bare
  exact this

theorem length (a : Alike h x x') : x.shares.length = x'.shares.length := by
  have := congrArg (fun z => z.shares.length) a.bare
  simpa [Secret.bare] using this

theorem hide (a : Alike h x x') : x.hide h = x'.hide h := by
  unfold Secret.hide
  rw [a.shape, eraseIdx_same a.others]

theorem symm (a : Alike h x x') : Alike h x' x := ⟨a.bare.symm, fun i hi => (a.others i hi).symm⟩

end Alike

/-! ### Sharing -/

/-- the share of party `k` of `n`, `generate_shares` -/
def piece (n : Nat) (s : List Nat) (v : List Nat → I64) (u : Nat → List Nat → I64) (k : Nat) : Tensor I64 :=
  ⟨s, fun i => if k = 0 then u 0 i else if k < n - 1 then u k i - u (k - 1) i else v i - u (k - 1) i⟩

/-- how the draws of a sharing move when the share of `h` moves by `δ` -/
def chain (h : Nat) (δ : List Nat → I64) (k : Nat) (i : List Nat) : I64 := if h ≤ k then δ i else 0

theorem ofSecret_form (n : Nat) (s : List Nat) (v : List Nat → I64) (u : Nat → List Nat → I64) :
    ofSecret (.tensor ⟨s, v⟩) n u = if n < 2 then .error .indexError else .ok ⟨(List.range n).map (piece n s v u), .size s⟩ := rfl

theorem piece_move {n h : Nat} (hn : 2 ≤ n) (hh : h < n) (s : List Nat) (v δ : List Nat → I64) (u : Nat → List Nat → I64) (k : Nat) (hk : k < n) :
    piece n s (fun i => v i + δ i) (fun k i => u k i + chain h δ k i) k =
      ⟨s, fun i => (piece n s v u k).at_ i + if k = h then δ i else 0⟩ := by
  unfold piece chain
  congr 1
  funext i
  dsimp only
  rcases Nat.eq_zero_or_pos k with rfl | hpos
  · by_cases h0 : h = 0
    · subst h0; simp
    · rw [if_pos rfl, if_pos rfl, if_neg (by omega), if_neg (by omega)]
  · have k0 : k ≠ 0 := by omega
    rw [if_neg k0, if_neg k0]
    by_cases hl : k < n - 1
    · rw [if_pos hl, if_pos hl]
      rcases Nat.lt_trichotomy k h with g | g | g
      · rw [if_neg (by omega), if_neg (by omega), if_neg (by omega)]; ring
      · rw [if_pos (by omega), if_neg (by omega), if_pos g]; ring
      · rw [if_pos (by omega), if_pos (by omega), if_neg (by omega)]; ring
    · rw [if_neg hl, if_neg hl]
      by_cases g : k = h
      · rw [if_neg (by omega), if_pos g]; ring
      · rw [if_pos (by omega), if_neg g]; ring

theorem pieces_others {n h : Nat} (hn : 2 ≤ n) (hh : h < n) (s : List Nat) (v δ : List Nat → I64) (u : Nat → List Nat → I64) (k : Nat)
    (hk : k ≠ h) : ((List.range n).map (piece n s v u))[k]? =
      ((List.range n).map (piece n s (fun i => v i + δ i) (fun k i => u k i + chain h δ k i)))[k]? := by
  rw [List.getElem?_map, List.getElem?_map]
  by_cases hkn : k < n
  · rw [List.getElem?_range hkn, Option.map_some, Option.map_some, piece_move hn hh s v δ u k hkn]
    simp only [if_neg hk, add_zero]
    rfl
  · rw [List.getElem?_eq_none (by simpa using hkn)]
    rfl

theorem deal_form (op : BinOp) (n : Nat) (d : Draws I64) (xs ys : List Nat) :
    deal op n d xs ys = if n < 2 then .error .indexError else (op.shape xs ys).map fun z =>
      ⟨(List.range n).map (piece n xs d.a d.sharesA), (List.range n).map (piece n ys d.b d.sharesB),
        (List.range n).map (piece n z (elem op xs ys d.a d.b) d.sharesC)⟩ := by
  unfold deal
  simp only [ofSecret_form]
  split
  · rfl
  · simp only [ok_bind]
    rw [run_eq]
    dsimp only
    cases op.shape xs ys with
    | error e => rfl
    | ok z =>
      show (ofSecret (.tensor ⟨z, elem op xs ys d.a d.b⟩) n d.sharesC >>= _) = _
      rw [ofSecret_form, if_neg (by assumption)]
      rfl

/-! ### The shift of one product -/

/-- the elements of the share of `h` -/
def heldBy (h : Nat) (x : Secret I64) (i : List Nat) : I64 :=
  match x.shares[h]? with
  | some t => t.at_ i
  | none => 0

/-- the reported sizes -/
def sizes (x : Secret I64) : List Nat :=
  match x.shape with
  | .unknown => []
  | .list s => s
  | .size s => s

/-- how the masks of a product move -/
def padDelta (h : Nat) (x x' y y' : Secret I64) : Draws I64 where
  a i := heldBy h x' i - heldBy h x i
  b i := heldBy h y' i - heldBy h y i
  sharesA := chain h fun i => heldBy h x' i - heldBy h x i
  sharesB := chain h fun i => heldBy h y' i - heldBy h y i
  sharesC _ _ := 0

/-- how the sharing of the product of the masks moves -/
def padGamma (h : Nat) (op : BinOp) (x x' y y' : Secret I64) (a b : List Nat → I64) : Nat → List Nat → I64 :=
  chain h fun i => elem op (sizes x) (sizes y) (fun i => a i + (heldBy h x' i - heldBy h x i)) (fun i => b i + (heldBy h y' i - heldBy h y i)) i
    - elem op (sizes x) (sizes y) a b i

/-- the draws of a product with other secrets -/
def pad (h : Nat) (op : BinOp) (x x' y y' : Secret I64) (d : Draws I64) : Draws I64 :=
  d.move (padDelta h x x' y y') (padGamma h op x x' y y' d.a d.b)

theorem chain_cancel (h : Nat) (δ δ' : List Nat → I64) (hδ : ∀ i, δ' i = - δ i) (k : Nat) (i : List Nat) (u : I64) :
    u + chain h δ k i + chain h δ' k i = u := by
  unfold chain
  split
  · rw [hδ]; ring
  · ring

theorem pad_pad (h : Nat) (op : BinOp) (x x' y y' : Secret I64) (hx : sizes x = sizes x') (hy : sizes y = sizes y') (d : Draws I64) :
    pad h op x' x y' y (pad h op x x' y y' d) = d := by
  have ha : ∀ i, d.a i + (heldBy h x' i - heldBy h x i) + (heldBy h x i - heldBy h x' i) = d.a i := fun i => by ring
  have hb : ∀ i, d.b i + (heldBy h y' i - heldBy h y i) + (heldBy h y i - heldBy h y' i) = d.b i := fun i => by ring
  obtain ⟨a, b, sA, sB, sC⟩ := d
  unfold pad Draws.move padDelta padGamma
  dsimp only at ha hb ⊢
  simp only [ha, hb, ← hx, ← hy]
  congr 1
  · funext k i
    exact chain_cancel _ _ _ (fun i => by ring) _ _ _
  · funext k i
    exact chain_cancel _ _ _ (fun i => by ring) _ _ _
  · funext k i
    exact chain_cancel _ _ _ (fun i => by ring) _ _ _

theorem zip_sub_same (X X' A : Tensor I64) (hs : X.shape = X'.shape) (hA : A.shape = X.shape) :
    BinOp.sub.run X A = BinOp.sub.run X' ⟨A.shape, fun i => A.at_ i + (X'.at_ i - X.at_ i)⟩ := by
  show zip _ _ _ = zip _ _ _
  rw [zip_eq, zip_eq]
  dsimp only
  rw [← hs, hA]
  congr 1
  funext s
  congr 1
  funext i
  ring

/-- the parties' masked shares of an operand are the same -/
theorem masked_same {h n : Nat} (hn : 2 ≤ n) (hh : h < n) {x x' : Secret I64} (al : Alike h x x') (lx : x.shares.length = n) (xs : List Nat)
    (hsh : ∀ X ∈ x.shares, X.shape = xs) (a : List Nat → I64) (u : Nat → List Nat → I64) (i : Nat) :
    (x.shares.zip ((List.range n).map (piece n xs a u)))[i]?.map (fun p => BinOp.sub.run p.1 p.2) =
      (x'.shares.zip ((List.range n).map (piece n xs (fun i => a i + (heldBy h x' i - heldBy h x i))
        (fun k i => u k i + chain h (fun i => heldBy h x' i - heldBy h x i) k i))))[i]?.map (fun p => BinOp.sub.run p.1 p.2) := by
  rw [zip_getElem, zip_getElem]
  by_cases hi : i = h
  · subst hi
    have h1 : x.shares[i]? = some x.shares[i] := List.getElem?_eq_getElem (by omega)
    have h2 : x'.shares[i]? = some (x'.shares[i]'(by rw [← al.length]; omega)) := List.getElem?_eq_getElem (by rw [← al.length]; omega)
    have hs : x.shares[i].shape = (x'.shares[i]'(by rw [← al.length]; omega)).shape := by
      have := congrArg (fun z : Secret Unit => z.shares[i]?) al.bare
      simp only [Secret.bare, List.getElem?_map, h1, h2, Option.map_some, Option.some.injEq] at this
      exact congrArg (Tensor.shape (T := Unit)) this
    have g1 : ∀ j, heldBy i x j = x.shares[i].at_ j := fun j => by unfold heldBy; rw [h1]
    have g2 : ∀ j, heldBy i x' j = (x'.shares[i]'(by rw [← al.length]; omega)).at_ j := fun j => by unfold heldBy; rw [h2]
    rw [h1, h2, List.getElem?_map, List.getElem?_map, List.getElem?_range hh]
    simp only [Option.map_some]
    rw [piece_move hn hh xs a _ u i hh]
    simp only [if_pos, g1, g2]
    rw [zip_sub_same _ _ (piece n xs a u i) hs (hsh _ (List.getElem_mem _)).symm]
    rfl
  · rw [al.others i hi, pieces_others hn hh xs a (fun i => heldBy h x' i - heldBy h x i) u i hi]

theorem lookUp_shapes {x y : Secret I64} {xs ys : List Nat} {r : List Unit} (hl : x.shares.length = y.shares.length)
    (h : ((x.shares.zip y.shares).mapM fun p => lookUp xs ys p.1 p.2) = .ok r) :
    (∀ X ∈ x.shares, X.shape = xs) ∧ ∀ Y ∈ y.shares, Y.shape = ys := by
  have key : ∀ p ∈ x.shares.zip y.shares, p.1.shape = xs ∧ p.2.shape = ys := by
    intro p hp
    obtain ⟨i, hi⟩ := List.getElem?_of_mem hp
    have := mapM_getElem h i
    rw [hi] at this
    by_contra hc
    simp only [Option.map_some, lookUp, if_neg hc] at this
    cases r[i]? <;> simp at this
  constructor
  · intro X hX
    obtain ⟨i, hi, rfl⟩ := List.getElem_of_mem hX
    exact (key (x.shares[i], y.shares[i]) (by
      rw [← List.getElem_zip (h := by simp; omega)]; exact List.getElem_mem _)).1
  · intro Y hY
    obtain ⟨i, hi, rfl⟩ := List.getElem_of_mem hY
    exact (key (x.shares[i], y.shares[i]) (by
      rw [← List.getElem_zip (h := by simp; omega)]; exact List.getElem_mem _)).2

theorem tuple_sizes {x : Secret I64} {s : List Nat} (h : x.shape.tuple = .ok s) : sizes x = s := by
  unfold sizes
  cases hs : x.shape <;> rw [hs] at h <;> cases h <;> rfl

/-- the same values are opened, and the other parties hold the same parts of the triple -/
theorem opening_same {h n : Nat} (hh : h < n) {op : BinOp} {x x' y y' : Secret I64} (ax : Alike h x x') (ay : Alike h y y')
    (lx : x.shares.length = n) (ly : y.shares.length = n) {d : Draws I64} {r r' : Tensor I64 × Tensor I64 × Triple I64}
    (hr : opening op x y d = .ok r) (hr' : opening op x' y' (pad h op x x' y y' d) = .ok r') :
    r.1 = r'.1 ∧ r.2.1 = r'.2.1 ∧ ∀ i, i ≠ h → r.2.2.a[i]? = r'.2.2.a[i]? ∧ r.2.2.b[i]? = r'.2.2.b[i]? ∧ r.2.2.c[i]? = r'.2.2.c[i]? := by
  unfold opening at hr hr'
  rw [← ax.shape, ← ay.shape, ← ax.length] at hr'
  obtain ⟨xs, hxs, hr⟩ := of_bind hr
  obtain ⟨ys, hys, hr⟩ := of_bind hr
  rw [hxs, hys, ok_bind, ok_bind] at hr'
  obtain ⟨t, ht, hr⟩ := of_bind hr
  obtain ⟨t', ht', hr'⟩ := of_bind hr'
  obtain ⟨v, hv, hr⟩ := of_bind hr
  obtain ⟨v', hv', hr'⟩ := of_bind hr'
  obtain ⟨e, he, hr⟩ := of_bind hr
  obtain ⟨e', he', hr'⟩ := of_bind hr'
  obtain ⟨f, hf, hr⟩ := of_bind hr
  obtain ⟨f', hf', hr'⟩ := of_bind hr'
  obtain ⟨eps, heps, hr⟩ := of_bind hr
  obtain ⟨eps', heps', hr'⟩ := of_bind hr'
  obtain ⟨dl, hdl, hr⟩ := of_bind hr
  obtain ⟨dl', hdl', hr'⟩ := of_bind hr'
  cases hr
  cases hr'
  rw [lx, deal_form] at ht ht'
  split at ht
  · cases ht
  rename_i hn
  rw [if_neg hn] at ht'
  cases hz : op.shape xs ys with
  | error e => rw [hz] at ht; cases ht
  | ok z =>
  rw [hz] at ht ht'
  cases ht
  cases ht'
  have hn : 2 ≤ n := by omega
  obtain ⟨sx, sy⟩ := lookUp_shapes (by rw [lx, ly]) hv
  have e1 : e = e' := mapM_all he he' (masked_same hn hh ax lx xs sx d.a d.sharesA)
  have e2 : f = f' := mapM_all hf hf' (masked_same hn hh ay ly ys sy d.b d.sharesB)
  subst e1 e2
  rw [heps] at heps'
  rw [hdl] at hdl'
  cases heps'
  cases hdl'
  refine ⟨rfl, rfl, fun i hi => ⟨?_, ?_, ?_⟩⟩
  · exact pieces_others hn hh xs d.a _ d.sharesA i hi
  · exact pieces_others hn hh ys d.b _ d.sharesB i hi
  · have hc : elem op xs ys (pad h op x x' y y' d).a (pad h op x x' y y' d).b = fun i => elem op xs ys d.a d.b i +
        (elem op (sizes x) (sizes y) (fun i => d.a i + (heldBy h x' i - heldBy h x i)) (fun i => d.b i + (heldBy h y' i - heldBy h y i)) i
          - elem op (sizes x) (sizes y) d.a d.b i) := by
      rw [tuple_sizes hxs, tuple_sizes hys]
      funext i
      simp only [pad, Draws.move, padDelta]
      ring
    dsimp only
    rw [hc]
    exact pieces_others hn hh z (elem op xs ys d.a d.b) _ d.sharesC i hi

/-! ### The shift of one step -/

/-- secrets that differ in the share of `h` only, each with `n` shares -/
structure EnvAlike (h n : Nat) (env env' : List (Secret I64)) : Prop where
  rel : List.Forall₂ (Alike h) env env'
  len : ∀ x ∈ env, x.shares.length = n

namespace EnvAlike

variable {h n : Nat} {env env' : List (Secret I64)}

theorem len' (a : EnvAlike h n env env') : ∀ x ∈ env', x.shares.length = n := by
  obtain ⟨rel, len⟩ := a
  induction rel with
  | nil => simp
  | cons hab _ ih =>
    intro x hx
    rcases List.mem_cons.mp hx with rfl | hx
    · rw [← hab.length]; exact len _ (by simp)
    · exact ih (fun x hx => len x (by simp [hx])) x hx

theorem symm (a : EnvAlike h n env env') : EnvAlike h n env' env :=
  ⟨(List.Forall₂.flip a.rel).imp fun _ _ h => h.symm, a.len'⟩

theorem bare (a : EnvAlike h n env env') : env.map Secret.bare = env'.map Secret.bare := by
  obtain ⟨rel, -⟩ := a
  induction rel with
  | nil => rfl
  | cons hab _ ih => rw [List.map_cons, List.map_cons, hab.bare, ih]

theorem hide (a : EnvAlike h n env env') : env.map (Secret.hide h) = env'.map (Secret.hide h) := by
  obtain ⟨rel, -⟩ := a
  induction rel with
  | nil => rfl
  | cons hab _ ih => rw [List.map_cons, List.map_cons, hab.hide, ih]

theorem append (a : EnvAlike h n env env') {x x' : Secret I64} (ax : Alike h x x') (lx : x.shares.length = n) :
    EnvAlike h n (env ++ [x]) (env' ++ [x']) :=
  ⟨List.rel_append a.rel (.cons ax .nil), fun y hy => by
    rcases List.mem_append.mp hy with hy | hy
    · exact a.len y hy
    · rw [List.mem_singleton.mp hy]; exact lx⟩

/-- an operand is there in both, or in neither -/
theorem get (a : EnvAlike h n env env') (i : Nat) :
    (∃ x x', env[i]? = some x ∧ env'[i]? = some x' ∧ Alike h x x' ∧ x.shares.length = n) ∨ (env[i]? = none ∧ env'[i]? = none) := by
  obtain ⟨rel, len⟩ := a
  induction rel generalizing i with
  | nil => right; simp
  | @cons x x' _ _ hab _ ih =>
    cases i with
    | zero => exact .inl ⟨x, x', rfl, rfl, hab, len _ (by simp)⟩
    | succ i => simpa using ih i (fun y hy => len y (by simp [hy]))

end EnvAlike

/-- nothing moves -/
def still : Draws I64 := ⟨fun _ => 0, fun _ => 0, fun _ _ => 0, fun _ _ => 0, fun _ _ => 0⟩

/-- how the draws of a step move -/
def stepPad {A : Type} (h : Nat) (env env' : List (Secret I64)) : Step A →
    Draws I64 × ((List Nat → I64) → (List Nat → I64) → Nat → List Nat → I64)
  | .both op i j => match env[i]?, env'[i]?, env[j]?, env'[j]? with
    | some x, some x', some y, some y' => (padDelta h x x' y y', padGamma h op x x' y y')
    | _, _, _, _ => (still, fun _ _ _ _ => 0)
  | _ => (still, fun _ _ _ _ => 0)

/-- the moved draws of a step -/
def padded {A : Type} (h : Nat) (env env' : List (Secret I64)) (st : Step A) (d : Draws I64) : Draws I64 :=
  d.move (stepPad h env env' st).1 ((stepPad h env env' st).2 d.a d.b)

theorem move_still (d : Draws I64) : d.move still (fun _ _ => 0) = d := by
  obtain ⟨a, b, sA, sB, sC⟩ := d
  simp [Draws.move, still]

theorem padded_padded {A : Type} {h n : Nat} {env env' : List (Secret I64)} (a : EnvAlike h n env env') (st : Step A) (d : Draws I64) :
    padded h env' env st (padded h env env' st d) = d := by
  cases st with
  | «public» op i y => unfold padded stepPad; dsimp only; rw [move_still, move_still]
  | method m i => unfold padded stepPad; dsimp only; rw [move_still, move_still]
  | both op i j =>
    rcases a.get i with ⟨x, x', h1, h2, ax, -⟩ | ⟨h1, h2⟩
    · rcases a.get j with ⟨y, y', h3, h4, ay, -⟩ | ⟨h3, h4⟩
      · have := pad_pad h op x x' y y' (by unfold sizes; rw [ax.shape]) (by unfold sizes; rw [ay.shape]) d
        unfold padded stepPad
        simp only [h1, h2, h3, h4]
        exact this
      · unfold padded stepPad
        simp only [h1, h2, h3, h4]
        rw [move_still, move_still]
    · unfold padded stepPad
      simp only [h1, h2]
      rw [move_still, move_still]

theorem padded_both {A : Type} {h : Nat} {env env' : List (Secret I64)} {op : BinOp} {i j : Nat} {x x' y y' : Secret I64}
    (h1 : env[i]? = some x) (h2 : env'[i]? = some x') (h3 : env[j]? = some y) (h4 : env'[j]? = some y') (d : Draws I64) :
    padded h env env' (.both op i j : Step A) d = pad h op x x' y y' d := by
  unfold padded stepPad
  simp only [h1, h2, h3, h4]
  rfl

theorem pyGet_of_some {A : Type} {l : List A} {i : Nat} {a : A} (h : l[i]? = some a) : pyGet l i = .ok a := by
  unfold pyGet
  rw [h]

theorem pyGet_of_none {A : Type} {l : List A} {i : Nat} (h : l[i]? = none) : pyGet l i = .error .indexError := by
  unfold pyGet
  rw [h]

/-- the shares of the other parties after a step -/
theorem secret_others {h n : Nat} (hh : h < n) {env env' : List (Secret I64)} (a : EnvAlike h n env env') (st : Step I64) (d : Draws I64)
    {r r' : Secret I64} (hr : st.secret d env = .ok r) (hr' : st.secret (padded h env env' st d) env' = .ok r') (k : Nat) (hk : k ≠ h) :
    r.shares[k]? = r'.shares[k]? := by
  cases st with
  | both op i j =>
    rcases a.get i with ⟨x, x', h1, h2, ax, lx⟩ | ⟨h1, h2⟩
    swap
    · simp only [Step.secret, pyGet_of_none h1] at hr
      cases hr
    rcases a.get j with ⟨y, y', h3, h4, ay, ly⟩ | ⟨h3, h4⟩
    swap
    · simp only [Step.secret, pyGet_of_some h1, pyGet_of_none h3] at hr
      cases hr
    rw [padded_both h1 h2 h3 h4] at hr'
    simp only [Step.secret, pyGet_of_some h1, pyGet_of_some h3, ok_bind] at hr
    simp only [Step.secret, pyGet_of_some h2, pyGet_of_some h4, ok_bind] at hr'
    split at hr
    · rename_i hop
      rw [if_pos hop] at hr'
      obtain ⟨s, hs, hr⟩ := of_bind hr
      obtain ⟨s', hs', hr'⟩ := of_bind hr'
      obtain ⟨g, -, hr⟩ := of_bind hr
      obtain ⟨g', -, hr'⟩ := of_bind hr'
      cases hr
      cases hr'
      exact mapM_same hs hs' k (by rw [zip_getElem, zip_getElem, ax.others k hk, ay.others k hk])
    · rename_i hop
      rw [if_neg hop] at hr'
      obtain ⟨s, hs, hr⟩ := of_bind hr
      obtain ⟨s', hs', hr'⟩ := of_bind hr'
      obtain ⟨g, -, hr⟩ := of_bind hr
      obtain ⟨g', -, hr'⟩ := of_bind hr'
      cases hr
      cases hr'
      rw [mulMaster_opening] at hs hs'
      obtain ⟨o, ho, hs⟩ := of_bind hs
      obtain ⟨o', ho', hs'⟩ := of_bind hs'
      obtain ⟨e1, e2, e3⟩ := opening_same hh ax ay lx ly ho ho'
      obtain ⟨e4, e5, e6⟩ := e3 k hk
      rw [e1, e2] at hs
      refine mapM_same hs hs' k ?_
      rw [List.getElem?_zipIdx, List.getElem?_zipIdx, zip_getElem, zip_getElem, zip_getElem, zip_getElem, e4, e5, e6]
  | «public» op i y =>
    rcases a.get i with ⟨x, x', h1, h2, ax, lx⟩ | ⟨h1, h2⟩
    swap
    · simp only [Step.secret, pyGet_of_none h1] at hr
      cases hr
    simp only [Step.secret, pyGet_of_some h1, ok_bind] at hr
    simp only [Step.secret, pyGet_of_some h2, ok_bind] at hr'
    obtain ⟨s, hs, hr⟩ := of_bind hr
    obtain ⟨s', hs', hr'⟩ := of_bind hr'
    obtain ⟨g, -, hr⟩ := of_bind hr
    obtain ⟨g', -, hr'⟩ := of_bind hr'
    cases hr
    cases hr'
    dsimp only
    have hfirst : ∀ (x x' : List (Tensor I64)) (s s' : List (Tensor I64)) (op : BinOp), (∀ i, i ≠ h → x[i]? = x'[i]?) →
        (match x with
          | [] => .error .indexError
          | s :: rest => do
            let s ← op.run s y.enc
            return s :: rest : Py (List (Tensor I64))) = .ok s →
        (match x' with
          | [] => .error .indexError
          | s :: rest => do
            let s ← op.run s y.enc
            return s :: rest : Py (List (Tensor I64))) = .ok s' → s[k]? = s'[k]? := by
      intro x x' s s' op ho hs hs'
      cases x with
      | nil => cases hs
      | cons z zs =>
        cases x' with
        | nil => cases hs'
        | cons z' zs' =>
          obtain ⟨w, hw, hs⟩ := of_bind hs
          obtain ⟨w', hw', hs'⟩ := of_bind hs'
          cases hs
          cases hs'
          have := ho k hk
          cases k with
          | zero =>
            simp only [List.getElem?_cons_zero, Option.some.injEq] at this ⊢
            subst this
            rw [hw] at hw'
            cases hw'
            rfl
          | succ k => simpa using this
    cases op with
    | mul => exact mapM_same hs hs' k (by rw [ax.others k hk])
    | matmul => exact mapM_same hs hs' k (by rw [ax.others k hk])
    | add =>
      exact hfirst x.shares x'.shares s s' .add ax.others (by rw [← hs]; unfold applyPublic; dsimp only; cases x.shares <;> rfl)
        (by rw [← hs']; unfold applyPublic; dsimp only; cases x'.shares <;> rfl)
    | sub =>
      exact hfirst x.shares x'.shares s s' .sub ax.others (by rw [← hs]; unfold applyPublic; dsimp only; cases x.shares <;> rfl)
        (by rw [← hs']; unfold applyPublic; dsimp only; cases x'.shares <;> rfl)
  | method m i =>
    rcases a.get i with ⟨x, x', h1, h2, ax, lx⟩ | ⟨h1, h2⟩
    swap
    · simp only [Step.secret, pyGet_of_none h1] at hr
      cases hr
    simp only [Step.secret, pyGet_of_some h1, ok_bind] at hr
    simp only [Step.secret, pyGet_of_some h2, ok_bind] at hr'
    obtain ⟨s, hs, hr⟩ := of_bind hr
    obtain ⟨s', hs', hr'⟩ := of_bind hr'
    obtain ⟨g, -, hr⟩ := of_bind hr
    obtain ⟨g', -, hr'⟩ := of_bind hr'
    obtain ⟨q, -, hr⟩ := of_bind hr
    obtain ⟨q', -, hr'⟩ := of_bind hr'
    cases hr
    cases hr'
    exact mapM_same hs hs' k (by rw [ax.others k hk])

/-- the same is opened and dealt -/
theorem shown_same {h n : Nat} (hh : h < n) {env env' : List (Secret I64)} (a : EnvAlike h n env env') (st : Step I64) (d : Draws I64) :
    st.shown h d env = st.shown h (padded h env env' st d) env' := by
  cases st with
  | «public» op i y => rfl
  | method m i => rfl
  | both op i j =>
    simp only [Step.shown]
    by_cases hop : op = .add ∨ op = .sub
    · rw [if_pos hop, if_pos hop]
    rw [if_neg hop, if_neg hop]
    rcases a.get i with ⟨x, x', h1, h2, ax, lx⟩ | ⟨h1, h2⟩
    swap
    · simp only [h1, h2]
    rcases a.get j with ⟨y, y', h3, h4, ay, ly⟩ | ⟨h3, h4⟩
    swap
    · simp only [h1, h2, h3, h4]
    rw [padded_both h1 h2 h3 h4]
    simp only [h1, h2, h3, h4]
    have hb : SameEnd (fun r r' => r.1 = r'.1 ∧ r.2.1 = r'.2.1 ∧
        ∀ i, i ≠ h → r.2.2.a[i]? = r'.2.2.a[i]? ∧ r.2.2.b[i]? = r'.2.2.b[i]? ∧ r.2.2.c[i]? = r'.2.2.c[i]?)
        (opening op x y d) (opening op x' y' (pad h op x x' y y' d)) := by
      refine sameEnd_of (fun r : Tensor I64 × Tensor I64 × Triple I64 => (bare r.1, bare r.2.1, r.2.2.bare)) ?_
        fun r r' hr hr' _ => opening_same hh ax ay lx ly hr hr'
      rw [opening_bare, opening_bare, ax.bare, ay.bare]
    revert hb
    cases opening op x y d with
    | error e =>
      cases opening op x' y' (pad h op x x' y y' d) with
      | error e' => intro; rfl
      | ok r' => intro hb; cases hb
    | ok r =>
      cases opening op x' y' (pad h op x x' y y' d) with
      | error e' => intro hb; cases hb
      | ok r' =>
        rintro ⟨e1, e2, e3⟩
        dsimp only
        rw [e1, e2, eraseIdx_same fun i hi => (e3 i hi).1, eraseIdx_same fun i hi => (e3 i hi).2.1, eraseIdx_same fun i hi => (e3 i hi).2.2]

/-- a division that every party does on its own share -/
structure LocalCut {W : Type} (n h : Nat) (cut : Cut W) : Prop where
  blind : BlindOn n cut
  others : ∀ w x x' r r', Alike h x x' → cut w x = .ok r → cut w x' = .ok r' → ∀ k, k ≠ h → r.shares[k]? = r'.shares[k]?

theorem localCut_of {W : Type} {cut : Cut W} (hc : EachOwn cut) (n h : Nat) : LocalCut n h cut := by
  obtain ⟨f, hf⟩ := hc
  refine ⟨fun w x _ => ⟨_, hf w x, ?_⟩, fun w x x' r r' a hr hr' k hk => ?_⟩
  · unfold Secret.bare
    congr 1
    refine List.ext_getElem? fun i => ?_
    simp only [List.getElem?_map, List.getElem?_mapIdx, Option.map_map]
    rfl
  · rw [hf] at hr hr'
    cases hr
    cases hr'
    simp only [List.getElem?_mapIdx]
    rw [a.others k hk]

theorem eachOwn_two (c : Config) : EachOwn (cutTwo c) :=
  ⟨fun _ _ a => floordiv a (BitVec.ofInt 64 c.encoder.scale), fun _ x => by
    unfold cutTwo truncate
    congr 2
    exact (List.ext_getElem? fun i => by simp)⟩

/-- one call -/
theorem fixed_same {W : Type} {h n : Nat} (hh : h < n) (c : Config) {cut : Cut W} (hcut : LocalCut n h cut) {env env' : List (Secret I64)}
    (a : EnvAlike h n env env') (st : Step Val) (d : Draws I64 × W) :
    SameEnd (fun r r' => Alike h r.1 r'.1 ∧ r.1.shares.length = n) (st.fixed c cut d env)
      (st.fixed c cut (padded h env env' st d.1, d.2) env') := by
  obtain ⟨f1, f2⟩ := fixed_bare c cut hcut.blind d env a.len st
  obtain ⟨g1, -⟩ := fixed_bare c cut hcut.blind (padded h env env' st d.1, d.2) env' a.len' st
  refine sameEnd_of (fun r => r.1.bare) (by rw [f1, g1, a.bare]) fun r r' hr hr' hb => ⟨⟨hb, fun k hk => ?_⟩, f2 r hr⟩
  have hp : padded h env env' st d.1 = padded h env env' (st.map c.encoder.encode) d.1 := by cases st <;> rfl
  unfold Step.fixed at hr hr'
  obtain ⟨s, hs, hr⟩ := of_bind hr
  obtain ⟨s', hs', hr'⟩ := of_bind hr'
  dsimp only at hs'
  rw [hp] at hs'
  have ho := secret_others hh a _ d.1 hs hs'
  split at hr
  · rename_i ht
    rw [if_pos ht] at hr'
    obtain ⟨q, hq, hr⟩ := of_bind hr
    obtain ⟨q', hq', hr'⟩ := of_bind hr'
    cases hr
    cases hr'
    have b1 := step_bare d.1 env (st.map c.encoder.encode)
    have b2 := step_bare (padded h env env' (st.map c.encoder.encode) d.1) env' (st.map c.encoder.encode)
    rw [← a.bare, ← b1, hs, hs'] at b2
    have b3 : s'.bare = s.bare := by injection b2
    exact hcut.others d.2 s s' q q' ⟨b3.symm, ho⟩ hq hq' k hk
  · rename_i ht
    rw [if_neg ht] at hr'
    cases hr
    cases hr'
    exact ho k hk

/-! ### Programs -/

section
variable {W : Type} (c : Config) (cut : Cut W) (h : Nat)

/-- the moved tape -/
def padTape : List (Step Val) → List (Draws I64 × W) → List (Secret I64) → List (Secret I64) → List (Draws I64 × W)
  | [], tape, _, _ => tape
  | _ :: _, [], _, _ => []
  | st :: prog, d :: tape, env, env' =>
    (padded h env env' st d.1, d.2) ::
      match st.fixed c cut d env, st.fixed c cut (padded h env env' st d.1, d.2) env' with
      | .ok r, .ok r' => padTape prog tape (env ++ [r.1]) (env' ++ [r'.1])
      | _, _ => tape

/-- the secrets that both runs have reached after some steps -/
def reach : List (Step Val) → List (Draws I64 × W) → List (Secret I64) → List (Secret I64) → Option (List (Secret I64) × List (Secret I64))
  | _, [], env, env' => some (env, env')
  | [], _ :: _, _, _ => none
  | st :: prog, d :: tape, env, env' =>
    match st.fixed c cut d env, st.fixed c cut (padded h env env' st d.1, d.2) env' with
    | .ok r, .ok r' => reach prog tape (env ++ [r.1]) (env' ++ [r'.1])
    | _, _ => none

/-- how the draws of a later step move -/
def laterPad (prog : List (Step Val)) (past : List (Draws I64 × W)) (env env' : List (Secret I64)) :
    Draws I64 × ((List Nat → I64) → (List Nat → I64) → Nat → List Nat → I64) :=
  match prog[past.length]?, reach c cut h prog past env env' with
  | some st, some e => stepPad h e.1 e.2 st
  | _, _ => (still, fun _ _ _ _ => 0)

theorem padTape_get (prog : List (Step Val)) (tape : List (Draws I64 × W)) (env env' : List (Secret I64)) (m : Nat) :
    (padTape c cut h prog tape env env')[m]? = tape[m]?.map fun d : Draws I64 × W =>
      (d.1.move (laterPad c cut h prog (tape.take m) env env').1 ((laterPad c cut h prog (tape.take m) env env').2 d.1.a d.1.b), d.2) := by
  have hstill : ∀ (l : List (Draws I64 × W)) (m : Nat), l[m]? = l[m]?.map fun d : Draws I64 × W => (d.1.move still (fun _ _ => 0), d.2) := by
    intro l m
    simp only [move_still, Option.map_id']
  induction prog generalizing tape env env' m with
  | nil =>
    unfold padTape laterPad
    simp only [List.getElem?_nil]
    exact hstill tape m
  | cons st prog ih =>
    cases tape with
    | nil => simp [padTape]
    | cons d tape =>
      cases m with
      | zero => rfl
      | succ m =>
        unfold padTape
        simp only [List.getElem?_cons_succ, List.take_succ_cons]
        unfold laterPad
        simp only [List.length_cons, List.getElem?_cons_succ, reach]
        cases hr : st.fixed c cut d env with
        | error e =>
          simp only
          cases prog[(tape.take m).length]? <;> exact hstill tape m
        | ok r =>
          cases hr' : st.fixed c cut (padded h env env' st d.1, d.2) env' with
          | error e =>
            simp only
            cases prog[(tape.take m).length]? <;> exact hstill tape m
          | ok r' => exact ih tape (env ++ [r.1]) (env' ++ [r'.1]) m

variable {n : Nat} {c cut h}

theorem padTape_padTape (hh : h < n) (hcut : LocalCut n h cut) (prog : List (Step Val)) (tape : List (Draws I64 × W))
    {env env' : List (Secret I64)} (a : EnvAlike h n env env') :
    padTape c cut h prog (padTape c cut h prog tape env env') env' env = tape := by
  induction prog generalizing tape env env' with
  | nil => rfl
  | cons st prog ih =>
    cases tape with
    | nil => rfl
    | cons d tape =>
      have hf := fixed_same hh c hcut a st d
      simp only [padTape, padded_padded a st d.1]
      congr 1
      revert hf
      cases st.fixed c cut d env with
      | error e =>
        cases st.fixed c cut (padded h env env' st d.1, d.2) env' with
        | error e' => intro; rfl
        | ok r' => intro hf; cases hf
      | ok r =>
        cases st.fixed c cut (padded h env env' st d.1, d.2) env' with
        | error e' => intro hf; cases hf
        | ok r' => exact fun hf => ih tape (a.append hf.1 hf.2)

theorem shown_padTape (hh : h < n) (hcut : LocalCut n h cut) (prog : List (Step Val)) (tape : List (Draws I64 × W))
    {env env' : List (Secret I64)} (a : EnvAlike h n env env') :
    shown c cut h (prog.zip (padTape c cut h prog tape env env')) env' = shown c cut h (prog.zip tape) env := by
  induction prog generalizing tape env env' with
  | nil => rfl
  | cons st prog ih =>
    cases tape with
    | nil => rfl
    | cons d tape =>
      have hf := fixed_same hh c hcut a st d
      have hp : padded h env env' st d.1 = padded h env env' (st.map c.encoder.encode) d.1 := by cases st <;> rfl
      have hs := shown_same hh a (st.map c.encoder.encode) d.1
      rw [← hp] at hs
      simp only [padTape, List.zip_cons_cons, shown]
      rw [hs]
      congr 1
      revert hf
      cases st.fixed c cut d env with
      | error e =>
        cases st.fixed c cut (padded h env env' st d.1, d.2) env' with
        | error e' => intro hf; cases hf; rfl
        | ok r' => intro hf; cases hf
      | ok r =>
        cases st.fixed c cut (padded h env env' st d.1, d.2) env' with
        | error e' => intro hf; cases hf
        | ok r' =>
          intro hf
          dsimp only
          rw [hf.1.hide, ih tape (a.append hf.1 hf.2)]

end

/-! ### Inputs -/

/-- the shares of the inputs -/
def sharedInputs (c : Config) (n : Nat) (inputs : List (Tensor Val)) (draws : List (Nat → List Nat → I64)) : List (Secret I64) :=
  (inputs.zip draws).map fun p => ⟨(List.range n).map (piece n p.1.shape (fun i => c.encoder.encode (p.1.at_ i)) p.2), .size p.1.shape⟩

theorem fixedInputs_form (c : Config) {n : Nat} (hn : 2 ≤ n) (inputs : List (Tensor Val)) (draws : List (Nat → List Nat → I64)) :
    fixedInputs c n (inputs.zip draws) = .ok (sharedInputs c n inputs draws) := by
  unfold fixedInputs sharedInputs
  refine mapM_ok _ _ _ fun p _ => ?_
  show ofSecret (.tensor ⟨p.1.shape, fun i => c.encoder.encode (p.1.at_ i)⟩) n p.2 = _
  rw [ofSecret_form, if_neg (by omega)]

/-- how the draws for the sharing of the inputs move -/
def inputPad (c : Config) (h : Nat) (ins ins' : List (Tensor Val)) (m : Nat) : Nat → List Nat → I64 :=
  match ins[m]?, ins'[m]? with
  | some x, some x' => chain h fun i => c.encoder.encode (x'.at_ i) - c.encoder.encode (x.at_ i)
  | _, _ => fun _ _ => 0

/-- the moved draws -/
def padInputs (c : Config) (h : Nat) (ins ins' : List (Tensor Val)) (draws : List (Nat → List Nat → I64)) : List (Nat → List Nat → I64) :=
  draws.mapIdx fun m u k i => u k i + inputPad c h ins ins' m k i

theorem padInputs_padInputs (c : Config) (h : Nat) (ins ins' : List (Tensor Val)) (draws : List (Nat → List Nat → I64)) :
    padInputs c h ins' ins (padInputs c h ins ins' draws) = draws := by
  refine List.ext_getElem? fun m => ?_
  simp only [padInputs, List.getElem?_mapIdx, Option.map_map]
  cases draws[m]? with
  | none => rfl
  | some u =>
    simp only [Option.map_some, Function.comp, Option.some.injEq]
    funext k i
    unfold inputPad
    cases ins[m]? with
    | none => cases ins'[m]? <;> simp
    | some x =>
      cases ins'[m]? with
      | none => simp
      | some x' => exact chain_cancel _ _ _ (fun i => by ring) _ _ _

theorem inputs_alike (c : Config) {n h : Nat} (hn : 2 ≤ n) (hh : h < n) (ins ins' : List (Tensor Val))
    (hs : ins.map Tensor.shape = ins'.map Tensor.shape) (draws : List (Nat → List Nat → I64)) :
    EnvAlike h n (sharedInputs c n ins draws) (sharedInputs c n ins' (padInputs c h ins ins' draws)) := by
  have hlen : ins.length = ins'.length := by simpa using congrArg List.length hs
  constructor
  · rw [List.forall₂_iff_get]
    refine ⟨by simp [sharedInputs, padInputs, hlen], fun m h1 h2 => ?_⟩
    simp only [sharedInputs, padInputs, List.length_map, List.length_zip, List.length_mapIdx] at h1 h2
    have g1 : ins[m]? = some ins[m] := List.getElem?_eq_getElem (by omega)
    have g2 : ins'[m]? = some ins'[m] := List.getElem?_eq_getElem (by omega)
    have e : ins[m].shape = ins'[m].shape := by
      have := congrArg (fun l => l[m]?) hs
      simpa [List.getElem?_map, g1, g2] using this
    simp only [sharedInputs, padInputs, List.get_eq_getElem, List.getElem_map, List.getElem_zip, List.getElem_mapIdx, inputPad, g1, g2, ← e]
    have hv : (fun i => c.encoder.encode (ins'[m].at_ i)) = fun i => c.encoder.encode (ins[m].at_ i) +
        (c.encoder.encode (ins'[m].at_ i) - c.encoder.encode (ins[m].at_ i)) := by
      funext i
      ring
    constructor
    · simp only [Secret.bare, List.map_map]
      rfl
    · intro k hk
      dsimp only
      rw [hv]
      exact pieces_others hn hh _ _ _ _ k hk
  · intro x hx
    obtain ⟨p, -, rfl⟩ := List.mem_map.mp hx
    simp

/-! ## The property -/

theorem view_hidden {W : Type} (c : Config) (cut : Cut W) {n h : Nat} (hn : 2 ≤ n) (hh : h < n) (hcut : LocalCut n h cut)
    (ins ins' : List (Tensor Val)) (hs : ins.map Tensor.shape = ins'.map Tensor.shape) (prog : List (Step Val)) :
    ∃ σ : Chance W ≃ Chance W, OneTimePad σ ∧ ∀ r, view c cut n h ins' prog (σ r).1 (σ r).2 = view c cut n h ins prog r.1 r.2 := by
  refine ⟨⟨fun r => (padInputs c h ins ins' r.1,
      padTape c cut h prog r.2 (sharedInputs c n ins r.1) (sharedInputs c n ins' (padInputs c h ins ins' r.1))),
    fun r => (padInputs c h ins' ins r.1,
      padTape c cut h prog r.2 (sharedInputs c n ins' r.1) (sharedInputs c n ins (padInputs c h ins' ins r.1))), ?_, ?_⟩, ⟨?_, ?_⟩, ?_⟩
  · intro r
    dsimp only
    rw [padInputs_padInputs, padTape_padTape hh hcut prog r.2 (inputs_alike c hn hh ins ins' hs r.1)]
  · intro r
    dsimp only
    rw [padInputs_padInputs, padTape_padTape hh hcut prog r.2 (inputs_alike c hn hh ins' ins hs.symm r.1)]
  · exact ⟨inputPad c h ins ins', fun r m => by simp [padInputs]⟩
  · exact ⟨fun r => (laterPad c cut h prog r.2 (sharedInputs c n ins r.1) (sharedInputs c n ins' (padInputs c h ins ins' r.1))).1,
      fun r => (laterPad c cut h prog r.2 (sharedInputs c n ins r.1) (sharedInputs c n ins' (padInputs c h ins ins' r.1))).2,
      fun r m => padTape_get c cut h prog r.2 _ _ m⟩
  · intro r
    have a := inputs_alike c hn hh ins ins' hs r.1
    simp only [view, Equiv.coe_fn_mk, fixedInputs_form c hn]
    rw [a.hide, shown_padTape hh hcut prog r.2 a]

/-- C93 (partial): in a session of two parties, whatever the program (sums, products, matrix products and forwarded methods, with fixed
point numbers), what either party sees says nothing about the secrets but their shapes.  If the secrets are replaced by others of the same
shapes, then moving every drawn number by an amount settled before it is drawn gives exactly the same view: the shares the party holds of
every value, the opened values, its parts of the triples, shapes and exceptions.  Missing: the code draws from half of the ring, so that a
number moved by such an amount need not be drawn with the same probability, see `C04_half_range_leaks` and `C19_half_range_leaks`. -/
theorem C93_two_parties_partial (c : Config) (h : Nat) (hh : h < 2) (ins ins' : List (Tensor Val))
    (hs : ins.map Tensor.shape = ins'.map Tensor.shape) (prog : List (Step Val)) :
    ∃ σ : Chance Unit ≃ Chance Unit, OneTimePad σ ∧
      ∀ r, view c (cutTwo c) 2 h ins' prog (σ r).1 (σ r).2 = view c (cutTwo c) 2 h ins prog r.1 r.2 :=
  view_hidden c (cutTwo c) le_rfl hh (localCut_of (eachOwn_two c) 2 h) ins ins' hs prog

/-- C93 (partial): the same for all parties but one, if every party divides its own share of a product.  Missing: as in
`C93_two_parties_partial`; and three or more parties of the code do not divide their own shares only (C79). -/
theorem C93_many_parties_partial {W : Type} (c : Config) (cut : Cut W) (hcut : EachOwn cut) (n h : Nat) (hn : 2 ≤ n) (hh : h < n)
    (ins ins' : List (Tensor Val)) (hs : ins.map Tensor.shape = ins'.map Tensor.shape) (prog : List (Step Val)) :
    ∃ σ : Chance W ≃ Chance W, OneTimePad σ ∧
      ∀ r, view c cut n h ins' prog (σ r).1 (σ r).2 = view c cut n h ins prog r.1 r.2 :=
  view_hidden c cut hn hh (localCut_of hcut n h) ins ins' hs prog

/-! ## Examples -/

/-- what kind of thing is seen -/
def exKind : Seen I64 → String
  | .secret l _ => s!"{l.length} share"
  | .product .. => "product"
  | .raised _ => "exception"

/-- other inputs of the same shapes -/
example : (exFixedInputs.map (·.1)).map Tensor.shape = ((exFixedInputs.map (·.1)).map (Grad.map fun _ => Val.int 7)).map Tensor.shape := by
  decide +kernel

/-- the program runs to its end, and products are opened on the way -/
example : (let v := (view {} (cutTwo {}) 2 1 (exFixedInputs.map (·.1)) exFixedSteps (exFixedInputs.map (·.2)) (exFixedTwo.map (·.2))).map exKind
    ((exFixedInputs.length + exFixedSteps.length == v.count "1 share") && 0 < v.count "product" && v.count "exception" == 0)) = true := by
  decide +kernel

/-- the amounts matter: with the same draws, other secrets are seen otherwise by the second party -/
example : (match view {} (cutTwo {}) 2 0 [exTensor [1] [.int 5]] [] [fun _ _ => 3] [],
      view {} (cutTwo {}) 2 0 [exTensor [1] [.int 6]] [] [fun _ _ => 3] [] with
    | [.secret [x] _], [.secret [y] _] => decide (x.at_ [0] ≠ y.at_ [0])
    | _, _ => false) = true := by
  decide +kernel

/-- the division of two parties is one of these -/
example : EachOwn (cutTwo {}) := eachOwn_two {}

end SyMPC.Shape
