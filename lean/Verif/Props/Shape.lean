import Verif.Lemmas.Shape
import Verif.Spec.Shape

/-!
# C66: secret tensors compute with shapes like torch

A secret holds a torch tensor when every party has a share of the tensor's shape, the shares add up to it, and the secret reports its
shape.  Every operation that is applied to secrets and public operands keeps this, with the tensor that torch computes in the clear, so
that a whole program computes the same tensors in both worlds and raises the same errors — with one exception: adding a public tensor
that makes the result larger than the secret changes the first share only.
-/

namespace SyMPC.Shape

open Tensor

variable {T : Type} [CommRing T]

/-- the shares of `n` parties are a sharing of the tensor -/
def Shares (n : Nat) (l : List (Tensor T)) (v : Tensor T) : Prop :=
  l.length = n ∧ (∀ s ∈ l, s.shape = v.shape) ∧ ∀ o, ValidIdx v.shape o → (l.map (·.at_ o)).sum = v.at_ o

/-- the secret, shared among `n` parties, holds the tensor and knows its shape -/
def Holds (n : Nat) (x : Secret T) (v : Tensor T) : Prop := Shares n x.shares v ∧ x.shape = .size v.shape

theorem Shares.same {n : Nat} {l : List (Tensor T)} {v w : Tensor T} (h : Shares n l v) (hs : Same v w) : Shares n l w := by
  refine ⟨h.1, fun s hm => (h.2.1 s hm).trans hs.1, fun o ho => ?_⟩
  have ho : ValidIdx v.shape o := by rw [hs.1]; exact ho
  rw [h.2.2 o ho, hs.2 o ho]

theorem Holds.same {n : Nat} {x : Secret T} {v w : Tensor T} (h : Holds n x v) (hs : Same v w) : Holds n x w :=
  ⟨h.1.same hs, by rw [h.2, hs.1]⟩

/-- reconstructing gives the tensor -/
theorem C66_reconstruct {n : Nat} (hn : 0 < n) {x : Secret T} {v : Tensor T} (h : Holds n x v) :
    ∃ r, sumShares x.shares = .ok r ∧ Same r v := by
  obtain ⟨⟨h1, h2, h3⟩, -⟩ := h
  cases hx : x.shares with
  | nil => rw [hx] at h1; simp at h1; omega
  | cons s l =>
    rw [hx] at h2 h3
    have hs := h2 s List.mem_cons_self
    obtain ⟨r, i1, i2, i3⟩ := sumShares_wide s l v.shape (hs ▸ Grad.broadcasts_self _) fun u hu => h2 u (List.mem_cons_of_mem _ hu)
    refine ⟨r, i1, i2.trans hs, fun o ho => ?_⟩
    rw [i2, hs] at ho
    rw [i3 o (hs ▸ ho), Grad.sourceIdx_self _ _ ho, ← h3 o ho, List.map_cons, List.sum_cons]

/-- sharing a tensor or a number: two or more parties are needed -/
theorem C66_share (n : Nat) (secret : Operand T) (draws : Nat → List Nat → T) :
    (2 ≤ n → ∃ x, ofSecret secret n draws = .ok x ∧ Holds n x secret.enc) ∧
      (n < 2 → ofSecret secret n draws = .error .indexError) := by
  refine ⟨fun hn => ?_, fun hn => if_pos hn⟩
  obtain ⟨k, rfl⟩ : ∃ k, n = k + 2 := ⟨n - 2, by omega⟩
  refine ⟨_, if_neg (by omega), ⟨⟨by simp, ?_, fun o _ => ?_⟩, rfl⟩⟩
  · intro s hs
    obtain ⟨k, -, rfl⟩ := List.mem_map.mp hs
    rfl
  · rw [List.map_map]
    exact sum_range_telescope (fun k => draws k o) (secret.enc.at_ o) k

/-- forwarded methods do on secrets what torch does on tensors -/
theorem C66_methods {n : Nat} (hn : 0 < n) {x : Secret T} {v : Tensor T} (h : Holds n x v) (m : Method) :
    (∀ w, m.run v = .ok w → ∃ r, hook m x = .ok r ∧ Holds n r w) ∧ (∀ e, m.run v = .error e → hook m x = .error e) := by
  obtain ⟨⟨h1, h2, h3⟩, h4⟩ := h
  unfold hook
  rw [h4]
  cases hp : m.plan v.shape with
  | error e =>
    have key : ∀ {S : Type} [Add S] [Zero S] (s : Tensor S), s.shape = v.shape → m.run s = .error e := by
      intro S _ _ s hs
      unfold Method.run
      rw [hs, hp]
      rfl
    refine ⟨fun w hw => ?_, fun e' he => ?_⟩
    · rw [key v rfl] at hw
      cases hw
    · rw [key v rfl] at he
      cases he
      cases hx : x.shares with
      | nil => rw [hx] at h1; simp at h1; omega
      | cons s l =>
        rw [List.mapM_cons, key s (h2 s (by rw [hx]; exact List.mem_cons_self))]
        rfl
  | ok p =>
    obtain ⟨z, src⟩ := p
    have key : ∀ {S : Type} [Add S] [Zero S] (s : Tensor S), s.shape = v.shape →
        m.run s = .ok ⟨z, fun o => ((src o).map s.at_).sum⟩ := by
      intro S _ _ s hs
      unfold Method.run
      rw [hs, hp]
      rfl
    refine ⟨fun w hw => ?_, fun e' he => ?_⟩
    · rw [key v rfl] at hw
      cases hw
      obtain ⟨l', i1, i2, i3, i4⟩ := mapM_shares x.shares m.run z (fun s o => ((src o).map s.at_).sum)
        fun s hs => ⟨_, key s (h2 s hs), rfl, fun _ _ => rfl⟩
      refine ⟨⟨l', .size z⟩, ?_, ⟨⟨i2.trans h1, i3, fun o ho => ?_⟩, rfl⟩⟩
      · rw [i1, ok_bind]
        simp only [Reported.tuple, ok_bind]
        rw [key (⟨v.shape, fun _ => 0⟩ : Tensor Int) rfl]
        rfl
      · rw [i4 o ho]
        change (x.shares.map fun s => ((src o).map fun p => s.at_ p).sum).sum = _
        rw [sum_exchange]
        exact list_sum_congr _ _ _ fun p hmem => h3 p (plan_valid hp o ho p hmem)
    · rw [key v rfl] at he
      cases he

theorem getShape_size (op : BinOp) (a b : List Nat) : getShape op (.size a) (.size b) = .size <$> op.shape a b := rfl

/-- sums and differences of two secrets: as torch, with broadcasting -/
theorem C66_private {n : Nat} (hn : 0 < n) {x y : Secret T} {v w : Tensor T} (hx : Holds n x v) (hy : Holds n y w) (op : BinOp)
    (hop : op = .add ∨ op = .sub) :
    (∀ u, op.run v w = .ok u → ∃ r, opPrivate op x y = .ok r ∧ Holds n r u) ∧
      (∀ e, op.run v w = .error e → opPrivate op x y = .error e) := by
  obtain ⟨⟨h1, h2, h3⟩, h4⟩ := hx
  obtain ⟨⟨i1, i2, i3⟩, i4⟩ := hy
  unfold opPrivate applyPrivate
  rw [h4, i4, getShape_size]
  have hshape : ∀ p ∈ x.shares.zip y.shares, p.1.shape = v.shape ∧ p.2.shape = w.shape :=
    fun p hp => ⟨h2 _ (List.of_mem_zip hp).1, i2 _ (List.of_mem_zip hp).2⟩
  cases hs : op.shape v.shape w.shape with
  | error e =>
    rw [run_error op v w e hs]
    refine ⟨fun _ h => (by cases h), fun e' he => ?_⟩
    cases he
    cases hz : x.shares.zip y.shares with
    | nil =>
      have := congrArg List.length hz
      rw [List.length_zip, h1, i1, min_self, List.length_nil] at this
      omega
    | cons p l =>
      have hp := hshape p (by rw [hz]; exact List.mem_cons_self)
      rw [List.mapM_cons, run_error op p.1 p.2 e (by rw [hp.1, hp.2]; exact hs)]
      rfl
  | ok z =>
    rw [run_ok op v w z hs]
    refine ⟨fun u h => ?_, fun _ h => by cases h⟩
    cases h
    obtain ⟨l', j1, j2, j3, j4⟩ := mapM_shares (x.shares.zip y.shares) (fun p => op.run p.1 p.2) z
      (fun p => elem op v.shape w.shape p.1.at_ p.2.at_) fun p hp => by
        obtain ⟨e1, e2⟩ := hshape p hp
        have hr := run_ok op p.1 p.2 z (by rw [e1, e2]; exact hs)
        exact ⟨_, hr, rfl, fun o _ => by rw [e1, e2]⟩
    refine ⟨⟨l', .size z⟩, by rw [j1, ok_bind]; rfl, ⟨by rw [j2, List.length_zip, h1, i1, min_self], j3, fun o ho => ?_⟩, rfl⟩
    rw [j4 o ho]
    obtain ⟨b1, b2⟩ := broadcast_of_shape (by rcases hop with rfl | rfl <;> decide) hs
    have e1 := h3 _ (sourceIdx_valid _ _ _ b1 ho)
    have e2 := i3 _ (sourceIdx_valid _ _ _ b2 ho)
    rcases hop with rfl | rfl
    · change ((x.shares.zip y.shares).map fun p => p.1.at_ (sourceIdx v.shape o) + p.2.at_ (sourceIdx w.shape o)).sum = _
      rw [sum_zip_add _ _ (h1.trans i1.symm) (fun s : Tensor T => s.at_ (sourceIdx v.shape o)) fun s => s.at_ (sourceIdx w.shape o), e1, e2]
      rfl
    · change ((x.shares.zip y.shares).map fun p => p.1.at_ (sourceIdx v.shape o) - p.2.at_ (sourceIdx w.shape o)).sum = _
      rw [sum_zip_sub _ _ (h1.trans i1.symm) (fun s : Tensor T => s.at_ (sourceIdx v.shape o)) fun s => s.at_ (sourceIdx w.shape o), e1, e2]
      rfl

omit [CommRing T] in
theorem enc_shape (y : Operand T) : y.shape = .size y.enc.shape := by cases y <;> rfl

/-- products with an encoded public operand -/
theorem publicProduct {n : Nat} (hn : 0 < n) {x : Secret T} {v : Tensor T} (hx : Holds n x v) (op : BinOp) (hop : op = .mul ∨ op = .matmul)
    (y : Operand T) :
    (∀ u, op.run v y.enc = .ok u → ∃ r, opPublic op x y = .ok r ∧ Holds n r u) ∧
      (∀ e, op.run v y.enc = .error e → opPublic op x y = .error e) := by
  obtain ⟨⟨h1, h2, h3⟩, h4⟩ := hx
  have happ : applyPublic op x y = x.shares.mapM fun s => op.run s y.enc := by rcases hop with rfl | rfl <;> rfl
  unfold opPublic
  rw [h4, enc_shape, getShape_size, happ]
  cases hs : op.shape v.shape y.enc.shape with
  | error e =>
    rw [run_error op v y.enc e hs]
    refine ⟨fun _ h => (by cases h), fun e' he => ?_⟩
    cases he
    cases hz : x.shares with
    | nil => rw [hz] at h1; simp at h1; omega
    | cons s l =>
      rw [List.mapM_cons, run_error op s y.enc e (by rw [h2 s (by rw [hz]; exact List.mem_cons_self)]; exact hs)]
      rfl
  | ok z =>
    rw [run_ok op v y.enc z hs]
    refine ⟨fun u h => ?_, fun _ h => by cases h⟩
    cases h
    obtain ⟨l', j1, j2, j3, j4⟩ := mapM_shares x.shares (fun s => op.run s y.enc) z
      (fun s => elem op v.shape y.enc.shape s.at_ y.enc.at_) fun s hm => by
        have e1 := h2 s hm
        have hr := run_ok op s y.enc z (by rw [e1]; exact hs)
        exact ⟨_, hr, rfl, fun o _ => by rw [e1]⟩
    refine ⟨⟨l', .size z⟩, by rw [j1, ok_bind]; rfl, ⟨j2.trans h1, j3, fun o ho => ?_⟩, rfl⟩
    rw [j4 o ho, ← elem_sum_left hop v.shape y.enc.shape x.shares (fun s => s.at_) y.enc.at_ o]
    exact elem_congr hs h3 (fun _ _ => rfl) o ho

/-- Sums with an encoded public operand: reconstructing gives the right tensor, also when it is larger than the secret; the shares are
those of a secret of that shape only when it is not. -/
theorem publicSum {n : Nat} (hn : 0 < n) {x : Secret T} {v : Tensor T} (hx : Holds n x v) (op : BinOp) (hop : op = .add ∨ op = .sub)
    (y : Operand T) :
    (∀ u, op.run v y.enc = .ok u → ∃ r, opPublic op x y = .ok r ∧ r.shape = .size u.shape ∧
      (∃ w, sumShares r.shares = .ok w ∧ Same w u) ∧ (u.shape = v.shape → Holds n r u)) ∧
      (∀ e, op.run v y.enc = .error e → opPublic op x y = .error e) := by
  obtain ⟨⟨h1, h2, h3⟩, h4⟩ := hx
  cases hz : x.shares with
  | nil => rw [hz] at h1; simp at h1; omega
  | cons s l =>
    have e1 : s.shape = v.shape := h2 s (by rw [hz]; exact List.mem_cons_self)
    have e2 : ∀ t ∈ l, t.shape = v.shape := fun t ht => h2 t (by rw [hz]; exact List.mem_cons_of_mem _ ht)
    have happ : applyPublic op x y = (do let s ← op.run s y.enc; return s :: l) := by
      rcases hop with rfl | rfl <;> simp only [applyPublic, hz]
    unfold opPublic
    rw [h4, enc_shape, getShape_size, happ]
    cases hs : op.shape v.shape y.enc.shape with
    | error e =>
      rw [run_error op v y.enc e hs, run_error op s y.enc e (e1 ▸ hs)]
      refine ⟨fun _ h => (by cases h), fun e' he => ?_⟩
      cases he
      rfl
    | ok z =>
      rw [run_ok op v y.enc z hs, run_ok op s y.enc z (e1 ▸ hs)]
      refine ⟨fun u h => ?_, fun _ h => by cases h⟩
      cases h
      obtain ⟨b1, b2⟩ := broadcast_of_shape (by rcases hop with rfl | rfl <;> decide) hs
      have hsum : ∀ i, ValidIdx v.shape i → s.at_ i + (l.map (·.at_ i)).sum = v.at_ i := by
        intro i hi
        rw [← h3 i hi, hz, List.map_cons, List.sum_cons]
      have hval : ∀ o, ValidIdx z o → elem op s.shape y.enc.shape s.at_ y.enc.at_ o + (l.map (·.at_ (sourceIdx v.shape o))).sum =
          elem op v.shape y.enc.shape v.at_ y.enc.at_ o := by
        intro o ho
        have := hsum _ (sourceIdx_valid _ _ _ b1 ho)
        rw [e1]
        rcases hop with rfl | rfl
        · change _ + _ + _ = _ + _
          rw [← this]
          ring
        · change _ - _ + _ = _ - _
          rw [← this]
          ring
      refine ⟨⟨⟨z, elem op s.shape y.enc.shape s.at_ y.enc.at_⟩ :: l, .size z⟩, rfl, rfl, ?_, fun hk => ⟨⟨?_, ?_, ?_⟩, rfl⟩⟩
      · obtain ⟨w, i1, i2, i3⟩ := sumShares_wide ⟨z, elem op s.shape y.enc.shape s.at_ y.enc.at_⟩ l v.shape b1 e2
        refine ⟨w, i1, i2, fun o ho => ?_⟩
        rw [i2] at ho
        rw [i3 o ho]
        exact hval o ho
      · rw [← h1, hz]
        rfl
      · intro t ht
        rcases List.mem_cons.mp ht with rfl | ht
        · rfl
        · exact (e2 t ht).trans hk.symm
      · intro o ho
        have hk : z = v.shape := hk
        have := hval o ho
        rw [Grad.sourceIdx_self v.shape o (hk ▸ ho)] at this
        rw [List.map_cons, List.sum_cons]
        exact this

theorem broadcasts_one (s : List Nat) (h : s ≠ []) : Broadcasts [1] s := by
  obtain ⟨t, d, rfl⟩ : ∃ t d, s = t ++ [d] := ⟨s.dropLast, s.getLast h, (List.dropLast_append_getLast h).symm⟩
  refine ⟨by simp, ?_⟩
  simp

theorem broadcasts_nil (s : List Nat) : Broadcasts [] s := by
  refine ⟨by simp, ?_⟩
  simp

theorem sourceIdx_nil (o : List Nat) : sourceIdx [] o = [] := by simp [sourceIdx]

/-- a number in an operation with a tensor that has a dimension: torch's result and that with the encoded number are the same -/
theorem number_same (op : BinOp) (hop : op ≠ .matmul) (v : Tensor T) (hv : v.shape ≠ []) (a : T) :
    ∃ u u', op.run v (Operand.number a).enc = .ok u ∧ op.run v (Operand.number a).plain = .ok u' ∧ u.shape = v.shape ∧ Same u u' := by
  have h1 : op.shape v.shape [1] = .ok v.shape := by
    rw [shape_eq]
    cases op <;> first | exact Grad.broadcastShape_wide _ _ (broadcasts_one _ hv) | exact absurd rfl hop
  have h2 : op.shape v.shape [] = .ok v.shape := by
    rw [shape_eq]
    cases op <;> first | exact Grad.broadcastShape_wide _ _ (broadcasts_nil _) | exact absurd rfl hop
  refine ⟨_, _, run_ok op v _ _ h1, run_ok op v _ _ h2, rfl, rfl, fun o _ => ?_⟩
  cases op <;> first | rfl | exact absurd rfl hop

/-- the public operands for which the shares remain those of a secret: a number needs a tensor with a dimension, and a tensor must not
make the sum larger than the secret -/
def Fits (op : BinOp) (v : Tensor T) : Operand T → Prop
  | .number _ => op ≠ .matmul ∧ v.shape ≠ []
  | .tensor t => (op = .add ∨ op = .sub) → ∀ u, op.run v t = .ok u → u.shape = v.shape

/-- operations with public operands: as torch -/
theorem C66_public_partial {n : Nat} (hn : 0 < n) {x : Secret T} {v : Tensor T} (hx : Holds n x v) (op : BinOp) (y : Operand T)
    (hf : Fits op v y) :
    (∀ u, op.run v y.plain = .ok u → ∃ r, opPublic op x y = .ok r ∧ Holds n r u) ∧
      (∀ e, op.run v y.plain = .error e → opPublic op x y = .error e) := by
  have hcases : (op = .add ∨ op = .sub) ∨ (op = .mul ∨ op = .matmul) := by cases op <;> simp
  cases y with
  | number a =>
    obtain ⟨u, u', h1, h2, h3, h4⟩ := number_same op hf.1 v hf.2 a
    rw [h2]
    refine ⟨fun w hw => ?_, fun _ h => by cases h⟩
    cases hw
    rcases hcases with hop | hop
    · obtain ⟨r, i1, -, -, i4⟩ := (publicSum hn hx op hop (.number a)).1 u h1
      exact ⟨r, i1, (i4 h3).same h4⟩
    · obtain ⟨r, i1, i2⟩ := (publicProduct hn hx op hop (.number a)).1 u h1
      exact ⟨r, i1, i2.same h4⟩
  | tensor t =>
    rcases hcases with hop | hop
    · refine ⟨fun u hu => ?_, (publicSum hn hx op hop (.tensor t)).2⟩
      obtain ⟨r, i1, -, -, i4⟩ := (publicSum hn hx op hop (.tensor t)).1 u hu
      exact ⟨r, i1, i4 (hf hop u hu)⟩
    · exact publicProduct hn hx op hop (.tensor t)

/-- the sum with a public tensor reconstructs to the right tensor, and reports its shape, whatever the shapes -/
theorem C66_public_sum_value {n : Nat} (hn : 0 < n) {x : Secret T} {v : Tensor T} (hx : Holds n x v) (op : BinOp)
    (hop : op = .add ∨ op = .sub) (y : Tensor T) (u : Tensor T) (hu : op.run v y = .ok u) :
    ∃ r, opPublic op x (.tensor y) = .ok r ∧ r.shape = .size u.shape ∧ ∃ w, sumShares r.shares = .ok w ∧ Same w u := by
  obtain ⟨r, i1, i2, i3, -⟩ := (publicSum hn hx op hop (.tensor y)).1 u hu
  exact ⟨r, i1, i2, i3⟩

/-! ### Products of secrets -/

theorem mulParty_ok (op : BinOp) {xs ys z : List Nat} (hs : op.shape xs ys = .ok z) (eps delta a b c : Tensor T) (rank : Nat)
    (he : eps.shape = xs) (hd : delta.shape = ys) (ha : a.shape = xs) (hb : b.shape = ys) (hc : c.shape = z) :
    ∃ r, mulParty op eps delta rank a b c = .ok r ∧ r.shape = z ∧ ∀ o, ValidIdx z o → r.at_ o =
      c.at_ o + elem op xs ys eps.at_ b.at_ o + elem op xs ys a.at_ delta.at_ o +
        (if rank = 0 then elem op xs ys eps.at_ delta.at_ o else 0) := by
  subst he hd hc
  unfold mulParty
  rw [run_ok op eps b _ (hb ▸ hs), ok_bind, run_ok op a delta _ (ha.symm ▸ hs), ok_bind]
  obtain ⟨r1, h1, h2, h3⟩ := Grad.zip_same (· + ·) c (⟨c.shape, elem op eps.shape b.shape eps.at_ b.at_⟩ : Tensor T) rfl
  obtain ⟨r2, i1, i2, i3⟩ := Grad.zip_same (· + ·) r1 (⟨c.shape, elem op a.shape delta.shape a.at_ delta.at_⟩ : Tensor T) h2.symm
  rw [h1, ok_bind, i1, ok_bind, run_ok op eps delta _ hs, ok_bind]
  obtain ⟨r3, j1, j2, j3⟩ := Grad.zip_same (· + ·) r2 (⟨c.shape, elem op eps.shape delta.shape eps.at_ delta.at_⟩ : Tensor T)
    (h2.symm.trans i2.symm)
  have hv : ∀ o, ValidIdx c.shape o → r2.at_ o =
      c.at_ o + elem op eps.shape delta.shape eps.at_ b.at_ o + elem op eps.shape delta.shape a.at_ delta.at_ o := by
    intro o ho
    rw [i3 o (h2 ▸ ho), h3 o ho, hb, ha]
  by_cases hr : rank = 0
  · rw [if_pos hr, j1]
    refine ⟨r3, rfl, j2.trans (i2.trans h2), fun o ho => ?_⟩
    rw [j3 o (i2.trans h2 ▸ ho), hv o ho, if_pos hr]
  · rw [if_neg hr]
    refine ⟨r2, rfl, i2.trans h2, fun o ho => ?_⟩
    rw [hv o ho, if_neg hr, add_zero]

theorem sum_zipIdx_fst {A : Type} (l : List A) (k : Nat) (f : A → T) : ((l.zipIdx k).map fun p => f p.1).sum = (l.map f).sum := by
  induction l generalizing k with
  | nil => rfl
  | cons a l ih => simp only [List.zipIdx_cons, List.map_cons, List.sum_cons, ih]

theorem sum_zipIdx_zero {A : Type} (l : List A) (h : l ≠ []) (e : T) : ((l.zipIdx).map fun p => if p.2 = 0 then e else 0).sum = e := by
  have key : ∀ (l : List A) (k : Nat), 0 < k → ((l.zipIdx k).map fun p => if p.2 = 0 then e else 0).sum = 0 := by
    intro l
    induction l with
    | nil => intros; rfl
    | cons a l ih =>
      intro k hk
      simp only [List.zipIdx_cons, List.map_cons, List.sum_cons, ih (k + 1) (by omega), if_neg (show ¬ k = 0 by omega), add_zero]
  cases l with
  | nil => exact absurd rfl h
  | cons a l => simp only [List.zipIdx_cons, List.map_cons, List.sum_cons, key l (0 + 1) (by omega), if_true, add_zero]

/-- the difference of two sharings of the same shape -/
theorem mask_ok {n : Nat} {l m : List (Tensor T)} {v w : Tensor T} (hl : Shares n l v) (hm : Shares n m w) (hs : w.shape = v.shape) (hn : 0 < n) :
    ∃ d, ((l.zip m).mapM fun p => BinOp.sub.run p.1 p.2) = .ok d ∧ ∃ r, sumShares d = .ok r ∧ r.shape = v.shape ∧
      ∀ o, ValidIdx v.shape o → r.at_ o = v.at_ o - w.at_ o := by
  have h := (C66_private hn (x := ⟨l, .size v.shape⟩) (y := ⟨m, .size w.shape⟩) ⟨hl, rfl⟩ ⟨hm, rfl⟩ .sub (Or.inr rfl)).1
  obtain ⟨u, h1, h2, h3⟩ := Grad.zip_same (· - ·) v w hs
  obtain ⟨r, i1, i2⟩ := h u h1
  obtain ⟨q, j1, j2⟩ := C66_reconstruct hn i2
  unfold opPrivate applyPrivate at i1
  cases hd : ((l.zip m).mapM fun p => BinOp.sub.run p.1 p.2) with
  | error e =>
    change ((l.zip m).mapM _ >>= _) = _ at i1
    rw [hd] at i1
    cases i1
  | ok d =>
    change ((l.zip m).mapM _ >>= _) = _ at i1
    rw [hd, ok_bind] at i1
    have hr : r.shares = d := by
      revert i1
      cases getShape .sub (.size v.shape) (.size w.shape) with
      | error e => intro i1; cases i1
      | ok s => intro i1; cases i1; rfl
    refine ⟨d, rfl, q, hr ▸ j1, j2.1.trans h2, fun o ho => ?_⟩
    rw [j2.2 o (by rw [j2.1, h2]; exact ho), h3 o ho]

/-- products of two secrets: as torch, with broadcasting, whatever the trusted party draws -/
theorem C66_product {n : Nat} (hn : 2 ≤ n) {x y : Secret T} {v w : Tensor T} (hx : Holds n x v) (hy : Holds n y w) (op : BinOp)
    (hop : op = .mul ∨ op = .matmul) (d : Draws T) :
    (∀ u, op.run v w = .ok u → ∃ r, opProduct op x y d = .ok r ∧ Holds n r u) ∧
      (∀ e, op.run v w = .error e → opProduct op x y d = .error e) := by
  have hx' := hx
  have hy' := hy
  obtain ⟨⟨h1, h2, h3⟩, h4⟩ := hx
  obtain ⟨⟨i1, i2, i3⟩, i4⟩ := hy
  obtain ⟨sa, a1, a2⟩ := (C66_share n (.tensor ⟨v.shape, d.a⟩) d.sharesA).1 hn
  obtain ⟨sb, b1, b2⟩ := (C66_share n (.tensor ⟨w.shape, d.b⟩) d.sharesB).1 hn
  change Holds n sa ⟨v.shape, d.a⟩ at a2
  change Holds n sb ⟨w.shape, d.b⟩ at b2
  unfold opProduct mulMaster deal
  rw [h4, i4, getShape_size, h1]
  simp only [Reported.tuple, ok_bind]
  rw [a1, ok_bind, b1, ok_bind]
  cases hs : op.shape v.shape w.shape with
  | error e =>
    rw [run_error op v w e hs, run_error op ⟨v.shape, d.a⟩ ⟨w.shape, d.b⟩ e hs]
    refine ⟨fun _ h => (by cases h), fun e' he => ?_⟩
    cases he
    rfl
  | ok z =>
    rw [run_ok op v w z hs, run_ok op ⟨v.shape, d.a⟩ ⟨w.shape, d.b⟩ z hs, ok_bind]
    refine ⟨fun u h => ?_, fun _ h => by cases h⟩
    cases h
    obtain ⟨sc, c1, c2⟩ := (C66_share n (.tensor ⟨z, elem op v.shape w.shape d.a d.b⟩) d.sharesC).1 hn
    change Holds n sc ⟨z, elem op v.shape w.shape d.a d.b⟩ at c2
    rw [c1, ok_bind, pure_eq_ok, ok_bind]
    have hlook : ((x.shares.zip y.shares).mapM fun p => lookUp v.shape w.shape p.1 p.2) = .ok ((x.shares.zip y.shares).map fun _ => ()) :=
      mapM_ok _ _ _ fun p hp => if_pos ⟨h2 _ (List.of_mem_zip hp).1, i2 _ (List.of_mem_zip hp).2⟩
    obtain ⟨ea, e1, eps, e2, e3, e4⟩ := mask_ok hx'.1 a2.1 rfl (by omega)
    obtain ⟨da, d1, delta, d2, d3, d4⟩ := mask_ok hy'.1 b2.1 rfl (by omega)
    rw [hlook, ok_bind, e1, ok_bind, d1, ok_bind, e2, ok_bind, d2, ok_bind]
    obtain ⟨⟨la, ha, va⟩, -⟩ := a2
    obtain ⟨⟨lb, hb, vb⟩, -⟩ := b2
    obtain ⟨⟨lc, hc, vc⟩, -⟩ := c2
    obtain ⟨l', j1, j2, j3, j4⟩ := mapM_shares ((sa.shares.zip (sb.shares.zip sc.shares)).zipIdx)
      (fun p => mulParty op eps delta p.2 p.1.1 p.1.2.1 p.1.2.2) z
      (fun p o => p.1.2.2.at_ o + elem op v.shape w.shape eps.at_ p.1.2.1.at_ o + elem op v.shape w.shape p.1.1.at_ delta.at_ o +
        (if p.2 = 0 then elem op v.shape w.shape eps.at_ delta.at_ o else 0)) fun p hp => by
        have hp := List.fst_mem_of_mem_zipIdx hp
        obtain ⟨m1, m2⟩ := List.of_mem_zip hp
        obtain ⟨m2, m3⟩ := List.of_mem_zip m2
        exact mulParty_ok op hs eps delta _ _ _ p.2 e3 d3 (ha _ m1) (hb _ m2) (hc _ m3)
    refine ⟨⟨l', .size z⟩, by rw [j1, ok_bind]; rfl, ⟨⟨?_, j3, fun o ho => ?_⟩, rfl⟩⟩
    · rw [j2, List.length_zipIdx, List.length_zip, List.length_zip, la, lb, lc]
      simp
    · rw [j4 o ho]
      simp only [List.sum_map_add]
      have hne : sa.shares.zip (sb.shares.zip sc.shares) ≠ [] := by
        intro h
        have := congrArg List.length h
        simp [la, lb, lc] at this
        omega
      rw [sum_zipIdx_zero _ hne]
      rw [sum_zipIdx_fst _ 0 fun q : Tensor T × Tensor T × Tensor T => q.2.2.at_ o]
      rw [sum_zipIdx_fst _ 0 fun q : Tensor T × Tensor T × Tensor T => elem op v.shape w.shape eps.at_ q.2.1.at_ o]
      rw [sum_zipIdx_fst _ 0 fun q : Tensor T × Tensor T × Tensor T => elem op v.shape w.shape q.1.at_ delta.at_ o]
      have lbc : (sb.shares.zip sc.shares).length = n := by simp [lb, lc]
      have f1 : ∀ f : Tensor T → T, ((sa.shares.zip (sb.shares.zip sc.shares)).map fun q => f q.1) = sa.shares.map f := by
        intro f
        have e : (sa.shares.zip (sb.shares.zip sc.shares)).map Prod.fst = sa.shares := List.map_fst_zip (by rw [la, lbc])
        conv_rhs => rw [← e, List.map_map]
        rfl
      have f2 : ∀ f : Tensor T → T, ((sa.shares.zip (sb.shares.zip sc.shares)).map fun q => f q.2.1) = sb.shares.map f := by
        intro f
        have e : (sa.shares.zip (sb.shares.zip sc.shares)).map Prod.snd = sb.shares.zip sc.shares :=
          List.map_snd_zip (by rw [la, lbc])
        have e' : (sb.shares.zip sc.shares).map Prod.fst = sb.shares := List.map_fst_zip (by rw [lb, lc])
        conv_rhs => rw [← e', ← e, List.map_map, List.map_map]
        rfl
      have f3 : ∀ f : Tensor T → T, ((sa.shares.zip (sb.shares.zip sc.shares)).map fun q => f q.2.2) = sc.shares.map f := by
        intro f
        have e : (sa.shares.zip (sb.shares.zip sc.shares)).map Prod.snd = sb.shares.zip sc.shares :=
          List.map_snd_zip (by rw [la, lbc])
        have e' : (sb.shares.zip sc.shares).map Prod.snd = sc.shares := List.map_snd_zip (by rw [lb, lc])
        conv_rhs => rw [← e', ← e, List.map_map, List.map_map]
        rfl
      rw [f3 fun s => s.at_ o, f2 fun s => elem op v.shape w.shape eps.at_ s.at_ o, f1 fun s => elem op v.shape w.shape s.at_ delta.at_ o,
        vc o ho, ← elem_sum_left hop, ← elem_sum_right hop]
      have g1 : elem op v.shape w.shape eps.at_ (fun i => (sb.shares.map fun s => s.at_ i).sum) o =
          elem op v.shape w.shape eps.at_ d.b o := elem_congr hs (fun _ _ => rfl) vb o ho
      have g2 : elem op v.shape w.shape (fun i => (sa.shares.map fun s => s.at_ i).sum) delta.at_ o =
          elem op v.shape w.shape d.a delta.at_ o := elem_congr hs va (fun _ _ => rfl) o ho
      rw [g1, g2]
      have g3 : elem op v.shape w.shape v.at_ w.at_ o =
          elem op v.shape w.shape (fun i => eps.at_ i + d.a i) (fun i => delta.at_ i + d.b i) o :=
        elem_congr hs (fun i hi => by rw [e4 i hi]; ring) (fun i hi => by rw [d4 i hi]; ring) o ho
      change _ = elem op v.shape w.shape v.at_ w.at_ o
      rw [g3, elem_add_left hop, elem_add_right hop, elem_add_right hop]
      change elem op v.shape w.shape d.a d.b o + _ + _ + _ = _
      ring

/-! ### Programs -/

/-- no public operand of the program enlarges a secret -/
def AllFit : List (Step T) → List (Tensor T) → Prop
  | [], _ => True
  | st :: prog, env =>
    (∀ op i y v, st = .public op i y → env[i]? = some v → Fits op v y) ∧ ∀ r, st.clear env = .ok r → AllFit prog (env ++ [r])

theorem step_ok {n : Nat} (hn : 2 ≤ n) {env : List (Secret T)} {vs : List (Tensor T)} (h : List.Forall₂ (Holds n) env vs) (st : Step T)
    (d : Draws T) (hf : ∀ op i y v, st = .public op i y → vs[i]? = some v → Fits op v y) :
    (∀ w, st.clear vs = .ok w → ∃ r, st.secret d env = .ok r ∧ Holds n r w) ∧ (∀ e, st.clear vs = .error e → st.secret d env = .error e) := by
  have hlen := h.length_eq
  have hget : ∀ i, (∃ x v, pyGet env i = .ok x ∧ pyGet vs i = .ok v ∧ vs[i]? = some v ∧ Holds n x v) ∨
      (pyGet env i = .error .indexError ∧ pyGet vs i = .error .indexError) := by
    intro i
    by_cases hi : i < env.length
    · have hi' : i < vs.length := by omega
      exact Or.inl ⟨_, _, pyGet_ok hi, pyGet_ok hi', List.getElem?_eq_getElem hi', (List.forall₂_iff_get.mp h).2 i hi hi'⟩
    · exact Or.inr ⟨pyGet_error (by omega), pyGet_error (by omega)⟩
  cases st with
  | both op i j =>
    unfold Step.clear Step.secret
    dsimp only
    rcases hget i with ⟨x, v, e1, e2, -, e4⟩ | ⟨e1, e2⟩
    · rcases hget j with ⟨y, w, f1, f2, -, f4⟩ | ⟨f1, f2⟩
      · rw [e1, e2, ok_bind, ok_bind, f1, f2, ok_bind, ok_bind]
        by_cases hop : op = .add ∨ op = .sub
        · rw [if_pos hop]
          exact C66_private (by omega) e4 f4 op hop
        · rw [if_neg hop]
          exact C66_product hn e4 f4 op (by cases op <;> simp at hop ⊢) d
      · rw [e1, e2, ok_bind, ok_bind, f1, f2]
        exact ⟨fun _ h => (by cases h), fun _ h => (by cases h; rfl)⟩
    · rw [e1, e2]
      exact ⟨fun _ h => (by cases h), fun _ h => (by cases h; rfl)⟩
  | «public» op i y =>
    unfold Step.clear Step.secret
    dsimp only
    rcases hget i with ⟨x, v, e1, e2, e3, e4⟩ | ⟨e1, e2⟩
    · rw [e1, e2, ok_bind, ok_bind]
      exact C66_public_partial (by omega) e4 op y (hf op i y v rfl e3)
    · rw [e1, e2]
      exact ⟨fun _ h => (by cases h), fun _ h => (by cases h; rfl)⟩
  | method m i =>
    unfold Step.clear Step.secret
    dsimp only
    rcases hget i with ⟨x, v, e1, e2, -, e4⟩ | ⟨e1, e2⟩
    · rw [e1, e2, ok_bind, ok_bind]
      exact C66_methods (by omega) e4 m
    · rw [e1, e2]
      exact ⟨fun _ h => (by cases h), fun _ h => (by cases h; rfl)⟩

/-- A program on secrets computes the tensors, and their shapes, that it computes on torch tensors, and raises the same error. -/
theorem C66_programs_partial {n : Nat} (hn : 2 ≤ n) (prog : List (Step T × Draws T)) {env : List (Secret T)} {vs : List (Tensor T)}
    (h : List.Forall₂ (Holds n) env vs) (hf : AllFit (prog.map Prod.fst) vs) :
    (∀ ws, clear (prog.map Prod.fst) vs = .ok ws → ∃ rs, secret prog env = .ok rs ∧ List.Forall₂ (Holds n) rs ws) ∧
      (∀ e, clear (prog.map Prod.fst) vs = .error e → secret prog env = .error e) := by
  induction prog generalizing env vs with
  | nil =>
    refine ⟨fun ws hw => ?_, fun _ h => (by cases h)⟩
    cases hw
    exact ⟨env, rfl, h⟩
  | cons p prog ih =>
    obtain ⟨st, d⟩ := p
    obtain ⟨hf1, hf2⟩ := hf
    obtain ⟨k1, k2⟩ := step_ok hn h st d hf1
    simp only [List.map_cons, clear, secret]
    cases hc : st.clear vs with
    | error e =>
      rw [k2 e hc]
      exact ⟨fun _ h => (by cases h), fun _ h => (by cases h; rfl)⟩
    | ok w =>
      obtain ⟨r, i1, i2⟩ := k1 w hc
      rw [i1, ok_bind, ok_bind]
      exact ih (List.rel_append h (List.Forall₂.cons i2 .nil)) (hf2 w hc)

/-- `len(x)` is the first dimension; a tensor without dimensions raises `IndexError`, one that was made without a shape `TypeError` -/
theorem C66_len {n : Nat} {x : Secret T} {v : Tensor T} (h : Holds n x v) :
    (∀ d s, v.shape = d :: s → len x = .ok d) ∧ (v.shape = [] → len x = .error .indexError) ∧
      len { x with shape := .unknown } = .error .typeError := by
  unfold len
  rw [h.2]
  exact ⟨fun d s hs => by rw [hs]; rfl, fun hs => by rw [hs]; rfl, rfl⟩

/-! ### Where the shapes go wrong -/

/-- a tensor with the given elements in row-major order -/
def tensor (s : List Nat) (l : List Int) : Tensor Int := ⟨s, fun i => l.getD (Grad.flat s i) 0⟩

/-- shape and elements -/
def look (t : Tensor Int) : List Nat × List Int := (t.shape, (indices t.shape).map t.at_)

/-- some draws -/
def exDraws : Draws Int := ⟨fun i => i.sum + 7, fun i => 3 * i.sum - 2, fun k i => k + i.sum, fun k i => 5 * k - i.sum, fun k _ => k⟩

/-- a secret of one element, shared as 2 and 3 -/
def exOne : Secret Int := ⟨[tensor [1] [2], tensor [1] [3]], .size [1]⟩

/-- the public tensor that is added to it -/
def exTwo : Operand Int := .tensor (tensor [2] [10, 20])

theorem exOne_holds : Holds 2 exOne (tensor [1] [5]) := by
  refine ⟨⟨rfl, by decide, fun o ho => ?_⟩, rfl⟩
  match o, ho with
  | [0], _ => decide
  | [_ + 1], ho => exact absurd ho.1 (by simp)

/-- Adding a larger public tensor gives shares of different shapes.  The result reconstructs to the right tensor, but its sum does not:
it is 37 instead of 40. -/
theorem C66_enlarged_sum_wrong :
    look <$> BinOp.add.run (tensor [1] [5]) (tensor [2] [10, 20]) = .ok ([2], [15, 25]) ∧
    (do look <$> Method.sum.run (← BinOp.add.run (tensor [1] [5]) (tensor [2] [10, 20]))) = .ok ([], [40]) ∧
    (do look <$> sumShares (← opPublic .add exOne exTwo).shares) = .ok ([2], [15, 25]) ∧
    (do look <$> sumShares (← hook .sum (← opPublic .add exOne exTwo)).shares) = .ok ([], [37]) := by
  decide +kernel

/-- multiplying the enlarged secret raises `EmptyPrimitiveStore`: the triple that was just generated has another shape -/
theorem C66_enlarged_product_fails :
    Secret.shape <$> (do opProduct .mul (← opPublic .add exOne exTwo) (← opPublic .add exOne exTwo) exDraws) = .error .emptyStore := by
  decide +kernel

/-- A secret without dimensions plus a number: torch's result has no dimensions, the secret reports one, and only the first share has
one, so that it cannot be multiplied. -/
theorem C66_scalar_plus_number :
    look <$> BinOp.add.run (tensor [] [5]) (Operand.number 1).plain = .ok ([], [6]) ∧
    Secret.shape <$> opPublic .add ⟨[tensor [] [2], tensor [] [3]], .size []⟩ (.number 1) = .ok (.size [1]) ∧
    Secret.shape <$> (do
      let r ← opPublic .add ⟨[tensor [] [2], tensor [] [3]], .size []⟩ (.number 1)
      opProduct .mul r r exDraws) = .error .emptyStore := by
  decide +kernel

/-- A secret whose shape was given as a Python list takes part in no operation: `TypeError`, although `reconstruct` works. -/
theorem C66_list_shape_fails (x : Secret T) (s : List Nat) (hs : x.shape = .list s) (op : BinOp) (y : Operand T) (z : Secret T) :
    (∀ r, opPublic op x y ≠ .ok r) ∧ (∀ r, opPrivate op x z ≠ .ok r) ∧ (∀ d r, opProduct op x z d ≠ .ok r) := by
  have hg : ∀ q, getShape op x.shape q = .error .typeError := by
    intro q
    rw [hs]
    rfl
  refine ⟨fun r h => ?_, fun r h => ?_, fun d r h => ?_⟩
  · unfold opPublic at h
    rw [hg] at h
    cases hx : applyPublic op x y <;> rw [hx] at h <;> cases h
  · unfold opPrivate at h
    rw [hg] at h
    cases hx : applyPrivate op x z <;> rw [hx] at h <;> cases h
  · unfold opProduct at h
    rw [hg] at h
    cases hx : mulMaster op x z d <;> rw [hx] at h <;> cases h

/-- A secret made from shares without a shape (`MPCTensor(shares=..., session=...)`): `len` and products raise `TypeError`, forwarded
methods too unless torch refuses them, sums and products with a public operand raise `ValueError` unless torch refuses them. -/
theorem C66_unknown_shape (shares : List (Tensor T)) (op : BinOp) (y : Operand T) (z : Secret T) (m : Method) :
    len (⟨shares, .unknown⟩ : Secret T) = .error .typeError ∧
    (∀ d, opProduct op ⟨shares, .unknown⟩ z d = .error .typeError) ∧
    (∀ t, shares.mapM m.run = .ok t → hook m ⟨shares, .unknown⟩ = .error .typeError) ∧
    (∀ t, applyPublic op ⟨shares, .unknown⟩ y = .ok t → opPublic op ⟨shares, .unknown⟩ y = .error .valueError) ∧
    (∀ s t, z.shape = .size s → (shares.zip z.shares).mapM (fun p => op.run p.1 p.2) = .ok t →
      opPrivate op ⟨shares, .unknown⟩ z = .error .valueError) := by
  refine ⟨rfl, fun d => rfl, fun t h => ?_, fun t h => ?_, fun s t hs h => ?_⟩
  · unfold hook
    dsimp only
    rw [h, ok_bind]
    rfl
  · unfold opPublic
    rw [h, ok_bind]
    cases y <;> rfl
  · unfold opPrivate applyPrivate
    dsimp only
    rw [h, ok_bind, hs]
    rfl

/-- `x -= y` keeps the reported shape of `x` although the result is larger -/
theorem C66_isub_stale_shape :
    (do look <$> sumShares (← isubPublic exOne exTwo).shares) = .ok ([2], [-5, -15]) ∧
    Secret.shape <$> isubPublic exOne exTwo = .ok (.size [1]) := by
  decide +kernel

/-- dividing by a larger public tensor reports the shape of the dividend -/
theorem C66_divide_stale_shape :
    (do look <$> sumShares (← dividePublic (· / ·) ⟨[tensor [1] [20], tensor [1] [40]], .size [1]⟩ (tensor [2] [10, 20])).shares) =
      .ok ([2], [6, 3]) ∧
    Secret.shape <$> dividePublic (· / ·) ⟨[tensor [1] [20], tensor [1] [40]], .size [1]⟩ (tensor [2] [10, 20]) = .ok (.size [1]) := by
  decide +kernel

/-- `x.dim()` always raises `AttributeError` -/
theorem C66_dim_fails {n : Nat} (hn : 0 < n) {x : Secret T} {v : Tensor T} (h : Holds n x v) : hook .dim x = .error .attributeError :=
  (C66_methods hn h .dim).2 _ rfl

/-! ### Concrete cases -/

/-- a check of `Fits` -/
def fitsCheck {T : Type} (op : BinOp) (v : Tensor T) : Operand T → Bool
  | .number _ => decide (op ≠ .matmul ∧ v.shape ≠ [])
  | .tensor t => decide ((op = .add ∨ op = .sub) → ∀ z ∈ (op.shape v.shape t.shape).toOption, z = v.shape)

theorem fits_of_check {T : Type} [CommRing T] {op : BinOp} {v : Tensor T} {y : Operand T} (h : fitsCheck op v y = true) : Fits op v y := by
  cases y with
  | number a => exact of_decide_eq_true (p := op ≠ .matmul ∧ v.shape ≠ []) h
  | tensor t =>
    intro hop u hu
    have := of_decide_eq_true h hop
    cases hs : op.shape v.shape t.shape with
    | error e => rw [run_error op v t e hs] at hu; cases hu
    | ok z =>
      rw [run_ok op v t z hs] at hu
      cases hu
      exact this z (by rw [hs]; rfl)

/-- a check of `AllFit` -/
def allFitCheck {T : Type} [CommRing T] : List (Step T) → List (Tensor T) → Bool
  | [], _ => true
  | st :: prog, env =>
    (match st with
      | .public op i y => (match env[i]? with | some v => fitsCheck op v y | none => true)
      | _ => true) &&
    (match st.clear env with
      | .ok r => allFitCheck prog (env ++ [r])
      | .error _ => true)

theorem allFit_of_check {T : Type} [CommRing T] (prog : List (Step T)) (env : List (Tensor T)) (h : allFitCheck prog env = true) :
    AllFit prog env := by
  induction prog generalizing env with
  | nil => trivial
  | cons st prog ih =>
    unfold allFitCheck at h
    obtain ⟨h1, h2⟩ := Bool.and_eq_true_iff.mp h
    refine ⟨fun op i y v hst hv => ?_, fun r hr => ih _ ?_⟩
    · subst hst
      dsimp only at h1
      rw [hv] at h1
      exact fits_of_check h1
    · rw [hr] at h2
      exact h2

/-- a secret matrix -/
def exMatrix : Secret Int := ⟨[tensor [2, 3] [1, 2, 3, 4, 5, 6], tensor [2, 3] [10, 10, 10, 10, 10, 10]], .size [2, 3]⟩

/-- C66: the transpose of two shares without a shape -/
example : ∃ t, [tensor [2] [1, 2], tensor [2] [10, 20]].mapM Method.t.run = .ok t ∧
    hook .t ⟨[tensor [2] [1, 2], tensor [2] [10, 20]], .unknown⟩ = .error .typeError :=
  ⟨_, rfl, (C66_unknown_shape _ .add (.number 1) exMatrix .t).2.2.1 _ rfl⟩

theorem exMatrix_holds : Holds 2 exMatrix (tensor [2, 3] [11, 12, 13, 14, 15, 16]) := by
  refine ⟨⟨rfl, by decide, fun o ho => ?_⟩, rfl⟩
  have key : ∀ o ∈ indices [2, 3], (exMatrix.shares.map (·.at_ o)).sum = (tensor [2, 3] [11, 12, 13, 14, 15, 16]).at_ o := by decide
  exact key o ((mem_indices _ _).mpr ho)

/-- `y = x.t(); z = x @ y; w = z * z.sum(0) - 100; w.reshape(-1)` -/
def exProgram : List (Step Int × Draws Int) :=
  [(.method .t 0, exDraws), (.both .matmul 0 1, exDraws), (.method (.sumDim 0 false) 2, exDraws), (.both .mul 2 3, exDraws),
    (.public .sub 4 (.number 100), exDraws), (.method (.reshape [-1]) 5, exDraws)]

example : AllFit (exProgram.map Prod.fst) [tensor [2, 3] [11, 12, 13, 14, 15, 16]] := by
  apply allFit_of_check
  decide +kernel

example : (do
    let vs ← clear (exProgram.map Prod.fst) [tensor [2, 3] [11, 12, 13, 14, 15, 16]]
    return vs.map look) = (do
    let rs ← secret exProgram [exMatrix]
    let vs ← rs.mapM fun x => sumShares x.shares
    return vs.map look) := by
  decide +kernel

/-- the last result of the program -/
example : (do
    let rs ← secret exProgram [exMatrix]
    let x ← pyGet rs 6
    look <$> sumShares x.shares) = .ok ([4], [423484, 660598, 528892, 825163]) := by
  decide +kernel

/-- sharing a number among three parties, and adding a public row to every row of a secret matrix -/
example : (do look <$> sumShares (← ofSecret (.number 7) 3 exDraws.sharesA).shares) = .ok ([1], [7]) ∧
    (do look <$> sumShares (← opPublic .add exMatrix (.tensor (tensor [3] [1, 2, 3]))).shares) = .ok ([2, 3], [12, 14, 16, 15, 17, 19]) ∧
    Secret.shape <$> hook (.unsqueeze (-1)) exMatrix = .ok (.size [2, 3, 1]) ∧ len exMatrix = .ok 2 := by
  decide +kernel

example : Fits .add (tensor [2, 3] [11, 12, 13, 14, 15, 16]) (.tensor (tensor [3] [1, 2, 3])) := by
  intro _ u hu
  cases hu
  rfl

/-! ## What the methods do with the elements -/

/-- dimensions counted from the end -/
def dimOf (n : Nat) (d : Int) : Nat := (if d < 0 then d + n else d).toNat

/-- Element `p` of a tensor of shape `s` is what the method has at position `o` of the result, of shape `r`. -/
def Moves (m : Method) (s r o p : List Nat) : Prop :=
  match m with
  | .t => p = if s.length = 2 then o.reverse else o
  | .T => p.reverse = o
  | .transpose i j => ∀ k < s.length, p.getD k 0 =
      if k = dimOf s.length i then o.getD (dimOf s.length j) 0 else if k = dimOf s.length j then o.getD (dimOf s.length i) 0 else o.getD k 0
  | .unsqueeze d => o = p.insertIdx (dimOf (s.length + 1) d) 0
  | .squeeze => o = ((s.zip p).filter (·.1 ≠ 1)).map (·.2)
  | .reshape _ | .view _ | .flatten => Grad.flat r o = Grad.flat s p
  | .narrow d start _ => ∀ k < s.length, p.getD k 0 = o.getD k 0 + if k = dimOf s.length d then start else 0
  | .repeat ks => ∀ k < s.length, p.getD k 0 = o.getD (k + (ks.length - s.length)) 0 % s.getD k 0
  | .clone => p = o
  | _ => False

theorem normDim_eq {n : Nat} {d : Int} {k : Nat} (hn : n ≠ 0) (h : normDim n d = .ok k) : k = dimOf n d := by
  unfold normDim at h
  have e : max n 1 = n := by omega
  rw [e] at h
  dsimp only at h
  unfold dimOf
  split at h
  · cases h
    rw [if_neg (by omega)]
  · split at h
    · cases h
      rw [if_pos (by omega)]
    · cases h

theorem valid_length {s i : List Nat} (h : ValidIdx s i) : i.length = s.length := ((valid_iff s i).mp h).length_eq.symm

theorem insert_erase (d : Nat) (s o : List Nat) (hd : d ≤ s.length) (h : ValidIdx (s.insertIdx d 1) o) :
    o = (o.eraseIdx d).insertIdx d 0 := by
  induction d generalizing s o with
  | zero =>
    cases o with
    | nil => simp [ValidIdx] at h
    | cons a o =>
      simp [ValidIdx] at h
      simp [h.1]
  | succ d ih =>
    cases s with
    | nil => simp at hd
    | cons b s =>
      cases o with
      | nil => simp [ValidIdx] at h
      | cons a o =>
        simp only [List.insertIdx_succ_cons, ValidIdx] at h
        simp only [List.eraseIdx_cons_succ, List.insertIdx_succ_cons]
        rw [← ih s o (by simpa using hd) h.2]

theorem spread_filter (s o : List Nat) (h : ValidIdx (s.filter (· ≠ 1)) o) : o = ((s.zip (spread s o)).filter (·.1 ≠ 1)).map (·.2) := by
  induction s generalizing o with
  | nil =>
    cases o with
    | nil => rfl
    | cons => simp [ValidIdx] at h
  | cons d s ih =>
    by_cases hd : d = 1
    · simp only [hd, ne_eq, not_true_eq_false, decide_false, Bool.false_eq_true, not_false_eq_true, List.filter_cons_of_neg] at h
      simp only [spread, hd, if_true]
      simpa using ih o h
    · rw [List.filter_cons_of_pos (by simpa using hd)] at h
      cases o with
      | nil => simp [ValidIdx] at h
      | cons a o =>
        have := ih o h.2
        simp only [spread, hd, if_false, List.headD_cons, List.tail_cons, List.zip_cons_cons]
        rw [List.filter_cons_of_pos (by simpa using hd), List.map_cons, ← this]

/-- C66: the methods that move elements put them where they belong: the position of each element of the result follows from its
position in the operand, by a description that does not depend on the one of the model. -/
theorem C66_method_elements (m : Method) (hm : m ≠ .sum) (hm' : ∀ d keep, m ≠ .sumDim d keep) (x y : Tensor T) (h : m.run x = .ok y)
    (o : List Nat) (ho : ValidIdx y.shape o) : ∃ p, ValidIdx x.shape p ∧ Moves m x.shape y.shape o p ∧ y.at_ o = x.at_ p := by
  unfold Method.run at h
  cases hp : m.plan x.shape with
  | error e => rw [hp] at h; cases h
  | ok pl =>
    obtain ⟨r, src⟩ := pl
    rw [hp, ok_bind] at h
    cases h
    have hv := plan_valid hp o ho
    dsimp only at ho ⊢
    suffices hs : ∃ p, src o = [p] ∧ Moves m x.shape r o p by
      obtain ⟨p, h1, h2⟩ := hs
      exact ⟨p, hv p (by simp [h1]), h2, by simp [h1]⟩
    generalize x.shape = s at *
    unfold Method.plan at hp
    cases m with
    | sum => exact absurd rfl hm
    | sumDim d keep => exact absurd rfl (hm' d keep)
    | dim => cases hp
    | clone => cases hp; exact ⟨o, rfl, rfl⟩
    | t =>
      dsimp only at hp
      match s, hp with
      | [], hp => cases hp; exact ⟨o, rfl, rfl⟩
      | [n], hp => cases hp; exact ⟨o, rfl, rfl⟩
      | [n, k], hp => cases hp; exact ⟨o.reverse, rfl, rfl⟩
    | T => cases hp; exact ⟨o.reverse, rfl, List.reverse_reverse o⟩
    | flatten =>
      cases hp
      refine ⟨_, rfl, ?_⟩
      have := Grad.numel_flat_lt _ _ ho
      rw [show Grad.numel [Grad.numel s] = Grad.numel s by simp [Grad.numel]] at this
      exact (Grad.unflat_valid s _ this).2.symm
    | reshape l =>
      dsimp only at hp
      cases hd : resolve (Grad.numel s) l with
      | error e => rw [hd] at hp; cases hp
      | ok k =>
        rw [hd, ok_bind] at hp
        cases hp
        refine ⟨_, rfl, ?_⟩
        exact (Grad.unflat_valid s _ (by rw [← resolve_numel hd]; exact Grad.numel_flat_lt _ _ ho)).2.symm
    | view l =>
      dsimp only at hp
      cases hd : resolve (Grad.numel s) l with
      | error e => rw [hd] at hp; cases hp
      | ok k =>
        rw [hd, ok_bind] at hp
        cases hp
        refine ⟨_, rfl, ?_⟩
        exact (Grad.unflat_valid s _ (by rw [← resolve_numel hd]; exact Grad.numel_flat_lt _ _ ho)).2.symm
    | squeeze =>
      cases hp
      exact ⟨_, rfl, spread_filter s o ho⟩
    | unsqueeze d =>
      dsimp only at hp
      cases hd : normDim (s.length + 1) d with
      | error e => rw [hd] at hp; cases hp
      | ok k =>
        rw [hd, ok_bind] at hp
        cases hp
        have h1 := normDim_lt hd
        refine ⟨_, rfl, ?_⟩
        unfold Moves
        dsimp only
        rw [← normDim_eq (by omega) hd]
        exact insert_erase k s o (by omega) ho
    | transpose i j =>
      dsimp only at hp
      cases hi : normDim s.length i with
      | error e => rw [hi] at hp; cases hp
      | ok i' =>
        cases hj : normDim s.length j with
        | error e => rw [hi, ok_bind, hj] at hp; cases hp
        | ok j' =>
          rw [hi, ok_bind, hj, ok_bind] at hp
          cases hp
          refine ⟨_, rfl, ?_⟩
          intro k hk
          have h1 := normDim_lt hi
          have h2 := normDim_lt hj
          have hl := valid_length ho
          rw [exchange_length] at hl
          rw [← normDim_eq (by omega) hi, ← normDim_eq (by omega) hj, exchange_getD i' j' k o (by omega) (by omega)]
          split <;> split <;> simp_all
    | narrow d start len =>
      dsimp only at hp
      by_cases hs : s = []
      · rw [if_pos hs] at hp
        cases hp
      rw [if_neg hs] at hp
      have hpos := List.length_pos_of_ne_nil hs
      cases hd : normDim s.length d with
      | error e => rw [hd] at hp; cases hp
      | ok k' =>
        rw [hd, ok_bind] at hp
        have hk' := normDim_lt hd
        split at hp
        · cases hp
          refine ⟨_, rfl, ?_⟩
          intro k hk
          have hl := valid_length ho
          rw [List.length_set] at hl
          rw [← normDim_eq (by omega) hd, getD_set' _ _ _ _ (by omega)]
          split <;> simp_all
        · cases hp
    | «repeat» ks =>
      dsimp only at hp
      by_cases hk : ks.length < s.length
      · rw [if_pos hk] at hp
        cases hp
      rw [if_neg hk] at hp
      cases hp
      refine ⟨_, rfl, ?_⟩
      intro k hk'
      have hl := valid_length ho
      simp only [List.length_zipWith, List.length_append, List.length_replicate] at hl
      have h1 : k + (ks.length - s.length) < o.length := by omega
      simp [List.getD_eq_getElem?_getD, List.getElem?_zipWith, List.getElem?_drop, hk', h1, Nat.add_comm (ks.length - s.length) k]

theorem set_eq_insert (d i : Nat) (o : List Nat) (h : d < o.length) : o.set d i = (o.eraseIdx d).insertIdx d i := by
  induction d generalizing o with
  | zero => cases o <;> simp at h ⊢
  | succ d ih =>
    cases o with
    | nil => simp at h
    | cons a o => simpa using ih o (by simpa using h)

theorem erase_insert (d : Nat) (p : List Nat) (h : d < p.length) : p = (p.eraseIdx d).insertIdx d (p.getD d 0) := by
  rw [← set_eq_insert d _ p h]
  simp [List.getD_eq_getElem?_getD, h]

theorem sum_slice (s : List Nat) (d : Nat) (hd : d < s.length) (o : List Nat) (f : List Nat → T) (ho : d ≤ o.length)
    (hv : ∀ i < s.getD d 0, ValidIdx s (o.insertIdx d i)) :
    ((List.range (s.getD d 0)).map fun i => f (o.insertIdx d i)).sum = ∑ p ∈ positions s with p.eraseIdx d = o, f p := by
  rw [← List.sum_toFinset _ List.nodup_range]
  refine Finset.sum_nbij (fun i => o.insertIdx d i) ?_ ?_ ?_ (fun _ _ => rfl)
  · intro i hi
    have hi : i < s.getD d 0 := by simpa using hi
    simp only [Finset.mem_filter, positions, List.mem_toFinset, mem_indices]
    exact ⟨hv i hi, by simp⟩
  · intro i _ j _ e
    have := congrArg (fun l : List Nat => l.getD d 0) e
    simpa [List.getD_eq_getElem?_getD, List.getElem?_insertIdx_self, ho] using this
  · intro p hp
    simp only [Finset.coe_filter, positions, List.mem_toFinset, mem_indices, Set.mem_ofPred_eq] at hp
    have hl := valid_length hp.1
    refine ⟨p.getD d 0, ?_, ?_⟩
    · simpa using valid_getD hp.1 d hd
    · dsimp only
      rw [← hp.2]
      exact (erase_insert d p (by omega)).symm

/-- C66: `sum` over a dimension adds up, at each position of the result, the elements that have the other coordinates. -/
theorem C66_sum_elements (x : Tensor T) (d : Int) (keep : Bool) (y : Tensor T) (hx : x.shape ≠ [])
    (h : (Method.sumDim d keep).run x = .ok y) (o : List Nat) (ho : ValidIdx y.shape o) :
    y.at_ o = ∑ p ∈ positions x.shape with
      p.eraseIdx (dimOf x.shape.length d) = (if keep then o.eraseIdx (dimOf x.shape.length d) else o), x.at_ p := by
  unfold Method.run at h
  cases hp : (Method.sumDim d keep).plan x.shape with
  | error e => rw [hp] at h; cases h
  | ok pl =>
    obtain ⟨r, src⟩ := pl
    rw [hp, ok_bind] at h
    cases h
    have hv := plan_valid hp o ho
    dsimp only at ho ⊢
    generalize x.shape = s at *
    have hpos := List.length_pos_of_ne_nil hx
    unfold Method.plan at hp
    dsimp only at hp
    cases hd : normDim s.length d with
    | error e => rw [hd] at hp; cases hp
    | ok k =>
      rw [hd, ok_bind, if_neg hx] at hp
      have hk : k < s.length := by have := normDim_lt hd; omega
      rw [← normDim_eq (by omega) hd]
      cases keep
      · cases hp
        have hl := valid_length ho
        rw [List.length_eraseIdx_of_lt hk] at hl
        rw [List.map_map]
        refine sum_slice s k hk o x.at_ (by omega) fun i hi => hv _ (List.mem_map.mpr ⟨i, by simpa using hi, rfl⟩)
      · cases hp
        have hl := valid_length ho
        rw [List.length_set] at hl
        rw [List.map_map]
        have e : (fun i => x.at_ (o.set k i)) = fun i => x.at_ ((o.eraseIdx k).insertIdx k i) := by
          funext i
          rw [set_eq_insert k i o (by omega)]
        simp only [if_true]
        refine Eq.trans (congrArg List.sum (congrArg (fun g => List.map g _) e)) ?_
        refine sum_slice s k hk (o.eraseIdx k) x.at_ (by rw [List.length_eraseIdx_of_lt (by omega)]; omega) fun i hi =>
          hv _ (List.mem_map.mpr ⟨i, by simpa using hi, set_eq_insert k i o (by omega)⟩)

/-- C66: `sum` adds up all elements. -/
theorem C66_sum_all (x y : Tensor T) (h : Method.sum.run x = .ok y) : y.shape = [] ∧ ∀ o, y.at_ o = ∑ p ∈ positions x.shape, x.at_ p := by
  cases h
  exact ⟨rfl, fun o => (sum_positions _ _).symm⟩

example : ∃ y, (Method.narrow 1 1 2).run (tensor [2, 3] [1, 2, 3, 4, 5, 6]) = .ok y ∧ y.shape = [2, 2] ∧
    Moves (.narrow 1 1 2) [2, 3] y.shape [1, 0] [1, 1] ∧ y.at_ [1, 0] = 5 := by
  refine ⟨_, rfl, rfl, ?_, rfl⟩
  unfold Moves
  decide

example : ∃ y, (Method.sumDim (-1) false).run (tensor [2, 3] [1, 2, 3, 4, 5, 6]) = .ok y ∧ y.shape = [2] ∧ y.at_ [1] = 15 :=
  ⟨_, rfl, rfl, rfl⟩

end SyMPC.Shape
