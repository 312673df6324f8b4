import Verif.Model.Tensor
import Verif.Lemmas.Py

/-!
# C17: stack and cat
-/

namespace SyMPC

open Tensor

variable {T : Type}

theorem tensorSum_eq [AddCommMonoid T] (s : List Nat) (l : List (Tensor T)) (hne : l ≠ []) (hs : ∀ t ∈ l, t.shape = s) :
    Tensor.sum l = .ok ⟨s, fun i => (l.map fun t => t.at_ i).sum⟩ := by
  cases l with
  | nil => exact absurd rfl hne
  | cons a l =>
    have key : ∀ (l : List (Tensor T)) (a : Tensor T), a.shape = s → (∀ t ∈ l, t.shape = s) →
        l.foldlM Tensor.add a = (.ok ⟨s, fun i => a.at_ i + (l.map fun t => t.at_ i).sum⟩ : Py (Tensor T)) := by
      intro l
      induction l with
      | nil => intro a ha _; cases a; simp at ha; subst ha; simp [pure_eq_ok]
      | cons b l ih =>
        intro a ha hl
        rw [List.foldlM_cons]
        have hb : b.shape = s := hl b (by simp)
        have : Tensor.add a b = .ok ⟨s, fun i => a.at_ i + b.at_ i⟩ := by simp [Tensor.add, ha, hb]
        rw [this, ok_bind, ih _ rfl (fun t ht => hl t (by simp [ht]))]
        simp [add_assoc]
    have := key l a (hs a (by simp)) (fun t ht => hs t (by simp [ht]))
    simpa [Tensor.sum] using this

theorem locate_lt (sizes : List Nat) (i : Nat) (h : i < sizes.sum) : (locate sizes i).1 < sizes.length := by
  induction sizes generalizing i with
  | nil => simp at h
  | cons d ds ih =>
    simp only [locate]
    split
    · simp
    · simp only [List.length_cons]
      have := ih (i - d) (by simp at h; omega)
      omega

/-- the tensors a party holds -/
def nth [Zero T] (r : Nat) (t : ShapedShares T) : Tensor T := t.shares.getD r ⟨[], fun _ => 0⟩

/-- a secret tensor shared among `n` parties -/
structure ShapedShares.Ok (n : Nat) (t : ShapedShares T) : Prop where
  len : t.shares.length = n
  shapes : ∀ sh ∈ t.shares, sh.shape = t.shape

theorem shares_eq_nth [Zero T] {n : Nat} {t : ShapedShares T} (h : t.Ok n) : t.shares = (List.range n).map (nth · t) := by
  apply List.ext_getElem
  · simp [h.len]
  · intro i h1 h2
    simp [nth, List.getD_eq_getElem?_getD, List.getElem?_eq_getElem h1]

theorem nth_shape [Zero T] {n : Nat} {t : ShapedShares T} (h : t.Ok n) {r : Nat} (hr : r < n) : (nth r t).shape = t.shape := by
  apply h.shapes
  rw [shares_eq_nth h]
  exact List.mem_map.mpr ⟨r, List.mem_range.mpr hr, rfl⟩

theorem locals_eq [Zero T] {n : Nat} (ts : List (ShapedShares T)) (h : ∀ t ∈ ts, t.Ok n) (r : Nat) (hr : r < n) :
    ts.mapM (fun t => pyGet t.shares r) = .ok (ts.map (nth r)) := by
  apply mapM_ok
  intro t ht
  rw [pyGet_ok (by rw [(h t ht).len]; exact hr)]
  simp [nth, List.getD_eq_getElem?_getD, List.getElem?_eq_getElem (show r < t.shares.length by rw [(h t ht).len]; exact hr)]

/-- what a shared tensor stands for -/
def opened [AddCommMonoid T] (t : ShapedShares T) : Tensor T := ⟨t.shape, fun i => (t.shares.map fun s => s.at_ i).sum⟩

theorem reconstruct_opened [AddCommMonoid T] {n : Nat} (hn : 0 < n) {t : ShapedShares T} (h : t.Ok n) :
    t.reconstruct = .ok (opened t) :=
  tensorSum_eq t.shape t.shares (by intro h0; have := h.len; rw [h0] at this; simp at this; omega) h.shapes

/-- C17 (partial): stacking along dimension 0 agrees with torch.  Missing: every other dimension, see
`C17_stack_dim_ignored`. -/
theorem C17_stack_partial [AddCommMonoid T] (n : Nat) (hn : 0 < n) (s : List Nat) (ts : List (ShapedShares T)) (hne : ts ≠ [])
    (hok : ∀ t ∈ ts, t.Ok n ∧ t.shape = s) :
    ∃ z v w vs, stackSecret n ts 0 = .ok z ∧ z.reconstruct = .ok v ∧ ts.mapM ShapedShares.reconstruct = .ok vs ∧
      Tensor.stack vs 0 = .ok w ∧ Same v w ∧ z.shape = w.shape := by
  -- stack of any list of tensors of shape s indexed by ts
  have hst : ∀ {U : Type} (g : ShapedShares T → Tensor U), (∀ t ∈ ts, (g t).shape = s) →
      ∃ d, Tensor.stack (ts.map g) 0 = .ok ⟨ts.length :: s, d⟩ ∧
        ∀ i is, (h : i < ts.length) → d (i :: is) = (g ts[i]).at_ is := by
    intro U g hg
    cases ts with
    | nil => exact absurd rfl hne
    | cons t0 rest =>
      have h0 := hg t0 (by simp)
      refine ⟨fun idx => match ((t0 :: rest).map g)[idx.getD 0 0]? with
        | some u => u.at_ (idx.eraseIdx 0)
        | none => (g t0).at_ idx, ?_, ?_⟩
      · simp only [List.map_cons, Tensor.stack]
        rw [if_neg (by omega), if_pos]
        · simp [h0]
          funext idx
          split <;> simp_all
        · rw [List.all_eq_true]
          intro u hu
          rw [← List.map_cons] at hu
          obtain ⟨t, ht, rfl⟩ := List.mem_map.mp hu
          simp [hg t ht, h0]
      · intro i is hi
        have : ((t0 :: rest).map g)[i]? = some (g (t0 :: rest)[i]) := by
          rw [List.getElem?_map, List.getElem?_eq_getElem hi]; rfl
        simp only [List.getD_cons_zero, this]
        rfl
  have hshape : ∀ t ∈ ts, t.shape = s := fun t ht => (hok t ht).2
  obtain ⟨dexp, he, _⟩ := hst (fun t => (⟨t.shape, fun _ => ()⟩ : Tensor Unit)) hshape
  obtain ⟨dw, hw, hw'⟩ := hst opened hshape
  have hparty : ∀ r, r < n → ∃ d, Tensor.stack (ts.map (nth r)) 0 = .ok ⟨ts.length :: s, d⟩ ∧
      ∀ i is, (h : i < ts.length) → d (i :: is) = (nth r ts[i]).at_ is := by
    intro r hr
    exact hst (nth r) (fun t ht => by rw [nth_shape (hok t ht).1 hr, hshape t ht])
  choose! D hD hD' using hparty
  have hshares : (List.range n).mapM (fun r => do
      let local_ ← ts.mapM fun (t : ShapedShares T) => pyGet t.shares r
      Tensor.stack local_ 0) = .ok ((List.range n).map fun r => (⟨ts.length :: s, D r⟩ : Tensor T)) := by
    apply mapM_ok
    intro r hr
    have hr := List.mem_range.mp hr
    rw [locals_eq ts (fun t ht => (hok t ht).1) r hr, ok_bind, hD r hr]
  have hvs : ts.mapM ShapedShares.reconstruct = .ok (ts.map opened) :=
    mapM_ok _ _ _ (fun t ht => reconstruct_opened hn (hok t ht).1)
  refine ⟨⟨ts.length :: s, (List.range n).map fun r => (⟨ts.length :: s, D r⟩ : Tensor T)⟩,
    ⟨ts.length :: s, fun i => (((List.range n).map fun r => (⟨ts.length :: s, D r⟩ : Tensor T)).map fun t => t.at_ i).sum⟩, _, _, ?_, ?_, hvs, hw, ?_, rfl⟩
  · unfold stackSecret
    rw [hshares, ok_bind, he, ok_bind]
    rfl
  · exact tensorSum_eq (ts.length :: s) _ (by simp; omega) (by
      intro t ht
      obtain ⟨r, _, rfl⟩ := List.mem_map.mp ht
      rfl)
  · refine ⟨rfl, ?_⟩
    intro idx hidx
    cases idx with
    | nil => exact absurd hidx (by simp [ValidIdx])
    | cons i is =>
      have hi : i < ts.length := hidx.1
      dsimp only
      rw [hw' i is hi]
      simp only [opened, List.map_map]
      rw [shares_eq_nth (hok _ (List.getElem_mem hi)).1, List.map_map]
      congr 1
      apply List.map_congr_left
      intro r hr
      simp only [Function.comp]
      rw [hD' r (List.mem_range.mp hr) i is hi]

/-- C17 (partial): concatenating along dimension 0 agrees with torch.  Missing: every other dimension, see
`C17_cat_dim_ignored`. -/
theorem C17_cat_partial [AddCommMonoid T] (n : Nat) (hn : 0 < n) (rest : List Nat) (ts : List (ShapedShares T)) (hne : ts ≠ [])
    (hok : ∀ t ∈ ts, t.Ok n ∧ ∃ d, t.shape = d :: rest) :
    ∃ z v w vs, catSecret n ts 0 = .ok z ∧ z.reconstruct = .ok v ∧ ts.mapM ShapedShares.reconstruct = .ok vs ∧
      Tensor.cat vs 0 = .ok w ∧ Same v w ∧ z.shape = w.shape := by
  let sizes := ts.map fun t => t.shape.getD 0 0
  have hst : ∀ {U : Type} (g : ShapedShares T → Tensor U), (∀ t ∈ ts, (g t).shape = t.shape) →
      ∃ d, Tensor.cat (ts.map g) 0 = .ok ⟨sizes.sum :: rest, d⟩ ∧
        ∀ i is, (h : (locate sizes i).1 < ts.length) →
          d (i :: is) = (g ts[(locate sizes i).1]).at_ ((locate sizes i).2 :: is) := by
    intro U g hg
    have hsz : (ts.map g).map (fun u => u.shape.getD 0 0) = sizes := by
      rw [List.map_map]
      apply List.map_congr_left
      intro t ht
      simp [hg t ht]
    obtain ⟨L, hL⟩ : ∃ L, L = ts.map g := ⟨_, rfl⟩
    have hLget : ∀ i (h : i < ts.length), L[i]? = some (g ts[i]) := by
      intro i h
      rw [hL, List.getElem?_map, List.getElem?_eq_getElem h]; rfl
    have hLshape : ∀ u ∈ L, ∃ d, u.shape = d :: rest := by
      intro u hu
      rw [hL] at hu
      obtain ⟨t, ht, rfl⟩ := List.mem_map.mp hu
      rw [hg t ht]
      exact (hok t ht).2
    rw [← hL] at hsz ⊢
    cases L with
    | nil =>
      have := congrArg List.length hL
      simp at this
      exact absurd (List.length_eq_zero_iff.mp this.symm) hne
    | cons u0 us =>
      obtain ⟨d0, hd0⟩ := hLshape u0 (by simp)
      refine ⟨fun idx =>
        let p := locate sizes (idx.getD 0 0)
        match (u0 :: us)[p.1]? with
        | some u => u.at_ (idx.set 0 p.2)
        | none => u0.at_ idx, ?_, ?_⟩
      · simp only [Tensor.cat]
        rw [if_neg (by simp [hd0]), if_pos]
        · rw [hsz, hd0]
          rfl
        · rw [List.all_eq_true]
          intro u hu
          obtain ⟨d, hd⟩ := hLshape u hu
          simp [hd, hd0]
      · intro i is hi
        simp only [List.getD_cons_zero]
        rw [hLget _ hi]
        rfl
  obtain ⟨dexp, he, _⟩ := hst (fun t => (⟨t.shape, fun _ => ()⟩ : Tensor Unit)) (fun _ _ => rfl)
  obtain ⟨dw, hw, hw'⟩ := hst opened (fun _ _ => rfl)
  have hparty : ∀ r, r < n → ∃ d, Tensor.cat (ts.map (nth r)) 0 = .ok ⟨sizes.sum :: rest, d⟩ ∧
      ∀ i is, (h : (locate sizes i).1 < ts.length) →
        d (i :: is) = (nth r ts[(locate sizes i).1]).at_ ((locate sizes i).2 :: is) := by
    intro r hr
    exact hst (nth r) (fun t ht => nth_shape (hok t ht).1 hr)
  choose! D hD hD' using hparty
  have hshares : (List.range n).mapM (fun r => do
      let local_ ← ts.mapM fun (t : ShapedShares T) => pyGet t.shares r
      Tensor.cat local_ 0) = .ok ((List.range n).map fun r => (⟨sizes.sum :: rest, D r⟩ : Tensor T)) := by
    apply mapM_ok
    intro r hr
    have hr := List.mem_range.mp hr
    rw [locals_eq ts (fun t ht => (hok t ht).1) r hr, ok_bind, hD r hr]
  have hvs : ts.mapM ShapedShares.reconstruct = .ok (ts.map opened) :=
    mapM_ok _ _ _ (fun t ht => reconstruct_opened hn (hok t ht).1)
  refine ⟨⟨sizes.sum :: rest, (List.range n).map fun r => (⟨sizes.sum :: rest, D r⟩ : Tensor T)⟩,
    ⟨sizes.sum :: rest, fun i => (((List.range n).map fun r => (⟨sizes.sum :: rest, D r⟩ : Tensor T)).map fun t => t.at_ i).sum⟩, _, _, ?_, ?_, hvs, hw, ?_, rfl⟩
  · unfold catSecret
    rw [hshares, ok_bind, he, ok_bind]
    rfl
  · exact tensorSum_eq (sizes.sum :: rest) _ (by simp; omega) (by
      intro t ht
      obtain ⟨r, _, rfl⟩ := List.mem_map.mp ht
      rfl)
  · refine ⟨rfl, ?_⟩
    intro idx hidx
    cases idx with
    | nil => exact absurd hidx (by simp [ValidIdx])
    | cons i is =>
      have hi : (locate sizes i).1 < ts.length := by
        have := locate_lt sizes i hidx.1
        simpa [sizes] using this
      dsimp only
      rw [hw' i is hi]
      simp only [opened, List.map_map]
      rw [shares_eq_nth (hok _ (List.getElem_mem hi)).1, List.map_map]
      congr 1
      apply List.map_congr_left
      intro r hr
      simp only [Function.comp]
      rw [hD' r (List.mem_range.mp hr) i is hi]

/-- two 2x2 matrices, each shared between two parties -/
def exA : ShapedShares Int := ⟨[2, 2], [ofRows [[1, 2], [3, 4]], ofRows [[0, 0], [0, 0]]]⟩
def exB : ShapedShares Int := ⟨[2, 2], [ofRows [[5, 6], [7, 0]], ofRows [[0, 0], [0, 8]]]⟩

example : exA.Ok 2 ∧ exB.Ok 2 := ⟨⟨rfl, by intro s h; simp [exA] at h; rcases h with rfl | rfl <;> rfl⟩,
  ⟨rfl, by intro s h; simp [exB] at h; rcases h with rfl | rfl <;> rfl⟩⟩

/-- C17 fails for `cat` along dimension 1: the value is that of dimension 0, of shape 4x2, while the shape claimed is 2x4. -/
theorem C17_cat_dim_ignored :
    ∃ z v w, catSecret 2 [exA, exB] 1 = .ok z ∧ z.shape = [2, 4] ∧ z.reconstruct = .ok v ∧
      v.rows = [[1, 2], [3, 4], [5, 6], [7, 8]] ∧
      Tensor.cat [opened exA, opened exB] 1 = .ok w ∧ w.rows = [[1, 2, 5, 6], [3, 4, 7, 8]] := by
  refine ⟨_, _, _, rfl, rfl, rfl, ?_, rfl, ?_⟩ <;> decide +kernel

/-- C17 fails for `stack` along dimension 1: for square operands not even the shape shows it. -/
theorem C17_stack_dim_ignored :
    let a : ShapedShares Int := ⟨[2], [ofList [1, 2], ofList [0, 0]]⟩
    let b : ShapedShares Int := ⟨[2], [ofList [3, 4], ofList [0, 0]]⟩
    ∃ z v w, stackSecret 2 [a, b] 1 = .ok z ∧ z.shape = [2, 2] ∧ z.reconstruct = .ok v ∧ v.shape = [2, 2] ∧
      v.rows = [[1, 2], [3, 4]] ∧
      Tensor.stack [opened a, opened b] 1 = .ok w ∧ w.rows = [[1, 3], [2, 4]] := by
  refine ⟨_, _, _, rfl, rfl, rfl, rfl, ?_, rfl, ?_⟩ <;> decide +kernel

theorem mapM_length {α β : Type} {f : α → Py β} {l : List α} {r : List β} (h : l.mapM f = .ok r) : r.length = l.length := by
  induction l generalizing r with
  | nil => cases h; rfl
  | cons a l ih =>
    rw [List.mapM_cons] at h
    cases ha : f a with
    | error e => rw [ha, error_bind] at h; cases h
    | ok b =>
      cases hl : l.mapM f with
      | error e => rw [ha, ok_bind, hl, error_bind] at h; cases h
      | ok bs =>
        rw [ha, ok_bind, hl, ok_bind, pure_eq_ok] at h
        cases h
        simp [ih hl]

/-- C17: `cat` of tensors that fit together accepts exactly the dimensions they have, otherwise the error is torch's `IndexError`. -/
theorem C17_cat_dims [AddCommMonoid T] (n : Nat) (hn : 0 < n) (s : List Nat) (hs : s ≠ []) (ts : List (ShapedShares T)) (hne : ts ≠ [])
    (hok : ∀ t ∈ ts, t.Ok n ∧ t.shape = s) (dim : Nat) :
    (s.length ≤ dim → catSecret n ts dim = .error .indexError) ∧
    (dim < s.length → ∃ z, catSecret n ts dim = .ok z ∧ z.shares.length = n ∧ z.shape = s.set dim (ts.length * s.getD dim 0)) := by
  obtain ⟨d, rest, rfl⟩ := List.exists_cons_of_ne_nil hs
  obtain ⟨z0, _, _, _, h0, -⟩ := C17_cat_partial n hn rest ts hne fun t ht => ⟨(hok t ht).1, d, (hok t ht).2⟩
  unfold catSecret at h0 ⊢
  cases hsh : (List.range n).mapM (fun r => do
      let local_ ← ts.mapM fun (t : ShapedShares T) => pyGet t.shares r
      Tensor.cat local_ 0) with
  | error e => rw [hsh, error_bind] at h0; cases h0
  | ok shares =>
    have hlen : shares.length = n := by simpa using mapM_length hsh
    simp only [ok_bind]
    cases ts with
    | nil => exact absurd rfl hne
    | cons t rest' =>
      have ht := (hok t (by simp)).2
      simp only [List.map_cons, Tensor.cat, ht]
      constructor
      · intro h
        rw [if_pos h]
        rfl
      · intro h
        rw [if_neg (by omega), if_pos]
        · refine ⟨_, rfl, hlen, ?_⟩
          have e : rest'.map (fun u => u.shape.getD dim 0) = List.replicate rest'.length ((d :: rest).getD dim 0) := by
            rw [List.eq_replicate_iff]
            refine ⟨by simp, fun b hb => ?_⟩
            obtain ⟨u, hu, rfl⟩ := List.mem_map.mp hb
            rw [(hok u (by simp [hu])).2]
          have e2 : (rest'.map fun t => (⟨t.shape, fun _ => ()⟩ : Tensor Unit)).map (fun u => u.shape.getD dim 0)
              = List.replicate rest'.length ((d :: rest).getD dim 0) := by
            rw [List.map_map, ← e]
            rfl
          simp only [e2, List.sum_cons, List.sum_replicate, List.length_cons, smul_eq_mul]
          congr 1
          ring
        · rw [List.all_eq_true]
          intro u hu
          obtain ⟨v, hv, rfl⟩ : ∃ v ∈ t :: rest', (⟨v.shape, fun _ => ()⟩ : Tensor Unit) = u := by
            rcases List.mem_cons.mp hu with rfl | hu
            · exact ⟨t, by simp, by simp [ht]⟩
            · obtain ⟨v, hv, rfl⟩ := List.mem_map.mp hu
              exact ⟨v, by simp [hv], rfl⟩
          simp [(hok v hv).2]

/-- C17: `stack` of tensors of one shape accepts exactly the dimensions of the result. -/
theorem C17_stack_dims [AddCommMonoid T] (n : Nat) (hn : 0 < n) (s : List Nat) (ts : List (ShapedShares T)) (hne : ts ≠ [])
    (hok : ∀ t ∈ ts, t.Ok n ∧ t.shape = s) (dim : Nat) :
    (s.length < dim → stackSecret n ts dim = .error .indexError) ∧
    (dim ≤ s.length → ∃ z, stackSecret n ts dim = .ok z ∧ z.shares.length = n ∧ z.shape = s.insertIdx dim ts.length) := by
  obtain ⟨z0, _, _, _, h0, -⟩ := C17_stack_partial n hn s ts hne hok
  unfold stackSecret at h0 ⊢
  cases hsh : (List.range n).mapM (fun r => do
      let local_ ← ts.mapM fun (t : ShapedShares T) => pyGet t.shares r
      Tensor.stack local_ 0) with
  | error e => rw [hsh, error_bind] at h0; cases h0
  | ok shares =>
    have hlen : shares.length = n := by simpa using mapM_length hsh
    simp only [ok_bind]
    cases ts with
    | nil => exact absurd rfl hne
    | cons t rest' =>
      have ht := (hok t (by simp)).2
      simp only [List.map_cons, Tensor.stack, ht]
      constructor
      · intro h
        rw [if_pos h]
        rfl
      · intro h
        rw [if_neg (by omega), if_pos]
        · exact ⟨_, rfl, hlen, by simp⟩
        · rw [List.all_eq_true]
          intro u hu
          obtain ⟨v, hv, rfl⟩ : ∃ v ∈ t :: rest', (⟨v.shape, fun _ => ()⟩ : Tensor Unit) = u := by
            rcases List.mem_cons.mp hu with rfl | hu
            · exact ⟨t, by simp, by simp [ht]⟩
            · obtain ⟨v, hv, rfl⟩ := List.mem_map.mp hu
              exact ⟨v, by simp [hv], rfl⟩
          simp [(hok v hv).2]

/-- C17: tensors of different shapes are not stacked; torch raises `RuntimeError` at the first party. -/
theorem C17_stack_shapes [Zero T] (n : Nat) (hn : 0 < n) (ts : List (ShapedShares T)) (hok : ∀ t ∈ ts, t.Ok n) (t u : ShapedShares T)
    (ht : t ∈ ts) (hu : u ∈ ts) (hne : t.shape ≠ u.shape) (dim : Nat) : stackSecret n ts dim = .error .runtimeError := by
  obtain ⟨k, rfl⟩ : ∃ k, n = k + 1 := ⟨n - 1, by omega⟩
  unfold stackSecret
  rw [List.range_succ_eq_map, List.mapM_cons, locals_eq ts hok 0 (by omega), ok_bind]
  have : Tensor.stack (ts.map (nth 0)) 0 = .error .runtimeError := by
    cases ts with
    | nil => cases ht
    | cons t0 rest =>
      simp only [List.map_cons, Tensor.stack]
      rw [if_neg (by omega), if_neg]
      rw [← List.map_cons, List.all_eq_true]
      intro h
      have hs : ∀ v ∈ t0 :: rest, v.shape = t0.shape := by
        intro v hv
        have := h _ (List.mem_map.mpr ⟨v, hv, rfl⟩)
        rw [decide_eq_true_eq, nth_shape (hok v hv) (by omega), nth_shape (hok t0 (by simp)) (by omega)] at this
        exact this
      exact hne ((hs t ht).trans (hs u hu).symm)
  rw [this]
  rfl

example : catSecret 2 [exA, exB] 2 = .error .indexError ∧ stackSecret 2 [exA, exB] 3 = .error .indexError ∧
    (∃ z, stackSecret 2 [exA, exB] 2 = .ok z ∧ z.shape = [2, 2, 2]) ∧
    stackSecret 2 [exA, ⟨[2], [ofList [1, 2], ofList [0, 0]]⟩] 0 = .error .runtimeError := ⟨rfl, rfl, ⟨_, rfl, rfl⟩, rfl⟩

end SyMPC
