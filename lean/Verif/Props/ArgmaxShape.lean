import Verif.Model.ArgmaxShape
import Verif.Spec.ArgmaxShape
import Verif.Props.Shape
import Verif.Lemmas.Grad

/-!
# C85: `argmax` and `max` of secret tensors with any shape

Without `dim` the numbers of comparisons that an element has to win come from the last dimension, not from the number of elements.
-/

namespace SyMPC.Argmax

open Tensor Shape

variable {R : Type}

/-! ## Dimensions -/

theorem normDim_inside {n : Nat} {d : Int} (h : -(n : Int) ≤ d ∧ d < n) : normDim n d = .ok (dimOf n d) ∧ dimOf n d < n := by
  have e : max n 1 = n := by omega
  unfold normDim dimOf
  rw [e]
  dsimp only
  constructor
  · split
    · rw [if_neg (by omega)]
    · rw [if_pos (by omega), if_pos (by omega)]
  · split <;> omega

theorem normDim_outside {n : Nat} {d : Int} (hn : n ≠ 0) (h : ¬(-(n : Int) ≤ d ∧ d < n)) : normDim n d = .error .indexError := by
  have e : max n 1 = n := by omega
  unfold normDim
  rw [e]
  dsimp only
  rw [if_neg (by omega), if_neg (by omega)]

theorem sizeAt_inside {s : List Nat} {d : Int} (h : -(s.length : Int) ≤ d ∧ d < s.length) :
    sizeAt s d = .ok (s.getD (dimOf s.length d) 0) := by
  have key : ∀ k < s.length, pyGet s k = .ok (s.getD k 0) := by
    intro k hk
    simp [pyGet, List.getD_eq_getElem?_getD, hk]
  unfold sizeAt dimOf
  split
  · rw [if_neg (by omega)]
    exact key _ (by omega)
  · rw [if_pos (by omega), if_pos (by omega)]
    exact key _ (by omega)

theorem sizeAt_outside {s : List Nat} {d : Int} (h : ¬(-(s.length : Int) ≤ d ∧ d < s.length)) : sizeAt s d = .error .indexError := by
  unfold sizeAt
  split
  · have : s.length ≤ d.toNat := by omega
    simp [pyGet, this]
  · rw [if_neg (by omega)]

/-- the number of entries compared, at least 2 -/
def rows (n : Nat) : Nat := if 1 < n then n else 2

theorem rows_pos (n : Nat) : 0 < rows n - 1 := by
  unfold rows
  split <;> omega

theorem rowLength_inside {s : List Nat} {dim : Option Int} (h : -(s.length : Int) ≤ dim.getD (-1) ∧ dim.getD (-1) < s.length) :
    rowLength s dim = .ok (rows (s.getD (dimOf s.length (dim.getD (-1))) 0)) := by
  unfold rowLength
  rw [sizeAt_inside h]
  rfl

/-! ## Comparing all pairs -/

/-- the coordinate compared with the coordinate `p` in round `i` -/
def partner (n p i : Nat) : Nat := (p + (n - (i + 1) % n)) % n

theorem stack_ok {T : Type} (m : Nat) (s : List Nat) (f : Nat → List Nat → T) (hm : 0 < m) :
    ∃ b, stack ((List.range m).map fun i => (⟨s, f i⟩ : Tensor T)) 0 = .ok b ∧ b.shape = m :: s ∧
      ∀ i o, i < m → b.at_ (i :: o) = f i o := by
  obtain ⟨m, rfl⟩ : ∃ k, m = k + 1 := ⟨m - 1, by omega⟩
  have hl : (List.range (m + 1)).map (fun i => (⟨s, f i⟩ : Tensor T)) = ⟨s, f 0⟩ :: (List.range m).map fun i => ⟨s, f (i + 1)⟩ := by
    rw [List.range_succ_eq_map, List.map_cons, List.map_map]
    rfl
  rw [hl]
  unfold stack
  dsimp only
  rw [if_neg (by omega), if_pos (by simp)]
  refine ⟨_, rfl, by simp, ?_⟩
  intro i o hi
  dsimp only
  rw [← hl]
  simp [hi]

variable [Ring R] [LinearOrder R] [IsStrictOrderedRing R]

omit [LinearOrder R] [IsStrictOrderedRing R] in
theorem pairwise_ok (x : Tensor R) (dim : Option Int)
    (h : -(x.shape.length : Int) ≤ dim.getD (-1) ∧ dim.getD (-1) < x.shape.length) :
    ∃ r, pairwise x dim = .ok r ∧
      r.shape = (rows (x.shape.getD (dimOf x.shape.length (dim.getD (-1))) 0) - 1) :: x.shape ∧
      ∀ i o, ValidIdx r.shape (i :: o) →
        r.at_ (i :: o) = x.at_ o - x.at_ (o.set (dimOf x.shape.length (dim.getD (-1)))
          (partner (x.shape.getD (dimOf x.shape.length (dim.getD (-1))) 0) (o.getD (dimOf x.shape.length (dim.getD (-1))) 0) i)) := by
  unfold pairwise
  rw [rowLength_inside h, ok_bind]
  obtain ⟨hd, -⟩ := normDim_inside h
  generalize dim.getD (-1) = d at *
  generalize dimOf x.shape.length d = k at *
  generalize hn : x.shape.getD k 0 = n
  have hroll : (fun i => roll (i + 1) d x) = fun i =>
      (pure (⟨x.shape, fun o => x.at_ (o.set k (partner n (o.getD k 0) i))⟩ : Tensor R) : Py (Tensor R)) := by
    funext i
    unfold roll
    rw [hd, ok_bind]
    dsimp only
    rw [hn]
    rfl
  dsimp only
  rw [hroll, List.mapM_pure]
  change ∃ r, ((Except.ok _ : Py _) >>= _) = Except.ok r ∧ _
  rw [ok_bind]
  obtain ⟨b, hb, hs, hv⟩ := stack_ok (rows n - 1) x.shape (fun i o => x.at_ (o.set k (partner n (o.getD k 0) i))) (rows_pos n)
  rw [hb, ok_bind]
  obtain ⟨r, h1, h2, h3⟩ := Grad.zip_same (· - ·) (expand (rows n - 1) x) b hs
  refine ⟨r, h1, h2, ?_⟩
  intro i o ho
  rw [h2] at ho
  rw [h3 _ ho, hv i o ho.1]
  rfl

theorem broadcastShape_one (s : List Nat) (h : s ≠ []) : broadcastShape [1] s = .ok s := by
  unfold broadcastShape
  cases hs : s.reverse with
  | nil => simp at hs; exact absurd hs h
  | cons a t =>
    have e : broadcastDim 1 a = .ok a := by
      unfold broadcastDim
      split
      · simp_all
      · rfl
    simp only [List.reverse_cons, List.reverse_nil, List.nil_append, broadcastRev, e]
    have : s = t.reverse ++ [a] := by rw [← List.reverse_cons, ← hs, List.reverse_reverse]
    rw [this]
    simp [bind, Except.bind, pure, Except.pure, Functor.map, Except.map]

omit [IsStrictOrderedRing R] in
theorem geNumber_ok (x : Tensor R) (c : R) (h : x.shape ≠ []) :
    ∃ r, geNumber x c = .ok r ∧ r.shape = x.shape ∧ ∀ o, ValidIdx x.shape o → r.at_ o = if c ≤ x.at_ o then 1 else 0 := by
  refine ⟨_, Grad.zip_ok _ _ _ _ (broadcastShape_one _ h), rfl, ?_⟩
  intro o ho
  dsimp only
  rw [Grad.sourceIdx_self _ _ ho]

omit [LinearOrder R] [IsStrictOrderedRing R] in
theorem sumFirst_ok (x : Tensor R) (m : Nat) (s : List Nat) (h : x.shape = m :: s) :
    (Method.sumDim 0 false).run x = .ok ⟨s, fun o => ∑ i ∈ Finset.range m, x.at_ (i :: o)⟩ := by
  obtain ⟨sh, f⟩ := x
  dsimp only at h
  subst h
  unfold Method.run
  have : (Method.sumDim 0 false).plan (m :: s) = .ok (s, fun o => (List.range m).map fun i => i :: o) := by
    unfold Method.plan normDim
    dsimp only
    rw [if_pos (by simp)]
    rfl
  dsimp only
  rw [this, ok_bind]
  dsimp only
  congr 2
  funext o
  rw [List.map_map]
  rfl

theorem sumIndicator (m c : Nat) (p : Nat → Prop) [DecidablePred p] :
    ((c : R) ≤ ∑ i ∈ Finset.range m, if p i then 1 else 0) ↔ c ≤ ((Finset.range m).filter p).card := by
  rw [Finset.sum_boole]
  exact Nat.cast_le

/-- how many of the comparisons the element at `o` wins -/
def wins (x : Tensor R) (k : Nat) (o : List Nat) : Nat :=
  ((Finset.range (rows (x.shape.getD k 0) - 1)).filter fun i => x.at_ (o.set k (partner (x.shape.getD k 0) (o.getD k 0) i)) ≤ x.at_ o).card

theorem core (x : Tensor R) (dim : Option Int) (c : Nat)
    (h : -(x.shape.length : Int) ≤ dim.getD (-1) ∧ dim.getD (-1) < x.shape.length) :
    ∃ hot, (do
      let pairs ← pairwise x dim
      let comparisons ← geNumber pairs 0
      let result ← (Method.sumDim 0 false).run comparisons
      geNumber result (c : R)) = .ok hot ∧ hot.shape = x.shape ∧
      ∀ o, ValidIdx x.shape o → hot.at_ o = if c ≤ wins x (dimOf x.shape.length (dim.getD (-1))) o then 1 else 0 := by
  obtain ⟨r, h1, h2, h3⟩ := pairwise_ok x dim h
  rw [h1, ok_bind]
  obtain ⟨q, g1, g2, g3⟩ := geNumber_ok r 0 (by rw [h2]; simp)
  have hne : x.shape ≠ [] := by
    intro e
    rw [e] at h
    simp at h
    omega
  rw [g1, ok_bind, sumFirst_ok q _ _ (g2.trans h2), ok_bind]
  obtain ⟨t, e1, e2, e3⟩ := geNumber_ok (⟨x.shape, fun o => ∑ i ∈ Finset.range
    (rows (x.shape.getD (dimOf x.shape.length (dim.getD (-1))) 0) - 1), q.at_ (i :: o)⟩ : Tensor R) c hne
  refine ⟨t, e1, e2, ?_⟩
  intro o ho
  rw [e3 o ho]
  refine if_congr ?_ rfl rfl
  dsimp only
  rw [Finset.sum_congr rfl (g := fun i => if x.at_ (o.set (dimOf x.shape.length (dim.getD (-1)))
      (partner (x.shape.getD (dimOf x.shape.length (dim.getD (-1))) 0) (o.getD (dimOf x.shape.length (dim.getD (-1))) 0) i)) ≤ x.at_ o
      then (1 : R) else 0)]
  · exact sumIndicator _ _ _
  · intro i hi
    have hv : ValidIdx r.shape (i :: o) := by
      rw [h2]
      exact ⟨by simpa using hi, ho⟩
    rw [g3 _ hv, h3 i o hv]
    simp only [sub_nonneg]

theorem partner_lt (n p i : Nat) (h : 0 < n) : partner n p i < n := Nat.mod_lt _ h

theorem partner_hits (n p j : Nat) (hp : p < n) (hj : j < n) (hne : j ≠ p) : ∃ i < rows n - 1, partner n p i = j := by
  have hr : rows n = n := by
    unfold rows
    rw [if_pos (by omega)]
  rw [hr]
  unfold partner
  rcases Nat.lt_or_gt_of_ne hne with h | h
  · refine ⟨p - j - 1, by omega, ?_⟩
    rw [Nat.mod_eq_of_lt (a := p - j - 1 + 1) (by omega), show p + (n - (p - j - 1 + 1)) = j + n by omega, Nat.add_mod_right,
      Nat.mod_eq_of_lt hj]
  · refine ⟨p + n - j - 1, by omega, ?_⟩
    rw [Nat.mod_eq_of_lt (a := p + n - j - 1 + 1) (by omega), show p + (n - (p + n - j - 1 + 1)) = j by omega, Nat.mod_eq_of_lt hj]

omit [Ring R] [IsStrictOrderedRing R] in
theorem wins_all (x : Tensor R) (k : Nat) (o : List Nat) (hk : k < x.shape.length) (ho : ValidIdx x.shape o) :
    rows (x.shape.getD k 0) - 1 ≤ wins x k o ↔ Top x k o := by
  have hp := valid_getD ho k hk
  have hs : o.set k (o.getD k 0) = o := by simp [List.getD_eq_getElem?_getD, (valid_length ho).symm ▸ hk]
  unfold wins
  generalize hn : x.shape.getD k 0 = n at *
  have hc : ((Finset.range (rows n - 1)).filter fun i => x.at_ (o.set k (partner n (o.getD k 0) i)) ≤ x.at_ o).card ≤ rows n - 1 := by
    simpa using Finset.card_filter_le (Finset.range (rows n - 1)) _
  constructor
  · intro h
    have he := Finset.card_filter_eq_iff.mp ((le_antisymm hc h).trans (Finset.card_range _).symm)
    intro j hj
    rw [hn] at hj
    by_cases hne : j = o.getD k 0
    · rw [hne, hs]
    · obtain ⟨i, hi, e⟩ := partner_hits n (o.getD k 0) j hp hj hne
      have := he (x := i) (by simpa using hi)
      rwa [e] at this
  · intro h
    rw [Finset.filter_true_of_mem fun i _ => h _ (by rw [hn]; exact partner_lt n _ i (by omega)), Finset.card_range]

/-- C85: with `dim` the one hot tensor has the shape of the operand and marks exactly the elements that are largest along the
dimension. -/
theorem C85_one_hot (x : Tensor R) (d : Int) (hd : -(x.shape.length : Int) ≤ d ∧ d < x.shape.length) :
    ∃ hot, oneHot x (some d) = .ok hot ∧ hot.shape = x.shape ∧
      ∀ o, ValidIdx x.shape o →
        (Top x (dimOf x.shape.length d) o → hot.at_ o = 1) ∧ (¬Top x (dimOf x.shape.length d) o → hot.at_ o = 0) := by
  obtain ⟨hot, h1, h2, h3⟩ := core x (some d) (rows (x.shape.getD (dimOf x.shape.length d) 0) - 1) hd
  refine ⟨hot, ?_, h2, ?_⟩
  · unfold oneHot
    dsimp only
    rw [ok_bind, rowLength_inside (dim := some d) hd]
    exact h1
  · intro o ho
    rw [h3 o ho]
    dsimp only [Option.getD_some]
    have := wins_all x _ o (normDim_inside hd).2 ho
    constructor
    · intro ht
      rw [if_pos (this.mpr ht)]
    · intro ht
      rw [if_neg fun h => ht (this.mp h)]

/-! ## Numbers along a dimension -/

/-- sizes 1 except along one dimension -/
def ones (s : List Nat) (k n : Nat) : List Nat := (s.map fun _ => 1).set k n

theorem numel_map_one (s : List Nat) : Grad.numel (s.map fun _ => 1) = 1 := by
  induction s with
  | nil => rfl
  | cons a s ih => rw [List.map_cons, Grad.numel, ih]

theorem numel_ones (s : List Nat) (k n : Nat) (hk : k < s.length) : Grad.numel (ones s k n) = n := by
  unfold ones
  induction s generalizing k with
  | nil => simp at hk
  | cons a s ih =>
    cases k with
    | zero => rw [List.map_cons, List.set_cons_zero, Grad.numel, numel_map_one, Nat.mul_one]
    | succ k => simpa [Grad.numel] using ih k (by simpa using hk)

theorem flat_map_one (s o : List Nat) :
    Grad.flat (s.map fun _ => 1) (List.zipWith (fun d i => if d = 1 then 0 else i) (s.map fun _ => 1) o) = 0 := by
  induction s generalizing o with
  | nil => rfl
  | cons a s ih =>
    cases o with
    | nil => rfl
    | cons b o => simpa [Grad.flat] using ih o

theorem flat_ones (s o : List Nat) (k : Nat) (hk : k < s.length) (ho : ValidIdx s o) :
    Grad.flat (ones s k (s.getD k 0)) (sourceIdx (ones s k (s.getD k 0)) o) = o.getD k 0 := by
  unfold sourceIdx
  have hl := valid_length ho
  have h0 : o.length - (ones s k (s.getD k 0)).length = 0 := by
    unfold ones
    simp
    omega
  rw [h0, List.drop_zero]
  clear h0 hl
  unfold ones
  induction s generalizing k o with
  | nil => simp at hk
  | cons a s ih =>
    cases o with
    | nil => exact absurd ho (by simp [ValidIdx])
    | cons b o =>
      cases k with
      | zero =>
        have hb := ho.1
        simp only [List.map_cons, List.set_cons_zero, List.zipWith_cons_cons, Grad.flat, numel_map_one, flat_map_one,
          List.getD_cons_zero]
        split <;> omega
      | succ k =>
        have := ih o k (by simpa using hk) ho.2
        simpa [Grad.flat, List.getD_eq_getElem?_getD] using this

theorem resolve_nat (n : Nat) (r : List Nat) (h : Grad.numel r = n) : resolve n (r.map fun k : Nat => (k : Int)) = .ok r := by
  have h1 : (r.map fun k : Nat => (k : Int)).any (· < -1) = false := by
    simp
  have h2 : (r.map fun k : Nat => (k : Int)).filter (0 ≤ ·) = r.map fun k : Nat => (k : Int) := by
    rw [List.filter_eq_self]
    simp
  have h3 : (r.map fun k : Nat => (k : Int)).count (-1) = 0 := by
    rw [List.count_eq_zero]
    simp
  have h4 : (r.map fun k : Nat => (k : Int)).map Int.toNat = r := by simp [Function.comp_def]
  unfold resolve
  rw [h1, h2, h3, h4, h]
  simp

theorem broadcasts_ones (s : List Nat) (k : Nat) : Broadcasts (ones s k (s.getD k 0)) s := by
  unfold Broadcasts
  have hl : (ones s k (s.getD k 0)).length = s.length := by simp [ones]
  rw [hl, Nat.sub_self, List.drop_zero]
  refine ⟨le_rfl, ?_⟩
  rw [List.forall₂_iff_get]
  refine ⟨hl, ?_⟩
  intro i h1 h2
  simp only [ones, List.get_eq_getElem, List.getElem_set]
  split
  · left
    simp_all [List.getD_eq_getElem?_getD]
  · right
    simp

omit [LinearOrder R] [IsStrictOrderedRing R] in
theorem numbered_ok (hot : Tensor R) (d : Int) (hd : -(hot.shape.length : Int) ≤ d ∧ d < hot.shape.length) :
    ∃ r, numbered hot d = .ok r ∧ r.shape = hot.shape ∧
      ∀ o, ValidIdx hot.shape o → r.at_ o = hot.at_ o * (o.getD (dimOf hot.shape.length d) 0 : Nat) := by
  unfold numbered
  rw [sizeAt_inside hd, ok_bind]
  obtain ⟨-, hk⟩ := normDim_inside hd
  have hset : setSize (hot.shape.map fun _ => 1) d (hot.shape.getD (dimOf hot.shape.length d) 0) =
      .ok (ones hot.shape (dimOf hot.shape.length d) (hot.shape.getD (dimOf hot.shape.length d) 0)) := by
    unfold setSize ones dimOf
    simp only [List.length_map]
    by_cases h0 : 0 ≤ d
    · rw [if_pos (by omega), if_neg (by omega)]
    · rw [if_neg (by omega), if_pos (by omega), if_pos (by omega)]
  rw [hset, ok_bind]
  generalize dimOf hot.shape.length d = k at *
  have hv : (Method.view ((ones hot.shape k (hot.shape.getD k 0)).map fun k : Nat => (k : Int))).run
      (arange (R := R) (hot.shape.getD k 0)) =
      .ok ⟨ones hot.shape k (hot.shape.getD k 0), fun o => (Grad.flat (ones hot.shape k (hot.shape.getD k 0)) o : Nat)⟩ := by
    unfold Method.run Method.plan arange
    dsimp only
    rw [resolve_nat _ _ (by rw [numel_ones _ _ _ hk]; simp [Grad.numel])]
    simp only [bind, Except.bind, pure, Except.pure, Grad.unflat, Grad.numel, Nat.div_one, List.map_cons, List.map_nil,
      List.sum_cons, List.sum_nil, add_zero, List.getD_cons_zero]
  rw [hv, ok_bind]
  obtain ⟨r, h1, h2, h3⟩ := Grad.zip_wide (· * ·) hot (⟨ones hot.shape k (hot.shape.getD k 0), fun o =>
    ((Grad.flat (ones hot.shape k (hot.shape.getD k 0)) o : Nat) : R)⟩ : Tensor R) (broadcasts_ones _ _)
  refine ⟨r, h1, h2, ?_⟩
  intro o ho
  rw [h3 o ho]
  dsimp only
  rw [flat_ones _ _ _ hk ho]

omit [LinearOrder R] [IsStrictOrderedRing R] in
theorem sumDim_ok (x : Tensor R) (d : Int) (keep : Bool) (hd : -(x.shape.length : Int) ≤ d ∧ d < x.shape.length) :
    ∃ y, (Method.sumDim d keep).run x = .ok y ∧ y.shape = reduced keep (dimOf x.shape.length d) x.shape ∧
      (∀ o, y.at_ o = ∑ j ∈ Finset.range (x.shape.getD (dimOf x.shape.length d) 0), x.at_ (atPlace keep (dimOf x.shape.length d) o j)) ∧
      ∀ o, ValidIdx y.shape o → ∀ j < x.shape.getD (dimOf x.shape.length d) 0,
        ValidIdx x.shape (atPlace keep (dimOf x.shape.length d) o j) := by
  obtain ⟨h1, h2⟩ := normDim_inside hd
  have hne : x.shape ≠ [] := by
    intro e
    rw [e] at h2
    simp at h2
  have hp : (Method.sumDim d keep).plan x.shape = .ok (reduced keep (dimOf x.shape.length d) x.shape, fun o =>
      (List.range (x.shape.getD (dimOf x.shape.length d) 0)).map fun j => atPlace keep (dimOf x.shape.length d) o j) := by
    unfold Method.plan
    dsimp only
    rw [h1, ok_bind, if_neg hne]
    cases keep <;> rfl
  refine ⟨⟨reduced keep (dimOf x.shape.length d) x.shape, fun o =>
    (((List.range (x.shape.getD (dimOf x.shape.length d) 0)).map fun j => atPlace keep (dimOf x.shape.length d) o j).map x.at_).sum⟩,
    ?_, rfl, ?_, ?_⟩
  · unfold Method.run
    rw [hp]
    rfl
  · intro o
    dsimp only
    rw [List.map_map]
    rfl
  · intro o ho j hj
    exact plan_valid hp o ho _ (List.mem_map.mpr ⟨j, by simpa using hj, rfl⟩)

/-! ## With a dimension -/

instance (x : Tensor R) (d : Nat) (o : List Nat) : Decidable (Top x d o) := by
  unfold Top
  infer_instance

theorem atPlace_set (keep : Bool) (d : Nat) (o : List Nat) (j i : Nat) (h : d < (atPlace keep d o j).length) :
    (atPlace keep d o j).set d i = atPlace keep d o i := by
  unfold atPlace at *
  cases keep
  · simp only [Bool.false_eq_true, if_false] at *
    have hd : d ≤ o.length := by
      by_contra hc
      rw [List.insertIdx_of_length_lt (by omega)] at h
      omega
    rw [set_eq_insert d i _ h]
    simp
  · simp

theorem atPlace_getD (keep : Bool) (d : Nat) (o : List Nat) (j : Nat) (h : d < (atPlace keep d o j).length) :
    (atPlace keep d o j).getD d 0 = j := by
  unfold atPlace at *
  cases keep
  · simp only [Bool.false_eq_true, if_false] at *
    have hd : d ≤ o.length := by
      by_contra hc
      rw [List.insertIdx_of_length_lt (by omega)] at h
      omega
    simp [List.getD_eq_getElem?_getD, List.getElem?_insertIdx_self, hd]
  · simp only [if_true] at *
    have hd : d < o.length := by simpa using h
    simp [List.getD_eq_getElem?_getD, hd]

/-- C85: `argmax` along a dimension has torch's shape, and is the sum of the numbers of the largest elements. -/
theorem C85_argmax_sums (x : Tensor R) (d : Int) (keep : Bool) (hd : -(x.shape.length : Int) ≤ d ∧ d < x.shape.length) :
    ∃ y, argmax x (some d) keep = .ok y ∧ y.shape = reduced keep (dimOf x.shape.length d) x.shape ∧
      ∀ o, ValidIdx y.shape o → y.at_ o =
        ∑ j ∈ Finset.range (x.shape.getD (dimOf x.shape.length d) 0) with
          Top x (dimOf x.shape.length d) (atPlace keep (dimOf x.shape.length d) o j), (j : R) := by
  obtain ⟨hot, h1, h2, h3⟩ := C85_one_hot x d hd
  obtain ⟨c, g1, g2, g3⟩ := numbered_ok hot d (by rw [h2]; exact hd)
  obtain ⟨y, e1, e2, e3, e4⟩ := sumDim_ok c d keep (by rw [g2, h2]; exact hd)
  have hk := (normDim_inside hd).2
  rw [g2, h2] at e2 e3 e4
  rw [h2] at g3
  refine ⟨y, ?_, e2, ?_⟩
  · unfold argmax
    rw [h1, ok_bind]
    dsimp only
    rw [g1]
    exact e1
  · intro o ho
    rw [e3, Finset.sum_filter]
    refine Finset.sum_congr rfl fun j hj => ?_
    have hv := e4 o ho j (by simpa using hj)
    rw [g3 _ hv, atPlace_getD _ _ _ _ (by rw [valid_length hv]; exact hk)]
    split
    · rename_i ht
      rw [(h3 _ hv).1 ht, one_mul]
    · rename_i ht
      rw [(h3 _ hv).2 ht, zero_mul]

/-- C85: `max` along a dimension has torch's shape, the sum of the largest elements and the sum of their numbers; with `one_hot` the
second result marks the largest elements. -/
theorem C85_max_sums (x : Tensor R) (d : Int) (keep hotIndices : Bool) (hd : -(x.shape.length : Int) ≤ d ∧ d < x.shape.length) :
    ∃ y z, maxMpc x (some d) keep hotIndices = .ok (y, some z) ∧ y.shape = reduced keep (dimOf x.shape.length d) x.shape ∧
      (∀ o, ValidIdx y.shape o → y.at_ o =
        ∑ j ∈ Finset.range (x.shape.getD (dimOf x.shape.length d) 0) with
          Top x (dimOf x.shape.length d) (atPlace keep (dimOf x.shape.length d) o j), x.at_ (atPlace keep (dimOf x.shape.length d) o j)) ∧
      (hotIndices = false → argmax x (some d) keep = .ok z) ∧ (hotIndices = true → oneHot x (some d) = .ok z) := by
  obtain ⟨hot, h1, h2, h3⟩ := C85_one_hot x d hd
  obtain ⟨i, a1, a2, a3⟩ := C85_argmax_sums x d keep hd
  obtain ⟨p, g1, g2, g3⟩ := Grad.zip_same (· * ·) hot x h2.symm
  obtain ⟨y, e1, e2, e3, e4⟩ := sumDim_ok p d keep (by rw [g2, h2]; exact hd)
  have hk := (normDim_inside hd).2
  rw [g2, h2] at e2 e3 e4
  rw [h2] at g3
  have ha := a1
  unfold argmax at ha
  rw [h1, ok_bind] at ha
  dsimp only at ha
  refine ⟨y, if hotIndices then hot else i, ?_, e2, ?_, ?_, ?_⟩
  · unfold maxMpc
    rw [h1, ok_bind, g1, ok_bind]
    dsimp only
    cases hotIndices
    · simp only [Bool.false_eq_true, if_false]
      obtain ⟨c, c1, -, -⟩ := numbered_ok hot d (by rw [h2]; exact hd)
      rw [c1, ok_bind] at ha ⊢
      rw [ha, ok_bind, e1]
      rfl
    · simp only [if_true]
      rw [ok_bind, e1]
      rfl
  · intro o ho
    rw [e3, Finset.sum_filter]
    refine Finset.sum_congr rfl fun j hj => ?_
    have hv := e4 o ho j (by simpa using hj)
    rw [g3 _ hv]
    split
    · rename_i ht
      rw [(h3 _ hv).1 ht, one_mul]
    · rename_i ht
      rw [(h3 _ hv).2 ht, zero_mul]
  · rintro rfl
    exact a1
  · rintro rfl
    exact h1

theorem reduced_length (keep : Bool) (d : Nat) (s o : List Nat) (j : Nat) (hd : d < s.length) (ho : ValidIdx (reduced keep d s) o) :
    (atPlace keep d o j).length = s.length := by
  have hl := valid_length ho
  unfold reduced at hl
  unfold atPlace
  cases keep
  · simp only [Bool.false_eq_true, if_false] at *
    rw [List.length_eraseIdx_of_lt hd] at hl
    rw [List.length_insertIdx_of_le_length (by omega)]
    omega
  · simp only [if_true] at *
    simpa using hl

omit [Ring R] [IsStrictOrderedRing R] in
/-- if one element is larger than the others it is the only one marked -/
theorem only_top (x : Tensor R) (keep : Bool) (d : Nat) (o : List Nat) (k : Nat) (hd : d < x.shape.length)
    (ho : ValidIdx (reduced keep d x.shape) o) (h : OnlyMax x keep d o k) :
    (Finset.range (x.shape.getD d 0)).filter (fun j => Top x d (atPlace keep d o j)) = {k} := by
  ext j
  simp only [Finset.mem_filter, Finset.mem_range, Finset.mem_singleton]
  constructor
  · rintro ⟨hj, ht⟩
    by_contra hne
    have := ht k h.1
    rw [atPlace_set _ _ _ _ _ (by rw [reduced_length keep d _ o j hd ho]; exact hd)] at this
    exact absurd (h.2 j hj hne) (not_lt.mpr this)
  · rintro rfl
    refine ⟨h.1, ?_⟩
    intro i hi
    rw [atPlace_set _ _ _ _ _ (by rw [reduced_length keep d _ o j hd ho]; exact hd)]
    by_cases e : i = j
    · rw [e]
    · exact (h.2 i hi e).le

/-- C85: `argmax` along a dimension has torch's shape and, where one element is larger than the others, gives its number.  Missing: with
several largest elements the result is the sum of their numbers (`C85_argmax_sums`, `C85_ties_wrong`). -/
theorem C85_argmax_partial (x : Tensor R) (d : Int) (keep : Bool) (hd : -(x.shape.length : Int) ≤ d ∧ d < x.shape.length) :
    ∃ y, argmax x (some d) keep = .ok y ∧ y.shape = reduced keep (dimOf x.shape.length d) x.shape ∧
      ∀ o, ValidIdx y.shape o → ∀ k, OnlyMax x keep (dimOf x.shape.length d) o k → y.at_ o = k := by
  obtain ⟨y, h1, h2, h3⟩ := C85_argmax_sums x d keep hd
  refine ⟨y, h1, h2, ?_⟩
  intro o ho k hk
  rw [h3 o ho, only_top x keep _ o k (normDim_inside hd).2 (h2 ▸ ho) hk, Finset.sum_singleton]

/-- C85: `max` along a dimension has torch's shape and, where one element is larger than the others, gives it and its number.  Missing:
several largest elements. -/
theorem C85_max_partial (x : Tensor R) (d : Int) (keep : Bool) (hd : -(x.shape.length : Int) ≤ d ∧ d < x.shape.length) :
    ∃ y z, maxMpc x (some d) keep false = .ok (y, some z) ∧
      y.shape = reduced keep (dimOf x.shape.length d) x.shape ∧ z.shape = reduced keep (dimOf x.shape.length d) x.shape ∧
      ∀ o, ValidIdx y.shape o → ∀ k, OnlyMax x keep (dimOf x.shape.length d) o k →
        y.at_ o = x.at_ (atPlace keep (dimOf x.shape.length d) o k) ∧ z.at_ o = k := by
  obtain ⟨y, z, h1, h2, h3, h4, -⟩ := C85_max_sums x d keep false hd
  obtain ⟨z', g1, g2, g3⟩ := C85_argmax_partial x d keep hd
  obtain rfl : z' = z := by
    have := (h4 rfl).symm.trans g1
    cases this
    rfl
  refine ⟨y, z', h1, h2, g2, ?_⟩
  intro o ho k hk
  refine ⟨?_, g3 o (by rw [g2]; exact h2 ▸ ho) k hk⟩
  rw [h3 o ho, only_top x keep _ o k (normDim_inside hd).2 (h2 ▸ ho) hk, Finset.sum_singleton]

omit [IsStrictOrderedRing R] in
/-- C85: a dimension that does not exist is refused with `IndexError`. -/
theorem C85_bad_dimension (x : Tensor R) (d : Int) (keep hotIndices : Bool) (hd : ¬(-(x.shape.length : Int) ≤ d ∧ d < x.shape.length)) :
    argmax x (some d) keep = .error .indexError ∧ maxMpc x (some d) keep hotIndices = .error .indexError := by
  have h : oneHot x (some d) = .error .indexError := by
    unfold oneHot pairwise rowLength
    dsimp only [Option.getD_some]
    rw [ok_bind, sizeAt_outside hd]
    rfl
  unfold argmax maxMpc
  rw [h]
  exact ⟨rfl, rfl⟩

/-! ## Without a dimension -/

/-- the elements in row-major order -/
def element (x : Tensor R) (k : Nat) : R := x.at_ (Grad.unflat x.shape k)

/-- the size of the last dimension -/
def lastSize (s : List Nat) : Nat := s.getD (s.length - 1) 0

/-- how many elements are not larger than element `k` -/
def beaten (x : Tensor R) (k : Nat) : Nat := ((Finset.range (Grad.numel x.shape)).filter fun j => element x j ≤ element x k).card

omit [LinearOrder R] [IsStrictOrderedRing R] in
theorem flatten_ok (x : Tensor R) : ∃ f, Method.flatten.run x = .ok f ∧ f.shape = [Grad.numel x.shape] ∧
    ∀ k, f.at_ [k] = element x k := by
  refine ⟨_, rfl, rfl, ?_⟩
  intro k
  simp [Grad.flat, Grad.numel, element]

theorem partner_ne (n p i : Nat) (hp : p < n) (hi : i < n - 1) : partner n p i ≠ p := by
  unfold partner
  rw [Nat.mod_eq_of_lt (a := i + 1) (by omega)]
  by_cases h : p + (n - (i + 1)) < n
  · rw [Nat.mod_eq_of_lt h]
    omega
  · rw [Nat.mod_eq_sub_mod (by omega), Nat.mod_eq_of_lt (by omega)]
    omega

theorem partner_image (n p : Nat) (hp : p < n) : (Finset.range (n - 1)).image (partner n p) = (Finset.range n).erase p := by
  ext j
  simp only [Finset.mem_image, Finset.mem_range, Finset.mem_erase]
  constructor
  · rintro ⟨i, hi, rfl⟩
    exact ⟨partner_ne n p i hp hi, partner_lt n p i (by omega)⟩
  · rintro ⟨hne, hj⟩
    obtain ⟨i, hi, e⟩ := partner_hits n p j hp hj hne
    refine ⟨i, ?_, e⟩
    unfold rows at hi
    split at hi <;> omega

theorem partner_inj (n p : Nat) (hp : p < n) : Set.InjOn (partner n p) (Finset.range (n - 1)) := by
  rw [← Finset.card_image_iff, partner_image n p hp, Finset.card_erase_of_mem (by simpa using hp)]
  simp

theorem partner_count (n p : Nat) (hp : p < n) (hn : 1 < n) (q : Nat → Prop) [DecidablePred q] (hq : q p) :
    ((Finset.range (rows n - 1)).filter fun i => q (partner n p i)).card + 1 = ((Finset.range n).filter q).card := by
  have hr : rows n = n := if_pos hn
  rw [hr]
  have h1 : ((Finset.range (n - 1)).filter fun i => q (partner n p i)).card = (((Finset.range n).erase p).filter q).card := by
    rw [← partner_image n p hp, Finset.filter_image, Finset.card_image_of_injOn]
    refine (partner_inj n p hp).mono fun i hi => ?_
    simp only [Finset.coe_filter, Set.mem_ofPred_eq] at hi
    exact hi.1
  rw [h1, Finset.filter_erase, Finset.card_erase_of_mem (by simp [hp, hq])]
  have : 0 < ((Finset.range n).filter q).card := Finset.card_pos.mpr ⟨p, by simp [hp, hq]⟩
  omega

theorem lastSize_dvd (s : List Nat) (h : s ≠ []) : lastSize s ∣ Grad.numel s := by
  unfold lastSize
  induction s with
  | nil => simp at h
  | cons a s ih =>
    cases s with
    | nil => simp [Grad.numel]
    | cons b s =>
      have := ih (by simp)
      rw [Grad.numel]
      refine Dvd.dvd.mul_left ?_ _
      simpa using this

theorem flatHot_ok (x : Tensor R) (h : x.shape ≠ []) :
    ∃ hot, oneHot x none = .ok hot ∧ hot.shape = [Grad.numel x.shape] ∧
      ∀ k < Grad.numel x.shape, hot.at_ [k] = if Grad.numel x.shape = 1 ∨ rows (lastSize x.shape) ≤ beaten x k then 1 else 0 := by
  obtain ⟨f, f1, f2, f3⟩ := flatten_ok x
  have hl := List.length_pos_of_ne_nil h
  have hx : -(x.shape.length : Int) ≤ (none : Option Int).getD (-1) ∧ (none : Option Int).getD (-1) < x.shape.length := by
    simp only [Option.getD_none]
    omega
  have hd : dimOf x.shape.length (-1) = x.shape.length - 1 := by
    unfold dimOf
    rw [if_pos (by omega)]
    omega
  obtain ⟨hot, h1, h2, h3⟩ := core f none (rows (lastSize x.shape) - 1) (by rw [f2]; simp)
  refine ⟨hot, ?_, h2.trans f2, ?_⟩
  · unfold oneHot
    dsimp only
    rw [f1, ok_bind, rowLength_inside hx]
    simp only [Option.getD_none]
    rw [hd]
    exact h1
  · intro k hk
    rw [h3 [k] (by rw [f2]; exact ⟨hk, trivial⟩)]
    have hd1 : dimOf f.shape.length ((none : Option Int).getD (-1)) = 0 := by
      rw [f2]
      rfl
    rw [hd1]
    refine if_congr ?_ rfl rfl
    unfold wins
    rw [f2]
    simp only [List.getD_cons_zero, List.set_cons_zero, f3]
    have hr : 2 ≤ rows (lastSize x.shape) := by
      unfold rows
      split <;> omega
    by_cases hn : Grad.numel x.shape = 1
    · have hk0 : k = 0 := by omega
      rw [hn, hk0]
      simp only [true_or, iff_true]
      have hc : lastSize x.shape ≤ 1 := by
        by_contra hc
        have hdvd := lastSize_dvd x.shape h
        rw [hn, Nat.dvd_one] at hdvd
        omega
      have : rows (lastSize x.shape) = 2 := if_neg (by omega)
      rw [this]
      simp only [rows, partner, Nat.mod_one]
      simp
    · have hn1 : 1 < Grad.numel x.shape := by omega
      have := partner_count (Grad.numel x.shape) k hk hn1 (fun j => element x j ≤ element x k) le_rfl
      unfold beaten
      constructor
      · intro h
        right
        omega
      · rintro (h | h)
        · exact absurd h hn
        · omega

omit [LinearOrder R] [IsStrictOrderedRing R] in
theorem sumVector_ok (y : Tensor R) (n : Nat) (h : y.shape = [n]) :
    Method.sum.run y = .ok ⟨[], fun _ => ∑ k ∈ Finset.range n, y.at_ [k]⟩ := by
  obtain ⟨s, f⟩ := y
  dsimp only at h
  subst h
  unfold Method.run Method.plan
  rw [ok_bind]
  dsimp only
  congr 2
  funext o
  have : indices [n] = (List.range n).map fun k => [k] := by
    unfold indices
    simp [indices, List.flatMap_def]
    induction n with
    | zero => rfl
    | succ n ih => simp [List.range_succ, ih]
  rw [this, List.map_map]
  rfl

/-- C85: `argmax` without a dimension.  Where torch gives the number of the largest element, it gives the sum of the numbers of all
elements that are not smaller than as many elements as the last dimension has entries (at least 2), if that sum is smaller than
this number, and otherwise raises `ValueError`. -/
theorem C85_argmax_flat (x : Tensor R) (keep : Bool) (h : x.shape ≠ []) (hn : Grad.numel x.shape ≠ 1) :
    ∃ y : R, y = ∑ k ∈ Finset.range (Grad.numel x.shape) with rows (lastSize x.shape) ≤ beaten x k, (k : R) ∧
      ((rows (lastSize x.shape) : R) ≤ y → argmax x none keep = .error .valueError) ∧
      (y < (rows (lastSize x.shape) : R) → ∃ z, argmax x none keep = .ok z ∧ z.shape = [] ∧ z.at_ [] = y) := by
  obtain ⟨hot, h1, h2, h3⟩ := flatHot_ok x h
  obtain ⟨c, g1, g2, g3⟩ := Grad.zip_same (· * ·) hot (arange (R := R) (Grad.numel hot.shape)) (by
    rw [h2]
    simp [arange, Grad.numel])
  have hsum : ∑ k ∈ Finset.range (Grad.numel x.shape), c.at_ [k] =
      ∑ k ∈ Finset.range (Grad.numel x.shape) with rows (lastSize x.shape) ≤ beaten x k, (k : R) := by
    rw [Finset.sum_filter]
    refine Finset.sum_congr rfl fun k hk => ?_
    have hk : k < Grad.numel x.shape := by simpa using hk
    rw [g3 [k] (by rw [h2]; exact ⟨hk, trivial⟩), h3 k hk]
    simp only [hn, false_or]
    split
    · simp [arange]
    · simp
  have hl := List.length_pos_of_ne_nil h
  have hx : -(x.shape.length : Int) ≤ (none : Option Int).getD (-1) ∧ (none : Option Int).getD (-1) < x.shape.length := by
    simp only [Option.getD_none]
    omega
  have hd : dimOf x.shape.length (-1) = x.shape.length - 1 := by
    unfold dimOf
    rw [if_pos (by omega)]
    omega
  have hrun : argmax x none keep = if (rows (lastSize x.shape) : R) ≤ ∑ k ∈ Finset.range (Grad.numel x.shape), c.at_ [k] then
      .error .valueError else .ok ⟨[], fun _ => ∑ k ∈ Finset.range (Grad.numel x.shape), c.at_ [k]⟩ := by
    unfold argmax
    rw [h1, ok_bind]
    dsimp only
    rw [g1, ok_bind, sumVector_ok c _ (g2.trans h2), ok_bind, rowLength_inside hx]
    simp only [Option.getD_none, hd]
    change (if (if (rows (lastSize x.shape) : R) ≤ ∑ k ∈ Finset.range (Grad.numel x.shape), c.at_ [k] then (1 : R) else 0) = 1
      then _ else _) = _
    by_cases hc : (rows (lastSize x.shape) : R) ≤ ∑ k ∈ Finset.range (Grad.numel x.shape), c.at_ [k]
    · rw [if_pos hc, if_pos hc, if_pos rfl]
    · rw [if_neg hc, if_neg hc, if_neg zero_ne_one]
      rfl
  refine ⟨_, hsum, ?_, ?_⟩
  · intro hy
    rw [hrun, if_pos hy]
  · intro hy
    rw [hrun, if_neg (not_le.mpr hy)]
    exact ⟨_, rfl, rfl, rfl⟩

omit [Ring R] [IsStrictOrderedRing R] in
theorem few_left (x : Tensor R) (c : Nat) (hc : 0 < c) :
    ((Finset.range (Grad.numel x.shape)).filter fun k => ¬c ≤ beaten x k).card < c := by
  by_cases he : ((Finset.range (Grad.numel x.shape)).filter fun k => ¬c ≤ beaten x k).Nonempty
  · obtain ⟨b, hb, hmax⟩ := Finset.exists_max_image _ (element x) he
    have hb2 := (Finset.mem_filter.mp hb).2
    refine lt_of_le_of_lt (Finset.card_le_card fun j hj => ?_) (not_le.mp hb2)
    exact Finset.mem_filter.mpr ⟨(Finset.mem_filter.mp hj).1, hmax j hj⟩
  · rw [Finset.not_nonempty_iff_eq_empty.mp he]
    simpa using hc

/-- C85 is false without a dimension: `argmax()` raises `ValueError` for every tensor whose last dimension has at least two entries and is
not the only one with more than one, whatever the elements are. -/
theorem C85_argmax_matrix_fails (x : Tensor R) (keep : Bool) (hc : 2 ≤ lastSize x.shape) (hn : Grad.numel x.shape ≠ 0)
    (hne : lastSize x.shape ≠ Grad.numel x.shape) : argmax x none keep = .error .valueError := by
  have h : x.shape ≠ [] := by
    intro e
    rw [e] at hc
    simp [lastSize] at hc
  obtain ⟨q, hq⟩ := lastSize_dvd x.shape h
  have hr : rows (lastSize x.shape) = lastSize x.shape := if_pos (by omega)
  have hq2 : 2 ≤ q := by
    rcases q with _ | _ | q
    · simp at hq
      exact absurd hq hn
    · simp at hq
      exact absurd hq.symm hne
    · omega
  have hbig : 2 * lastSize x.shape ≤ Grad.numel x.shape := by
    rw [hq]
    nlinarith
  obtain ⟨y, hy, h1, -⟩ := C85_argmax_flat x keep h (by omega)
  refine h1 ?_
  rw [hr] at hy ⊢
  have hcard := Finset.card_filter_add_card_filter_not (s := Finset.range (Grad.numel x.shape)) fun k => lastSize x.shape ≤ beaten x k
  have hleft := few_left x (lastSize x.shape) (by omega)
  rw [Finset.card_range] at hcard
  obtain ⟨k, hk, hkc⟩ : ∃ k ∈ (Finset.range (Grad.numel x.shape)).filter (fun k => lastSize x.shape ≤ beaten x k),
      lastSize x.shape ≤ k := by
    by_contra hno
    push Not at hno
    have := Finset.card_le_card (fun k hk => Finset.mem_range.mpr (hno k hk) :
      (Finset.range (Grad.numel x.shape)).filter (fun k => lastSize x.shape ≤ beaten x k) ⊆ Finset.range (lastSize x.shape))
    rw [Finset.card_range] at this
    omega
  rw [hy]
  calc (lastSize x.shape : R) ≤ (k : R) := Nat.cast_le.mpr hkc
    _ ≤ _ := Finset.single_le_sum (f := fun k : Nat => (k : R)) (fun i _ => Nat.cast_nonneg i) hk

theorem lastSize_append (t : List Nat) (c : Nat) : lastSize (t ++ [c]) = c := by
  unfold lastSize
  simp [List.getD_eq_getElem?_getD]

/-- C85 is false without a dimension: `max()` raises `RuntimeError` for every tensor whose last dimension has more or less than one entry
and is not the only one with more than one. -/
theorem C85_max_matrix_fails (x : Tensor R) (keep hotIndices : Bool) (h : x.shape ≠ []) (hc : lastSize x.shape ≠ 1)
    (hn : Grad.numel x.shape ≠ lastSize x.shape) : maxMpc x none keep hotIndices = .error .runtimeError := by
  obtain ⟨hot, h1, h2, -⟩ := flatHot_ok x h
  have hn1 : Grad.numel x.shape ≠ 1 := by
    intro e
    have := lastSize_dvd x.shape h
    rw [e, Nat.dvd_one] at this
    exact hc this
  have hb : broadcastShape [Grad.numel x.shape] x.shape = .error .runtimeError := by
    generalize Grad.numel x.shape = n at *
    generalize x.shape = s at *
    obtain ⟨t, c, rfl⟩ : ∃ t c, s = t ++ [c] := ⟨s.dropLast, s.getLast h, (List.dropLast_append_getLast h).symm⟩
    rw [lastSize_append] at hc hn
    unfold broadcastShape
    simp only [List.reverse_cons, List.reverse_nil, List.nil_append, List.reverse_append, List.cons_append, broadcastRev, broadcastDim,
      if_neg hn, if_neg hn1, if_neg hc]
    rfl
  unfold maxMpc
  rw [h1, ok_bind]
  unfold zip
  rw [h2, hb]
  rfl

omit [IsStrictOrderedRing R] in
/-- C85 is false for tensors without dimensions, which torch treats as vectors with one entry: `argmax` and `max` raise `IndexError`. -/
theorem C85_scalar_fails (x : Tensor R) (h : x.shape = []) (dim : Option Int) (keep hotIndices : Bool) :
    argmax x dim keep = .error .indexError ∧ maxMpc x dim keep hotIndices = .error .indexError := by
  have hr : rowLength x.shape dim = .error .indexError := by
    unfold rowLength
    rw [sizeAt_outside (by rw [h]; simp)]
    rfl
  have ho : oneHot x dim = .error .indexError := by
    unfold oneHot
    cases dim with
    | none =>
      obtain ⟨f, f1, f2, f3⟩ := flatten_ok x
      have hf : f.shape = [1] := by rw [f2, h]; rfl
      obtain ⟨r, r1, r2, -⟩ := pairwise_ok f none (by rw [hf]; simp)
      obtain ⟨q, q1, -, -⟩ := geNumber_ok r 0 (by rw [r2]; simp)
      dsimp only
      rw [f1, ok_bind, r1, ok_bind, q1, ok_bind, hr]
      rfl
    | some d =>
      dsimp only
      unfold pairwise
      rw [ok_bind, hr]
      rfl
  unfold argmax maxMpc
  rw [ho]
  exact ⟨rfl, rfl⟩

/-! ## Rows -/

/-- the shape of a tensor with `m` dimensions of size 1 before the last one -/
def rowShape (m n : Nat) : List Nat := List.replicate m 1 ++ [n]

theorem numel_row (m n : Nat) : Grad.numel (rowShape m n) = n := by
  induction m with
  | zero => simp [rowShape, Grad.numel]
  | succ m ih => simpa [rowShape, List.replicate_succ, Grad.numel] using ih

theorem unflat_row (m n k : Nat) (hk : k < n) : Grad.unflat (rowShape m n) k = List.replicate m 0 ++ [k] := by
  induction m with
  | zero => simp [rowShape, Grad.unflat, Grad.numel]
  | succ m ih =>
    have e : rowShape (m + 1) n = 1 :: rowShape m n := by simp [rowShape, List.replicate_succ]
    rw [e, Grad.unflat, numel_row, Nat.div_eq_of_lt hk, Nat.mod_eq_of_lt hk, ih]
    simp [List.replicate_succ]

theorem indices_row (m n : Nat) : indices (rowShape m n) = (List.range n).map fun k => List.replicate m 0 ++ [k] := by
  induction m with
  | zero =>
    simp only [rowShape, List.replicate_zero, List.nil_append, indices]
    simp [List.flatMap_def]
    induction n with
    | zero => rfl
    | succ n ih => simp [List.range_succ, ih]
  | succ m ih =>
    have e : rowShape (m + 1) n = 1 :: rowShape m n := by simp [rowShape, List.replicate_succ]
    rw [e, indices, ih]
    simp [List.replicate_succ]

theorem valid_row (m n k : Nat) (hk : k < n) : ValidIdx (rowShape m n) (List.replicate m 0 ++ [k]) := by
  induction m with
  | zero => exact ⟨hk, trivial⟩
  | succ m ih =>
    have e : rowShape (m + 1) n = 1 :: rowShape m n := by simp [rowShape, List.replicate_succ]
    rw [e, List.replicate_succ, List.cons_append]
    exact ⟨by omega, ih⟩

omit [Ring R] [IsStrictOrderedRing R] in
theorem beaten_row (x : Tensor R) (m n k : Nat) (hs : x.shape = rowShape m n) (hk : k < n)
    (hmax : ∀ j < n, j ≠ k → x.at_ (List.replicate m 0 ++ [j]) < x.at_ (List.replicate m 0 ++ [k])) (j : Nat) (hj : j < n) :
    n ≤ beaten x j ↔ j = k := by
  have hel : ∀ i < n, element x i = x.at_ (List.replicate m 0 ++ [i]) := fun i hi => by rw [element, hs, unflat_row m n i hi]
  unfold beaten
  rw [hs, numel_row]
  constructor
  · intro h
    by_contra hne
    have hc : ((Finset.range n).filter fun i => element x i ≤ element x j).card < n := by
      have := Finset.card_lt_card (s := (Finset.range n).filter fun i => element x i ≤ element x j) (t := Finset.range n)
        (Finset.filter_ssubset.mpr ⟨k, Finset.mem_range.mpr hk, by
          rw [hel k hk, hel j hj]
          exact not_le.mpr (hmax j hj hne)⟩)
      rwa [Finset.card_range] at this
    omega
  · rintro rfl
    rw [Finset.filter_true_of_mem, Finset.card_range]
    intro i hi
    have hi : i < n := by simpa using hi
    rw [hel i hi, hel j hj]
    by_cases e : i = j
    · rw [e]
    · exact (hmax i hi e).le

/-- C85: without a dimension, `argmax` and `max` of a tensor that has only one dimension with more than one entry, the last one, give what
torch gives if one element is larger than the others.  Missing: other shapes (`C85_argmax_matrix_fails`, `C85_max_matrix_fails`,
`C85_column_wrong`, `C85_scalar_fails`) and several largest elements. -/
theorem C85_row_partial (x : Tensor R) (m n k : Nat) (hs : x.shape = rowShape m n) (hk : k < n)
    (hmax : ∀ j < n, j ≠ k → x.at_ (List.replicate m 0 ++ [j]) < x.at_ (List.replicate m 0 ++ [k])) (keep hotIndices : Bool) :
    (∃ y, argmax x none keep = .ok y ∧ y.shape = [] ∧ y.at_ [] = k) ∧
    ∃ y, maxMpc x none keep hotIndices = .ok (y, none) ∧ y.shape = [] ∧ y.at_ [] = x.at_ (List.replicate m 0 ++ [k]) := by
  have hne : x.shape ≠ [] := by
    rw [hs]
    simp [rowShape]
  obtain ⟨hot, h1, h2, h3⟩ := flatHot_ok x hne
  have hlast : lastSize x.shape = n := by
    rw [hs]
    exact lastSize_append _ _
  rw [hs, numel_row] at h2
  have hhot : ∀ j < n, hot.at_ [j] = if j = k then 1 else 0 := by
    intro j hj
    rw [h3 j (by rw [hs, numel_row]; exact hj), hlast, hs, numel_row]
    refine if_congr ?_ rfl rfl
    by_cases hn : n = 1
    · simp only [hn, true_or, true_iff]
      omega
    · have hr : rows n = n := if_pos (by omega)
      rw [hr]
      simp only [hn, false_or]
      exact beaten_row x m n k hs hk hmax j hj
  constructor
  · obtain ⟨c, g1, g2, g3⟩ := Grad.zip_same (· * ·) hot (arange (R := R) (Grad.numel hot.shape)) (by
      rw [h2]
      simp [arange, Grad.numel])
    have hsum : ∑ j ∈ Finset.range n, c.at_ [j] = (k : R) := by
      rw [Finset.sum_eq_single k]
      · rw [g3 [k] (by rw [h2]; exact ⟨hk, trivial⟩), hhot k hk]
        simp [arange]
      · intro j hj hne
        have hj : j < n := by simpa using hj
        rw [g3 [j] (by rw [h2]; exact ⟨hj, trivial⟩), hhot j hj, if_neg hne, zero_mul]
      · intro h
        simp at h
        omega
    refine ⟨⟨[], fun _ => ∑ j ∈ Finset.range n, c.at_ [j]⟩, ?_, rfl, hsum⟩
    have hrl : rowLength x.shape none = .ok (rows n) := by
      have hl := List.length_pos_of_ne_nil hne
      rw [rowLength_inside (by simp only [Option.getD_none]; omega)]
      simp only [Option.getD_none]
      have hd : dimOf x.shape.length (-1) = x.shape.length - 1 := by
        unfold dimOf
        rw [if_pos (by omega)]
        omega
      rw [hd]
      exact congrArg (fun c => Except.ok (rows c)) hlast
    unfold argmax
    rw [h1, ok_bind]
    dsimp only
    rw [g1, ok_bind, sumVector_ok c _ (g2.trans h2), ok_bind, hrl, ok_bind]
    change (if (if (rows n : R) ≤ ∑ j ∈ Finset.range n, c.at_ [j] then (1 : R) else 0) = 1 then _ else _) = _
    have hlt : ¬(rows n : R) ≤ ∑ j ∈ Finset.range n, c.at_ [j] := by
      rw [hsum, Nat.cast_le]
      unfold rows
      split <;> omega
    rw [if_neg hlt, if_neg zero_ne_one]
    rfl
  · have hb : broadcastShape hot.shape x.shape = .ok x.shape := by
      rw [h2, hs]
      unfold broadcastShape rowShape
      simp [broadcastRev, broadcastDim, bind, Except.bind, pure, Except.pure, Functor.map, Except.map]
    have hz := Grad.zip_ok (· * ·) hot x _ hb
    refine ⟨⟨[], fun _ => ((indices x.shape).map fun o => hot.at_ (sourceIdx hot.shape o) * x.at_ (sourceIdx x.shape o)).sum⟩,
      ?_, rfl, ?_⟩
    · unfold maxMpc
      rw [h1, ok_bind, hz]
      rfl
    · dsimp only
      rw [hs, indices_row, List.map_map, h2]
      change ∑ j ∈ Finset.range n, hot.at_ (sourceIdx [n] (List.replicate m 0 ++ [j])) *
        x.at_ (sourceIdx (rowShape m n) (List.replicate m 0 ++ [j])) = _
      have hterm : ∀ j ∈ Finset.range n, hot.at_ (sourceIdx [n] (List.replicate m 0 ++ [j])) *
          x.at_ (sourceIdx (rowShape m n) (List.replicate m 0 ++ [j])) =
          if j = k then x.at_ (List.replicate m 0 ++ [k]) else 0 := by
        intro j hj
        have hj : j < n := by simpa using hj
        rw [Grad.sourceIdx_self _ _ (valid_row m n j hj)]
        have : sourceIdx [n] (List.replicate m 0 ++ [j]) = [j] := by
          simp [sourceIdx]
          omega
        rw [this, hhot j hj]
        by_cases e : j = k
        · simp [e]
        · simp [e]
      rw [Finset.sum_congr rfl hterm]
      simp [hk]

/-- C85 is false for columns: `max()` of a tensor of shape `(n, 1)` is the sum of all elements times the number of elements that are not
smaller than some other element. -/
theorem C85_max_column (x : Tensor R) (n : Nat) (hs : x.shape = [n, 1]) (hn : 1 < n) (keep hotIndices : Bool) :
    ∃ y, maxMpc x none keep hotIndices = .ok (y, none) ∧ y.shape = [] ∧
      y.at_ [] = (((Finset.range n).filter fun k => ∃ j < n, j ≠ k ∧ x.at_ [j, 0] ≤ x.at_ [k, 0]).card : R) *
        ∑ k ∈ Finset.range n, x.at_ [k, 0] := by
  have hne : x.shape ≠ [] := by
    rw [hs]
    simp
  obtain ⟨hot, h1, h2, h3⟩ := flatHot_ok x hne
  have hnum : Grad.numel x.shape = n := by
    rw [hs]
    simp [Grad.numel]
  have hel : ∀ k < n, element x k = x.at_ [k, 0] := by
    intro k _
    rw [element, hs]
    simp [Grad.unflat, Grad.numel]
    rw [Nat.mod_one]
  have hb : broadcastShape hot.shape x.shape = .ok [n, n] := by
    rw [h2, hnum, hs]
    have h1 : n ≠ 1 := by omega
    unfold broadcastShape
    simp [broadcastRev, broadcastDim, h1, bind, Except.bind, pure, Except.pure, Functor.map, Except.map]
  have hz := Grad.zip_ok (· * ·) hot x _ hb
  refine ⟨⟨[], fun _ => ((indices [n, n]).map fun o => hot.at_ (sourceIdx hot.shape o) * x.at_ (sourceIdx x.shape o)).sum⟩,
    ?_, rfl, ?_⟩
  · unfold maxMpc
    rw [h1, ok_bind, hz]
    rfl
  · dsimp only
    have hhot : ∀ k < n, hot.at_ [k] = if ∃ j < n, j ≠ k ∧ x.at_ [j, 0] ≤ x.at_ [k, 0] then 1 else 0 := by
      intro k hk
      rw [h3 k (by rw [hnum]; exact hk), hnum]
      refine if_congr ?_ rfl rfl
      have hr : rows (lastSize x.shape) = 2 := by
        rw [hs]
        rfl
      rw [hr]
      have h1 : n ≠ 1 := by omega
      simp only [h1, false_or]
      unfold beaten
      rw [hnum]
      have hmem : k ∈ (Finset.range n).filter fun j => element x j ≤ element x k := by simp [hk]
      change 1 < _ ↔ _
      rw [Finset.one_lt_card]
      constructor
      · rintro ⟨a, ha, b, hb, hab⟩
        simp only [Finset.mem_filter, Finset.mem_range] at ha hb
        rw [hel _ ha.1, hel _ hk] at ha
        rw [hel _ hb.1, hel _ hk] at hb
        by_cases hak : a = k
        · exact ⟨b, hb.1, fun e => hab (hak.trans e.symm), hb.2⟩
        · exact ⟨a, ha.1, hak, ha.2⟩
      · rintro ⟨j, hj, hjk, hle⟩
        refine ⟨j, ?_, k, hmem, hjk⟩
        simp only [Finset.mem_filter, Finset.mem_range]
        refine ⟨hj, ?_⟩
        rw [hel _ hj, hel _ hk]
        exact hle
    have h1n : n ≠ 1 := by omega
    have hsum : ((indices [n, n]).map fun o => hot.at_ (sourceIdx hot.shape o) * x.at_ (sourceIdx x.shape o)).sum =
        ∑ i ∈ Finset.range n, ∑ j ∈ Finset.range n, hot.at_ [j] * x.at_ [i, 0] := by
      have hi : indices [n, n] = (List.range n).flatMap fun i => (List.range n).map fun j => [i, j] := by
        have := indices_row 0 n
        simp only [rowShape, List.replicate_zero, List.nil_append] at this
        rw [indices, this]
        simp only [List.map_map]
        rfl
      rw [hi, List.map_flatMap, List.flatMap_def, List.sum_flatten, List.map_map]
      change ∑ i ∈ Finset.range n, _ = _
      refine Finset.sum_congr rfl fun i hi => ?_
      dsimp only [Function.comp]
      rw [List.map_map]
      change ∑ j ∈ Finset.range n, _ = _
      refine Finset.sum_congr rfl fun j hj => ?_
      dsimp only [Function.comp]
      rw [h2, hnum, hs]
      simp [sourceIdx, h1n]
    rw [hsum, Finset.mul_sum]
    refine Finset.sum_congr rfl fun i _ => ?_
    rw [← Finset.sum_mul]
    congr 1
    rw [Finset.sum_congr rfl fun j hj => hhot j (by simpa using hj), Finset.sum_boole]

/-! ## Examples -/

/-- `[[5, 3, 1], [2, 9, 4]]` -/
def exMatrix : Tensor Int := tensor [2, 3] [5, 3, 1, 2, 9, 4]

/-- what a result looks like: shape and elements -/
def shown (r : Py (Tensor Int)) : Py (List Nat × List Int) := r.map look

/-- rows, columns, negative dimensions and `keepdim` -/
example : shown (argmax exMatrix (some 1) false) = .ok ([2], [0, 1]) ∧ shown (argmax exMatrix (some (-2)) true) = .ok ([1, 3], [0, 1, 1]) ∧
    shown ((maxMpc exMatrix (some (-1)) true false).map Prod.fst) = .ok ([2, 1], [5, 9]) ∧
    shown (oneHot exMatrix (some 0)) = .ok ([2, 3], [1, 0, 0, 0, 1, 1]) := by
  decide +kernel

example : OnlyMax exMatrix false 1 [1] 1 := by
  constructor
  · decide
  · decide

example : shown (argmax (tensor [1, 3] [5, 3, 7]) none false) = .ok ([], [2]) ∧
    shown ((maxMpc (tensor [1, 3] [5, 3, 7]) none false false).map Prod.fst) = .ok ([], [7]) := by
  decide +kernel

/-- a dimension with one entry -/
example : shown (argmax (tensor [2, 1] [5, 3]) (some 1) false) = .ok ([2], [0, 0]) := by decide +kernel

/-- C85 is false with ties, also along a dimension: of `[[7, 2, 7], [1, 1, 1]]` `argmax(1)` is `[2, 3]`, where torch gives the number of
one of the largest elements, and `max(1)` is `[14, 3]`. -/
theorem C85_ties_wrong :
    shown (argmax (tensor [2, 3] [7, 2, 7, 1, 1, 1]) (some 1) false) = .ok ([2], [2, 3]) ∧
    shown ((maxMpc (tensor [2, 3] [7, 2, 7, 1, 1, 1]) (some 1) false false).map Prod.fst) = .ok ([2], [14, 3]) := by
  decide +kernel

/-- C85 is false for columns: of `[[5], [3], [1]]` `argmax()` is 1 and `max()` is 18. -/
theorem C85_column_wrong :
    shown (argmax (tensor [3, 1] [5, 3, 1]) none false) = .ok ([], [1]) ∧
    shown ((maxMpc (tensor [3, 1] [5, 3, 1]) none false false).map Prod.fst) = .ok ([], [18]) := by
  decide +kernel

example : argmax exMatrix none false = .error .valueError := C85_argmax_matrix_fails _ _ (by decide) (by decide) (by decide)

example : maxMpc exMatrix none false false = .error .runtimeError := C85_max_matrix_fails _ _ _ (by decide) (by decide) (by decide)

end SyMPC.Argmax
