import Verif.Model.Broadcast
import Verif.Lemmas.Py
import Mathlib.Algebra.BigOperators.Ring.Finset
import Mathlib.Algebra.BigOperators.Ring.List
import Mathlib.Data.List.Nodup

/-!
# C49: gradients of broadcast operands
-/

namespace SyMPC.Tensor

variable {T : Type}

/-! ## Specification -/

/-- The positions of a tensor. -/
def positions (s : List Nat) : Finset (List Nat) := (indices s).toFinset

/-- A tensor of shape `w` can be repeated to shape `z`: aligned at the end, each size agrees or is 1. -/
def Broadcasts (w z : List Nat) : Prop :=
  w.length ≤ z.length ∧ List.Forall₂ (fun a b => a = b ∨ a = 1) w (z.drop (z.length - w.length))

/-- No dimension of size 1 is repeated zero times. -/
def NoneLost (w z : List Nat) : Prop :=
  List.Forall₂ (fun a b => a = 1 → b ≠ 0) w (z.drop (z.length - w.length))

/-! ## Positions -/

theorem mem_indices (s i : List Nat) : i ∈ indices s ↔ ValidIdx s i := by
  induction s generalizing i with
  | nil => cases i <;> simp [indices, ValidIdx]
  | cons d s ih =>
    cases i with
    | nil => simp [indices, ValidIdx]
    | cons a i =>
      simp only [indices, List.mem_flatMap, List.mem_range, List.mem_map, List.cons.injEq, ValidIdx, ih i |>.symm]
      constructor
      · rintro ⟨b, hb, l, hl, rfl, rfl⟩
        exact ⟨hb, hl⟩
      · rintro ⟨h1, h2⟩
        exact ⟨a, h1, i, h2, rfl, rfl⟩

theorem mem_positions (s i : List Nat) : i ∈ positions s ↔ ValidIdx s i := by
  rw [positions, List.mem_toFinset, mem_indices]

theorem ValidIdx.length {s i : List Nat} (h : ValidIdx s i) : i.length = s.length := by
  induction s generalizing i with
  | nil => cases i with
    | nil => rfl
    | cons a i => exact absurd h (by simp [ValidIdx])
  | cons d s ih => cases i with
    | nil => exact absurd h (by simp [ValidIdx])
    | cons a i => simp [ih h.2]

theorem indices_nodup (s : List Nat) : (indices s).Nodup := by
  induction s with
  | nil => simp [indices]
  | cons d s ih =>
    unfold indices
    rw [List.nodup_flatMap]
    refine ⟨fun i _ => ih.map fun a b h => by simpa using h, ?_⟩
    refine (List.nodup_range (n := d)).imp fun {a b} hab => ?_
    intro l h1 h2
    simp only [List.mem_map] at h1 h2
    obtain ⟨l1, -, rfl⟩ := h1
    obtain ⟨l2, -, h2⟩ := h2
    simp only [List.cons.injEq] at h2
    exact hab h2.1.symm

theorem indices_append (a b : List Nat) : indices (a ++ b) = (indices a).flatMap fun p => (indices b).map (p ++ ·) := by
  induction a with
  | nil => simp [indices]
  | cons d a ih =>
    simp only [List.cons_append, indices, ih, List.map_flatMap, List.flatMap_assoc, List.flatMap_map, List.map_map]
    rfl

variable [AddCommMonoid T]

theorem sum_positions (s : List Nat) (f : List Nat → T) : ∑ i ∈ positions s, f i = ((indices s).map f).sum := by
  rw [positions, List.sum_toFinset _ (indices_nodup s)]

theorem sum_range_list (n : Nat) (f : Nat → T) : ((List.range n).map f).sum = ∑ i ∈ Finset.range n, f i := by
  induction n with
  | zero => simp
  | succ n ih => simp [List.range_succ, Finset.sum_range_succ, ih]

theorem sum_positions_cons (d : Nat) (s : List Nat) (f : List Nat → T) :
    ∑ i ∈ positions (d :: s), f i = ∑ i ∈ Finset.range d, ∑ l ∈ positions s, f (i :: l) := by
  simp only [sum_positions]
  rw [← sum_range_list]
  rw [show indices (d :: s) = (List.range d).flatMap fun i => (indices s).map (i :: ·) from rfl, List.map_flatMap,
    List.flatMap_def, List.sum_flatten, List.map_map]
  simp [Function.comp_def]

theorem sum_positions_append (a b : List Nat) (f : List Nat → T) :
    ∑ i ∈ positions (a ++ b), f i = ∑ p ∈ positions a, ∑ l ∈ positions b, f (p ++ l) := by
  induction a generalizing f with
  | nil => simp [positions, indices]
  | cons d a ih =>
    rw [List.cons_append, sum_positions_cons, sum_positions_cons]
    refine Finset.sum_congr rfl fun i _ => ?_
    rw [ih]
    rfl

/-! ## The loop -/

/-- what the loop computes, from the first dimension to the last -/
def rev : List Nat → List Nat → (List Nat → T) → List Nat → T
  | w :: ws, n :: z, f, j :: js =>
    if w = 1 ∧ 1 < n then ∑ i ∈ Finset.range n, rev ws z (fun l => f (i :: l)) js else rev ws z (fun l => f (j :: l)) js
  | _, _, f, j => f j

/-- the shape it leaves -/
def revShape (w z : List Nat) : List Nat := List.zipWith (fun w n => if w = 1 ∧ 1 < n then 1 else n) w z

theorem rev_sum (w z : List Nat) (s : Finset Nat) (f : Nat → List Nat → T) (j : List Nat) :
    rev w z (fun l => ∑ i ∈ s, f i l) j = ∑ i ∈ s, rev w z (f i) j := by
  induction w generalizing z f j with
  | nil => simp [rev]
  | cons a w ih =>
    cases z with
    | nil => simp [rev]
    | cons n z =>
      cases j with
      | nil => simp [rev]
      | cons b j =>
        simp only [rev]
        split
        · rw [Finset.sum_comm]
          exact Finset.sum_congr rfl fun i _ => ih z (fun k l => f k (i :: l)) j
        · exact ih z (fun k l => f k (b :: l)) j

theorem rev_loop (w z a b : List Nat) (hab : a.length = b.length) (hwz : w.length = z.length) (t : Tensor T)
    (ht : t.shape = a ++ z) :
    ∃ t', (List.range' a.length z.length).foldlM (reverseStep (b ++ w)) t = .ok t' ∧ t'.shape = a ++ revShape w z ∧
      ∀ p j, p.length = a.length → j.length = z.length → t'.at_ (p ++ j) = rev w z (fun l => t.at_ (p ++ l)) j := by
  induction z generalizing w a b t with
  | nil =>
    have : w = [] := by simpa using hwz
    subst this
    refine ⟨t, rfl, by simpa [revShape] using ht, ?_⟩
    intro p j _ hj
    simp [rev]
  | cons n z ih =>
    cases w with
    | nil => simp at hwz
    | cons w0 w =>
      have hwz' : w.length = z.length := by simpa using hwz
      have g1 : (b ++ w0 :: w)[a.length]? = some w0 := by
        rw [hab]
        simp
      have g2 : t.shape[a.length]? = some n := by
        rw [ht]
        simp
      have e1 : ∀ (x y : Nat) (l l' : List Nat), (l ++ x :: l').set l.length y = (l ++ [y]) ++ l' := by
        intro x y l l'
        simp
      rw [List.length_cons, List.range'_succ, List.foldlM_cons]
      by_cases hc : w0 = 1 ∧ 1 < n
      · let t1 : Tensor T := ⟨t.shape.set a.length 1, fun idx => ((List.range n).map fun i => t.at_ (idx.set a.length i)).sum⟩
        have hstep : reverseStep (b ++ w0 :: w) t a.length = .ok t1 := by
          unfold reverseStep sumKeep
          simp only [g1, g2]
          rw [if_pos hc]
        rw [hstep, ok_bind]
        obtain ⟨t', h1, h2, h3⟩ := ih w (a ++ [1]) (b ++ [w0]) (by simp [hab]) hwz' t1 (by
          change t.shape.set a.length 1 = _
          rw [ht]
          exact e1 n 1 a z)
        refine ⟨t', ?_, ?_, ?_⟩
        · simpa using h1
        · rw [h2]
          simp [revShape, hc]
        · intro p j hp hj
          cases j with
          | nil => simp at hj
          | cons j0 j =>
            have := h3 (p ++ [j0]) j (by simp [hp]) (by simpa using hj)
            rw [List.append_assoc] at this
            change t'.at_ (p ++ j0 :: j) = _ at this
            rw [this]
            simp only [rev]
            rw [if_pos hc, ← rev_sum]
            congr 1
            funext l
            change ((List.range n).map fun i => t.at_ ((p ++ [j0] ++ l).set a.length i)).sum = _
            rw [sum_range_list]
            refine Finset.sum_congr rfl fun i _ => ?_
            rw [← hp, List.append_assoc]
            simp
      · have hstep : reverseStep (b ++ w0 :: w) t a.length = .ok t := by
          unfold reverseStep
          simp only [g1, g2]
          rw [if_neg hc]
        rw [hstep, ok_bind]
        obtain ⟨t', h1, h2, h3⟩ := ih w (a ++ [n]) (b ++ [w0]) (by simp [hab]) hwz' t (by simpa using ht)
        refine ⟨t', ?_, ?_, ?_⟩
        · simpa using h1
        · rw [h2]
          simp [revShape, hc]
        · intro p j hp hj
          cases j with
          | nil => simp at hj
          | cons j0 j =>
            have := h3 (p ++ [j0]) j (by simp [hp]) (by simpa using hj)
            rw [List.append_assoc] at this
            change t'.at_ (p ++ j0 :: j) = _ at this
            rw [this]
            simp only [rev]
            rw [if_neg hc]
            simp

/-- aligned shapes: what the loop computes is the sum over the copies -/
theorem rev_fiber (w z : List Nat) (h : List.Forall₂ (fun a b => a = b ∨ a = 1) w z)
    (h0 : List.Forall₂ (fun a b => a = 1 → b ≠ 0) w z) (f : List Nat → T) (j : List Nat) (hj : ValidIdx w j) :
    rev w z f j = ∑ i ∈ positions z,
      if List.zipWith (fun d i => if d = 1 then 0 else i) w i = j then f i else 0 := by
  induction h generalizing f j with
  | nil =>
    cases j with
    | nil => simp [rev, positions, indices]
    | cons a j => exact absurd hj (by simp [ValidIdx])
  | @cons a n w z han hrest ih =>
    cases h0 with
    | cons h01 h02 =>
      cases j with
      | nil => exact absurd hj (by simp [ValidIdx])
      | cons j0 j =>
        obtain ⟨hj0, hj⟩ := hj
        rw [sum_positions_cons]
        simp only [rev, List.zipWith_cons_cons, List.cons.injEq]
        by_cases ha : a = 1
        · subst ha
          have hj00 : j0 = 0 := by omega
          subst hj00
          have hn : n ≠ 0 := h01 rfl
          simp only [if_true, true_and]
          by_cases h1 : 1 < n
          · rw [if_pos h1]
            exact Finset.sum_congr rfl fun i _ => ih h02 _ j hj
          · have : n = 1 := by omega
            subst this
            rw [if_neg (by omega)]
            simp [ih h02 _ j hj]
        · have han' : a = n := by tauto
          subst han'
          simp only [ha, false_and, if_false]
          rw [Finset.sum_eq_single j0]
          · simp [ih h02 _ j hj]
          · intro b _ hb
            simp [hb]
          · intro h
            exact absurd (Finset.mem_range.mpr hj0) h

theorem revShape_aligned (w z : List Nat) (h : List.Forall₂ (fun a b => a = b ∨ a = 1) w z)
    (h0 : List.Forall₂ (fun a b => a = 1 → b ≠ 0) w z) : revShape w z = w := by
  induction h with
  | nil => rfl
  | @cons a n w z han _ ih =>
    cases h0 with
    | cons h01 h02 =>
      have := ih h02
      unfold revShape at this ⊢
      rw [List.zipWith_cons_cons, this]
      congr 1
      split
      · omega
      · rename_i hc
        rcases han with h | h
        · exact h.symm
        · have := h01 h
          omega

/-- C49 (partial): for all shapes, if `w` broadcasts to the shape of the gradient, `_reverse_broadcast` returns a tensor of
shape `w` that holds at each position the sum of the gradients of its copies.  Missing: dimensions of size 1 that are
repeated zero times, see `C49_empty_wrong`. -/
theorem C49_sums_copies_partial (g : Tensor T) (w : List Nat) (h : Broadcasts w g.shape) (h0 : NoneLost w g.shape) :
    ∃ r, reverseBroadcast g w = .ok r ∧ r.shape = w ∧
      ∀ j, ValidIdx w j → r.at_ j = ∑ i ∈ positions g.shape, if sourceIdx w i = j then g.at_ i else 0 := by
  obtain ⟨hlen, hal⟩ := h
  unfold reverseBroadcast
  -- the tensor after the sum over the leading dimensions
  obtain ⟨t, ht, hts, hta⟩ : ∃ t : Tensor T, (if w.length < g.shape.length then sumLeading (g.shape.length - w.length) g else .ok g)
      = .ok t ∧ t.shape = g.shape.drop (g.shape.length - w.length) ∧
      ∀ l, t.at_ l = ∑ p ∈ positions (g.shape.take (g.shape.length - w.length)), g.at_ (p ++ l) := by
    by_cases hc : w.length < g.shape.length
    · refine ⟨_, by rw [if_pos hc, sumLeading, if_neg (by omega)], rfl, fun l => ?_⟩
      rw [sum_positions]
    · have e : g.shape.length - w.length = 0 := by omega
      refine ⟨g, by rw [if_neg hc], by simp [e], fun l => ?_⟩
      simp [e, positions, indices]
  have hlen' : w.length = t.shape.length := by
    rw [hts, List.length_drop]
    omega
  obtain ⟨r, h1, h2, h3⟩ := rev_loop w t.shape [] [] rfl hlen' t rfl
  have hshape : r.shape = w := by
    rw [h2, List.nil_append, hts]
    exact revShape_aligned w _ hal h0
  refine ⟨r, ?_, hshape, ?_⟩
  · by_cases hc : w.length < g.shape.length
    · simp only [hc, if_true] at ht ⊢
      rw [ht, ok_bind, List.range_eq_range']
      exact h1
    · simp only [hc, if_false] at ht ⊢
      rw [ht, ok_bind, List.range_eq_range']
      exact h1
  · intro j hj
    have hjl := hj.length
    have e3 := h3 [] j rfl (by omega)
    simp only [List.nil_append] at e3
    rw [e3, hts, rev_fiber w _ hal h0 _ j hj]
    conv_rhs => rw [← List.take_append_drop (g.shape.length - w.length) g.shape]
    rw [sum_positions_append, Finset.sum_comm]
    refine Finset.sum_congr rfl fun l hl => ?_
    have hll := ((mem_positions _ _).mp hl).length
    rw [List.length_drop] at hll
    have hsrc : ∀ p, sourceIdx w (p ++ l) = List.zipWith (fun d i => if d = 1 then 0 else i) w l := by
      intro p
      unfold sourceIdx
      congr 1
      rw [List.length_append, show p.length + l.length - w.length = p.length by omega]
      simp
    simp only [hsrc]
    split
    · rw [hta]
    · simp

/-- a position of the result reads a position of the operand -/
theorem sourceIdx_valid (w z i : List Nat) (h : Broadcasts w z) (hi : ValidIdx z i) : ValidIdx w (sourceIdx w i) := by
  obtain ⟨hlen, hal⟩ := h
  have key : ∀ (w z : List Nat), List.Forall₂ (fun a b => a = b ∨ a = 1) w z → ∀ i, ValidIdx z i →
      ValidIdx w (List.zipWith (fun d i => if d = 1 then 0 else i) w i) := by
    intro w z h
    induction h with
    | nil => intro i _; simp [ValidIdx]
    | @cons a n w z han _ ih =>
      intro i hi
      cases i with
      | nil => exact absurd hi (by simp [ValidIdx])
      | cons i0 i =>
        rw [List.zipWith_cons_cons]
        refine ⟨?_, ih i hi.2⟩
        have := hi.1
        split <;> omega
  have hdrop : ∀ (k : Nat) (z i : List Nat), ValidIdx z i → ValidIdx (z.drop k) (i.drop k) := by
    intro k
    induction k with
    | zero => intro z i h; simpa using h
    | succ k ih =>
      intro z i h
      cases z with
      | nil => cases i with
        | nil => simpa using h
        | cons a i => exact absurd h (by simp [ValidIdx])
      | cons d z => cases i with
        | nil => exact absurd h (by simp [ValidIdx])
        | cons a i => exact ih z i h.2
  unfold sourceIdx
  rw [hi.length]
  exact key w _ hal _ (hdrop _ z i hi)

/-- C49 (partial): so it is the adjoint of broadcasting: pairing the gradient with a broadcast tensor is pairing the reduced
gradient with the tensor. -/
theorem C49_adjoint_partial {R : Type} [CommSemiring R] (g x : Tensor R) (h : Broadcasts x.shape g.shape)
    (h0 : NoneLost x.shape g.shape) :
    ∃ r, reverseBroadcast g x.shape = .ok r ∧ r.shape = x.shape ∧
      ∑ j ∈ positions x.shape, r.at_ j * x.at_ j = ∑ i ∈ positions g.shape, g.at_ i * x.at_ (sourceIdx x.shape i) := by
  obtain ⟨r, h1, h2, h3⟩ := C49_sums_copies_partial g x.shape h h0
  refine ⟨r, h1, h2, ?_⟩
  have : ∀ j ∈ positions x.shape, r.at_ j * x.at_ j
      = ∑ i ∈ positions g.shape, if sourceIdx x.shape i = j then g.at_ i * x.at_ j else 0 := by
    intro j hj
    rw [h3 j ((mem_positions _ _).mp hj), Finset.sum_mul]
    refine Finset.sum_congr rfl fun i _ => ?_
    split <;> simp
  rw [Finset.sum_congr rfl this, Finset.sum_comm]
  refine Finset.sum_congr rfl fun i hi => ?_
  rw [Finset.sum_eq_single (sourceIdx x.shape i)]
  · simp
  · intro j _ hj
    rw [if_neg (Ne.symm hj)]
  · intro hn
    exact absurd ((mem_positions _ _).mpr (sourceIdx_valid _ _ _ h ((mem_positions _ _).mp hi))) hn

/-! ## The shapes torch gives to results -/

omit [AddCommMonoid T] in
theorem broadcastRev_ok (x y z : List Nat) (h : broadcastRev x y = .ok z) :
    (x.length ≤ z.length ∧ List.Forall₂ (fun a b => a = b ∨ a = 1) x (z.take x.length)) ∧
    (y.length ≤ z.length ∧ List.Forall₂ (fun a b => a = b ∨ a = 1) y (z.take y.length)) := by
  have refl : ∀ l : List Nat, List.Forall₂ (fun a b => a = b ∨ a = 1) l (l.take l.length) := by
    intro l
    rw [List.take_length]
    exact List.forall₂_same.mpr fun a _ => Or.inl rfl
  induction x generalizing y z with
  | nil =>
    simp only [broadcastRev, Except.ok.injEq] at h
    subst h
    exact ⟨by simp, le_rfl, refl y⟩
  | cons a x ih =>
    cases y with
    | nil =>
      simp only [broadcastRev, Except.ok.injEq] at h
      subst h
      exact ⟨⟨le_rfl, refl _⟩, by simp⟩
    | cons b y =>
      unfold broadcastRev at h
      cases hd : broadcastDim a b with
      | error e => simp [hd, error_bind] at h
      | ok d =>
        cases hr : broadcastRev x y with
        | error e => simp [hd, hr, ok_bind] at h
        | ok ds =>
          simp only [hd, hr, ok_bind, pure_eq_ok, Except.ok.injEq] at h
          subst h
          obtain ⟨⟨h1, h2⟩, h3, h4⟩ := ih y ds hr
          have hab : (a = d ∨ a = 1) ∧ (b = d ∨ b = 1) := by
            unfold broadcastDim at hd
            split at hd
            · simp only [Except.ok.injEq] at hd
              omega
            · split at hd
              · simp only [Except.ok.injEq] at hd
                omega
              · split at hd
                · simp only [Except.ok.injEq] at hd
                  omega
                · simp at hd
          refine ⟨⟨by simpa using h1, ?_⟩, by simpa using h3, ?_⟩
          · rw [List.length_cons, List.take_succ_cons]
            exact .cons hab.1 h2
          · rw [List.length_cons, List.take_succ_cons]
            exact .cons hab.2 h4

/-- the shape of a result is one that both operands broadcast to -/
theorem broadcastShape_ok (x y z : List Nat) (h : broadcastShape x y = .ok z) : Broadcasts x z ∧ Broadcasts y z := by
  unfold broadcastShape at h
  cases hr : broadcastRev x.reverse y.reverse with
  | error e => simp [hr, Except.map, Functor.map] at h
  | ok z' =>
    simp only [hr, Functor.map, Except.map, Except.ok.injEq] at h
    obtain ⟨⟨h1, h2⟩, h3, h4⟩ := broadcastRev_ok _ _ _ hr
    have key : ∀ x : List Nat, x.reverse.length ≤ z'.length → List.Forall₂ (fun a b => a = b ∨ a = 1) x.reverse (z'.take x.reverse.length) →
        Broadcasts x z := by
      intro x h1 h2
      subst h
      refine ⟨by simpa using h1, ?_⟩
      have := List.forall₂_reverse_iff.mpr h2
      rw [List.reverse_reverse] at this
      convert this using 1
      simp only [List.length_reverse] at h1 ⊢
      rw [List.drop_reverse]
      congr 2
      omega
    exact ⟨key x h1 h2, key y h3 h4⟩

/-- C49 (partial), for the operands of an operation: whenever torch broadcasts the shapes of two operands, a gradient of the
result's shape is reduced to either operand's shape. -/
theorem C49_operands_partial {R : Type} [CommSemiring R] (x y g : Tensor R) (h : broadcastShape x.shape y.shape = .ok g.shape)
    (hpos : ∀ d ∈ g.shape, d ≠ 0) :
    (∃ r, reverseBroadcast g x.shape = .ok r ∧ r.shape = x.shape ∧
      ∑ j ∈ positions x.shape, r.at_ j * x.at_ j = ∑ i ∈ positions g.shape, g.at_ i * x.at_ (sourceIdx x.shape i)) ∧
    (∃ r, reverseBroadcast g y.shape = .ok r ∧ r.shape = y.shape ∧
      ∑ j ∈ positions y.shape, r.at_ j * y.at_ j = ∑ i ∈ positions g.shape, g.at_ i * y.at_ (sourceIdx y.shape i)) := by
  obtain ⟨h1, h2⟩ := broadcastShape_ok _ _ _ h
  have key : ∀ w, Broadcasts w g.shape → NoneLost w g.shape := by
    intro w hw
    unfold NoneLost
    have hl : w.length = (g.shape.drop (g.shape.length - w.length)).length := hw.2.length_eq
    rw [List.forall₂_iff_get]
    exact ⟨hl, fun i h1 h2 _ => hpos _ (List.mem_of_mem_drop (List.get_mem _ _))⟩
  exact ⟨C49_adjoint_partial g x h1 (key _ h1), C49_adjoint_partial g y h2 (key _ h2)⟩

/-- C49, the code disagrees: an operand of shape `[1]` combined with an empty tensor gets a gradient of shape `[0]` (it
should be a zero of shape `[1]`). -/
theorem C49_empty_wrong : broadcastShape [1] [0] = .ok [0] ∧
    ∃ r, reverseBroadcast (⟨[0], fun _ => 0⟩ : Tensor Int) [1] = .ok r ∧ r.shape = [0] :=
  ⟨rfl, _, rfl, rfl⟩

/-- a gradient of shape `[2, 2, 3]`, reduced to shapes `[2, 1]` and `[1]` -/
example :
    let g : Tensor Int := ⟨[2, 2, 3], fun i => match i with
      | [a, b, c] => 100 * a + 10 * b + c
      | _ => 0⟩
    ((reverseBroadcast g [2, 1]).toOption.map fun r => (r.shape, r.at_ [0, 0], r.at_ [1, 0]))
      = some ([2, 1], 306, 366) ∧
    ((reverseBroadcast g [1]).toOption.map fun r => (r.shape, r.at_ [0])) = some ([1], 672) ∧
    broadcastShape [2, 1] [2, 1, 3] = .ok [2, 2, 3] := by
  decide +kernel

end SyMPC.Tensor
