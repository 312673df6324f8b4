import Verif.Lemmas.Grad
import Verif.Lemmas.Conv

/-!
# Max pooling and its derivative
-/

namespace SyMPC.Grad

open Tensor Finset

/-! ## One window -/

/-- The number at `(us, vs)` is the largest one of the window and the only one of its size, and each other row has a single largest
number; where it has not, its numbers are negative and the largest number of the window is positive. -/
def Clear {R : Type} [Zero R] [LT R] (kh kw : Nat) (win : Nat → Nat → R) (us vs : Nat) : Prop :=
  us < kh ∧ vs < kw ∧ (∀ u < kh, ∀ v < kw, (u, v) ≠ (us, vs) → win u v < win us vs) ∧
    ∀ u < kh, u ≠ us → (∃ v < kw, ∀ v' < kw, v' ≠ v → win u v' < win u v) ∨ (0 < win us vs ∧ ∀ v < kw, win u v < 0)

section
variable {R : Type} [Field R] [LinearOrder R] [IsStrictOrderedRing R]

omit [IsStrictOrderedRing R] in
theorem hot_single (k : Nat) (f : Nat → R) (w : Nat) (hw : w < k) (h : ∀ v < k, v ≠ w → f v < f w) (v : Nat) (hv : v < k) :
    poolHot k f v = if v = w then 1 else 0 := by
  unfold poolHot
  by_cases e : v = w
  · subst e
    rw [if_pos rfl, if_pos]
    intro u hu
    by_cases e : u = v
    · rw [e]
    · exact (h u hu e).le
  · rw [if_neg e, if_neg]
    intro hc
    exact absurd (hc w hw) (not_le.mpr (h v hv e))

omit [IsStrictOrderedRing R] in
theorem max_single (k : Nat) (f : Nat → R) (w : Nat) (hw : w < k) (h : ∀ v < k, v ≠ w → f v < f w) : poolMax k f = f w := by
  unfold poolMax
  rw [Conv.sumTo_eq, ← Finset.sum_range fun v => poolHot k f v * f v, Finset.sum_eq_single w]
  · rw [hot_single k f w hw h w hw, if_pos rfl, one_mul]
  · intro v hv e
    rw [hot_single k f w hw h v (Finset.mem_range.mp hv), if_neg e, zero_mul]
  · intro hc
    exact absurd (Finset.mem_range.mpr hw) hc

theorem max_negative (k : Nat) (f : Nat → R) (h : ∀ v < k, f v < 0) : poolMax k f ≤ 0 := by
  unfold poolMax
  rw [Conv.sumTo_eq]
  refine Finset.sum_nonpos fun v _ => ?_
  unfold poolHot
  split
  · rw [one_mul]
    exact (h v v.2).le
  · rw [zero_mul]

theorem Clear.rows {kh kw : Nat} {win : Nat → Nat → R} {us vs : Nat} (h : Clear kh kw win us vs) :
    poolMax kw (win us) = win us vs ∧ ∀ u < kh, u ≠ us → poolMax kw (win u) < poolMax kw (win us) := by
  obtain ⟨h1, h2, h3, h4⟩ := h
  have e : poolMax kw (win us) = win us vs := max_single kw _ vs h2 fun v hv e => h3 us h1 v hv (by simp [e])
  refine ⟨e, fun u hu ne => ?_⟩
  rw [e]
  rcases h4 u hu ne with ⟨v, hv, h⟩ | ⟨hp, hn⟩
  · rw [max_single kw _ v hv h]
    exact h3 u hu v hv (by simp [ne])
  · exact lt_of_le_of_lt (max_negative kw _ hn) hp

/-- The value is the largest number. -/
theorem Clear.value {kh kw : Nat} {win : Nat → Nat → R} {us vs : Nat} (h : Clear kh kw win us vs) : poolValue kh kw win = win us vs := by
  obtain ⟨e, lt⟩ := h.rows
  unfold poolValue
  rw [max_single kh _ us h.1 lt, e]

/-- Its place is marked, and no other one. -/
theorem Clear.index {kh kw : Nat} {win : Nat → Nat → R} {us vs : Nat} (h : Clear kh kw win us vs) (u v : Nat) (hu : u < kh) (hv : v < kw) :
    poolIndex kh kw win u v = if u = us ∧ v = vs then 1 else 0 := by
  obtain ⟨e, lt⟩ := h.rows
  unfold poolIndex
  rw [hot_single kh _ us h.1 lt u hu]
  by_cases eu : u = us
  · subst eu
    rw [hot_single kw _ vs h.2.1 (fun v hv e => h.2.2.1 u h.1 v hv (by simp [e])) v hv]
    by_cases ev : v = vs <;> simp [ev]
  · simp [eu]

end

/-- An unchanged maximum: the condition stays true nearby. -/
theorem Clear.nearby {kh kw : Nat} (win : ℝ → Nat → Nat → ℝ) {us vs : Nat} (h : Clear kh kw (win 0) us vs)
    (hc : ∀ u < kh, ∀ v < kw, ContinuousAt (fun t => win t u v) 0) : ∀ᶠ t in nhds 0, Clear kh kw (win t) us vs := by
  obtain ⟨h1, h2, h3, h4⟩ := h
  have all : ∀ (k : Nat) (p : Nat → ℝ → Prop), (∀ u < k, ∀ᶠ t in nhds 0, p u t) → ∀ᶠ t in nhds (0 : ℝ), ∀ u < k, p u t := by
    intro k p hp
    have := (Finset.eventually_all (Finset.range k) (l := nhds (0 : ℝ)) (p := fun u t => p u t)).mpr fun u hu => hp u (Finset.mem_range.mp hu)
    filter_upwards [this] with t ht u hu
    exact ht u (Finset.mem_range.mpr hu)
  have e3 : ∀ᶠ t in nhds 0, ∀ u < kh, ∀ v < kw, (u, v) ≠ (us, vs) → win t u v < win t us vs := by
    refine all kh _ fun u hu => all kw _ fun v hv => ?_
    by_cases e : (u, v) = (us, vs)
    · exact Filter.Eventually.of_forall fun t ht => absurd e ht
    · filter_upwards [(hc u hu v hv).eventually_lt (hc us h1 vs h2) (h3 u hu v hv e)] with t ht _ using ht
  have e4 : ∀ᶠ t in nhds 0, ∀ u < kh, u ≠ us →
      (∃ v < kw, ∀ v' < kw, v' ≠ v → win t u v' < win t u v) ∨ (0 < win t us vs ∧ ∀ v < kw, win t u v < 0) := by
    refine all kh _ fun u hu => ?_
    by_cases e : u = us
    · exact Filter.Eventually.of_forall fun t ht => absurd e ht
    · rcases h4 u hu e with ⟨v, hv, hlt⟩ | ⟨hp, hn⟩
      · have : ∀ᶠ t in nhds 0, ∀ v' < kw, v' ≠ v → win t u v' < win t u v := by
          refine all kw _ fun v' hv' => ?_
          by_cases e' : v' = v
          · exact Filter.Eventually.of_forall fun t ht => absurd e' ht
          · filter_upwards [(hc u hu v' hv').eventually_lt (hc u hu v hv) (hlt v' hv' e')] with t ht _ using ht
        filter_upwards [this] with t ht _ using Or.inl ⟨v, hv, ht⟩
      · have a1 : ∀ᶠ t in nhds 0, 0 < win t us vs := continuousAt_const.eventually_lt (hc us h1 vs h2) hp
        have a2 : ∀ᶠ t in nhds 0, ∀ v < kw, win t u v < 0 := all kw _ fun v hv => (hc u hu v hv).eventually_lt continuousAt_const (hn v hv)
        filter_upwards [a1, a2] with t t1 t2 _ using Or.inr ⟨t1, t2⟩
  filter_upwards [e3, e4] with t t3 t4 using ⟨h1, h2, t3, t4⟩

/-! ## Images -/

theorem parts (b l : List Nat) (i j : Nat) : (b ++ i :: j :: l).take b.length = b ∧ (b ++ i :: j :: l).getD b.length 0 = i ∧
    (b ++ i :: j :: l).getD (b.length + 1) 0 = j := by
  refine ⟨by simp, ?_, ?_⟩ <;> simp [List.getD_eq_getElem?_getD]

theorem parts4 (b : List Nat) (i j u v : Nat) : (b ++ [i, j, u, v]).getD (b.length + 2) 0 = u ∧
    (b ++ [i, j, u, v]).getD (b.length + 3) 0 = v := by
  constructor <;> simp [List.getD_eq_getElem?_getD]

theorem sizes_of (bs : List Nat) (h v : Nat) : (bs ++ [h, v]).length - 2 = bs.length ∧ (bs ++ [h, v]).length - 1 = bs.length + 1 := by
  simp

theorem valid_append {bs l b m : List Nat} (h : b.length = bs.length) : ValidIdx (bs ++ l) (b ++ m) ↔ ValidIdx bs b ∧ ValidIdx l m := by
  induction bs generalizing b with
  | nil =>
    cases b with
    | nil => simp [ValidIdx]
    | cons a b => simp at h
  | cons d bs ih =>
    cases b with
    | nil => simp at h
    | cons a b =>
      have := ih (b := b) (by simpa using h)
      simp only [List.cons_append, ValidIdx, this, and_assoc]

theorem valid_split {bs : List Nat} {h v : Nat} {o : List Nat} (ho : ValidIdx (bs ++ [h, v]) o) :
    ∃ b i j, o = b ++ [i, j] ∧ ValidIdx bs b ∧ i < h ∧ j < v := by
  have hl := ho.length
  rw [List.length_append] at hl
  have e : o = o.take bs.length ++ o.drop bs.length := (List.take_append_drop _ _).symm
  have hd : (o.drop bs.length).length = 2 := by simp only [List.length_drop]; simp at hl; omega
  obtain ⟨i, j, hij⟩ := List.length_eq_two.mp hd
  rw [hij] at e
  rw [e] at ho
  have ht : (o.take bs.length).length = bs.length := by simp only [List.length_take]; simp at hl; omega
  obtain ⟨h1, h2⟩ := (valid_append ht).mp ho
  exact ⟨_, i, j, e, h1, h2.1, h2.2.1⟩

/-- place `(u, w)` of window `(i, j)` is in the image -/
def InImage (a : PoolArgs) (h v i j u w : Nat) : Prop :=
  (a.ph ≤ i * a.sh + u ∧ i * a.sh + u < a.ph + h) ∧ (a.pw ≤ j * a.sw + w ∧ j * a.sw + w < a.pw + v)

instance (a : PoolArgs) (h v i j u w : Nat) : Decidable (InImage a h v i j u w) := inferInstanceAs (Decidable (_ ∧ _))

theorem window_in {R : Type} [Field R] (a : PoolArgs) (q : R) (x : Tensor R) (bs : List Nat) (h v : Nat) (hx : x.shape = bs ++ [h, v])
    (b : List Nat) (i j u w : Nat) (hin : InImage a h v i j u w) :
    poolWindow a q x b i j u w = x.at_ (b ++ [i * a.sh + u - a.ph, j * a.sw + w - a.pw]) := by
  unfold InImage at hin
  unfold poolWindow poolPadded
  obtain ⟨p1, p2⟩ := sizes_of bs h v
  obtain ⟨p3, p4, p5⟩ := parts bs [] h v
  rw [hx, p1, p2, p4, p5, if_pos hin]

theorem window_out {R : Type} [Field R] (a : PoolArgs) (q : R) (x : Tensor R) (bs : List Nat) (h v : Nat) (hx : x.shape = bs ++ [h, v])
    (b : List Nat) (i j u w : Nat) (hin : ¬ InImage a h v i j u w) : poolWindow a q x b i j u w = -25 * q := by
  unfold InImage at hin
  unfold poolWindow poolPadded
  obtain ⟨p1, p2⟩ := sizes_of bs h v
  obtain ⟨p3, p4, p5⟩ := parts bs [] h v
  rw [hx, p1, p2, p4, p5, if_neg hin]

theorem run_ok {R : Type} [Field R] [LinearOrder R] (a : PoolArgs) (q : R) (x : Tensor R) (bs : List Nat) (h v : Nat)
    (hx : x.shape = bs ++ [h, v]) (h1 : a.kh ≤ h + 2 * a.ph) (h2 : a.kw ≤ v + 2 * a.pw) (h3 : a.sh ≠ 0) (h4 : a.sw ≠ 0) :
    ∃ r p, poolRun a q x = .ok (r, p) ∧ r.shape = bs ++ [poolOut h a.kh a.sh a.ph, poolOut v a.kw a.sw a.pw] ∧
      p.shape = bs ++ [poolOut h a.kh a.sh a.ph, poolOut v a.kw a.sw a.pw] ++ [a.kh, a.kw] ∧
      (∀ b i j, b.length = bs.length → r.at_ (b ++ [i, j]) = poolValue a.kh a.kw (poolWindow a q x b i j)) ∧
      ∀ b i j u w, b.length = bs.length → p.at_ (b ++ [i, j, u, w]) = poolIndex a.kh a.kw (poolWindow a q x b i j) u w := by
  obtain ⟨p1, p2⟩ := sizes_of bs h v
  obtain ⟨p3, p4, p5⟩ := parts bs [] h v
  unfold poolRun
  simp only [hx, p1, p2, p3, p4, p5]
  rw [if_neg (by simp), if_neg (by omega), if_neg (by omega)]
  refine ⟨_, _, rfl, rfl, rfl, fun b i j hb => ?_, fun b i j u w hb => ?_⟩
  · obtain ⟨q1, q2, q3⟩ := parts b [] i j
    dsimp only
    rw [← hb, q1, q2, q3]
  · obtain ⟨q1, q2, q3⟩ := parts b [u, w] i j
    obtain ⟨q4, q5⟩ := parts4 b i j u w
    dsimp only
    rw [← hb, q1, q2, q3, q4, q5]

theorem run_inv {R : Type} [Field R] [LinearOrder R] {a : PoolArgs} {q : R} {x r p : Tensor R} (bs : List Nat) (h v : Nat)
    (hx : x.shape = bs ++ [h, v]) (hr : poolRun a q x = .ok (r, p)) : a.kh ≤ h + 2 * a.ph ∧ a.kw ≤ v + 2 * a.pw ∧ a.sh ≠ 0 ∧ a.sw ≠ 0 := by
  obtain ⟨p1, p2⟩ := sizes_of bs h v
  obtain ⟨p3, p4, p5⟩ := parts bs [] h v
  unfold poolRun at hr
  simp only [hx, p1, p2, p3, p4, p5] at hr
  rw [if_neg (by simp)] at hr
  by_cases c1 : h + 2 * a.ph < a.kh ∨ v + 2 * a.pw < a.kw
  · rw [if_pos c1] at hr
    cases hr
  · rw [if_neg c1] at hr
    by_cases c2 : a.sh = 0 ∨ a.sw = 0
    · rw [if_pos c2] at hr
      cases hr
    · omega

theorem helper_ok {R : Type} [Field R] (a : PoolArgs) (m : Tensor R) (bs : List Nat) (h v : Nat)
    (hb : bs.length ≠ 2 ∨ a.ph = 0 ∧ a.pw = 0) (h1 : a.kh ≤ h + 2 * a.ph) (h2 : a.kw ≤ v + 2 * a.pw) (h3 : a.sh ≠ 0) (h4 : a.sw ≠ 0) :
    ∃ r, poolHelper (bs ++ [h, v]) m a = .ok r ∧ r.shape = bs ++ [h, v] ∧ ∀ b y z, b.length = bs.length → r.at_ (b ++ [y, z])
      = poolScatter a (poolOut h a.kh a.sh a.ph) (poolOut v a.kw a.sw a.pw) m.at_ b (y + a.ph) (z + a.pw) := by
  obtain ⟨p1, p2⟩ := sizes_of bs h v
  obtain ⟨p3, p4, p5⟩ := parts bs [] h v
  unfold poolHelper
  simp only [p1, p2, p3, p4, p5]
  rw [if_neg (by omega), if_neg (by omega)]
  refine ⟨_, rfl, ?_, fun b y z hb => ?_⟩
  · dsimp only
    rcases hb with hb | ⟨e1, e2⟩
    · rw [if_neg (by simp; omega)]
    · rw [e1, e2]
      simp
  · obtain ⟨q1, q2, q3⟩ := parts b [] y z
    dsimp only
    rw [← hb, q1, q2, q3]

theorem broadcasts_view (s : List Nat) (a b : Nat) : Broadcasts (s ++ [1, 1]) (s ++ [a, b]) := by
  refine ⟨by simp, ?_⟩
  rw [show (s ++ [a, b]).length - (s ++ [1, 1] : List Nat).length = 0 by simp, List.drop_zero]
  have h1 : List.Forall₂ (fun a b : Nat => a = b ∨ a = 1) s s := List.forall₂_same.mpr fun a _ => Or.inl rfl
  have h2 : List.Forall₂ (fun a b : Nat => a = b ∨ a = 1) [1, 1] [a, b] := .cons (Or.inr rfl) (.cons (Or.inr rfl) .nil)
  exact List.rel_append h1 h2

theorem source_view (s o : List Nat) (a b : Nat) (h : ValidIdx s o) : (sourceIdx (s ++ [1, 1]) (o ++ [a, b])).take s.length = o := by
  unfold sourceIdx
  rw [show (o ++ [a, b]).length - (s ++ [1, 1] : List Nat).length = 0 by simp [h.length], List.drop_zero,
    List.zipWith_append (by rw [h.length])]
  have := sourceIdx_self s o h
  unfold sourceIdx at this
  rw [h.length, Nat.sub_self, List.drop_zero] at this
  rw [this, List.take_left' h.length]

/-! ## The gradient -/

/-- The gradient of each window goes to the place of its maximum. -/
theorem back_pool (x r p : Tensor ℝ) (q : ℝ) (s : PoolSizes) (a : PoolArgs) (ha : poolArgs s.kernel s.stride s.padding s.dilation = .ok a)
    (bs : List Nat) (h v : Nat) (hx : x.shape = bs ++ [h, v]) (hb : bs.length = 1 ∨ bs.length = 2 ∧ a.ph = 0 ∧ a.pw = 0)
    (hr : poolRun a q x = .ok (r, p)) (us vs : List Nat → Nat → Nat → Nat)
    (hin : ∀ b i j, ValidIdx bs b → i < poolOut h a.kh a.sh a.ph → j < poolOut v a.kw a.sw a.pw → InImage a h v i j (us b i j) (vs b i j))
    (hc : ∀ b i j, ValidIdx bs b → i < poolOut h a.kh a.sh a.ph → j < poolOut v a.kw a.sw a.pw →
      Clear a.kh a.kw (poolWindow a q x b i j) (us b i j) (vs b i j))
    (place : List Nat → List Nat) (hplace : ∀ b i j, b.length = bs.length →
      place (b ++ [i, j]) = b ++ [i * a.sh + us b i j - a.ph, j * a.sw + vs b i j - a.pw]) :
    Back r.shape (poolBackward x.shape p s) [x.shape] fun _ => reads place fun _ => 1 := by
  obtain ⟨h1, h2, h3, h4⟩ := run_inv bs h v hx hr
  obtain ⟨r', p', e, r1, p1, -, p2⟩ := run_ok a q x bs h v hx h1 h2 h3 h4
  rw [hr] at e
  obtain ⟨rfl, rfl⟩ := Prod.mk.inj (Except.ok.inj e)
  clear e
  rw [r1]
  refine back_one fun g hg => ?_
  obtain ⟨m, z1, z2, z3⟩ := zip_wide (fun p g => g * p) p ⟨g.shape ++ [1, 1], fun o => g.at_ (o.take g.shape.length)⟩
    (by rw [p1, hg]; exact broadcasts_view _ _ _)
  obtain ⟨m0, q1, q2, q3⟩ := helper_ok a m bs h v (by omega) h1 h2 h3 h4
  generalize poolOut h a.kh a.sh a.ph = oh at *
  generalize poolOut v a.kw a.sw a.pw = ov at *
  refine ⟨m0, ?_, by rw [q2, hx], fun i hi => ?_⟩
  · unfold poolBackward
    rw [ha]
    change (if _ then _ else _) = _
    rw [hg, if_neg (by simp; omega), if_neg (by rw [p1]; simp), ← hg]
    change (do
      let m ← Tensor.zip (fun p g => g * p) p ⟨g.shape ++ [1, 1], fun o => g.at_ (o.take g.shape.length)⟩
      let r ← poolHelper x.shape m a
      return [r]) = _
    rw [z1, ok_bind, hx, q1]
    rfl
  · rw [hx] at hi
    obtain ⟨b, y, z, rfl, hb, hy, hz⟩ := valid_split hi
    rw [q3 b y z hb.length, sum_positions_append, Finset.sum_eq_single b]
    · rw [sum_matrix]
      unfold poolScatter
      rw [Conv.sumTo_eq (T := ℝ), Finset.sum_range (M := ℝ)]
      refine Finset.sum_congr rfl fun i _ => ?_
      rw [Conv.sumTo_eq (T := ℝ), Finset.sum_range (M := ℝ)]
      refine Finset.sum_congr rfl fun j _ => ?_
      have hin := hin b i j hb i.2 j.2
      have hc := hc b i j hb i.2 j.2
      have hpl := hplace b i j hb.length
      unfold reads
      rw [hpl]
      have eq : b ++ [(i : Nat) * a.sh + us b i j - a.ph, (j : Nat) * a.sw + vs b i j - a.pw] = b ++ [y, z] ↔
          (i : Nat) * a.sh + us b i j = y + a.ph ∧ (j : Nat) * a.sw + vs b i j = z + a.pw := by
        unfold InImage at hin
        simp only [List.append_cancel_left_eq, List.cons.injEq, and_true]
        omega
      simp only [eq]
      by_cases c : ((i : Nat) * a.sh ≤ y + a.ph ∧ y + a.ph < i * a.sh + a.kh) ∧ ((j : Nat) * a.sw ≤ z + a.pw ∧ z + a.pw < j * a.sw + a.kw)
      · rw [if_pos c]
        have vo : ValidIdx (bs ++ [oh, ov]) (b ++ [(i : Nat), (j : Nat)]) := (valid_append hb.length).mpr ⟨hb, i.2, j.2, trivial⟩
        have e : b ++ [(i : Nat), (j : Nat), y + a.ph - i * a.sh, z + a.pw - j * a.sw]
            = (b ++ [(i : Nat), (j : Nat)]) ++ [y + a.ph - i * a.sh, z + a.pw - j * a.sw] := by simp
        have := z3 (b ++ [(i : Nat), (j : Nat), y + a.ph - i * a.sh, z + a.pw - j * a.sw]) (by
          rw [e, p1, valid_append vo.length]
          exact ⟨vo, by omega, by omega, trivial⟩)
        rw [this, p2 _ _ _ _ _ hb.length, hc.index _ _ (by omega) (by omega)]
        dsimp only
        rw [hg, e, source_view _ _ _ _ vo]
        congr 1
        refine if_congr ?_ rfl rfl
        omega
      · rw [if_neg c, if_neg, mul_zero]
        have := hc.1
        have := hc.2.1
        omega
    · intro b' hb' ne
      rw [mem_positions] at hb'
      refine Finset.sum_eq_zero fun l hl => ?_
      rw [mem_positions] at hl
      obtain ⟨b0, i, j, rfl, h0, -, -⟩ := valid_split (bs := []) hl
      cases b0 with
      | cons => exact absurd h0 (by simp [ValidIdx])
      | nil =>
        rw [List.nil_append, reads, hplace b' i j hb'.length, if_neg, mul_zero]
        intro hc
        exact ne (List.append_inj_left' hc rfl)
    · intro hc
      exact absurd ((mem_positions _ _).mpr hb) hc

/-- The value follows the place of the maximum. -/
theorem pool_deriv {x : ℝ → Tensor ℝ} {dx : List Nat → ℝ} (hd : Deriv x dx) (q : ℝ) (a : PoolArgs)
    (bs : List Nat) (h v : Nat) (hx : (x 0).shape = bs ++ [h, v]) (h1 : a.kh ≤ h + 2 * a.ph) (h2 : a.kw ≤ v + 2 * a.pw) (h3 : a.sh ≠ 0)
    (h4 : a.sw ≠ 0) (us vs : List Nat → Nat → Nat → Nat)
    (hin : ∀ b i j, ValidIdx bs b → i < poolOut h a.kh a.sh a.ph → j < poolOut v a.kw a.sw a.pw → InImage a h v i j (us b i j) (vs b i j))
    (hc : ∀ b i j, ValidIdx bs b → i < poolOut h a.kh a.sh a.ph → j < poolOut v a.kw a.sw a.pw →
      Clear a.kh a.kw (poolWindow a q (x 0) b i j) (us b i j) (vs b i j))
    (place : List Nat → List Nat) (hplace : ∀ b i j, b.length = bs.length →
      place (b ++ [i, j]) = b ++ [i * a.sh + us b i j - a.ph, j * a.sw + vs b i j - a.pw]) :
    ∃ out p : ℝ → Tensor ℝ, (∀ t, poolRun a q (x t) = .ok (out t, p t)) ∧
      Deriv out fun o => ∑ i ∈ positions (x 0).shape, reads place (fun _ => 1) o i * dx i := by
  have hx' : ∀ t, (x t).shape = bs ++ [h, v] := fun t => by rw [hd.1, hx]
  choose out p e r1 p1 r2 p2 using fun t => run_ok a q (x t) bs h v (hx' t) h1 h2 h3 h4
  refine ⟨out, p, e, fun t => by rw [r1, r1], fun o ho => ?_⟩
  rw [r1] at ho
  obtain ⟨b, i, j, rfl, hb, hi, hj⟩ := valid_split ho
  have hin := hin b i j hb hi hj
  have hc := hc b i j hb hi hj
  have vp : ∀ u w, InImage a h v i j u w → ValidIdx (x 0).shape (b ++ [i * a.sh + u - a.ph, j * a.sw + w - a.pw]) := by
    intro u w hin
    rw [hx, valid_append hb.length]
    unfold InImage at hin
    exact ⟨hb, by omega, by omega, trivial⟩
  beta_reduce
  rw [sum_reads _ _ _ _ (by rw [hplace b i j hb.length]; exact vp _ _ hin), one_mul, hplace b i j hb.length]
  refine (hd.2 _ (vp _ _ hin)).congr_of_eventuallyEq ?_
  have near := hc.nearby (fun t => poolWindow a q (x t) b i j) (fun u _ w _ => by
    by_cases c : InImage a h v i j u w
    · simp only [fun t => window_in a q (x t) bs h v (hx' t) b i j u w c]
      exact (hd.2 _ (vp _ _ c)).continuousAt
    · simp only [fun t => window_out a q (x t) bs h v (hx' t) b i j u w c]
      exact continuousAt_const)
  filter_upwards [near] with t ht
  rw [r2 t b i j hb.length, ht.value, window_in a q (x t) bs h v (hx' t) b i j _ _ hin]

end SyMPC.Grad
