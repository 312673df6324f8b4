import Verif.Lemmas.GradOps
import Mathlib.Analysis.Asymptotics.Lemmas
import Mathlib.Analysis.Calculus.Deriv.Basic

/-!
# Operations on tensors with small errors

Families of tensors that differ from given ones by `O(δ)`, for `δ` that goes to zero along a filter: each operation and the matrix of its
`backward` keep this.
-/

namespace SyMPC.Grad

open Tensor Finset Filter Topology Asymptotics

section
variable {ι : Type} {l : Filter ι} {δ : ι → ℝ}

/-! ## Numbers -/

/-- the numbers `a e` differ from `b` by `O(δ e)` -/
def Close (l : Filter ι) (δ : ι → ℝ) (a : ι → ℝ) (b : ℝ) : Prop := (fun e => a e - b) =O[l] δ

theorem Close.const (b : ℝ) : Close l δ (fun _ => b) b := by
  unfold Close
  simp only [sub_self]
  exact isBigO_zero _ _

theorem Close.add {a c : ι → ℝ} {b d : ℝ} (h : Close l δ a b) (h' : Close l δ c d) : Close l δ (fun e => a e + c e) (b + d) :=
  (IsBigO.add h h').congr_left fun e => by ring

theorem Close.sub {a c : ι → ℝ} {b d : ℝ} (h : Close l δ a b) (h' : Close l δ c d) : Close l δ (fun e => a e - c e) (b - d) :=
  (IsBigO.sub h h').congr_left fun e => by ring

theorem Close.neg {a : ι → ℝ} {b : ℝ} (h : Close l δ a b) : Close l δ (fun e => -a e) (-b) :=
  (IsBigO.neg_left h).congr_left fun e => by ring

theorem Close.sum {κ : Type} (s : Finset κ) {a : κ → ι → ℝ} {b : κ → ℝ} (h : ∀ k ∈ s, Close l δ (a k) (b k)) :
    Close l δ (fun e => ∑ k ∈ s, a k e) (∑ k ∈ s, b k) :=
  (IsBigO.sum h).congr_left fun e => by simp only [Finset.sum_apply, Finset.sum_sub_distrib]

theorem Close.congr {a c : ι → ℝ} {b : ℝ} (h : Close l δ a b) (he : ∀ᶠ e in l, c e = a e) : Close l δ c b :=
  IsBigO.congr' h (he.mono fun e h => by simp only [h]) EventuallyEq.rfl

theorem Close.tendsto (hδ : Tendsto δ l (𝓝 0)) {a : ι → ℝ} {b : ℝ} (h : Close l δ a b) : Tendsto a l (𝓝 b) := by
  have := (IsBigO.trans_tendsto h hδ).add_const b
  simpa using this

theorem Close.mul (hδ : Tendsto δ l (𝓝 0)) {a c : ι → ℝ} {b d : ℝ} (h : Close l δ a b) (h' : Close l δ c d) :
    Close l δ (fun e => a e * c e) (b * d) := by
  have h1 : (fun e => (a e - b) * c e) =O[l] δ := by
    have := IsBigO.mul h ((h'.tendsto hδ).isBigO_one ℝ)
    simpa using this
  have h2 : (fun e => b * (c e - d)) =O[l] δ := IsBigO.const_mul_left h' b
  exact (h1.add h2).congr_left fun e => by ring

/-- a function with a derivative -/
theorem Close.comp (hδ : Tendsto δ l (𝓝 0)) {a : ι → ℝ} {b : ℝ} (h : Close l δ a b) (f : ℝ → ℝ) (f' : ℝ) (hf : HasDerivAt f f' b) :
    Close l δ (fun e => f (a e)) (f b) :=
  (hf.isBigO_sub.comp_tendsto (h.tendsto hδ)).trans h

theorem Close.pow (hδ : Tendsto δ l (𝓝 0)) {a : ι → ℝ} {b : ℝ} (h : Close l δ a b) (n : Nat) : Close l δ (fun e => a e ^ n) (b ^ n) :=
  h.comp hδ (· ^ n) _ (hasDerivAt_pow n b)

theorem Close.inv (hδ : Tendsto δ l (𝓝 0)) {a : ι → ℝ} {b : ℝ} (h : Close l δ a b) (hb : b ≠ 0) : Close l δ (fun e => (a e)⁻¹) b⁻¹ :=
  h.comp hδ (fun x => x⁻¹) _ (hasDerivAt_inv hb)

theorem Close.div (hδ : Tendsto δ l (𝓝 0)) {a c : ι → ℝ} {b d : ℝ} (h : Close l δ a b) (h' : Close l δ c d) (hd : d ≠ 0) :
    Close l δ (fun e => a e / c e) (b / d) := by
  simp only [div_eq_mul_inv]
  exact h.mul hδ (h'.inv hδ hd)

theorem Close.mask (hδ : Tendsto δ l (𝓝 0)) {a : ι → ℝ} {b : ℝ} (h : Close l δ a b) (hb : b ≠ 0) :
    Close l δ (fun e => reluMask (a e)) (reluMask b) := by
  refine (Close.const (reluMask b)).congr ?_
  rcases lt_or_gt_of_ne hb with hb | hb
  · filter_upwards [(h.tendsto hδ).eventually_lt_const hb] with e he
    simp only [reluMask, if_neg (not_lt.mpr he.le), if_neg (not_lt.mpr hb.le)]
  · filter_upwards [(h.tendsto hδ).eventually_const_lt hb] with e he
    simp only [reluMask, if_pos he, if_pos hb]

/-! ## Tensors -/

/-- the tensors `x e` have the shape of `y`, and their elements differ by `O(δ e)` from those of `y` -/
def Near (l : Filter ι) (δ : ι → ℝ) (x : ι → Tensor ℝ) (y : Tensor ℝ) : Prop :=
  (∀ᶠ e in l, (x e).shape = y.shape) ∧ ∀ o, ValidIdx y.shape o → Close l δ (fun e => (x e).at_ o) (y.at_ o)

theorem Near.const (y : Tensor ℝ) : Near l δ (fun _ => y) y := ⟨Eventually.of_forall fun _ => rfl, fun _ _ => Close.const _⟩

/-- What is shown for an operation with operands `ps`: close operands give close results, and close matrices for `backward`. -/
def NearOp (l : Filter ι) (δ : ι → ℝ) (fwd : (Nat → Tensor ℝ) → Py (Tensor ℝ × (Tensor ℝ → Py (List (Tensor ℝ))))) (ps : List Nat)
    (val : Nat → Tensor ℝ) (r : Tensor ℝ) (fn : Tensor ℝ → Py (List (Tensor ℝ))) : Prop :=
  ∃ J, Back r.shape fn (ps.map fun p => (val p).shape) J ∧
    ∀ V : ι → Nat → Tensor ℝ, (∀ p ∈ ps, Near l δ (fun e => V e p) (val p)) →
      ∃ (out : ι → Tensor ℝ) (fns : ι → Tensor ℝ → Py (List (Tensor ℝ))) (Js : ι → Nat → List Nat → List Nat → ℝ),
        (∀ᶠ e in l, fwd (V e) = .ok (out e, fns e)) ∧
        (∀ᶠ e in l, Back r.shape (fns e) (ps.map fun p => (val p).shape) (Js e)) ∧ Near l δ out r ∧
        ∀ k p o i, ps[k]? = some p → ValidIdx r.shape o → ValidIdx (val p).shape i → Close l δ (fun e => Js e k o i) (J k o i)

theorem Close.reads {σ : List Nat → List Nat} {c : ι → List Nat → ℝ} {c0 : List Nat → ℝ} {o : List Nat} (i : List Nat)
    (h : Close l δ (fun e => c e o) (c0 o)) : Close l δ (fun e => Grad.reads σ (c e) o i) (Grad.reads σ c0 o i) := by
  unfold Grad.reads
  split
  · exact h
  · exact Close.const _

/-- operations on two tensors, element by element -/
theorem near_zip (f : ℝ → ℝ → ℝ) (back : Tensor ℝ → Tensor ℝ → Tensor ℝ → Tensor ℝ → Py (List (Tensor ℝ)))
    (val : Nat → Tensor ℝ) (x y : Nat) (r : Tensor ℝ) (fn : Tensor ℝ → Py (List (Tensor ℝ)))
    (h : binary (Tensor.zip f) back (val x) (val y) = .ok (r, fn)) (J : Tensor ℝ → Tensor ℝ → Nat → List Nat → List Nat → ℝ)
    (hback : ∀ a b c, a.shape = (val x).shape → b.shape = (val y).shape → Tensor.zip f a b = .ok c →
      Back r.shape (back c a b) [(val x).shape, (val y).shape] (J a b))
    (hf : ∀ o, ValidIdx r.shape o → ∀ a b : ι → ℝ, Close l δ a ((val x).at_ (sourceIdx (val x).shape o)) →
      Close l δ b ((val y).at_ (sourceIdx (val y).shape o)) →
      Close l δ (fun e => f (a e) (b e)) (f ((val x).at_ (sourceIdx (val x).shape o)) ((val y).at_ (sourceIdx (val y).shape o))))
    (hJ : ∀ a b : ι → Tensor ℝ, Near l δ a (val x) → Near l δ b (val y) → ∀ k o i, ValidIdx r.shape o → k < 2 →
      Close l δ (fun e => J (a e) (b e) k o i) (J (val x) (val y) k o i)) :
    NearOp l δ (fun val => binary (Tensor.zip f) back (val x) (val y)) [x, y] val r fn := by
  obtain ⟨h1, rfl⟩ := binary_ok h
  have hs := zip_shape h1
  obtain ⟨hb1, hb2⟩ := broadcastShape_ok _ _ _ hs
  refine ⟨J (val x) (val y), hback _ _ _ rfl rfl h1, fun V hV => ?_⟩
  have hx := hV x (by simp)
  have hy := hV y (by simp)
  let out : ι → Tensor ℝ := fun e => ⟨r.shape, fun idx => f ((V e x).at_ (sourceIdx (val x).shape idx)) ((V e y).at_ (sourceIdx (val y).shape idx))⟩
  have hz : ∀ᶠ e in l, Tensor.zip f (V e x) (V e y) = .ok (out e) ∧ (V e x).shape = (val x).shape ∧ (V e y).shape = (val y).shape := by
    filter_upwards [hx.1, hy.1] with e e1 e2
    refine ⟨?_, e1, e2⟩
    rw [zip_ok f _ _ r.shape (by rw [e1, e2]; exact hs), e1, e2]
  have hr : r = ⟨r.shape, fun idx => f ((val x).at_ (sourceIdx (val x).shape idx)) ((val y).at_ (sourceIdx (val y).shape idx))⟩ := by
    have := zip_ok f _ _ _ hs
    rw [h1] at this
    exact Except.ok.inj this
  refine ⟨out, fun e => back (out e) (V e x) (V e y), fun e => J (V e x) (V e y), ?_, ?_, ⟨Eventually.of_forall fun _ => rfl, ?_⟩, ?_⟩
  · filter_upwards [hz] with e he
    unfold binary
    rw [he.1]
    rfl
  · filter_upwards [hz] with e he
    exact hback _ _ _ he.2.1 he.2.2 he.1
  · intro o ho
    rw [hr]
    exact hf o ho _ _ (hx.2 _ (sourceIdx_valid _ _ _ hb1 ho)) (hy.2 _ (sourceIdx_valid _ _ _ hb2 ho))
  · intro k p o i hk ho _
    refine hJ _ _ hx hy k o i ho ?_
    by_contra hc
    rw [List.getElem?_eq_none (by simp; omega)] at hk
    cases hk

theorem near_zip_public (f : ℝ → ℝ → ℝ) (back : Tensor ℝ → Tensor ℝ → Tensor ℝ → Tensor ℝ → Py (List (Tensor ℝ)))
    (val : Nat → Tensor ℝ) (x : Nat) (y : Tensor ℝ) (r : Tensor ℝ) (fn : Tensor ℝ → Py (List (Tensor ℝ)))
    (h : binary (Tensor.zip f) back (val x) y = .ok (r, fn)) (J : Tensor ℝ → Tensor ℝ → Nat → List Nat → List Nat → ℝ)
    (hback : ∀ a c, a.shape = (val x).shape → Tensor.zip f a y = .ok c → Back r.shape (back c a y) [(val x).shape] (J a y))
    (hf : ∀ o, ValidIdx r.shape o → ∀ a : ι → ℝ, Close l δ a ((val x).at_ (sourceIdx (val x).shape o)) →
      Close l δ (fun e => f (a e) (y.at_ (sourceIdx y.shape o))) (f ((val x).at_ (sourceIdx (val x).shape o)) (y.at_ (sourceIdx y.shape o))))
    (hJ : ∀ a : ι → Tensor ℝ, Near l δ a (val x) → ∀ o i, ValidIdx r.shape o →
      Close l δ (fun e => J (a e) y 0 o i) (J (val x) y 0 o i)) :
    NearOp l δ (fun val => binary (Tensor.zip f) back (val x) y) [x] val r fn := by
  obtain ⟨h1, rfl⟩ := binary_ok h
  have hs := zip_shape h1
  obtain ⟨hb1, hb2⟩ := broadcastShape_ok _ _ _ hs
  refine ⟨J (val x) y, hback _ _ rfl h1, fun V hV => ?_⟩
  have hx := hV x (by simp)
  let out : ι → Tensor ℝ := fun e => ⟨r.shape, fun idx => f ((V e x).at_ (sourceIdx (val x).shape idx)) (y.at_ (sourceIdx y.shape idx))⟩
  have hz : ∀ᶠ e in l, Tensor.zip f (V e x) y = .ok (out e) ∧ (V e x).shape = (val x).shape := by
    filter_upwards [hx.1] with e e1
    refine ⟨?_, e1⟩
    rw [zip_ok f _ _ r.shape (by rw [e1]; exact hs), e1]
  have hr : r = ⟨r.shape, fun idx => f ((val x).at_ (sourceIdx (val x).shape idx)) (y.at_ (sourceIdx y.shape idx))⟩ := by
    have := zip_ok f _ _ _ hs
    rw [h1] at this
    exact Except.ok.inj this
  refine ⟨out, fun e => back (out e) (V e x) y, fun e => J (V e x) y, ?_, ?_, ⟨Eventually.of_forall fun _ => rfl, ?_⟩, ?_⟩
  · filter_upwards [hz] with e he
    unfold binary
    rw [he.1]
    rfl
  · filter_upwards [hz] with e he
    exact hback _ _ he.2 he.1
  · intro o ho
    rw [hr]
    exact hf o ho _ (hx.2 _ (sourceIdx_valid _ _ _ hb1 ho))
  · intro k p o i hk ho _
    obtain rfl : k = 0 := by
      by_contra hc
      rw [List.getElem?_eq_none (by simp; omega)] at hk
      cases hk
    exact hJ _ hx o i ho

/-- an operation on one tensor -/
theorem near_one (g : (Nat → Tensor ℝ) → Py (Tensor ℝ × (Tensor ℝ → Py (List (Tensor ℝ))))) (x : Nat) (val : Nat → Tensor ℝ) (r : Tensor ℝ)
    (fn : Tensor ℝ → Py (List (Tensor ℝ))) (out : Tensor ℝ → Tensor ℝ) (fns : Tensor ℝ → Tensor ℝ → Py (List (Tensor ℝ)))
    (J : Tensor ℝ → List Nat → List Nat → ℝ) (hg : ∀ val', (val' x).shape = (val x).shape → g val' = .ok (out (val' x), fns (val' x)))
    (h : g val = .ok (r, fn)) (hback : ∀ a, a.shape = (val x).shape → Back r.shape (fns a) [(val x).shape] fun _ => J a)
    (hn : ∀ a : ι → Tensor ℝ, Near l δ a (val x) → Near l δ (fun e => out (a e)) (out (val x)) ∧
      ∀ o i, ValidIdx r.shape o → ValidIdx (val x).shape i → Close l δ (fun e => J (a e) o i) (J (val x) o i)) :
    NearOp l δ g [x] val r fn := by
  have h0 := hg val rfl
  rw [h] at h0
  obtain ⟨e1, e2⟩ := Prod.mk.inj (Except.ok.inj h0)
  refine ⟨fun _ => J (val x), by rw [e2]; exact hback _ rfl, fun V hV => ?_⟩
  have hx := hV x (by simp)
  refine ⟨fun e => out (V e x), fun e => fns (V e x), fun e _ => J (V e x), ?_, ?_, by rw [e1]; exact (hn _ hx).1, ?_⟩
  · filter_upwards [hx.1] with e he
    exact hg _ he
  · filter_upwards [hx.1] with e he
    exact hback _ he
  · intro k p o i hk ho hi
    obtain rfl : k = 0 := by
      by_contra hc
      rw [List.getElem?_eq_none (by simp; omega)] at hk
      cases hk
    obtain rfl : x = p := by simpa using hk
    exact (hn _ hx).2 o i ho hi

theorem near_map (f : ℝ → ℝ) (f' : ℝ → ℝ) (g : (Nat → Tensor ℝ) → Py (Tensor ℝ × (Tensor ℝ → Py (List (Tensor ℝ))))) (x : Nat)
    (val : Nat → Tensor ℝ) (fn : Tensor ℝ → Py (List (Tensor ℝ))) (fns : Tensor ℝ → Tensor ℝ → Py (List (Tensor ℝ)))
    (hg : ∀ val', g val' = .ok (map f (val' x), fns (val' x))) (h : g val = .ok (map f (val x), fn))
    (hback : ∀ a, Back a.shape (fns a) [a.shape] fun _ => reads (fun o => o) fun o => f' (a.at_ o))
    (hf : ∀ o, ValidIdx (val x).shape o → ∀ a : ι → ℝ, Close l δ a ((val x).at_ o) →
      Close l δ (fun e => f (a e)) (f ((val x).at_ o)) ∧ Close l δ (fun e => f' (a e)) (f' ((val x).at_ o))) :
    NearOp l δ g [x] val (map f (val x)) fn := by
  refine near_one g x val _ fn (map f) fns (fun a => reads (fun o => o) fun o => f' (a.at_ o)) (fun val' _ => hg val') h ?_ ?_
  · intro a ha
    have := hback a
    rw [ha] at this
    exact this
  · intro a ha
    refine ⟨⟨ha.1, fun o ho => (hf o ho _ (ha.2 o ho)).1⟩, fun o i ho _ => ?_⟩
    exact Close.reads i (hf o ho _ (ha.2 o ho)).2

theorem near_reshape (sh : List Nat → List Nat) (g : (Nat → Tensor ℝ) → Py (Tensor ℝ × (Tensor ℝ → Py (List (Tensor ℝ))))) (x : Nat)
    (hg : ∀ val r, Grad.reshape (val x) (sh (val x).shape) = .ok r → g val = .ok (r, gradReshape (val x).shape)) (val : Nat → Tensor ℝ)
    (r : Tensor ℝ) (h : Grad.reshape (val x) (sh (val x).shape) = .ok r) : NearOp l δ g [x] val r (gradReshape (val x).shape) := by
  have hn : numel (sh (val x).shape) = numel (val x).shape := by
    by_contra hc
    simp [Grad.reshape, hc] at h
  have key : ∀ X : Tensor ℝ, X.shape = (val x).shape → Grad.reshape X (sh X.shape)
      = .ok ⟨sh (val x).shape, fun idx => X.at_ (unflat (val x).shape (flat (sh (val x).shape) idx))⟩ := by
    intro X hX
    unfold Grad.reshape
    rw [hX, if_pos hn]
  have hr := key _ rfl
  rw [h] at hr
  have hr := Except.ok.inj hr
  have hg' := hg val r h
  refine near_one g x val r _ (fun X => ⟨sh (val x).shape, fun idx => X.at_ (unflat (val x).shape (flat (sh (val x).shape) idx))⟩)
    (fun _ => gradReshape (val x).shape) (fun _ => _) ?_ hg' (fun _ _ => by rw [hr]; exact back_reshape _ _ hn) ?_
  · intro val' hs
    rw [hg val' _ (key _ hs), hs]
  · intro a ha
    refine ⟨⟨Eventually.of_forall fun _ => rfl, fun o ho => ?_⟩, fun o i _ _ => Close.const _⟩
    exact ha.2 _ (unflat_valid _ _ (by rw [← hn]; exact numel_flat_lt _ _ ho)).1

/-- the place of the largest number stays the same -/
theorem Clear.stays (hδ : Tendsto δ l (𝓝 0)) {kh kw : Nat} (win : ι → Nat → Nat → ℝ) (win0 : Nat → Nat → ℝ) {us vs : Nat}
    (h : Clear kh kw win0 us vs) (hc : ∀ u < kh, ∀ v < kw, Close l δ (fun e => win e u v) (win0 u v)) :
    ∀ᶠ e in l, Clear kh kw (win e) us vs := by
  have hc : ∀ u < kh, ∀ v < kw, Tendsto (fun e => win e u v) l (𝓝 (win0 u v)) := fun u hu v hv => (hc u hu v hv).tendsto hδ
  obtain ⟨h1, h2, h3, h4⟩ := h
  have all : ∀ (k : Nat) (p : Nat → ι → Prop), (∀ u < k, ∀ᶠ t in l, p u t) → ∀ᶠ t in l, ∀ u < k, p u t := by
    intro k p hp
    have := (Finset.eventually_all (Finset.range k) (l := l) (p := fun u t => p u t)).mpr fun u hu => hp u (Finset.mem_range.mp hu)
    filter_upwards [this] with t ht u hu
    exact ht u (Finset.mem_range.mpr hu)
  have e3 : ∀ᶠ t in l, ∀ u < kh, ∀ v < kw, (u, v) ≠ (us, vs) → win t u v < win t us vs := by
    refine all kh _ fun u hu => all kw _ fun v hv => ?_
    by_cases e : (u, v) = (us, vs)
    · exact Filter.Eventually.of_forall fun t ht => absurd e ht
    · filter_upwards [(hc u hu v hv).eventually_lt (hc us h1 vs h2) (h3 u hu v hv e)] with t ht _ using ht
  have e4 : ∀ᶠ t in l, ∀ u < kh, u ≠ us →
      (∃ v < kw, ∀ v' < kw, v' ≠ v → win t u v' < win t u v) ∨ (0 < win t us vs ∧ ∀ v < kw, win t u v < 0) := by
    refine all kh _ fun u hu => ?_
    by_cases e : u = us
    · exact Filter.Eventually.of_forall fun t ht => absurd e ht
    · rcases h4 u hu e with ⟨v, hv, hlt⟩ | ⟨hp, hn⟩
      · have : ∀ᶠ t in l, ∀ v' < kw, v' ≠ v → win t u v' < win t u v := by
          refine all kw _ fun v' hv' => ?_
          by_cases e' : v' = v
          · exact Filter.Eventually.of_forall fun t ht => absurd e' ht
          · filter_upwards [(hc u hu v' hv').eventually_lt (hc u hu v hv) (hlt v' hv' e')] with t ht _ using ht
        filter_upwards [this] with t ht _ using Or.inl ⟨v, hv, ht⟩
      · have a1 : ∀ᶠ t in l, 0 < win t us vs := (hc us h1 vs h2).eventually_const_lt hp
        have a2 : ∀ᶠ t in l, ∀ v < kw, win t u v < 0 := all kw _ fun v hv => (hc u hu v hv).eventually_lt_const (hn v hv)
        filter_upwards [a1, a2] with t t1 t2 _ using Or.inr ⟨t1, t2⟩
  filter_upwards [e3, e4] with t t3 t4 using ⟨h1, h2, t3, t4⟩

theorem near_matmul (hδ : Tendsto δ l (𝓝 0)) (n k m : Nat) {x y : ι → Tensor ℝ} {x0 y0 : Tensor ℝ} (hx : Near l δ x x0)
    (hy : Near l δ y y0) (hxs : x0.shape = [n, k]) (hys : y0.shape = [k, m]) :
    Near l δ (fun e => ⟨[n, m], mm k (x e).at_ (y e).at_⟩) ⟨[n, m], mm k x0.at_ y0.at_⟩ ∧
      ∀ q o i, ValidIdx [n, m] o → (q = 0 → ValidIdx [n, k] i) → (q ≠ 0 → ValidIdx [k, m] i) →
        Close l δ (fun e => mmJ (x e).at_ (y e).at_ q o i) (mmJ x0.at_ y0.at_ q o i) := by
  have two : ∀ {a b : Nat} {o : List Nat}, ValidIdx [a, b] o → ∃ i j, o = [i, j] ∧ i < a ∧ j < b := by
    intro a b o ho
    match o, ho.length, ho with
    | [i, j], _, ho => exact ⟨i, j, rfl, ho.1, ho.2.1⟩
  have ex : ∀ i j, i < n → j < k → Close l δ (fun e => (x e).at_ [i, j]) (x0.at_ [i, j]) :=
    fun i j hi hj => hx.2 _ (by rw [hxs]; exact ⟨hi, hj, trivial⟩)
  have ey : ∀ i j, i < k → j < m → Close l δ (fun e => (y e).at_ [i, j]) (y0.at_ [i, j]) :=
    fun i j hi hj => hy.2 _ (by rw [hys]; exact ⟨hi, hj, trivial⟩)
  refine ⟨⟨Eventually.of_forall fun _ => rfl, fun o ho => ?_⟩, fun q o i ho h0 h1 => ?_⟩
  · obtain ⟨i, j, rfl, hi, hj⟩ := two ho
    exact Close.sum _ fun p hp => (ex i p hi (Finset.mem_range.mp hp)).mul hδ (ey p j (Finset.mem_range.mp hp) hj)
  · obtain ⟨a, b, rfl, ha, hb⟩ := two ho
    unfold mmJ
    by_cases hq : q = 0
    · obtain ⟨c, d, rfl, hc, hd⟩ := two (h0 hq)
      simp only [if_pos hq, List.getD_cons_zero, List.getD_cons_succ]
      split
      · exact ey d b hd hb
      · exact Close.const _
    · obtain ⟨c, d, rfl, hc, hd⟩ := two (h1 hq)
      simp only [if_neg hq, List.getD_cons_zero, List.getD_cons_succ]
      split
      · exact ex a c ha hc
      · exact Close.const _

theorem near_conv (hδ : Tendsto δ l (𝓝 0)) (h v o k s d : Nat) {x w : ι → Tensor ℝ} {x0 w0 : Tensor ℝ} (hx : Near l δ x x0)
    (hw : Near l δ w w0) (hxs : x0.shape = [1, 1, h, v]) (hws : w0.shape = [o, 1, k, k]) (hs : 0 < s)
    (hh : d * (k - 1) + 1 ≤ h) (hv : d * (k - 1) + 1 ≤ v) :
    Near l δ (fun e => ⟨[1, o, (h - d * (k - 1) - 1) / s + 1, (v - d * (k - 1) - 1) / s + 1],
        Conv.convAt (plain s d) [1, 1, h, v] [o, 1, k, k] (x e).at_ (w e).at_⟩)
      ⟨[1, o, (h - d * (k - 1) - 1) / s + 1, (v - d * (k - 1) - 1) / s + 1],
        Conv.convAt (plain s d) [1, 1, h, v] [o, 1, k, k] x0.at_ w0.at_⟩ ∧
      ∀ q idx i, ValidIdx [1, o, (h - d * (k - 1) - 1) / s + 1, (v - d * (k - 1) - 1) / s + 1] idx →
        (q = 0 → ValidIdx [1, 1, h, v] i) → (q ≠ 0 → ValidIdx [o, 1, k, k] i) →
        Close l δ (fun e => convJ k s d (x e).at_ (w e).at_ q idx i) (convJ k s d x0.at_ w0.at_ q idx i) := by
  have four : ∀ {a b c d : Nat} {o : List Nat}, ValidIdx [a, b, c, d] o → ∃ n m i j, o = [n, m, i, j] ∧ n < a ∧ m < b ∧ i < c ∧ j < d := by
    intro a b c d o ho
    match o, ho.length, ho with
    | [n, m, i, j], _, ho => exact ⟨n, m, i, j, rfl, ho.1, ho.2.1, ho.2.2.1, ho.2.2.2.1⟩
  have reach : ∀ {n i p : Nat}, d * (k - 1) + 1 ≤ n → i < (n - d * (k - 1) - 1) / s + 1 → p < k → i * s + p * d < n := by
    intro n i p hn hi hp
    have h1 := (Nat.le_div_iff_mul_le hs).mp (Nat.lt_succ_iff.mp hi)
    have h2 : p * d ≤ (k - 1) * d := Nat.mul_le_mul_right _ (by omega)
    rw [mul_comm (k - 1)] at h2
    omega
  have last : ∀ {n i : Nat}, d * (k - 1) + 1 ≤ n → i < (n - d * (k - 1) - 1) / s + 1 → i * s + (k - 1) * d < n := by
    intro n i hn hi
    have h1 := (Nat.le_div_iff_mul_le hs).mp (Nat.lt_succ_iff.mp hi)
    rw [mul_comm (k - 1)]
    omega
  have ex : ∀ i j, i < h → j < v → Close l δ (fun e => (x e).at_ [0, 0, i, j]) (x0.at_ [0, 0, i, j]) :=
    fun i j hi hj => hx.2 _ (by rw [hxs]; exact ⟨one_pos, one_pos, hi, hj, trivial⟩)
  have ew : ∀ m p q, m < o → p < k → q < k → Close l δ (fun e => (w e).at_ [m, 0, p, q]) (w0.at_ [m, 0, p, q]) :=
    fun m p q hm hp hq => hw.2 _ (by rw [hws]; exact ⟨hm, one_pos, hp, hq, trivial⟩)
  refine ⟨⟨Eventually.of_forall fun _ => rfl, fun idx hidx => ?_⟩, fun q idx i hidx h0 h1 => ?_⟩
  · obtain ⟨n, m, i, j, rfl, hn, hm, hi, hj⟩ := four hidx
    obtain rfl : n = 0 := by omega
    simp only [convAt_plain h v o k k s d _ _ m i j hm (last hh hi) (last hv hj)]
    refine Close.sum _ fun p hp => Close.sum _ fun q hq => ?_
    rw [Finset.mem_range] at hp hq
    exact (ex _ _ (reach hh hi hp) (reach hv hj hq)).mul hδ (ew m p q hm hp hq)
  · obtain ⟨n, m, a, b, rfl, hn, hm, ha, hb⟩ := four hidx
    by_cases hq : q = 0
    · obtain ⟨u0, u1, u, u', rfl, -, -, -, -⟩ := four (h0 hq)
      simp only [convJ, if_pos hq]
      refine Close.sum _ fun p hp => Close.sum _ fun p' hp' => ?_
      rw [Finset.mem_range] at hp hp'
      split
      · exact ew m p p' hm hp hp'
      · exact Close.const _
    · obtain ⟨u0, u1, u, u', rfl, -, -, hu, hu'⟩ := four (h1 hq)
      simp only [convJ, if_neg hq]
      split
      · exact ex _ _ (reach hh ha hu) (reach hv hb hu')
      · exact Close.const _

theorem near_sum {x : ι → Tensor ℝ} {x0 : Tensor ℝ} (hx : Near l δ x x0) : Near l δ (fun e => sumAll (x e)) (sumAll x0) := by
  refine ⟨Eventually.of_forall fun _ => rfl, fun o _ => ?_⟩
  have key : ∀ y : Tensor ℝ, (sumAll y).at_ o = ∑ i ∈ positions y.shape, y.at_ i := by
    intro y
    change ((indices y.shape).map y.at_).sum = _
    rw [← sum_positions]
  rw [key]
  refine (Close.sum (positions x0.shape) (a := fun i e => (x e).at_ i) fun i hi => hx.2 i ((mem_positions _ _).mp hi)).congr ?_
  filter_upwards [hx.1] with e he
  rw [key, he]

theorem Op.near (hδ : Tendsto δ l (𝓝 0)) (o : Op ℝ) (val : Nat → Tensor ℝ) (hreg : o.Regular val) (r : Tensor ℝ)
    (fn : Tensor ℝ → Py (List (Tensor ℝ))) (h : o.forward Real.sigmoid val = .ok (r, fn)) :
    NearOp l δ (fun val => o.forward Real.sigmoid val) o.parents val r fn := by
  cases o with
  | t x =>
    simp only [Op.forward, Op.parents] at h ⊢
    have hl : (val x).shape.length ≤ 2 := by
      cases ht : transpose (val x) with
      | error e => simp [ht, Bind.bind, Except.bind] at h
      | ok r' =>
        unfold transpose at ht
        split at ht <;> simp_all
    have key : ∀ X : Tensor ℝ, X.shape = (val x).shape → ∃ r, transpose X = .ok r ∧ r.shape = swap (val x).shape ∧
        ∀ o, ValidIdx (swap (val x).shape) o → r.at_ o = X.at_ (swap o) := by
      intro X hX
      obtain ⟨r, h1, h2, h3⟩ := transpose_ok X (by rw [hX]; exact hl)
      rw [hX] at h2
      exact ⟨r, h1, h2, fun o ho => h3 o (by rw [h2]; exact ho)⟩
    let out : Tensor ℝ → Tensor ℝ := fun X => match transpose X with
      | .ok r => r
      | .error _ => X
    have hout : ∀ X : Tensor ℝ, X.shape = (val x).shape → transpose X = .ok (out X) ∧ (out X).shape = swap (val x).shape ∧
        ∀ o, ValidIdx (swap (val x).shape) o → (out X).at_ o = X.at_ (swap o) := by
      intro X hX
      obtain ⟨r, h1, h2, h3⟩ := key X hX
      have e : out X = r := by simp only [out, h1]
      rw [e]
      exact ⟨h1, h2, h3⟩
    have hg : ∀ val' : Nat → Tensor ℝ, (val' x).shape = (val x).shape →
        (do let r ← transpose (val' x); return (r, gradT) : Py (Tensor ℝ × (Tensor ℝ → Py (List (Tensor ℝ))))) = .ok (out (val' x), gradT) := by
      intro val' hs
      rw [(hout _ hs).1]
      rfl
    have hr : r = out (val x) := by
      rw [hg val rfl] at h
      exact (Prod.mk.inj (Except.ok.inj h)).1.symm
    refine near_one _ x val r fn out (fun _ => gradT) (fun _ => reads swap fun _ => 1) hg h ?_ ?_
    · intro a ha
      rw [hr, (hout _ rfl).2.1]
      exact back_t _ hl
    · intro a ha
      refine ⟨⟨?_, fun o ho => ?_⟩, fun _ _ _ _ => Close.const _⟩
      · filter_upwards [ha.1] with e he
        rw [(hout _ he).2.1, (hout _ rfl).2.1]
      · rw [(hout _ rfl).2.1] at ho
        rw [(hout _ rfl).2.2 o ho]
        refine (ha.2 (swap o) (by have := swap_valid _ _ ho; rwa [swap_swap] at this)).congr ?_
        filter_upwards [ha.1] with e he
        exact (hout _ he).2.2 o ho
  | add x y =>
    simp only [Op.forward, Op.parents] at h ⊢
    obtain ⟨h1, h2⟩ := binary_ok h
    have hs := zip_shape h1
    refine near_zip _ _ val x y r fn h (fun a b k => if k = 0 then reads (sourceIdx a.shape) fun _ => 1
      else reads (sourceIdx b.shape) fun _ => 1) (fun a b c e1 e2 _ => ?_) (fun o _ a b ha hb => ha.add hb) (fun a b ha hb k o i _ _ => ?_)
    · rw [← e1, ← e2]
      exact back_add a b _ (by rw [e1, e2]; exact hs) (hreg _ hs)
    · refine (Close.const _).congr ?_
      filter_upwards [ha.1, hb.1] with e e1 e2
      rw [e1, e2]
  | addPub x y =>
    simp only [Op.forward, Op.parents] at h ⊢
    obtain ⟨h1, h2⟩ := binary_ok h
    have hs := zip_shape h1
    refine near_zip_public _ _ val x y r fn h (fun a b k => if k = 0 then reads (sourceIdx a.shape) fun _ => 1
      else reads (sourceIdx b.shape) fun _ => 1) (fun a c e1 _ => ?_) (fun o _ a ha => ha.add (Close.const _)) (fun a ha o i _ => ?_)
    · rw [← e1]
      exact (back_add a y _ (by rw [e1]; exact hs) (hreg _ hs)).left
    · refine (Close.const _).congr ?_
      filter_upwards [ha.1] with e e1
      rw [e1]
  | sub x y =>
    simp only [Op.forward, Op.parents] at h ⊢
    obtain ⟨h1, h2⟩ := binary_ok h
    have hs := zip_shape h1
    refine near_zip _ _ val x y r fn h (fun a b k => if k = 0 then reads (sourceIdx a.shape) fun _ => 1
      else reads (sourceIdx b.shape) fun _ => -1) (fun a b c e1 e2 _ => ?_) (fun o _ a b ha hb => ha.sub hb) (fun a b ha hb k o i _ _ => ?_)
    · rw [← e1, ← e2]
      exact back_sub a b _ (by rw [e1, e2]; exact hs) (hreg _ hs)
    · refine (Close.const _).congr ?_
      filter_upwards [ha.1, hb.1] with e e1 e2
      rw [e1, e2]
  | subPub x y =>
    simp only [Op.forward, Op.parents] at h ⊢
    obtain ⟨h1, h2⟩ := binary_ok h
    have hs := zip_shape h1
    refine near_zip_public _ _ val x y r fn h (fun a b k => if k = 0 then reads (sourceIdx a.shape) fun _ => 1
      else reads (sourceIdx b.shape) fun _ => -1) (fun a c e1 _ => ?_) (fun o _ a ha => ha.sub (Close.const _)) (fun a ha o i _ => ?_)
    · rw [← e1]
      exact (back_sub a y _ (by rw [e1]; exact hs) (hreg _ hs)).left
    · refine (Close.const _).congr ?_
      filter_upwards [ha.1] with e e1
      rw [e1]
  | mul x y =>
    simp only [Op.forward, Op.parents] at h ⊢
    obtain ⟨h1, h2⟩ := binary_ok h
    have hs := zip_shape h1
    obtain ⟨hb1, hb2⟩ := broadcastShape_ok _ _ _ hs
    refine near_zip _ _ val x y r fn h (fun a b k => if k = 0 then reads (sourceIdx (val x).shape) fun o => b.at_ (sourceIdx (val y).shape o)
      else reads (sourceIdx (val y).shape) fun o => a.at_ (sourceIdx (val x).shape o)) (fun a b c e1 e2 _ => ?_)
      (fun o _ a b ha hb => ha.mul hδ hb) (fun a b ha hb k o i ho _ => ?_)
    · rw [← e1, ← e2]
      exact back_mul a b _ (by rw [e1, e2]; exact hs) (hreg _ hs)
    · by_cases hk : k = 0
      · simp only [if_pos hk]
        exact Close.reads i (hb.2 _ (sourceIdx_valid _ _ _ hb2 ho))
      · simp only [if_neg hk]
        exact Close.reads i (ha.2 _ (sourceIdx_valid _ _ _ hb1 ho))
  | mulPub x y =>
    simp only [Op.forward, Op.parents] at h ⊢
    obtain ⟨h1, h2⟩ := binary_ok h
    have hs := zip_shape h1
    refine near_zip_public _ _ val x y r fn h (fun a b k => if k = 0 then reads (sourceIdx (val x).shape) fun o => b.at_ (sourceIdx b.shape o)
      else reads (sourceIdx b.shape) fun o => a.at_ (sourceIdx (val x).shape o)) (fun a c e1 _ => ?_)
      (fun o _ a ha => ha.mul hδ (Close.const _)) (fun a ha o i _ => Close.const _)
    rw [← e1]
    exact (back_mul a y _ (by rw [e1]; exact hs) (hreg _ hs)).left
  | sum x =>
    simp only [Op.forward, Op.parents] at h ⊢
    have hr := (Prod.mk.inj (Except.ok.inj h)).1
    refine near_one _ x val r fn sumAll (fun a => gradSum a.shape) (fun _ _ _ => 1) (fun _ _ => rfl) h ?_ ?_
    · intro a ha
      rw [← hr, ha]
      exact back_sum _
    · exact fun a ha => ⟨near_sum ha, fun _ _ _ _ => Close.const _⟩
  | pow x n =>
    simp only [Op.forward, Op.parents] at h ⊢
    by_cases hn : n = 0
    · simp [hn] at h
    · have hr := h
      rw [if_neg hn] at hr
      obtain ⟨rfl, rfl⟩ := Prod.mk.inj (Except.ok.inj hr)
      exact near_map (· ^ n) (fun a => n * a ^ (n - 1)) _ x val _ (fun a => gradPow a n) (fun val' => if_neg hn) h (fun a => back_pow a n)
        fun o _ a ha => ⟨ha.pow hδ n, (Close.const _).mul hδ (ha.pow hδ _)⟩
  | div x y =>
    simp only [Op.forward, Op.parents] at h ⊢
    obtain ⟨h1, h2⟩ := binary_ok h
    have hs := zip_shape h1
    obtain ⟨hsame, hne⟩ := hreg
    have hrs : r.shape = (val x).shape := by
      rw [hsame, broadcastShape_wide _ _ (broadcasts_self _)] at hs
      exact (Except.ok.inj hs).symm
    have src : ∀ o, ValidIdx r.shape o → sourceIdx (val y).shape o = o := fun o ho => by
      rw [hsame]
      exact sourceIdx_self _ _ (by rw [← hrs]; exact ho)
    have hval : ∀ o, ValidIdx r.shape o → ValidIdx (val y).shape o ∧ ValidIdx (val x).shape o := fun o ho => by
      rw [hsame, ← hrs]
      exact ⟨ho, ho⟩
    refine near_zip _ _ val x y r fn h (fun a b k => if k = 0 then reads (fun o => o) fun o => (b.at_ o)⁻¹
      else reads (fun o => o) fun o => -(a.at_ o / b.at_ o * (b.at_ o)⁻¹)) (fun a b c e1 e2 e3 => ?_)
      (fun o ho a b ha hb => ha.div hδ hb ?_) (fun a b ha hb k o i ho _ => ?_)
    · rw [hrs, ← e1, ← e2]
      exact back_div_secret a b c (by rw [e1, e2]; exact hsame) e3
    · rw [src o ho]
      exact hne o (hval o ho).1
    · have e1 := ha.2 o (hval o ho).2
      have e2 := hb.2 o (hval o ho).1
      have e3 := hne o (hval o ho).1
      by_cases hk : k = 0
      · simp only [if_pos hk]
        exact Close.reads i (e2.inv hδ e3)
      · simp only [if_neg hk]
        exact Close.reads (c := fun e o => -((a e).at_ o / (b e).at_ o * ((b e).at_ o)⁻¹)) i ((e1.div hδ e2 e3).mul hδ (e2.inv hδ e3)).neg
  | divPub x y =>
    simp only [Op.forward, Op.parents] at h ⊢
    obtain ⟨h1, h2⟩ := binary_ok h
    have hs := zip_shape h1
    obtain ⟨hsame, hne⟩ := hreg
    have hrs : r.shape = (val x).shape := by
      rw [hsame] at hs
      exact (Except.ok.inj hs).symm
    obtain ⟨-, hb2⟩ := broadcastShape_ok _ _ _ hsame
    refine near_zip_public _ _ val x y r fn h (fun a b _ => reads (fun o => o) fun o => (b.at_ (sourceIdx b.shape o))⁻¹)
      (fun a c e1 e3 => ?_) (fun o ho a ha => ha.div hδ (Close.const _) (hne _ (sourceIdx_valid _ _ _ hb2 (by rw [← hrs]; exact ho))))
      (fun a ha o i _ => Close.const _)
    rw [hrs, ← e1]
    exact back_div a y c (by rw [e1]; exact hsame) e3
  | matmul x y =>
    simp only [Op.forward, Op.parents] at h ⊢
    obtain ⟨h1, rfl⟩ := binary_ok h
    obtain ⟨hx, hy⟩ := hreg
    obtain ⟨n, k, hx⟩ := List.length_eq_two.mp hx
    obtain ⟨k', m, hy⟩ := List.length_eq_two.mp hy
    obtain rfl : k = k' := by
      by_contra hk
      unfold Grad.matmul at h1
      rw [hx, hy] at h1
      simp [hk] at h1
    have hr := matmul_ok (val x) (val y) n k m hx hy
    obtain rfl : r = ⟨[n, m], mm k (val x).at_ (val y).at_⟩ := by
      rw [h1] at hr
      exact Except.ok.inj hr
    refine ⟨mmJ (val x).at_ (val y).at_, back_matmul _ _ n k m hx hy, fun V hV => ?_⟩
    have nx := hV x (by simp)
    have ny := hV y (by simp)
    obtain ⟨c1, c2⟩ := near_matmul hδ n k m nx ny hx hy
    refine ⟨_, fun e => gradMatMul (V e x) (V e y), fun e => mmJ (V e x).at_ (V e y).at_, ?_, ?_, c1, ?_⟩
    · filter_upwards [nx.1, ny.1] with e e1 e2
      unfold binary
      rw [matmul_ok _ _ n k m (by rw [e1, hx]) (by rw [e2, hy])]
      rfl
    · filter_upwards [nx.1, ny.1] with e e1 e2
      have := back_matmul (V e x) (V e y) n k m (by rw [e1, hx]) (by rw [e2, hy])
      rw [e1, e2] at this
      exact this
    · rintro (_ | _ | q) p o i hq ho hi
      · obtain rfl : x = p := by simpa using hq
        exact c2 0 o i ho (fun _ => by rw [← hx]; exact hi) (fun hc => absurd rfl hc)
      · obtain rfl : y = p := by simpa using hq
        exact c2 1 o i ho (fun hc => absurd hc one_ne_zero) (fun _ => by rw [← hy]; exact hi)
      · simp at hq
  | matmulPub x y =>
    simp only [Op.forward, Op.parents] at h ⊢
    obtain ⟨h1, rfl⟩ := binary_ok h
    obtain ⟨hx, hy⟩ := hreg
    obtain ⟨n, k, hx⟩ := List.length_eq_two.mp hx
    obtain ⟨k', m, hy⟩ := List.length_eq_two.mp hy
    obtain rfl : k = k' := by
      by_contra hk
      unfold Grad.matmul at h1
      rw [hx, hy] at h1
      simp [hk] at h1
    have hr := matmul_ok (val x) y n k m hx hy
    obtain rfl : r = ⟨[n, m], mm k (val x).at_ y.at_⟩ := by
      rw [h1] at hr
      exact Except.ok.inj hr
    refine ⟨mmJ (val x).at_ y.at_, (back_matmul _ _ n k m hx hy).left, fun V hV => ?_⟩
    have nx := hV x (by simp)
    obtain ⟨c1, c2⟩ := near_matmul hδ n k m nx (Near.const y) hx hy
    refine ⟨_, fun e => gradMatMul (V e x) y, fun e => mmJ (V e x).at_ y.at_, ?_, ?_, c1, ?_⟩
    · filter_upwards [nx.1] with e e1
      unfold binary
      rw [matmul_ok _ _ n k m (by rw [e1, hx]) hy]
      rfl
    · filter_upwards [nx.1] with e e1
      have := (back_matmul (V e x) y n k m (by rw [e1, hx]) hy).left
      rw [e1] at this
      exact this
    · rintro (_ | q) p o i hq ho hi
      · obtain rfl : x = p := by simpa using hq
        exact c2 0 o i ho (fun _ => by rw [← hx]; exact hi) (fun hc => absurd rfl hc)
      · simp at hq
  | maxPool2d x q s =>
    simp only [Op.forward, Op.parents] at h ⊢
    obtain ⟨a, bs, hh, vv, hi, ha, hx, hb, hc⟩ := hreg
    have fwd : ∀ (x r p : Tensor ℝ), poolRun a q x = .ok (r, p) → poolForward q x s = .ok (r, poolBackward x.shape p s) := by
      intro x r p hr
      unfold poolForward
      rw [ha, ok_bind, hr, ok_bind]
      simp only [hi]
      rfl
    obtain ⟨p, hr, rfl⟩ : ∃ p, poolRun a q (val x) = .ok (r, p) ∧ fn = poolBackward (val x).shape p s := by
      cases e : poolRun a q (val x) with
      | error e' =>
        unfold poolForward at h
        rw [ha, ok_bind, e] at h
        cases h
      | ok rp =>
        rw [fwd _ rp.1 rp.2 e] at h
        obtain ⟨rfl, rfl⟩ := Prod.mk.inj (Except.ok.inj h)
        exact ⟨_, rfl, rfl⟩
    obtain ⟨h1, h2, h3, h4⟩ := run_inv bs hh vv hx hr
    have hw : ∀ b i j, (fun u w => if InImage a hh vv i j u w then (val x).at_ (b ++ [i * a.sh + u - a.ph, j * a.sw + w - a.pw]) else -25 * q)
        = poolWindow a q (val x) b i j := by
      intro b i j
      funext u w
      by_cases c : InImage a hh vv i j u w
      · rw [if_pos c, window_in a q (val x) bs hh vv hx b i j u w c]
      · rw [if_neg c, window_out a q (val x) bs hh vv hx b i j u w c]
    have hc' : ∀ b i j, ∃ us vs, ValidIdx bs b → i < poolOut hh a.kh a.sh a.ph → j < poolOut vv a.kw a.sw a.pw →
        InImage a hh vv i j us vs ∧ Clear a.kh a.kw (poolWindow a q (val x) b i j) us vs := by
      intro b i j
      by_cases c : ValidIdx bs b ∧ i < poolOut hh a.kh a.sh a.ph ∧ j < poolOut vv a.kw a.sw a.pw
      · obtain ⟨us, vs, c1, c2⟩ := hc b i j c.1 c.2.1 c.2.2
        rw [hw] at c2
        exact ⟨us, vs, fun _ _ _ => ⟨c1, c2⟩⟩
      · exact ⟨0, 0, fun c1 c2 c3 => absurd ⟨c1, c2, c3⟩ c⟩
    choose us vs huv using hc'
    let place : List Nat → List Nat := fun o => o.take bs.length ++
      [o.getD bs.length 0 * a.sh + us (o.take bs.length) (o.getD bs.length 0) (o.getD (bs.length + 1) 0) - a.ph,
        o.getD (bs.length + 1) 0 * a.sw + vs (o.take bs.length) (o.getD bs.length 0) (o.getD (bs.length + 1) 0) - a.pw]
    have hplace : ∀ b i j, b.length = bs.length →
        place (b ++ [i, j]) = b ++ [i * a.sh + us b i j - a.ph, j * a.sw + vs b i j - a.pw] := by
      intro b i j hl
      obtain ⟨q1, q2, q3⟩ := parts b [] i j
      simp only [place, ← hl, q1, q2, q3]
    refine ⟨fun _ => reads place fun _ => 1, back_pool _ _ _ q s a ha bs hh vv hx hb hr us vs (fun b i j c1 c2 c3 => (huv b i j c1 c2 c3).1)
      (fun b i j c1 c2 c3 => (huv b i j c1 c2 c3).2) place hplace, fun V hV => ?_⟩
    have nx := hV x (by simp)
    -- the pooled images
    obtain ⟨r0, p0, f1, f2, f3, f4, -⟩ := run_ok a q (val x) bs hh vv hx h1 h2 h3 h4
    obtain ⟨rfl, rfl⟩ : r0 = r ∧ p0 = p := by
      rw [f1] at hr
      exact Prod.mk.inj (Except.ok.inj hr)
    let res : ι → Tensor ℝ × Tensor ℝ := fun e => match poolRun a q (V e x) with
      | .ok rp => rp
      | .error _ => (V e x, V e x)
    have hres : ∀ᶠ e in l, (V e x).shape = bs ++ [hh, vv] ∧ poolRun a q (V e x) = .ok (res e) ∧ (res e).1.shape = r0.shape ∧
        ∀ b i j, b.length = bs.length → (res e).1.at_ (b ++ [i, j]) = poolValue a.kh a.kw (poolWindow a q (V e x) b i j) := by
      filter_upwards [nx.1] with e he
      rw [hx] at he
      obtain ⟨r', p', g1, g2, g3, g4, -⟩ := run_ok a q (V e x) bs hh vv he h1 h2 h3 h4
      have e' : res e = (r', p') := by simp only [res, g1]
      rw [e']
      exact ⟨he, g1, by rw [g2, f2], g4⟩
    have hclose : ∀ b i j, ValidIdx bs b → ∀ u w, Close l δ (fun e => poolWindow a q (V e x) b i j u w) (poolWindow a q (val x) b i j u w) := by
      intro b i j hb u w
      by_cases c : InImage a hh vv i j u w
      · rw [window_in a q (val x) bs hh vv hx b i j u w c]
        have hval : ValidIdx (val x).shape (b ++ [i * a.sh + u - a.ph, j * a.sw + w - a.pw]) := by
          rw [hx, valid_append hb.length]
          unfold InImage at c
          exact ⟨hb, by omega, by omega, trivial⟩
        refine (nx.2 _ hval).congr ?_
        filter_upwards [hres] with e he
        exact window_in a q (V e x) bs hh vv he.1 b i j u w c
      · rw [window_out a q (val x) bs hh vv hx b i j u w c]
        refine (Close.const _).congr ?_
        filter_upwards [hres] with e he
        exact window_out a q (V e x) bs hh vv he.1 b i j u w c
    have hstay : ∀ b i j, ValidIdx bs b → i < poolOut hh a.kh a.sh a.ph → j < poolOut vv a.kw a.sw a.pw →
        ∀ᶠ e in l, Clear a.kh a.kw (poolWindow a q (V e x) b i j) (us b i j) (vs b i j) :=
      fun b i j c1 c2 c3 => (huv b i j c1 c2 c3).2.stays hδ _ _ fun u _ w _ => hclose b i j c1 u w
    have hall : ∀ᶠ e in l, ∀ b i j, ValidIdx bs b → i < poolOut hh a.kh a.sh a.ph → j < poolOut vv a.kw a.sw a.pw →
        Clear a.kh a.kw (poolWindow a q (V e x) b i j) (us b i j) (vs b i j) := by
      have : ∀ᶠ e in l, ∀ o ∈ positions r0.shape, Clear a.kh a.kw (poolWindow a q (V e x) (o.take bs.length) (o.getD bs.length 0)
          (o.getD (bs.length + 1) 0)) (us (o.take bs.length) (o.getD bs.length 0) (o.getD (bs.length + 1) 0))
          (vs (o.take bs.length) (o.getD bs.length 0) (o.getD (bs.length + 1) 0)) := by
        rw [Finset.eventually_all]
        intro o ho
        rw [mem_positions, f2] at ho
        obtain ⟨b, i, j, rfl, hb', hi', hj'⟩ := valid_split ho
        obtain ⟨q1, q2, q3⟩ := parts b [] i j
        rw [← hb'.length, q1, q2, q3]
        exact hstay b i j hb' hi' hj'
      filter_upwards [this] with e he b i j c1 c2 c3
      have := he (b ++ [i, j]) (by
        rw [mem_positions, f2, valid_append c1.length]
        exact ⟨c1, c2, c3, trivial⟩)
      obtain ⟨q1, q2, q3⟩ := parts b [] i j
      rwa [← c1.length, q1, q2, q3] at this
    refine ⟨fun e => (res e).1, fun e => poolBackward (V e x).shape (res e).2 s, fun _ _ => reads place fun _ => 1, ?_, ?_, ⟨?_, ?_⟩, ?_⟩
    · filter_upwards [hres] with e he
      exact fwd _ _ _ he.2.1
    · filter_upwards [hres, hall] with e he hc
      have := back_pool (V e x) (res e).1 (res e).2 q s a ha bs hh vv he.1 hb he.2.1 us vs
        (fun b i j c1 c2 c3 => (huv b i j c1 c2 c3).1) hc place hplace
      rw [he.2.2.1, he.1] at this
      simp only [List.map_cons, List.map_nil]
      rw [hx, he.1]
      exact this
    · filter_upwards [hres] with e he
      exact he.2.2.1
    · intro o ho
      rw [f2] at ho
      obtain ⟨b, i, j, rfl, hb', hi', hj'⟩ := valid_split ho
      rw [f4 b i j hb'.length, (huv b i j hb' hi' hj').2.value]
      refine (hclose b i j hb' _ _).congr ?_
      filter_upwards [hres, hall] with e he hc
      rw [he.2.2.2 b i j hb'.length, (hc b i j hb' hi' hj').value]
    · exact fun _ _ _ _ _ _ _ => Close.const _
  | conv2d x w a =>
    simp only [Op.forward, Op.parents] at h ⊢
    obtain ⟨hh, vv, o, k, s, d, hx, hw, rfl, dh, dv⟩ := hreg
    have fwd : ∀ {x w r : Tensor ℝ}, Conv.ConvOp.secret .conv2d (plain s d) x w = .ok r →
        convForward x w none ⟨.one s, .one 0, .one d, 1⟩ = .ok (r, gradConv2d x w ⟨.one s, .one 0, .one d, 1⟩) := by
      intro x w r h
      change (do
        let r ← Conv.ConvOp.secret .conv2d (plain s d) x w
        let r ← pure r
        return (r, gradConv2d x w ⟨.one s, .one 0, .one d, 1⟩)) = _
      rw [h]
      rfl
    obtain ⟨h1, rfl⟩ : Conv.ConvOp.secret .conv2d (plain s d) (val x) (val w) = .ok r ∧
        fn = gradConv2d (val x) (val w) ⟨.one s, .one 0, .one d, 1⟩ := by
      cases hf : Conv.ConvOp.secret .conv2d (plain s d) (val x) (val w) with
      | error e =>
        change (do
          let r ← Conv.ConvOp.secret .conv2d (plain s d) (val x) (val w)
          let r ← pure r
          return (r, gradConv2d (val x) (val w) ⟨.one s, .one 0, .one d, 1⟩)) = _ at h
        simp [hf, Bind.bind, Except.bind] at h
      | ok r' =>
        rw [fwd hf] at h
        obtain ⟨rfl, rfl⟩ := Prod.mk.inj (Except.ok.inj h)
        exact ⟨rfl, rfl⟩
    obtain ⟨hs, hd, hk, ho, b1, b2⟩ := secret_plain_inv hh vv o k s d _ _ _ hx hw h1
    have hr := secret_plain hh vv o k k s d _ _ hx hw hs hd hk hk ho b1 b2
    rw [h1] at hr
    have hr := Except.ok.inj hr
    refine ⟨convJ k s d (val x).at_ (val w).at_, by rw [hr]; exact back_conv hh vv o k s d _ _ hx hw hs hd hk ho b1 b2 dh dv, fun V hV => ?_⟩
    have nx := hV x (by simp)
    have nw := hV w (by simp)
    obtain ⟨c1, c2⟩ := near_conv hδ hh vv o k s d nx nw hx hw hs b1 b2
    rw [hr]
    refine ⟨_, fun e => gradConv2d (V e x) (V e w) ⟨.one s, .one 0, .one d, 1⟩, fun e => convJ k s d (V e x).at_ (V e w).at_, ?_, ?_, c1, ?_⟩
    · filter_upwards [nx.1, nw.1] with e e1 e2
      exact fwd (secret_plain hh vv o k k s d _ _ (by rw [e1, hx]) (by rw [e2, hw]) hs hd hk hk ho b1 b2)
    · filter_upwards [nx.1, nw.1] with e e1 e2
      have := back_conv hh vv o k s d (V e x) (V e w) (by rw [e1, hx]) (by rw [e2, hw]) hs hd hk ho b1 b2 dh dv
      rw [e1, e2] at this
      exact this
    · rintro (_ | _ | q) p o i hq ho hi
      · obtain rfl : x = p := by simpa using hq
        exact c2 0 o i ho (fun _ => by rw [← hx]; exact hi) (fun hc => absurd rfl hc)
      · obtain rfl : w = p := by simpa using hq
        exact c2 1 o i ho (fun hc => absurd hc one_ne_zero) (fun _ => by rw [← hw]; exact hi)
      · simp at hq
  | conv2dBias x w b a => exact hreg.elim
  | conv2dLayer x w b a => exact hreg.elim
  | reshape x s =>
    simp only [Op.forward, Op.parents] at h ⊢
    cases ht : Grad.reshape (val x) s with
    | error e => simp [ht, Bind.bind, Except.bind] at h
    | ok r' =>
      simp only [ht, Bind.bind, Except.bind, Pure.pure, Except.pure, Except.ok.injEq, Prod.mk.injEq] at h
      obtain ⟨rfl, rfl⟩ := h
      exact near_reshape (fun _ => s) _ x (fun val r hr => by rw [hr]; rfl) val _ ht
  | flatten x =>
    simp only [Op.forward, Op.parents] at h ⊢
    cases ht : Grad.reshape (val x) (flattenShape (val x).shape) with
    | error e => simp [ht, Bind.bind, Except.bind] at h
    | ok r' =>
      simp only [ht, Bind.bind, Except.bind, Pure.pure, Except.pure, Except.ok.injEq, Prod.mk.injEq] at h
      obtain ⟨rfl, rfl⟩ := h
      exact near_reshape flattenShape _ x (fun val r hr => by rw [hr]; rfl) val _ ht
  | sigmoid x =>
    simp only [Op.forward, Op.parents] at h ⊢
    obtain ⟨rfl, rfl⟩ := Prod.mk.inj (Except.ok.inj h)
    exact near_map Real.sigmoid (fun a => Real.sigmoid a * (1 - Real.sigmoid a)) _ x val _ (fun a => gradSigmoid (map Real.sigmoid a))
      (fun val' => rfl) h (fun a => back_sigmoid (map Real.sigmoid a)) fun o _ a ha => by
        have := ha.comp hδ Real.sigmoid _ (Real.hasDerivAt_sigmoid _)
        exact ⟨this, this.mul hδ ((Close.const _).sub this)⟩
  | relu x =>
    simp only [Op.forward, Op.parents] at h ⊢
    obtain ⟨rfl, rfl⟩ := Prod.mk.inj (Except.ok.inj h)
    exact near_map (fun a => a * reluMask a) reluMask _ x val _ (fun a => gradReLU (map reluMask a)) (fun val' => rfl) h back_relu
      fun o ho a ha => ⟨ha.mul hδ (ha.mask hδ (hreg o ho)), ha.mask hδ (hreg o ho)⟩

end

end SyMPC.Grad
