import Verif.Lemmas.GradConv
import Verif.Lemmas.GradPool
import Mathlib.Tactic.FieldSimp

/-!
# Each operation sends the product with its derivative
-/

namespace SyMPC.Grad

open Tensor Finset

/-- The derivative exists at these values, and the shapes are those for which `backward` is meant: no empty dimensions in a
broadcasting operation, no operand repeated in a division, two dimensions in a product of matrices, convolutions of one image
of one channel with square kernels, without padding, whose places reach the border of the image, without a bias and with the kernel as
positional argument, pooling of images with one or two leading dimensions, without padding if they are two, whose windows have a clear
maximum. -/
def Op.Regular (val : Nat → Tensor ℝ) : Op ℝ → Prop
  | .add x y => ∀ s, broadcastShape (val x).shape (val y).shape = .ok s → ∀ d ∈ s, d ≠ 0
  | .addPub x y => ∀ s, broadcastShape (val x).shape y.shape = .ok s → ∀ d ∈ s, d ≠ 0
  | .sub x y => ∀ s, broadcastShape (val x).shape (val y).shape = .ok s → ∀ d ∈ s, d ≠ 0
  | .subPub x y => ∀ s, broadcastShape (val x).shape y.shape = .ok s → ∀ d ∈ s, d ≠ 0
  | .mul x y => ∀ s, broadcastShape (val x).shape (val y).shape = .ok s → ∀ d ∈ s, d ≠ 0
  | .mulPub x y => ∀ s, broadcastShape (val x).shape y.shape = .ok s → ∀ d ∈ s, d ≠ 0
  | .div x y => (val y).shape = (val x).shape ∧ ∀ o, ValidIdx (val y).shape o → (val y).at_ o ≠ 0
  | .divPub x y => broadcastShape (val x).shape y.shape = .ok (val x).shape ∧ ∀ o, ValidIdx y.shape o → y.at_ o ≠ 0
  | .matmul x y => (val x).shape.length = 2 ∧ (val y).shape.length = 2
  | .matmulPub x y => (val x).shape.length = 2 ∧ y.shape.length = 2
  | .relu x => ∀ o, ValidIdx (val x).shape o → (val x).at_ o ≠ 0
  | .conv2d x w a => ∃ h v o k s d, (val x).shape = [1, 1, h, v] ∧ (val w).shape = [o, 1, k, k] ∧ a = ⟨.one s, .one 0, .one d, 1⟩ ∧
      s ∣ h - d * (k - 1) - 1 ∧ s ∣ v - d * (k - 1) - 1
  | .conv2dBias .. => False
  | .conv2dLayer .. => False
  | .maxPool2d x q s => ∃ a bs h v, s.returnIndices = false ∧ poolArgs s.kernel s.stride s.padding s.dilation = .ok a ∧
      (val x).shape = bs ++ [h, v] ∧ (bs.length = 1 ∨ bs.length = 2 ∧ a.ph = 0 ∧ a.pw = 0) ∧
      ∀ b i j, ValidIdx bs b → i < poolOut h a.kh a.sh a.ph → j < poolOut v a.kw a.sw a.pw →
        ∃ us vs, InImage a h v i j us vs ∧ Clear a.kh a.kw (fun u w =>
          if InImage a h v i j u w then (val x).at_ (b ++ [i * a.sh + u - a.ph, j * a.sw + w - a.pw]) else -25 * q) us vs
  | _ => True

/-- the derivative of the result from those of the operands -/
noncomputable def tangent (val : Nat → Tensor ℝ) (ps : List Nat) (J : Nat → List Nat → List Nat → ℝ) (D : Nat → List Nat → ℝ)
    (o : List Nat) : ℝ :=
  ∑ k ∈ Finset.range ps.length, ∑ i ∈ positions (val (ps.getD k 0)).shape, J k o i * D (ps.getD k 0) i

theorem tangent_one (val : Nat → Tensor ℝ) (x : Nat) (J : Nat → List Nat → List Nat → ℝ) (D : Nat → List Nat → ℝ) :
    tangent val [x] J D = fun o => ∑ i ∈ positions (val x).shape, J 0 o i * D x i := by
  funext o
  simp [tangent]

theorem tangent_two (val : Nat → Tensor ℝ) (x y : Nat) (J : Nat → List Nat → List Nat → ℝ) (D : Nat → List Nat → ℝ) :
    tangent val [x, y] J D = fun o => ∑ i ∈ positions (val x).shape, J 0 o i * D x i + ∑ i ∈ positions (val y).shape, J 1 o i * D y i := by
  funext o
  simp [tangent, Finset.sum_range_succ]

/-- what is shown for an operation with operands `ps` -/
def SoundAt (fwd : (Nat → Tensor ℝ) → Py (Tensor ℝ × (Tensor ℝ → Py (List (Tensor ℝ))))) (ps : List Nat) (val : Nat → Tensor ℝ)
    (r : Tensor ℝ) (fn : Tensor ℝ → Py (List (Tensor ℝ))) : Prop :=
  ∃ J, Back r.shape fn (ps.map fun p => (val p).shape) J ∧
    ∀ (V : ℝ → Nat → Tensor ℝ) (D : Nat → List Nat → ℝ), V 0 = val → (∀ p ∈ ps, Deriv (fun t => V t p) (D p)) →
      ∃ out : ℝ → Tensor ℝ, (∀ t, ∃ fn, fwd (V t) = .ok (out t, fn)) ∧ out 0 = r ∧ Deriv out (tangent val ps J D)

theorem binary_ok {f : Tensor ℝ → Tensor ℝ → Py (Tensor ℝ)} {back : Tensor ℝ → Tensor ℝ → Tensor ℝ → Tensor ℝ → Py (List (Tensor ℝ))}
    {x y r : Tensor ℝ} {fn : Tensor ℝ → Py (List (Tensor ℝ))} (h : binary f back x y = .ok (r, fn)) : f x y = .ok r ∧ fn = back r x y := by
  unfold binary at h
  cases hf : f x y with
  | error e => simp [hf, bind, Except.bind] at h
  | ok r' =>
    simp only [hf, bind, Except.bind, pure, Except.pure, Except.ok.injEq, Prod.mk.injEq] at h
    obtain ⟨rfl, rfl⟩ := h
    exact ⟨rfl, rfl⟩

theorem binary_of {f : Tensor ℝ → Tensor ℝ → Py (Tensor ℝ)} {back : Tensor ℝ → Tensor ℝ → Tensor ℝ → Tensor ℝ → Py (List (Tensor ℝ))}
    {x y r : Tensor ℝ} (h : f x y = .ok r) : ∃ fn, binary f back x y = .ok (r, fn) := by
  unfold binary
  rw [h]
  exact ⟨_, rfl⟩

theorem zip_shape {A B C : Type} {f : A → B → C} {x : Tensor A} {y : Tensor B} {r : Tensor C} (h : Tensor.zip f x y = .ok r) :
    broadcastShape x.shape y.shape = .ok r.shape := by
  unfold Tensor.zip at h
  cases hb : broadcastShape x.shape y.shape with
  | error e => simp [hb, bind, Except.bind] at h
  | ok s =>
    simp only [hb, bind, Except.bind, pure, Except.pure, Except.ok.injEq] at h
    rw [← h]

theorem deriv_const (y : Tensor ℝ) : Deriv (fun _ => y) fun _ => 0 := ⟨fun _ => rfl, fun _ _ => hasDerivAt_const _ _⟩

section
variable (f : ℝ → ℝ → ℝ) (back : Tensor ℝ → Tensor ℝ → Tensor ℝ → Tensor ℝ → Py (List (Tensor ℝ)))

theorem sound_zip (val : Nat → Tensor ℝ) (x y : Nat) (r : Tensor ℝ) (fn : Tensor ℝ → Py (List (Tensor ℝ)))
    (h : binary (Tensor.zip f) back (val x) (val y) = .ok (r, fn)) (f0 f1 : List Nat → ℝ)
    (J : Nat → List Nat → List Nat → ℝ)
    (hJ0 : ∀ o, ValidIdx r.shape o → J 0 o = reads (sourceIdx (val x).shape) f0 o)
    (hJ1 : ∀ o, ValidIdx r.shape o → J 1 o = reads (sourceIdx (val y).shape) f1 o)
    (hback : Back r.shape (back r (val x) (val y)) [(val x).shape, (val y).shape] J)
    (hf : ∀ o, ValidIdx r.shape o → ∀ (a b : ℝ → ℝ) (a' b' : ℝ), HasDerivAt a a' 0 → HasDerivAt b b' 0 →
      a 0 = (val x).at_ (sourceIdx (val x).shape o) → b 0 = (val y).at_ (sourceIdx (val y).shape o) →
      HasDerivAt (fun t => f (a t) (b t)) (f0 o * a' + f1 o * b') 0) :
    SoundAt (fun val => binary (Tensor.zip f) back (val x) (val y)) [x, y] val r fn := by
  obtain ⟨h1, rfl⟩ := binary_ok h
  refine ⟨J, hback, ?_⟩
  rintro V D rfl hD
  obtain ⟨out, o1, o2, o3⟩ := zip_deriv (x := fun t => V t x) (y := fun t => V t y) f f0 f1 r.shape (zip_shape h1)
    (hD x (by simp)) (hD y (by simp)) hf
  refine ⟨out, fun t => binary_of (o1 t), ?_, o3.1, ?_⟩
  · have := o1 0
    rw [h1] at this
    exact (Except.ok.inj this).symm
  · intro o ho
    rw [o2] at ho
    rw [tangent_two]
    beta_reduce
    rw [hJ0 o ho, hJ1 o ho]
    exact o3.2 o (by rw [o2]; exact ho)

theorem sound_zip_public (val : Nat → Tensor ℝ) (x : Nat) (y : Tensor ℝ) (r : Tensor ℝ) (fn : Tensor ℝ → Py (List (Tensor ℝ)))
    (h : binary (Tensor.zip f) back (val x) y = .ok (r, fn)) (f0 f1 : List Nat → ℝ)
    (J : Nat → List Nat → List Nat → ℝ)
    (hJ0 : ∀ o, ValidIdx r.shape o → J 0 o = reads (sourceIdx (val x).shape) f0 o)
    (hback : Back r.shape (back r (val x) y) [(val x).shape] J)
    (hf : ∀ o, ValidIdx r.shape o → ∀ (a b : ℝ → ℝ) (a' b' : ℝ), HasDerivAt a a' 0 → HasDerivAt b b' 0 →
      a 0 = (val x).at_ (sourceIdx (val x).shape o) → b 0 = y.at_ (sourceIdx y.shape o) →
      HasDerivAt (fun t => f (a t) (b t)) (f0 o * a' + f1 o * b') 0) :
    SoundAt (fun val => binary (Tensor.zip f) back (val x) y) [x] val r fn := by
  obtain ⟨h1, rfl⟩ := binary_ok h
  refine ⟨J, hback, ?_⟩
  rintro V D rfl hD
  obtain ⟨out, o1, o2, o3⟩ := zip_deriv (x := fun t => V t x) (y := fun _ => y) f f0 f1 r.shape (zip_shape h1)
    (hD x (by simp)) (deriv_const y) hf
  refine ⟨out, fun t => binary_of (o1 t), ?_, o3.1, ?_⟩
  · have := o1 0
    rw [h1] at this
    exact (Except.ok.inj this).symm
  · intro o ho
    rw [o2] at ho
    rw [tangent_one]
    beta_reduce
    rw [hJ0 o ho]
    have := o3.2 o (by rw [o2]; exact ho)
    simpa using this

end

/-- an operation on one tensor -/
theorem sound_one (fwd : Tensor ℝ → Py (Tensor ℝ))
    (g : (Nat → Tensor ℝ) → Py (Tensor ℝ × (Tensor ℝ → Py (List (Tensor ℝ))))) (x : Nat)
    (hg : ∀ val r, fwd (val x) = .ok r → ∃ fn, g val = .ok (r, fn)) (val : Nat → Tensor ℝ) (r : Tensor ℝ)
    (fn : Tensor ℝ → Py (List (Tensor ℝ))) (J : List Nat → List Nat → ℝ)
    (hback : Back r.shape fn [(val x).shape] fun _ => J)
    (hd : ∀ (X : ℝ → Tensor ℝ) (D : List Nat → ℝ), X 0 = val x → Deriv X D →
      ∃ out : ℝ → Tensor ℝ, (∀ t, fwd (X t) = .ok (out t)) ∧ out 0 = r ∧
        Deriv out fun o => ∑ i ∈ positions (X 0).shape, J o i * D i) :
    SoundAt g [x] val r fn := by
  refine ⟨fun _ => J, hback, ?_⟩
  rintro V D rfl hD
  obtain ⟨out, o1, o2, o3⟩ := hd (fun t => V t x) (D x) rfl (hD x (by simp))
  refine ⟨out, fun t => hg _ _ (o1 t), o2, ?_⟩
  rw [tangent_one]
  exact o3

theorem sound_reshape (sh : List Nat → List Nat) (g : (Nat → Tensor ℝ) → Py (Tensor ℝ × (Tensor ℝ → Py (List (Tensor ℝ))))) (x : Nat)
    (hg : ∀ val r, Grad.reshape (val x) (sh (val x).shape) = .ok r → ∃ fn, g val = .ok (r, fn)) (val : Nat → Tensor ℝ) (r : Tensor ℝ)
    (h : Grad.reshape (val x) (sh (val x).shape) = .ok r) : SoundAt g [x] val r (gradReshape (val x).shape) := by
  have hn : numel (sh (val x).shape) = numel (val x).shape := by
    by_contra hc
    simp [Grad.reshape, hc] at h
  have key : ∀ X : Tensor ℝ, X.shape = (val x).shape → Grad.reshape X (sh X.shape)
      = .ok ⟨sh (val x).shape, fun idx => X.at_ (unflat (val x).shape (flat (sh (val x).shape) idx))⟩ := by
    intro X hX
    unfold Grad.reshape
    rw [hX, if_pos hn]
  have hr := key _ rfl
  rw [h] at hr
  have hr := Except.ok.inj hr
  refine sound_one (fun x => Grad.reshape x (sh x.shape)) _ x hg val r _ _ (by rw [hr]; exact back_reshape _ _ hn) ?_
  intro X D hX hD
  refine ⟨_, fun t => key (X t) (by rw [hD.1, hX]), by rw [hX, hr], ?_⟩
  exact move_deriv hD (sh (val x).shape) (fun o => unflat (val x).shape (flat (sh (val x).shape) o)) (fun o ho => by
    rw [hX]
    exact (unflat_valid _ _ (by rw [← hn]; exact numel_flat_lt _ _ ho)).1) _ (fun _ => rfl) (fun _ _ _ => rfl)

theorem sound_map (f : ℝ → ℝ) (f' : List Nat → ℝ) (g : (Nat → Tensor ℝ) → Py (Tensor ℝ × (Tensor ℝ → Py (List (Tensor ℝ))))) (x : Nat)
    (hg : ∀ val, ∃ fn, g val = .ok (map f (val x), fn)) (val : Nat → Tensor ℝ) (fn : Tensor ℝ → Py (List (Tensor ℝ)))
    (hback : Back (val x).shape fn [(val x).shape] fun _ => reads (fun o => o) f')
    (hf : ∀ o, ValidIdx (val x).shape o → HasDerivAt f (f' o) ((val x).at_ o)) : SoundAt g [x] val (map f (val x)) fn := by
  refine sound_one (fun x => .ok (map f x)) g x ?_ val (map f (val x)) fn (reads (fun o => o) f') hback ?_
  · intro val r hr
    rw [← Except.ok.inj hr]
    exact hg val
  · intro X D hX hD
    refine ⟨fun t => map f (X t), fun t => rfl, by simp only [hX], map_deriv hD f f' ?_⟩
    rw [hX]
    exact hf

theorem Op.sound (o : Op ℝ) (val : Nat → Tensor ℝ) (hreg : o.Regular val) (r : Tensor ℝ) (fn : Tensor ℝ → Py (List (Tensor ℝ)))
    (h : o.forward Real.sigmoid val = .ok (r, fn)) : SoundAt (fun val => o.forward Real.sigmoid val) o.parents val r fn := by
  cases o with
  | t x =>
    simp only [Op.forward, Op.parents] at h ⊢
    cases ht : transpose (val x) with
    | error e => simp [ht, bind, Except.bind] at h
    | ok r' =>
      simp only [ht, bind, Except.bind, pure, Except.pure, Except.ok.injEq, Prod.mk.injEq] at h
      obtain ⟨rfl, rfl⟩ := h
      have hl : (val x).shape.length ≤ 2 := by
        unfold transpose at ht
        split at ht <;> simp_all
      have key : ∀ X : Tensor ℝ, X.shape = (val x).shape → ∃ r, transpose X = .ok r ∧ r.shape = swap (val x).shape ∧
          ∀ o, ValidIdx (swap (val x).shape) o → r.at_ o = X.at_ (swap o) := by
        intro X hX
        obtain ⟨r, h1, h2, h3⟩ := transpose_ok X (by rw [hX]; exact hl)
        rw [hX] at h2
        exact ⟨r, h1, h2, fun o ho => h3 o (by rw [h2]; exact ho)⟩
      obtain ⟨r0, h1, h2, h3⟩ := key _ rfl
      obtain rfl : r' = r0 := by
        rw [ht] at h1
        exact Except.ok.inj h1
      refine sound_one transpose _ x (fun val r hr => ⟨gradT, by rw [hr]; rfl⟩) val r' gradT _
        (by rw [h2]; exact back_t _ hl) ?_
      intro X D hX hD
      choose out o1 o2 o3 using fun t => key (X t) (by rw [hD.1, hX])
      refine ⟨out, o1, ?_, ?_⟩
      · have := o1 0
        rw [hX, ht] at this
        exact (Except.ok.inj this).symm
      · exact move_deriv hD (swap (val x).shape) swap (fun o ho => by
          have := swap_valid _ _ ho
          rwa [swap_swap, ← hX] at this) out o2 o3
  | add x y =>
    simp only [Op.forward, Op.parents] at h ⊢
    obtain ⟨h1, h2⟩ := binary_ok h
    have hs := zip_shape h1
    refine sound_zip _ _ val x y r fn h (fun _ => 1) (fun _ => 1) _ (fun o _ => ?_) (fun o _ => ?_) (back_add _ _ _ hs (hreg _ hs)) ?_
    · simp
    · simp
    · intro o _ a b a' b' ha hb _ _
      exact (ha.add hb).congr_deriv (by ring)
  | addPub x y =>
    simp only [Op.forward, Op.parents] at h ⊢
    obtain ⟨h1, h2⟩ := binary_ok h
    have hs := zip_shape h1
    refine sound_zip_public _ _ val x y r fn h (fun _ => 1) (fun _ => 1) _ (fun o _ => ?_) (back_add _ _ _ hs (hreg _ hs)).left ?_
    · simp
    · intro o _ a b a' b' ha hb _ _
      exact (ha.add hb).congr_deriv (by ring)
  | sub x y =>
    simp only [Op.forward, Op.parents] at h ⊢
    obtain ⟨h1, h2⟩ := binary_ok h
    have hs := zip_shape h1
    refine sound_zip _ _ val x y r fn h (fun _ => 1) (fun _ => -1) _ (fun o _ => ?_) (fun o _ => ?_) (back_sub _ _ _ hs (hreg _ hs)) ?_
    · simp
    · simp
    · intro o _ a b a' b' ha hb _ _
      exact (ha.sub hb).congr_deriv (by ring)
  | subPub x y =>
    simp only [Op.forward, Op.parents] at h ⊢
    obtain ⟨h1, h2⟩ := binary_ok h
    have hs := zip_shape h1
    refine sound_zip_public _ _ val x y r fn h (fun _ => 1) (fun _ => -1) _ (fun o _ => ?_) (back_sub _ _ _ hs (hreg _ hs)).left ?_
    · simp
    · intro o _ a b a' b' ha hb _ _
      exact (ha.sub hb).congr_deriv (by ring)
  | mul x y =>
    simp only [Op.forward, Op.parents] at h ⊢
    obtain ⟨h1, h2⟩ := binary_ok h
    have hs := zip_shape h1
    refine sound_zip _ _ val x y r fn h (fun o => (val y).at_ (sourceIdx (val y).shape o))
      (fun o => (val x).at_ (sourceIdx (val x).shape o)) _ (fun o _ => ?_) (fun o _ => ?_) (back_mul _ _ _ hs (hreg _ hs)) ?_
    · simp
    · simp
    · intro o _ a b a' b' ha hb e1 e2
      exact (ha.mul hb).congr_deriv (by rw [← e1, ← e2]; ring)
  | mulPub x y =>
    simp only [Op.forward, Op.parents] at h ⊢
    obtain ⟨h1, h2⟩ := binary_ok h
    have hs := zip_shape h1
    refine sound_zip_public _ _ val x y r fn h (fun o => y.at_ (sourceIdx y.shape o))
      (fun o => (val x).at_ (sourceIdx (val x).shape o)) _ (fun o _ => ?_) (back_mul _ _ _ hs (hreg _ hs)).left ?_
    · simp
    · intro o _ a b a' b' ha hb e1 e2
      exact (ha.mul hb).congr_deriv (by rw [← e1, ← e2]; ring)
  | sum x =>
    simp only [Op.forward, Op.parents, Except.ok.injEq, Prod.mk.injEq] at h ⊢
    obtain ⟨rfl, rfl⟩ := h
    refine sound_one (fun x => .ok (sumAll x)) _ x (fun val r hr => ⟨gradSum (val x).shape, by rw [← Except.ok.inj hr]⟩) val _ _ _
      (back_sum _) ?_
    intro X D hX hD
    exact ⟨fun t => sumAll (X t), fun t => rfl, by simp only [hX], sum_deriv hD⟩
  | pow x n =>
    simp only [Op.forward, Op.parents] at h ⊢
    by_cases hn : n = 0
    · simp [hn] at h
    · rw [if_neg hn] at h
      simp only [Except.ok.injEq, Prod.mk.injEq] at h
      obtain ⟨rfl, rfl⟩ := h
      exact sound_map (· ^ n) _ _ x (fun val => ⟨gradPow (val x) n, if_neg hn⟩) val _ (back_pow (val x) n) fun o _ => hasDerivAt_pow n _
  | div x y =>
    simp only [Op.forward, Op.parents] at h ⊢
    obtain ⟨h1, h2⟩ := binary_ok h
    have hs := zip_shape h1
    obtain ⟨hsame, hne⟩ := hreg
    have hrs : r.shape = (val x).shape := by
      rw [hsame, broadcastShape_wide _ _ (broadcasts_self _)] at hs
      exact (Except.ok.inj hs).symm
    refine sound_zip _ _ val x y r fn h (fun o => ((val y).at_ o)⁻¹) (fun o => -((val x).at_ o / (val y).at_ o * ((val y).at_ o)⁻¹)) _
      (fun o ho => ?_) (fun o ho => ?_) (by rw [hrs]; exact back_div_secret _ _ _ hsame h1) ?_
    · rw [hrs] at ho
      funext i
      simp [reads, sourceIdx_self _ _ ho]
    · rw [hrs] at ho
      funext i
      simp [reads, hsame, sourceIdx_self _ _ ho]
    · intro o ho a b a' b' ha hb e1 e2
      rw [hrs] at ho
      rw [sourceIdx_self _ _ ho] at e1
      rw [hsame, sourceIdx_self _ _ ho] at e2
      have hz : b 0 ≠ 0 := by
        rw [e2]
        exact hne o (by rw [hsame]; exact ho)
      refine (ha.div hb hz).congr_deriv ?_
      rw [← e1, ← e2]
      field_simp
      ring
  | divPub x y =>
    simp only [Op.forward, Op.parents] at h ⊢
    obtain ⟨h1, h2⟩ := binary_ok h
    have hs := zip_shape h1
    obtain ⟨hsame, hne⟩ := hreg
    have hrs : r.shape = (val x).shape := by
      rw [hsame] at hs
      exact (Except.ok.inj hs).symm
    obtain ⟨-, hb2⟩ := broadcastShape_ok _ _ _ hsame
    refine sound_zip_public _ _ val x y r fn h (fun o => (y.at_ (sourceIdx y.shape o))⁻¹)
      (fun o => -((val x).at_ o / y.at_ (sourceIdx y.shape o) * (y.at_ (sourceIdx y.shape o))⁻¹)) _
      (fun o ho => ?_) (by rw [hrs]; exact back_div _ _ _ hsame h1) ?_
    · rw [hrs] at ho
      funext i
      simp [reads, sourceIdx_self _ _ ho]
    · intro o ho a b a' b' ha hb e1 e2
      rw [hrs] at ho
      rw [sourceIdx_self _ _ ho] at e1
      have hz : b 0 ≠ 0 := by
        rw [e2]
        exact hne _ (sourceIdx_valid _ _ _ hb2 ho)
      refine (ha.div hb hz).congr_deriv ?_
      rw [← e1, ← e2]
      field_simp
      ring
  | matmul x y =>
    simp only [Op.forward, Op.parents] at h ⊢
    obtain ⟨h1, rfl⟩ := binary_ok h
    obtain ⟨hx, hy⟩ := hreg
    obtain ⟨n, k, hx⟩ := List.length_eq_two.mp hx
    obtain ⟨k', m, hy⟩ := List.length_eq_two.mp hy
    obtain rfl : k = k' := by
      by_contra hk
      unfold Grad.matmul at h1
      rw [hx, hy] at h1
      simp [hk] at h1
    have hr := matmul_ok (val x) (val y) n k m hx hy
    obtain rfl : r = ⟨[n, m], mm k (val x).at_ (val y).at_⟩ := by
      rw [h1] at hr
      exact Except.ok.inj hr
    refine ⟨mmJ (val x).at_ (val y).at_, back_matmul _ _ n k m hx hy, ?_⟩
    rintro V D rfl hD
    obtain ⟨out, o1, o2, o3⟩ := matmul_deriv (x := fun t => V t x) (y := fun t => V t y) (hD x (by simp)) (hD y (by simp)) n k m hx hy
    refine ⟨out, fun t => binary_of (o1 t), ?_, ?_⟩
    · have := o1 0
      rw [h1] at this
      exact (Except.ok.inj this).symm
    · rw [tangent_two]
      exact o3
  | matmulPub x y =>
    simp only [Op.forward, Op.parents] at h ⊢
    obtain ⟨h1, rfl⟩ := binary_ok h
    obtain ⟨hx, hy⟩ := hreg
    obtain ⟨n, k, hx⟩ := List.length_eq_two.mp hx
    obtain ⟨k', m, hy⟩ := List.length_eq_two.mp hy
    obtain rfl : k = k' := by
      by_contra hk
      unfold Grad.matmul at h1
      rw [hx, hy] at h1
      simp [hk] at h1
    have hr := matmul_ok (val x) y n k m hx hy
    obtain rfl : r = ⟨[n, m], mm k (val x).at_ y.at_⟩ := by
      rw [h1] at hr
      exact Except.ok.inj hr
    refine ⟨mmJ (val x).at_ y.at_, (back_matmul _ _ n k m hx hy).left, ?_⟩
    rintro V D rfl hD
    obtain ⟨out, o1, o2, o3⟩ := matmul_deriv (x := fun t => V t x) (y := fun _ => y) (hD x (by simp)) (deriv_const y) n k m hx hy
    refine ⟨out, fun t => binary_of (o1 t), ?_, ?_⟩
    · have := o1 0
      rw [h1] at this
      exact (Except.ok.inj this).symm
    · rw [tangent_one]
      simpa using o3
  | maxPool2d x q s =>
    simp only [Op.forward, Op.parents] at h ⊢
    obtain ⟨a, bs, hh, vv, hi, ha, hx, hb, hc⟩ := hreg
    have fwd : ∀ (x r p : Tensor ℝ), poolRun a q x = .ok (r, p) → poolForward q x s = .ok (r, poolBackward x.shape p s) := by
      intro x r p hr
      unfold poolForward
      rw [ha, ok_bind, hr, ok_bind]
      simp only [hi]
      rfl
    obtain ⟨p, hr, rfl⟩ : ∃ p, poolRun a q (val x) = .ok (r, p) ∧ fn = poolBackward (val x).shape p s := by
      cases e : poolRun a q (val x) with
      | error e' =>
        unfold poolForward at h
        rw [ha, ok_bind, e] at h
        cases h
      | ok rp =>
        rw [fwd _ rp.1 rp.2 e] at h
        obtain ⟨rfl, rfl⟩ := Prod.mk.inj (Except.ok.inj h)
        exact ⟨_, rfl, rfl⟩
    obtain ⟨h1, h2, h3, h4⟩ := run_inv bs hh vv hx hr
    have hw : ∀ b i j, (fun u w => if InImage a hh vv i j u w then (val x).at_ (b ++ [i * a.sh + u - a.ph, j * a.sw + w - a.pw]) else -25 * q)
        = poolWindow a q (val x) b i j := by
      intro b i j
      funext u w
      by_cases c : InImage a hh vv i j u w
      · rw [if_pos c, window_in a q (val x) bs hh vv hx b i j u w c]
      · rw [if_neg c, window_out a q (val x) bs hh vv hx b i j u w c]
    have hc' : ∀ b i j, ∃ us vs, ValidIdx bs b → i < poolOut hh a.kh a.sh a.ph → j < poolOut vv a.kw a.sw a.pw →
        InImage a hh vv i j us vs ∧ Clear a.kh a.kw (poolWindow a q (val x) b i j) us vs := by
      intro b i j
      by_cases c : ValidIdx bs b ∧ i < poolOut hh a.kh a.sh a.ph ∧ j < poolOut vv a.kw a.sw a.pw
      · obtain ⟨us, vs, c1, c2⟩ := hc b i j c.1 c.2.1 c.2.2
        rw [hw] at c2
        exact ⟨us, vs, fun _ _ _ => ⟨c1, c2⟩⟩
      · exact ⟨0, 0, fun c1 c2 c3 => absurd ⟨c1, c2, c3⟩ c⟩
    choose us vs huv using hc'
    let place : List Nat → List Nat := fun o => o.take bs.length ++
      [o.getD bs.length 0 * a.sh + us (o.take bs.length) (o.getD bs.length 0) (o.getD (bs.length + 1) 0) - a.ph,
        o.getD (bs.length + 1) 0 * a.sw + vs (o.take bs.length) (o.getD bs.length 0) (o.getD (bs.length + 1) 0) - a.pw]
    have hplace : ∀ b i j, b.length = bs.length →
        place (b ++ [i, j]) = b ++ [i * a.sh + us b i j - a.ph, j * a.sw + vs b i j - a.pw] := by
      intro b i j hl
      obtain ⟨q1, q2, q3⟩ := parts b [] i j
      simp only [place, ← hl, q1, q2, q3]
    refine ⟨fun _ => reads place fun _ => 1, back_pool _ _ _ q s a ha bs hh vv hx hb hr us vs (fun b i j c1 c2 c3 => (huv b i j c1 c2 c3).1)
      (fun b i j c1 c2 c3 => (huv b i j c1 c2 c3).2) place hplace, ?_⟩
    rintro V D rfl hD
    obtain ⟨out, p', o1, o2⟩ := pool_deriv (x := fun t => V t x) (hD x (by simp)) q a bs hh vv hx h1 h2 h3 h4 us vs
      (fun b i j c1 c2 c3 => (huv b i j c1 c2 c3).1) (fun b i j c1 c2 c3 => (huv b i j c1 c2 c3).2) place hplace
    refine ⟨out, fun t => ⟨_, fwd _ _ _ (o1 t)⟩, ?_, ?_⟩
    · have := o1 0
      rw [hr] at this
      exact (Prod.mk.inj (Except.ok.inj this)).1.symm
    · rw [tangent_one]
      exact o2
  | conv2d x w a =>
    simp only [Op.forward, Op.parents] at h ⊢
    obtain ⟨hh, vv, o, k, s, d, hx, hw, rfl, dh, dv⟩ := hreg
    have inv : ∀ {x w : Tensor ℝ} {r fn}, convForward x w none ⟨.one s, .one 0, .one d, 1⟩ = .ok (r, fn) →
        Conv.ConvOp.secret .conv2d (plain s d) x w = .ok r ∧ fn = gradConv2d x w ⟨.one s, .one 0, .one d, 1⟩ := by
      intro x w r fn h
      change (do
        let r ← Conv.ConvOp.secret .conv2d (plain s d) x w
        let r ← pure r
        return (r, gradConv2d x w ⟨.one s, .one 0, .one d, 1⟩)) = _ at h
      cases hf : Conv.ConvOp.secret .conv2d (plain s d) x w with
      | error e => simp [hf, bind, Except.bind] at h
      | ok r' =>
        simp only [hf, bind, Except.bind, pure, Except.pure, Except.ok.injEq, Prod.mk.injEq] at h
        obtain ⟨rfl, rfl⟩ := h
        exact ⟨rfl, rfl⟩
    obtain ⟨h1, rfl⟩ := inv h
    obtain ⟨hs, hd, hk, ho, b1, b2⟩ := secret_plain_inv hh vv o k s d _ _ _ hx hw h1
    have hr := secret_plain hh vv o k k s d _ _ hx hw hs hd hk hk ho b1 b2
    rw [h1] at hr
    refine ⟨convJ k s d (val x).at_ (val w).at_, ?_, ?_⟩
    · rw [Except.ok.inj hr]
      exact back_conv hh vv o k s d _ _ hx hw hs hd hk ho b1 b2 dh dv
    rintro V D rfl hD
    obtain ⟨out, o1, o2⟩ := conv_deriv hh vv o k s d (x := fun t => V t x) (w := fun t => V t w) (hD x (by simp)) (hD w (by simp))
      hx hw hs hd hk ho b1 b2
    refine ⟨out, fun t => ⟨gradConv2d (V t x) (V t w) ⟨.one s, .one 0, .one d, 1⟩, ?_⟩, ?_, ?_⟩
    · change (do
        let r ← Conv.ConvOp.secret .conv2d (plain s d) (V t x) (V t w)
        let r ← pure r
        return (r, gradConv2d (V t x) (V t w) ⟨.one s, .one 0, .one d, 1⟩)) = _
      rw [o1 t]
      rfl
    · have := o1 0
      rw [h1] at this
      exact (Except.ok.inj this).symm
    · rw [tangent_two]
      exact o2
  | conv2dBias x w b a => exact hreg.elim
  | conv2dLayer x w b a => exact hreg.elim
  | reshape x s =>
    simp only [Op.forward, Op.parents] at h ⊢
    cases ht : Grad.reshape (val x) s with
    | error e => simp [ht, bind, Except.bind] at h
    | ok r' =>
      simp only [ht, bind, Except.bind, pure, Except.pure, Except.ok.injEq, Prod.mk.injEq] at h
      obtain ⟨rfl, rfl⟩ := h
      exact sound_reshape (fun _ => s) _ x (fun val r hr => ⟨gradReshape (val x).shape, by rw [hr]; rfl⟩) val r' ht
  | flatten x =>
    simp only [Op.forward, Op.parents] at h ⊢
    cases ht : Grad.reshape (val x) (flattenShape (val x).shape) with
    | error e => simp [ht, bind, Except.bind] at h
    | ok r' =>
      simp only [ht, bind, Except.bind, pure, Except.pure, Except.ok.injEq, Prod.mk.injEq] at h
      obtain ⟨rfl, rfl⟩ := h
      exact sound_reshape flattenShape _ x (fun val r hr => ⟨gradReshape (val x).shape, by rw [hr]; rfl⟩) val r' ht
  | sigmoid x =>
    simp only [Op.forward, Op.parents, Except.ok.injEq, Prod.mk.injEq] at h ⊢
    obtain ⟨rfl, rfl⟩ := h
    exact sound_map Real.sigmoid _ _ x (fun val => ⟨gradSigmoid (map Real.sigmoid (val x)), rfl⟩) val _
      (back_sigmoid (map Real.sigmoid (val x))) fun o _ => Real.hasDerivAt_sigmoid _
  | relu x =>
    simp only [Op.forward, Op.parents, Except.ok.injEq, Prod.mk.injEq] at h ⊢
    obtain ⟨rfl, rfl⟩ := h
    exact sound_map (fun a => a * reluMask a) _ _ x (fun val => ⟨gradReLU (map reluMask (val x)), rfl⟩) val _
      (back_relu (val x)) fun o ho => relu_deriv _ (hreg o ho)

end SyMPC.Grad
