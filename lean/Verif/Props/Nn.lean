import Verif.Model.Nn
import Verif.Props.Argmax
import Verif.Lemmas.Py

/-!
# C55: relu and max pooling
-/

namespace SyMPC

variable {m : Type → Type} [Monad m] {X : Nat → Type} {F : Type} [Field F] [LinearOrder F] [IsStrictOrderedRing F] {n : Nat}

/-! ## relu -/

/-- C55, `relu(x)` is `max(x, 0)` up to one rounding error, wherever the operands fit. -/
theorem C55_relu {O : SecretOps m X F} {S : Sure m} (A : Sound O S) (hB0 : 0 ≤ A.B) (x : X n) (ok : A.Ok x)
    (hx : ∀ i, |A.val x i| ≤ A.B) :
    S.sure (reluS O x) fun z => A.Ok z ∧ ∀ i, |A.val z i - max (A.val x i) 0| ≤ A.δ := by
  unfold reluS
  have h0 := A.geP x 0 ok hx (by simpa using hB0)
  rw [Int.cast_zero] at h0
  refine S.bind _ _ _ _ h0 ?_
  rintro g ⟨okg, hg⟩
  have hp : ∀ i, A.val x i * A.val g i = max (A.val x i) 0 := by
    intro i
    rw [hg]
    split
    · rename_i h
      rw [mul_one, max_eq_left h]
    · rename_i h
      rw [mul_zero, max_eq_right (not_le.mp h).le]
  refine S.mono _ _ _ (A.mul x g ok okg ?_) ?_
  · intro i
    rw [hp]
    rcases le_total (A.val x i) 0 with h | h
    · rw [max_eq_right h]
      simpa using hB0
    · rw [max_eq_left h]
      exact hx i
  · rintro z ⟨okz, hz⟩
    exact ⟨okz, fun i => by rw [← hp]; exact hz i⟩

/-! ## the arguments of `max_pool2d` -/

set_option linter.unusedSimpArgs false in
theorem poolPadding_iff (k0 k1 s0 s1 : Nat) (p d : List Nat) (a : PoolArgs) :
    poolPadding k0 k1 s0 s1 p d = .ok a ↔
      k0 = a.kh ∧ k1 = a.kw ∧ s0 = a.sh ∧ s1 = a.sw ∧ p = [a.ph, a.pw] ∧ a.ph ≤ a.kh ∧ a.pw ≤ a.kw ∧ d = [1, 1] := by
  obtain ⟨kh, kw, sh, sw, ph, pw⟩ := a
  unfold poolPadding
  rcases p with _ | ⟨p0, _ | ⟨p1, p⟩⟩
  · simp [pyGet, error_bind]
  · by_cases h0 : p0 > k0 <;> simp [pyGet, error_bind, ok_bind, pure_eq_ok, h0]
  · by_cases h0 : p0 > k0
    · simp [pyGet, error_bind, ok_bind, pure_eq_ok, h0]
      omega
    · by_cases h1 : p1 > k1
      · simp [pyGet, error_bind, ok_bind, pure_eq_ok, h0, h1]
        omega
      · by_cases hd : d = [1, 1]
        · cases p with
          | nil =>
            simp [pyGet, ok_bind, pure_eq_ok, h0, h1, hd]
            omega
          | cons q p => simp [pyGet, error_bind, ok_bind, pure_eq_ok, h0, h1]
        · by_cases hp : p = []
          · by_cases hl : d.length = 2 <;> simp [pyGet, error_bind, ok_bind, pure_eq_ok, h0, h1, hd, hp, hl]
          · simp [pyGet, error_bind, ok_bind, pure_eq_ok, h0, h1, hd, hp]

/-- C55: which arguments `max_pool2d` accepts.  A padding up to the size of the kernel is accepted, not only up to half of it as
the message of the exception says. -/
theorem C55_pool_arguments (kernel : Size) (stride : Option Size) (padding dilation : Size) (a : PoolArgs) :
    poolArgs kernel stride padding dilation = .ok a ↔
      kernel.list = [a.kh, a.kw] ∧ (stride.elim [a.kh, a.kw] Size.list) = [a.sh, a.sw] ∧
      padding.list = [a.ph, a.pw] ∧ a.ph ≤ a.kh ∧ a.pw ≤ a.kw ∧ dilation.list = [1, 1] := by
  unfold poolArgs
  generalize kernel.list = k
  rcases k with _ | ⟨k0, _ | ⟨k1, _ | _⟩⟩ <;> try simp
  have hs : (stride.map Size.list).getD [k0, k1] = stride.elim [k0, k1] Size.list := by cases stride <;> rfl
  rw [hs]
  generalize ht : stride.elim [k0, k1] Size.list = t
  have ht' : k0 = a.kh → k1 = a.kw → stride.elim [a.kh, a.kw] Size.list = t := by
    rintro rfl rfl
    exact ht
  rcases t with _ | ⟨s0, _ | ⟨s1, _ | _⟩⟩
  · simp only [reduceCtorEq, false_iff]
    rintro ⟨⟨h1, h2⟩, h3, _⟩
    simp [ht' h1 h2] at h3
  · simp only [reduceCtorEq, false_iff]
    rintro ⟨⟨h1, h2⟩, h3, _⟩
    simp [ht' h1 h2] at h3
  · simp only [poolPadding_iff]
    constructor
    · rintro ⟨h1, h2, h3, h4, h⟩
      rw [ht' h1 h2]
      simp [h1, h2, h3, h4, h]
    · rintro ⟨⟨h1, h2⟩, h3, h⟩
      rw [ht' h1 h2] at h3
      simp at h3
      simp [h1, h2, h3, h]
  · simp only [reduceCtorEq, false_iff]
    rintro ⟨⟨h1, h2⟩, h3, _⟩
    simp [ht' h1 h2] at h3

open Classical in
/-- C55: arguments that are not accepted raise `ValueError`; only a padding given as a tuple with too few numbers raises `IndexError`. -/
theorem C55_pool_arguments_error (kernel : Size) (stride : Option Size) (padding dilation : Size) (e : PyErr)
    (h : poolArgs kernel stride padding dilation = .error e) :
    e = if (∃ kh kw sh sw, kernel.list = [kh, kw] ∧ stride.elim [kh, kw] Size.list = [sh, sw] ∧
        (padding.list = [] ∨ ∃ p, padding.list = [p] ∧ p ≤ kh)) then .indexError else .valueError := by
  unfold poolArgs at h
  generalize kernel.list = k at h ⊢
  rcases k with _ | ⟨k0, _ | ⟨k1, _ | _⟩⟩
  · simpa using h.symm
  · simpa using h.symm
  · have hs : (stride.map Size.list).getD [k0, k1] = stride.elim [k0, k1] Size.list := by cases stride <;> rfl
    dsimp only at h
    rw [hs] at h
    have hk : ∀ P : Nat → Nat → Prop, (∃ kh kw sh sw, [k0, k1] = [kh, kw] ∧ stride.elim [kh, kw] Size.list = [sh, sw] ∧ P kh kw) ↔
        (∃ sh sw, stride.elim [k0, k1] Size.list = [sh, sw]) ∧ P k0 k1 := by
      intro P
      constructor
      · rintro ⟨kh, kw, sh, sw, h1, h2, h3⟩
        simp only [List.cons.injEq, and_true] at h1
        obtain ⟨rfl, rfl⟩ := h1
        exact ⟨⟨sh, sw, h2⟩, h3⟩
      · rintro ⟨⟨sh, sw, h2⟩, h3⟩
        exact ⟨k0, k1, sh, sw, rfl, h2, h3⟩
    simp only [hk fun kh _ => padding.list = [] ∨ ∃ p, padding.list = [p] ∧ p ≤ kh]
    generalize stride.elim [k0, k1] Size.list = t at h ⊢
    rcases t with _ | ⟨s0, _ | ⟨s1, _ | _⟩⟩
    · simpa using h.symm
    · simpa using h.symm
    · dsimp only at h
      unfold poolPadding at h
      generalize padding.list = p at h ⊢
      generalize dilation.list = d at h
      rcases p with _ | ⟨p0, _ | ⟨p1, rest⟩⟩
      · simp [pyGet, error_bind] at h
        simp [← h]
      · by_cases h0 : k0 < p0
        · simp [pyGet, error_bind, ok_bind, h0] at h
          simp [← h, h0]
        · simp [pyGet, error_bind, ok_bind, pure_eq_ok, h0] at h
          simp [← h]
          omega
      · have : e = .valueError := by
          by_cases h0 : k0 < p0
          · simp [pyGet, error_bind, ok_bind, h0] at h
            exact h.symm
          · by_cases h1 : k1 < p1
            · simp [pyGet, error_bind, ok_bind, pure_eq_ok, h1] at h
              exact h.symm
            · by_cases h2 : rest = []
              · by_cases h3 : d.length = 2
                · by_cases h4 : d = [1, 1]
                  · simp [pyGet, error_bind, ok_bind, pure_eq_ok, h0, h1, h2, h4] at h
                  · simp [pyGet, error_bind, ok_bind, pure_eq_ok, h2, h3, h4] at h
                    exact h.symm
                · simp [pyGet, error_bind, ok_bind, pure_eq_ok, h2, h3] at h
                  exact h.symm
              · simp [pyGet, error_bind, ok_bind, pure_eq_ok, h2] at h
                exact h.symm
        simp [this]
    · simpa using h.symm
  · simpa using h.symm

example : poolArgs (.one 2) none (.many [1]) (.one 1) = .error .indexError ∧
    poolArgs (.one 2) none (.one 3) (.one 1) = .error .valueError := ⟨rfl, rfl⟩

/-! ## the maxima of the windows -/

/-- The sum of all maxima of a row of numbers, which is what `max` computes: the maximum, if there are no ties. -/
def maxima {d : Nat} (v : Fin d → F) : F := ∑ j, if ∀ i, v i ≤ v j then v j else 0

omit [IsStrictOrderedRing F] in
theorem maxima_unique {d : Nat} (v : Fin d → F) (t : Fin d) (ht : ∀ j, j ≠ t → v j < v t) : maxima v = v t := by
  unfold maxima
  rw [Finset.sum_eq_single t]
  · rw [if_pos]
    intro i
    by_cases h : i = t
    · rw [h]
    · exact (ht i h).le
  · intro j _ hj
    rw [if_neg]
    intro h
    exact absurd (h t) (not_le.mpr (ht j hj))
  · simp

theorem maxima_abs {d : Nat} (v : Fin d → F) (C : F) (hC0 : 0 ≤ C) (hv : ∀ j, |v j| ≤ C) : |maxima v| ≤ d * C := by
  unfold maxima
  refine (Finset.abs_sum_le_sum_abs _ _).trans ((Finset.sum_le_card_nsmul _ _ C ?_).trans ?_)
  · intro j _
    split
    · exact hv j
    · simpa using hC0
  · simp

omit [IsStrictOrderedRing F] in
/-- a row of equal numbers -/
theorem maxima_const {d : Nat} (c : F) : maxima (fun _ : Fin d => c) = d * c := by simp [maxima]

/-- `x.max(dim=-1, one_hot=True)`: the sums of the maxima up to one rounding error per element, and their places exactly. -/
theorem maxHot_last {O : SecretOps m X F} {S : Sure m} (A : Sound O S) (hδ1 : A.δ ≤ 1) (k d : Nat) (x : X (k * d))
    (ok : A.Ok x) (C : F) (hC0 : 0 ≤ C) (v : Fin k → Fin d → F) (hv : ∀ r j, A.val x (finProdFinEquiv (r, j)) = v r j)
    (hC : ∀ r j, |v r j| ≤ C) (hB : 2 * C ≤ A.B) (h2 : 2 ≤ A.B) (hlC : (d : F) * (C + 1) ≤ A.B) :
    S.sure (maxHot O (Layout.last k d) x) fun (z : X k × X (k * d)) => A.Ok z.1 ∧ A.Ok z.2 ∧
      (∀ r, |A.val z.1 r - maxima (v r)| ≤ d * A.δ) ∧
      ∀ r j, A.val z.2 (finProdFinEquiv (r, j)) = if ∀ i, v r i ≤ v r j then 1 else 0 := by
  have hl0 : (d : F) ≤ A.B := by
    have : (0 : F) ≤ d := Nat.cast_nonneg _
    nlinarith
  have hC' : ∀ q, |A.val x q| ≤ C := fun q => by
    have := hC (finProdFinEquiv.symm q).1 (finProdFinEquiv.symm q).2
    rw [← hv] at this
    simpa only [Prod.mk.eta, Equiv.apply_symm_apply] using this
  have hmax : ∀ r j, IsMax (Layout.last k d) (A.val x) (finProdFinEquiv (r, j)) ↔ ∀ i, v r i ≤ v r j := by
    intro r j
    constructor
    · intro h i
      rw [← hv, ← hv]
      refine h _ ?_
      change (finProdFinEquiv.symm (finProdFinEquiv (r, i))).1 = (finProdFinEquiv.symm (finProdFinEquiv (r, j))).1
      rw [Equiv.symm_apply_apply, Equiv.symm_apply_apply]
    · intro h q hq
      change (finProdFinEquiv.symm q).1 = (finProdFinEquiv.symm (finProdFinEquiv (r, j))).1 at hq
      rw [Equiv.symm_apply_apply] at hq
      have e : q = finProdFinEquiv (r, (finProdFinEquiv.symm q).2) := by
        rw [← show (finProdFinEquiv.symm q).1 = r from hq]
        simp only [Prod.mk.eta, Equiv.apply_symm_apply]
      rw [e, hv, hv]
      exact h _
  unfold maxHot
  refine S.bind _ _ _ _ (argmaxHot_spec A (Layout.last k d) x ok C hC' hB (rowLength_le _ _ h2 hl0) (by linarith)) ?_
  rintro h ⟨okh, hh⟩
  refine S.bind _ _ _ _ (times_self A (Layout.last k d) x ok h okh hh (by linarith) fun i => (hC' i).trans (by linarith)) ?_
  rintro pr ⟨okp, hp⟩
  refine S.bind _ _ _ _ (fibre_sums A hδ1 (Layout.last k d) _ pr okp hp C (fun p => by split; exact hC' p; simpa using hC0) hlC) ?_
  rintro z1 ⟨ok1, hz1⟩
  refine S.pure _ _ ⟨ok1, okh, fun r => ?_, fun r j => ?_⟩
  · have e : (((List.finRange d).map fun j => finProdFinEquiv (r, j)).map fun p =>
        if IsMax (Layout.last k d) (A.val x) p then A.val x p else 0).sum = maxima (v r) := by
      rw [List.map_map, ← List.ofFn_eq_map, List.sum_ofFn]
      simp only [Function.comp_def, hmax, hv]
      rfl
    rw [← e]
    exact hz1 r
  · rw [hh]
    simp only [hmax]

/-- an image with a border of width `pw` and height `ph` in which `c` stands: the number in row `y` and column `z` -/
def bordered {G : Type} {h w : Nat} (img : Fin h → Fin w → G) (ph pw : Nat) (c : G) (y z : Nat) : G :=
  if hp : (ph ≤ y ∧ y - ph < h) ∧ (pw ≤ z ∧ z - pw < w) then img ⟨y - ph, hp.1.2⟩ ⟨z - pw, hp.2.2⟩ else c

/-- the number at place `(u, v)` of window `(i, j)` -/
def windowCell {G : Type} {h w : Nat} (img : Fin h → Fin w → G) (a : PoolArgs) (c : G) (i j u v : Nat) : G :=
  bordered img a.ph a.pw c (i * a.sh + u) (j * a.sw + v)

/-- the place of element `(r, i, j)` of a tensor with three dimensions -/
abbrev at3 {b h w : Nat} (r : Fin b) (i : Fin h) (j : Fin w) : Fin (b * h * w) := finProdFinEquiv (finProdFinEquiv (r, i), j)

omit [Field F] [LinearOrder F] [IsStrictOrderedRing F] in
theorem poolPlace_elim (a : PoolArgs) {b h w : Nat} (r : Fin b) (i j u v : Nat) (c : F) (f : Fin (b * h * w) → F) :
    (poolPlace a r i j u v).elim c f = windowCell (fun y z => f (at3 r y z)) a c i j u v := by
  unfold poolPlace windowCell bordered
  dsimp only
  split <;> rfl

/-- The forward pass of `max_pool2d` after the checks, for windows in which one row has a unique maximum that exceeds the sum of the
maxima of each other row by more than the rounding errors: the result is that maximum up to rounding, and the indices are one at its
place and zero elsewhere. -/
theorem poolCore_spec {O : SecretOps m X F} {S : Sure m} (A : Sound O S) (a : PoolArgs) (b h w : Nat)
    (hδ1 : A.δ ≤ 1) (hδk : (a.kw : F) * A.δ ≤ 1)
    (x : X (b * h * w)) (ok : A.Ok x) (C : F) (hC0 : 0 ≤ C) (hC : ∀ i, |A.val x i| ≤ C) (hp : |A.padding| ≤ C)
    (hB : 2 * (a.kw * C + 1) ≤ A.B) (hB' : 2 * C ≤ A.B) (hkh : (a.kh : F) * (a.kw * C + 2) ≤ A.B) (hkw : (a.kw : F) * (C + 1) ≤ A.B)
    (cell : Fin b → Fin (poolOut h a.kh a.sh a.ph) → Fin (poolOut w a.kw a.sw a.pw) → Fin a.kh → Fin a.kw → F)
    (hcell : ∀ r i j u v, cell r i j u v = windowCell (fun y z => A.val x (at3 r y z)) a A.padding i j u v)
    (row : Fin b → Fin (poolOut h a.kh a.sh a.ph) → Fin (poolOut w a.kw a.sw a.pw) → Fin a.kh)
    (column : Fin b → Fin (poolOut h a.kh a.sh a.ph) → Fin (poolOut w a.kw a.sw a.pw) → Fin a.kw)
    (hcol : ∀ r i j v, v ≠ column r i j → cell r i j (row r i j) v < cell r i j (row r i j) (column r i j))
    (hrow : ∀ r i j u, u ≠ row r i j →
      maxima (cell r i j u) + 2 * (a.kw * A.δ) < cell r i j (row r i j) (column r i j)) :
    S.sure (poolCore O a b h w x) fun z => A.Ok z.1 ∧ A.Ok z.2 ∧
      (∀ r i j, |A.val z.1 (at3 r i j) - cell r i j (row r i j) (column r i j)| ≤ (a.kw + a.kh) * A.δ) ∧
      ∀ r i j u v, |A.val z.2 (finProdFinEquiv (finProdFinEquiv (at3 r i j, u), v))
        - if u = row r i j ∧ v = column r i j then 1 else 0| ≤ A.δ := by
  -- the coordinates of a window
  have ex3 : ∀ {k l o : Nat} (q : Fin (k * l * o)), ∃ r i j, q = at3 r i j := fun q =>
    ⟨(finProdFinEquiv.symm (finProdFinEquiv.symm q).1).1, (finProdFinEquiv.symm (finProdFinEquiv.symm q).1).2,
      (finProdFinEquiv.symm q).2, by simp only [at3, Prod.mk.eta, Equiv.apply_symm_apply]⟩
  have ex2 : ∀ {k l : Nat} (q : Fin (k * l)), ∃ i j, q = finProdFinEquiv (i, j) := fun q =>
    ⟨(finProdFinEquiv.symm q).1, (finProdFinEquiv.symm q).2, by simp only [Prod.mk.eta, Equiv.apply_symm_apply]⟩
  have h2 : 2 ≤ A.B := by
    have : (0 : F) ≤ a.kw * C := mul_nonneg (Nat.cast_nonneg _) hC0
    linarith
  unfold poolCore
  refine S.bind _ _ _ _ (A.pad _ x ok) ?_
  rintro y ⟨oky, hy⟩
  have hyv : ∀ r i j u v, A.val y (finProdFinEquiv (finProdFinEquiv (at3 r i j, u), v)) = cell r i j u v := by
    intro r i j u v
    rw [hy, hcell, ← poolPlace_elim]
    simp only [poolWindows, at3, Equiv.symm_apply_apply]
  have hyC : ∀ q, |A.val y q| ≤ C := by
    intro q
    rw [hy]
    cases poolWindows a b h w q with
    | none => exact hp
    | some p => exact hC p
  have hcC : ∀ r i j u v, |cell r i j u v| ≤ C := fun r i j u v => by rw [← hyv]; exact hyC _
  -- the maxima of the rows
  refine S.bind _ _ _ _ (maxHot_last A hδ1 _ a.kw y oky C hC0 (fun q v => A.val y (finProdFinEquiv (q, v))) (fun _ _ => rfl)
    (fun _ _ => hyC _) hB' h2 hkw) ?_
  rintro ⟨rc, columns⟩ ⟨okrc, okc, hrc, hc⟩
  have hrc' : ∀ r i j u, |A.val rc (finProdFinEquiv (at3 r i j, u)) - maxima (cell r i j u)| ≤ a.kw * A.δ := by
    intro r i j u
    have := hrc (finProdFinEquiv (at3 r i j, u))
    simp only [hyv] at this
    exact this
  have hc' : ∀ r i j u v, A.val columns (finProdFinEquiv (finProdFinEquiv (at3 r i j, u), v))
      = if ∀ v', cell r i j u v' ≤ cell r i j u v then 1 else 0 := by
    intro r i j u v
    have := hc (finProdFinEquiv (at3 r i j, u)) v
    simp only [hyv] at this
    exact this
  have hmu : ∀ r i j, maxima (cell r i j (row r i j)) = cell r i j (row r i j) (column r i j) := fun r i j =>
    maxima_unique _ _ (hcol r i j)
  -- the maximum of the row maxima
  have hlt : ∀ r i j u, u ≠ row r i j →
      A.val rc (finProdFinEquiv (at3 r i j, u)) < A.val rc (finProdFinEquiv (at3 r i j, row r i j)) := by
    intro r i j u hu
    have e1 := (abs_le.mp (hrc' r i j u)).2
    have e2 := (abs_le.mp (hrc' r i j (row r i j))).1
    have e3 := hrow r i j u hu
    rw [hmu] at e2
    linarith
  refine S.bind _ _ _ _ (maxHot_last A hδ1 _ a.kh rc okrc (a.kw * C + 1) ?_ (fun q u => A.val rc (finProdFinEquiv (q, u)))
    (fun _ _ => rfl) ?_ hB h2 ?_) ?_
  · have : (0 : F) ≤ a.kw * C := mul_nonneg (Nat.cast_nonneg _) hC0
    linarith
  · intro p u
    obtain ⟨r, i, j, rfl⟩ := ex3 p
    have e1 := hrc' r i j u
    have e2 := maxima_abs (cell r i j u) C hC0 (hcC r i j u)
    have e3 := abs_sub_abs_le_abs_sub (A.val rc (finProdFinEquiv (at3 r i j, u))) (maxima (cell r i j u))
    have e4 : |A.val rc (finProdFinEquiv (at3 r i j, u))| ≤ a.kw * C + 1 := by linarith
    exact e4
  · rw [add_assoc, one_add_one_eq_two]
    exact hkh
  rintro ⟨res, rows⟩ ⟨okres, okr, hres, hr⟩
  have hr' : ∀ r i j u, A.val rows (finProdFinEquiv (at3 r i j, u)) = if u = row r i j then 1 else 0 := by
    intro r i j u
    rw [hr (at3 r i j) u]
    have : (∀ u', A.val rc (finProdFinEquiv (at3 r i j, u')) ≤ A.val rc (finProdFinEquiv (at3 r i j, u))) ↔ u = row r i j := by
      constructor
      · intro h
        by_contra hu
        exact absurd (h (row r i j)) (not_le.mpr (hlt r i j u hu))
      · rintro rfl u'
        by_cases h : u' = row r i j
        · rw [h]
        · exact (hlt r i j u' h).le
    simp only [this]
  -- the indices
  refine S.bind _ _ _ _ (A.view _ rows okr) ?_
  rintro rows' ⟨okr', hrv⟩
  have hprod : ∀ r i j u v, A.val columns (finProdFinEquiv (finProdFinEquiv (at3 r i j, u), v))
      * A.val rows' (finProdFinEquiv (finProdFinEquiv (at3 r i j, u), v)) = if u = row r i j ∧ v = column r i j then 1 else 0 := by
    intro r i j u v
    rw [hrv, hc', Equiv.symm_apply_apply, hr']
    by_cases e1 : u = row r i j
    · subst e1
      have : (∀ v', cell r i j (row r i j) v' ≤ cell r i j (row r i j) v) ↔ v = column r i j := by
        constructor
        · intro h
          by_contra hv
          exact absurd (h (column r i j)) (not_le.mpr (hcol r i j v hv))
        · rintro rfl v'
          by_cases h : v' = column r i j
          · rw [h]
          · exact (hcol r i j v' h).le
      simp [this]
    · simp [e1]
  refine S.bind _ _ _ _ (A.mul columns rows' okc okr' ?_) ?_
  · intro q
    obtain ⟨p, v, rfl⟩ := ex2 q
    obtain ⟨p, u, rfl⟩ := ex2 p
    obtain ⟨r, i, j, rfl⟩ := ex3 p
    rw [hprod]
    split <;> simp <;> linarith
  rintro idx ⟨oki, hi⟩
  refine S.pure _ _ ⟨okres, oki, fun r i j => ?_, fun r i j u v => ?_⟩
  · have e1 := hres (at3 r i j)
    have e0 := maxima_unique (fun u => A.val rc (finProdFinEquiv (at3 r i j, u))) (row r i j) (hlt r i j)
    have e2 := hrc' r i j (row r i j)
    rw [hmu] at e2
    refine le_trans (abs_sub_le _ (A.val rc (finProdFinEquiv (at3 r i j, row r i j))) _) ?_
    rw [add_mul, add_comm (a.kw * A.δ)]
    refine add_le_add ?_ e2
    rw [← e0]
    exact e1
  · rw [← hprod]
    exact hi _

omit [LinearOrder F] [IsStrictOrderedRing F] in
/-- C55: what `max_pool2d` refuses: sessions that do not have two parties, arguments that fail the checks, kernels larger than the
padded image, and a stride of zero. -/
theorem C55_pool_refused (O : SecretOps m X F) (parties : Nat) (kernel : Size) (stride : Option Size) (padding dilation : Size)
    (b h w : Nat) (x : X (b * h * w)) :
    (parties ≠ 2 → maxPool2d O parties kernel stride padding dilation b h w x = O.raise .valueError) ∧
    (∀ e, parties = 2 → poolArgs kernel stride padding dilation = .error e →
      maxPool2d O parties kernel stride padding dilation b h w x = O.raise e) ∧
    (∀ a, parties = 2 → poolArgs kernel stride padding dilation = .ok a →
      (h + 2 * a.ph < a.kh ∨ w + 2 * a.pw < a.kw) → maxPool2d O parties kernel stride padding dilation b h w x = O.raise .valueError) ∧
    ∀ a, parties = 2 → poolArgs kernel stride padding dilation = .ok a → ¬ (h + 2 * a.ph < a.kh ∨ w + 2 * a.pw < a.kw) →
      (a.sh = 0 ∨ a.sw = 0) → maxPool2d O parties kernel stride padding dilation b h w x = O.raise .zeroDivision := by
  refine ⟨fun h1 => if_pos h1, fun e h1 h2 => ?_, fun a h1 h2 h3 => ?_, fun a h1 h2 h3 h4 => ?_⟩
  · unfold maxPool2d
    rw [if_neg (by simpa using h1), h2]
  · unfold maxPool2d
    rw [if_neg (by simpa using h1), h2]
    exact if_pos h3
  · unfold maxPool2d
    rw [if_neg (by simpa using h1), h2]
    exact (if_neg h3).trans (if_pos h4)

/-- C55, `max_pool2d` for two parties.  For windows in which one row has a unique maximum that exceeds the sum of the maxima of each
other row by more than the rounding errors, the result is that maximum up to rounding, and the indices are one at its place and zero
elsewhere (up to rounding).  Full statement: the largest number of each window, with ties and with any padding; see the witnesses. -/
theorem C55_pool_partial {O : SecretOps m X F} {S : Sure m} (A : Sound O S) (kernel : Size) (stride : Option Size)
    (padding dilation : Size) (a : PoolArgs) (ha : poolArgs kernel stride padding dilation = .ok a) (b h w : Nat)
    (hfit : a.kh ≤ h + 2 * a.ph ∧ a.kw ≤ w + 2 * a.pw) (hs : 0 < a.sh ∧ 0 < a.sw)
    (hδ1 : A.δ ≤ 1) (hδk : (a.kw : F) * A.δ ≤ 1)
    (x : X (b * h * w)) (ok : A.Ok x) (C : F) (hC0 : 0 ≤ C) (hC : ∀ i, |A.val x i| ≤ C) (hp : |A.padding| ≤ C)
    (hB : 2 * (a.kw * C + 1) ≤ A.B) (hB' : 2 * C ≤ A.B) (hkh : (a.kh : F) * (a.kw * C + 2) ≤ A.B) (hkw : (a.kw : F) * (C + 1) ≤ A.B)
    (cell : Fin b → Fin (poolOut h a.kh a.sh a.ph) → Fin (poolOut w a.kw a.sw a.pw) → Fin a.kh → Fin a.kw → F)
    (hcell : ∀ r i j u v, cell r i j u v = windowCell (fun y z => A.val x (at3 r y z)) a A.padding i j u v)
    (row : Fin b → Fin (poolOut h a.kh a.sh a.ph) → Fin (poolOut w a.kw a.sw a.pw) → Fin a.kh)
    (column : Fin b → Fin (poolOut h a.kh a.sh a.ph) → Fin (poolOut w a.kw a.sw a.pw) → Fin a.kw)
    (hcol : ∀ r i j v, v ≠ column r i j → cell r i j (row r i j) v < cell r i j (row r i j) (column r i j))
    (hrow : ∀ r i j u, u ≠ row r i j →
      maxima (cell r i j u) + 2 * (a.kw * A.δ) < cell r i j (row r i j) (column r i j)) :
    S.sure (maxPool2d O 2 kernel stride padding dilation b h w x) fun t => ∃ z, t = ⟨a, z⟩ ∧ A.Ok z.1 ∧ A.Ok z.2 ∧
      (∀ r i j, |A.val z.1 (at3 r i j) - cell r i j (row r i j) (column r i j)| ≤ (a.kw + a.kh) * A.δ) ∧
      ∀ r i j u v, |A.val z.2 (finProdFinEquiv (finProdFinEquiv (at3 r i j, u), v))
        - if u = row r i j ∧ v = column r i j then 1 else 0| ≤ A.δ := by
  unfold maxPool2d
  rw [if_neg (by simp), ha]
  dsimp only
  rw [if_neg (by omega), if_neg (by omega)]
  refine S.bind _ _ _ _ (poolCore_spec A a b h w hδ1 hδk x ok C hC0 hC hp hB hB' hkh hkw cell hcell row column hcol hrow) ?_
  rintro z hz
  exact S.pure _ _ ⟨z, rfl, hz⟩

/-- place `(u, v)` of window `(i, j)` lies in the image and not in its border -/
def InImage (a : PoolArgs) (h w i j u v : Nat) : Prop :=
  (a.ph ≤ i * a.sh + u ∧ i * a.sh + u - a.ph < h) ∧ (a.pw ≤ j * a.sw + v ∧ j * a.sw + v - a.pw < w)

instance (a : PoolArgs) (h w i j u v : Nat) : Decidable (InImage a h w i j u v) := inferInstanceAs (Decidable (_ ∧ _))

omit [IsStrictOrderedRing F] in
/-- The rows of a window of an image without negative numbers, in which all numbers are different: the sum of the maxima is that of the
largest number of the image, or, in the border, a negative number. -/
theorem maxima_padded {h w : Nat} (img : Fin h → Fin w → F) (hnn : ∀ y z, 0 ≤ img y z) (a : PoolArgs) (c : F) (hc : c < 0) (i j u : Nat)
    (hd : ∀ v v', v < a.kw → v' < a.kw → InImage a h w i j u v → InImage a h w i j u v' → v ≠ v' →
      windowCell img a c i j u v ≠ windowCell img a c i j u v') :
    (∃ v : Fin a.kw, InImage a h w i j u v ∧ maxima (fun v : Fin a.kw => windowCell img a c i j u v) = windowCell img a c i j u v) ∨
      maxima (fun v : Fin a.kw => windowCell img a c i j u v) = a.kw * c := by
  have hin : ∀ v, InImage a h w i j u v → 0 ≤ windowCell img a c i j u v := by
    intro v hv
    unfold windowCell bordered
    unfold InImage at hv
    rw [dif_pos hv]
    exact hnn _ _
  have hout : ∀ v, ¬ InImage a h w i j u v → windowCell img a c i j u v = c := by
    intro v hv
    unfold windowCell bordered
    exact dif_neg hv
  by_cases hex : (Finset.univ.filter fun v : Fin a.kw => InImage a h w i j u v).Nonempty
  · left
    obtain ⟨v, hv, hmax⟩ := Finset.exists_max_image _ (fun v : Fin a.kw => windowCell img a c i j u v) hex
    rw [Finset.mem_filter] at hv
    refine ⟨v, hv.2, maxima_unique _ v ?_⟩
    intro v' hv'
    by_cases hi : InImage a h w i j u v'
    · refine lt_of_le_of_ne (hmax v' (by simp [hi])) (hd v' v v'.isLt v.isLt hi hv.2 fun e => hv' (Fin.ext e))
    · rw [hout _ hi]
      exact lt_of_lt_of_le hc (hin _ hv.2)
  · right
    have : (fun v : Fin a.kw => windowCell img a c i j u v) = fun _ => c := by
      funext v
      apply hout
      intro hi
      exact hex ⟨v, by simp [hi]⟩
    rw [this]
    exact maxima_const c

/-- C55, `max_pool2d` of images without negative numbers, with any padding: if the numbers of the image in each row of a window are
different and the largest number of the image in the window exceeds those in its other rows by more than the rounding errors, then the
result is that number up to rounding. -/
theorem C55_pool_padding_partial {O : SecretOps m X F} {S : Sure m} (A : Sound O S) (kernel : Size) (stride : Option Size)
    (padding dilation : Size) (a : PoolArgs) (ha : poolArgs kernel stride padding dilation = .ok a) (b h w : Nat)
    (hfit : a.kh ≤ h + 2 * a.ph ∧ a.kw ≤ w + 2 * a.pw) (hs : 0 < a.sh ∧ 0 < a.sw)
    (hδ0 : 0 ≤ A.δ) (hδ1 : A.δ ≤ 1) (hδk : (a.kw : F) * A.δ ≤ 1) (hpad : A.padding + 2 * A.δ < 0)
    (x : X (b * h * w)) (ok : A.Ok x) (C : F) (hC0 : 0 ≤ C) (hnn : ∀ i, 0 ≤ A.val x i) (hC : ∀ i, A.val x i ≤ C) (hp : |A.padding| ≤ C)
    (hB : 2 * (a.kw * C + 1) ≤ A.B) (hB' : 2 * C ≤ A.B) (hkh : (a.kh : F) * (a.kw * C + 2) ≤ A.B) (hkw : (a.kw : F) * (C + 1) ≤ A.B)
    (cell : Fin b → Fin (poolOut h a.kh a.sh a.ph) → Fin (poolOut w a.kw a.sw a.pw) → Fin a.kh → Fin a.kw → F)
    (hcell : ∀ r i j u v, cell r i j u v = windowCell (fun y z => A.val x (at3 r y z)) a A.padding i j u v)
    (row : Fin b → Fin (poolOut h a.kh a.sh a.ph) → Fin (poolOut w a.kw a.sw a.pw) → Fin a.kh)
    (column : Fin b → Fin (poolOut h a.kh a.sh a.ph) → Fin (poolOut w a.kw a.sw a.pw) → Fin a.kw)
    (hin : ∀ (r : Fin b) (i : Fin (poolOut h a.kh a.sh a.ph)) (j : Fin (poolOut w a.kw a.sw a.pw)),
      InImage a h w i j (row r i j) (column r i j))
    (hd : ∀ (r : Fin b) (i : Fin (poolOut h a.kh a.sh a.ph)) (j : Fin (poolOut w a.kw a.sw a.pw)) (u : Fin a.kh) (v v' : Fin a.kw),
      InImage a h w i j u v → InImage a h w i j u v' → v ≠ v' → cell r i j u v ≠ cell r i j u v')
    (hcol : ∀ (r : Fin b) (i : Fin (poolOut h a.kh a.sh a.ph)) (j : Fin (poolOut w a.kw a.sw a.pw)) (v : Fin a.kw),
      InImage a h w i j (row r i j) v → cell r i j (row r i j) v ≤ cell r i j (row r i j) (column r i j))
    (hrow : ∀ (r : Fin b) (i : Fin (poolOut h a.kh a.sh a.ph)) (j : Fin (poolOut w a.kw a.sw a.pw)) (u : Fin a.kh) (v : Fin a.kw), u ≠ row r i j →
      InImage a h w i j u v →
      cell r i j u v + 2 * (a.kw * A.δ) < cell r i j (row r i j) (column r i j)) :
    S.sure (maxPool2d O 2 kernel stride padding dilation b h w x) fun t => ∃ z, t = ⟨a, z⟩ ∧ A.Ok z.1 ∧ A.Ok z.2 ∧
      (∀ r i j, |A.val z.1 (at3 r i j) - cell r i j (row r i j) (column r i j)| ≤ (a.kw + a.kh) * A.δ) ∧
      ∀ r i j u v, |A.val z.2 (finProdFinEquiv (finProdFinEquiv (at3 r i j, u), v))
        - if u = row r i j ∧ v = column r i j then 1 else 0| ≤ A.δ := by
  have hpad0 : A.padding < 0 := by linarith
  have hpos : ∀ (r : Fin b) (i : Fin (poolOut h a.kh a.sh a.ph)) (j : Fin (poolOut w a.kw a.sw a.pw)) (u : Fin a.kh) (v : Fin a.kw),
      InImage a h w i j u v → 0 ≤ cell r i j u v := by
    intro r i j u v hv
    rw [hcell]
    unfold windowCell bordered
    unfold InImage at hv
    rw [dif_pos hv]
    exact hnn _
  have hout : ∀ (r : Fin b) (i : Fin (poolOut h a.kh a.sh a.ph)) (j : Fin (poolOut w a.kw a.sw a.pw)) (u : Fin a.kh) (v : Fin a.kw),
      ¬ InImage a h w i j u v → cell r i j u v = A.padding := by
    intro r i j u v hv
    rw [hcell]
    unfold windowCell bordered
    exact dif_neg hv
  refine C55_pool_partial A kernel stride padding dilation a ha b h w hfit hs hδ1 hδk x ok C hC0 ?_ hp hB hB' hkh hkw cell hcell row column
    ?_ ?_
  · intro i
    rw [abs_of_nonneg (hnn i)]
    exact hC i
  · intro r i j v hv
    by_cases hi : InImage a h w i j (row r i j) v
    · exact lt_of_le_of_ne (hcol r i j v hi) (hd r i j _ _ _ hi (hin r i j) hv)
    · rw [hout _ _ _ _ _ hi]
      exact lt_of_lt_of_le hpad0 (hpos _ _ _ _ _ (hin r i j))
  · intro r i j u hu
    have e : cell r i j u = fun v : Fin a.kw => windowCell (fun y z => A.val x (at3 r y z)) a A.padding i j u v := by
      funext v
      exact hcell r i j u v
    rw [e]
    rcases maxima_padded (fun y z => A.val x (at3 r y z)) (fun y z => hnn _) a A.padding hpad0 i j u (by
      intro v v' hv hv' hi hi' hne
      have := hd r i j u ⟨v, hv⟩ ⟨v', hv'⟩ hi hi' (by simpa using hne)
      rwa [hcell, hcell] at this) with ⟨v, hv, h1⟩ | h1
    · rw [h1, ← hcell]
      exact hrow r i j u v hu hv
    · rw [h1]
      have hk : (1 : F) ≤ a.kw := by exact_mod_cast (column r i j).pos
      have := hpos r i j _ _ (hin r i j)
      have h3 : (a.kw : F) * (A.padding + 2 * A.δ) < 0 := mul_neg_of_pos_of_neg (by linarith) hpad
      linarith

end SyMPC
