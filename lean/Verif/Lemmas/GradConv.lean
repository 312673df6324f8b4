import Verif.Lemmas.Conv
import Verif.Lemmas.Grad

/-!
# The derivative of a convolution
-/

namespace SyMPC.Grad

open Tensor Finset

theorem sum_cube (a b c d : Nat) (f : List Nat → ℝ) :
    ∑ o ∈ positions [a, b, c, d], f o
      = ∑ i ∈ range a, ∑ j ∈ range b, ∑ k ∈ range c, ∑ l ∈ range d, f [i, j, k, l] := by
  rw [sum_positions_cons]
  refine Finset.sum_congr rfl fun i _ => ?_
  rw [sum_positions_cons]
  refine Finset.sum_congr rfl fun j _ => ?_
  rw [← sum_matrix c d fun l => f (i :: j :: l)]

/-- the arguments of one number for both dimensions, without padding and groups -/
def plain (s d : Nat) : Conv.Args := ⟨(s, s), (0, 0), (d, d), 1⟩

/-- element `(m, i, j)` of the convolution of one image of one channel -/
noncomputable def cc (kh kw s d : Nat) (x w : List Nat → ℝ) (m i j : Nat) : ℝ :=
  ∑ p ∈ range kh, ∑ q ∈ range kw, x [0, 0, i * s + p * d, j * s + q * d] * w [m, 0, p, q]

theorem convAt_plain (h v o kh kw s d : Nat) (x w : List Nat → ℝ) (m i j : Nat) (hm : m < o)
    (hi : i * s + (kh - 1) * d < h) (hj : j * s + (kw - 1) * d < v) :
    Conv.convAt (plain s d) [1, 1, h, v] [o, 1, kh, kw] x w [0, m, i, j] = cc kh kw s d x w m i j := by
  unfold Conv.convAt cc plain
  simp only [Conv.sumTo_eq, Fin.sum_univ_one, Fin.isValue, Fin.val_zero, Nat.div_one]
  rw [Finset.sum_range]
  refine Finset.sum_congr rfl fun p _ => ?_
  rw [Finset.sum_range]
  refine Finset.sum_congr rfl fun q _ => ?_
  have hp : (p : Nat) * d ≤ (kh - 1) * d := Nat.mul_le_mul_right _ (by have := p.2; omega)
  have hq : (q : Nat) * d ≤ (kw - 1) * d := Nat.mul_le_mul_right _ (by have := q.2; omega)
  unfold Conv.padded
  rw [if_pos (by omega), Nat.div_eq_of_lt hm]
  simp

theorem outDim_plain (n k s d : Nat) (hs : 0 < s) (hd : 0 < d) (hk : 0 < k) (hn : d * (k - 1) + 1 ≤ n) :
    Conv.outDim n k s 0 d = .ok ((n - d * (k - 1) - 1) / s + 1) := by
  unfold Conv.outDim
  rw [if_neg (by omega)]
  simp

theorem secret_plain (h v o kh kw s d : Nat) (x w : Tensor ℝ) (hx : x.shape = [1, 1, h, v]) (hw : w.shape = [o, 1, kh, kw])
    (hs : 0 < s) (hd : 0 < d) (hk : 0 < kh) (hk' : 0 < kw) (ho : 0 < o) (hh : d * (kh - 1) + 1 ≤ h) (hv : d * (kw - 1) + 1 ≤ v) :
    Conv.ConvOp.secret .conv2d (plain s d) x w = .ok ⟨[1, o, (h - d * (kh - 1) - 1) / s + 1, (v - d * (kw - 1) - 1) / s + 1],
      Conv.convAt (plain s d) [1, 1, h, v] [o, 1, kh, kw] x.at_ w.at_⟩ := by
  have h1 : Conv.ConvOp.conv2d.shape (plain s d) [1, 1, h, v] [o, 1, kh, kw]
      = .ok [1, o, (h - d * (kh - 1) - 1) / s + 1, (v - d * (kw - 1) - 1) / s + 1] := by
    have e : Conv.ConvOp.conv2d.shape (plain s d) [1, 1, h, v] [o, 1, kh, kw] = (do
        let i ← Conv.outDim h kh s 0 d
        let j ← Conv.outDim v kw s 0 d
        return [1, o, i, j]) := if_neg (show ¬ (1 = 0 ∨ o < 1 ∨ o % 1 ≠ 0 ∨ 1 ≠ 1 * 1) by omega)
    rw [e, outDim_plain _ _ _ _ hs hd hk hh, outDim_plain _ _ _ _ hs hd hk' hv]
    rfl
  have hle : kh - 1 ≤ d * (kh - 1) := Nat.le_mul_of_pos_left _ hd
  have hle' : kw - 1 ≤ d * (kw - 1) := Nat.le_mul_of_pos_left _ hd
  have h2 : Conv.ConvOp.conv2d.shape .default [1, 1, h, v] [o, 1, kh, kw]
      = .ok [1, o, (h - 1 * (kh - 1) - 1) / 1 + 1, (v - 1 * (kw - 1) - 1) / 1 + 1] := by
    have e : Conv.ConvOp.conv2d.shape .default [1, 1, h, v] [o, 1, kh, kw] = (do
        let i ← Conv.outDim h kh 1 0 1
        let j ← Conv.outDim v kw 1 0 1
        return [1, o, i, j]) := if_neg (show ¬ (1 = 0 ∨ o < 1 ∨ o % 1 ≠ 0 ∨ 1 ≠ 1 * 1) by omega)
    rw [e, outDim_plain _ _ _ _ one_pos one_pos hk (by omega), outDim_plain _ _ _ _ one_pos one_pos hk' (by omega)]
    rfl
  unfold Conv.ConvOp.secret Conv.ConvOp.run
  rw [hx, hw, h1, ok_bind, pure_eq_ok, ok_bind, h2]
  rfl

/-- what an accepted convolution tells about its sizes -/
theorem secret_plain_inv (h v o k s d : Nat) (x w r : Tensor ℝ) (hx : x.shape = [1, 1, h, v]) (hw : w.shape = [o, 1, k, k])
    (hr : Conv.ConvOp.secret .conv2d (plain s d) x w = .ok r) :
    0 < s ∧ 0 < d ∧ 0 < k ∧ 0 < o ∧ d * (k - 1) + 1 ≤ h ∧ d * (k - 1) + 1 ≤ v := by
  unfold Conv.ConvOp.secret Conv.ConvOp.run at hr
  rw [hx, hw] at hr
  cases e : Conv.ConvOp.conv2d.shape (plain s d) [1, 1, h, v] [o, 1, k, k] with
  | error _ => rw [e] at hr; cases hr
  | ok sh =>
    obtain ⟨n', c', hh, v', o', ci', kh', kw', i, j, e1, e2, -, h1, h2, h3, h4, h5, h6, -⟩ := Conv.shape_ok e
    cases e1
    cases e2
    have pos : ∀ {n k s d m : Nat}, Conv.outDim n k s 0 d = .ok m → 0 < s ∧ 0 < d ∧ 0 < k ∧ d * (k - 1) + 1 ≤ n := by
      intro n k s d m h
      unfold Conv.outDim at h
      split at h
      · cases h
      next hc => omega
    have p1 := pos h3
    have p2 := pos h4
    have h6' : 1 ≤ o := h6
    exact ⟨p1.1, p1.2.1, p1.2.2.1, by omega, p1.2.2.2, p2.2.2.2⟩

/-- the derivatives of the convolution by the pixels and by the elements of the kernels -/
noncomputable def convJ (k s d : Nat) (x w : List Nat → ℝ) (l : Nat) (o i : List Nat) : ℝ :=
  match o, i with
  | [_, m, i, j], [u0, _, u, v] =>
    if l = 0 then ∑ p ∈ range k, ∑ q ∈ range k, if u = i * s + p * d ∧ v = j * s + q * d then w [m, 0, p, q] else 0
    else if m = u0 then x [0, 0, i * s + u * d, j * s + v * d] else 0
  | _, _ => 0

theorem sum_at (h v u0 v0 : Nat) (hu : u0 < h) (hv : v0 < v) (c : ℝ) (f : Nat → Nat → ℝ) :
    ∑ u ∈ range h, ∑ w ∈ range v, (if u = u0 ∧ w = v0 then c else 0) * f u w = c * f u0 v0 := by
  rw [Finset.sum_eq_single u0, Finset.sum_eq_single v0]
  · simp
  · intro b _ hb
    simp [hb]
  · intro h
    exact absurd (Finset.mem_range.mpr hv) h
  · intro b _ hb
    simp [hb]
  · intro h
    exact absurd (Finset.mem_range.mpr hu) h

section
variable (h v o k s d : Nat)

theorem conv_deriv {x w : ℝ → Tensor ℝ} {dx dw : List Nat → ℝ} (hx : Deriv x dx) (hw : Deriv w dw)
    (hxs : (x 0).shape = [1, 1, h, v]) (hws : (w 0).shape = [o, 1, k, k]) (hs : 0 < s) (hd : 0 < d) (hk : 0 < k) (ho : 0 < o)
    (hh : d * (k - 1) + 1 ≤ h) (hv : d * (k - 1) + 1 ≤ v) :
    ∃ out : ℝ → Tensor ℝ, (∀ t, Conv.ConvOp.secret .conv2d (plain s d) (x t) (w t) = .ok (out t)) ∧
      Deriv out fun idx => ∑ i ∈ positions (x 0).shape, convJ k s d (x 0).at_ (w 0).at_ 0 idx i * dx i
        + ∑ i ∈ positions (w 0).shape, convJ k s d (x 0).at_ (w 0).at_ 1 idx i * dw i := by
  refine ⟨fun t => ⟨[1, o, (h - d * (k - 1) - 1) / s + 1, (v - d * (k - 1) - 1) / s + 1],
      Conv.convAt (plain s d) [1, 1, h, v] [o, 1, k, k] (x t).at_ (w t).at_⟩,
    fun t => secret_plain h v o k k s d _ _ (by rw [hx.1, hxs]) (by rw [hw.1, hws]) hs hd hk hk ho hh hv, fun _ => rfl, ?_⟩
  intro idx hidx
  have hl := hidx.length
  obtain ⟨n, m, i, j, rfl⟩ : ∃ n m i j, idx = [n, m, i, j] := by
    match idx, hl with
    | [n, m, i, j], _ => exact ⟨n, m, i, j, rfl⟩
  obtain ⟨hn, hm, hi, hj, -⟩ : n < 1 ∧ m < o ∧ i < (h - d * (k - 1) - 1) / s + 1 ∧ j < (v - d * (k - 1) - 1) / s + 1 ∧ True := hidx
  obtain rfl : n = 0 := by omega
  have hi' : i * s + (k - 1) * d < h := by
    have := (Nat.le_div_iff_mul_le hs).mp (Nat.lt_succ_iff.mp hi)
    rw [mul_comm (k - 1)]
    omega
  have hj' : j * s + (k - 1) * d < v := by
    have := (Nat.le_div_iff_mul_le hs).mp (Nat.lt_succ_iff.mp hj)
    rw [mul_comm (k - 1)]
    omega
  simp only [convAt_plain h v o k k s d _ _ m i j hm hi' hj']
  have bound : ∀ p ∈ range k, p * d ≤ (k - 1) * d := fun p hp => Nat.mul_le_mul_right _ (by have := Finset.mem_range.mp hp; omega)
  have e1 : ∑ i' ∈ positions (x 0).shape, convJ k s d (x 0).at_ (w 0).at_ 0 [0, m, i, j] i' * dx i'
      = ∑ p ∈ range k, ∑ q ∈ range k, (w 0).at_ [m, 0, p, q] * dx [0, 0, i * s + p * d, j * s + q * d] := by
    rw [hxs, sum_cube]
    simp only [Finset.sum_range_one, convJ, if_true, Finset.sum_mul]
    rw [Finset.sum_congr rfl fun u _ => Finset.sum_comm, Finset.sum_comm]
    refine Finset.sum_congr rfl fun p hp => ?_
    rw [Finset.sum_congr rfl fun u _ => Finset.sum_comm, Finset.sum_comm]
    refine Finset.sum_congr rfl fun q hq => ?_
    have := bound p hp
    have := bound q hq
    exact sum_at h v _ _ (by omega) (by omega) _ fun u v => dx [0, 0, u, v]
  have e2 : ∑ i' ∈ positions (w 0).shape, convJ k s d (x 0).at_ (w 0).at_ 1 [0, m, i, j] i' * dw i'
      = ∑ p ∈ range k, ∑ q ∈ range k, (x 0).at_ [0, 0, i * s + p * d, j * s + q * d] * dw [m, 0, p, q] := by
    rw [hws, sum_cube, Finset.sum_eq_single m]
    · simp [convJ]
    · intro b _ hb
      simp [convJ, Ne.symm hb]
    · intro h
      exact absurd (Finset.mem_range.mpr hm) h
  rw [e1, e2, ← Finset.sum_add_distrib]
  refine HasDerivAt.fun_sum fun p hp => ?_
  rw [← Finset.sum_add_distrib]
  refine HasDerivAt.fun_sum fun q hq => ?_
  have := bound p hp
  have := bound q hq
  rw [Finset.mem_range] at hp hq
  have h1 := hx.2 [0, 0, i * s + p * d, j * s + q * d] (by rw [hxs]; exact ⟨by omega, by omega, by omega, by omega, trivial⟩)
  have h2 := hw.2 [m, 0, p, q] (by rw [hws]; exact ⟨hm, by omega, hp, hq, trivial⟩)
  exact (h1.mul h2).congr_deriv (by ring)

/-- the transposed convolution of the gradient has the size of the image -/
theorem secret_transposed (gh gv : Nat) (g w : Tensor ℝ) (hg : g.shape = [1, o, gh, gv]) (hw : w.shape = [o, 1, k, k])
    (hs : 0 < s) (hd : 0 < d) (hk : 0 < k) (h1 : 0 < gh) (h2 : 0 < gv) (hh : (gh - 1) * s + d * (k - 1) + 1 = h)
    (hv : (gv - 1) * s + d * (k - 1) + 1 = v) :
    ∃ at', Conv.ConvOp.secret .convTranspose2d (plain s d) g w = .ok ⟨[1, 1, h, v], at'⟩ ∧
      ∀ u u', at' [0, 0, u, u'] = ∑ m ∈ range o, ∑ i ∈ range gh, ∑ j ∈ range gv, ∑ p ∈ range k, ∑ q ∈ range k,
        if u = i * s + p * d ∧ u' = j * s + q * d then g.at_ [0, m, i, j] * w.at_ [m, 0, p, q] else 0 := by
  have out : ∀ {n : Nat}, 0 < n → Conv.outDimT n k s 0 d = .ok ((n - 1) * s + d * (k - 1) + 1) := by
    intro n hn
    unfold Conv.outDimT
    rw [if_neg (by omega)]
    simp
  have e : Conv.ConvOp.convTranspose2d.shape (plain s d) [1, o, gh, gv] [o, 1, k, k] = .ok [1, 1, h, v] := by
    have e : Conv.ConvOp.convTranspose2d.shape (plain s d) [1, o, gh, gv] [o, 1, k, k] = (do
        let i ← Conv.outDimT gh k s 0 d
        let j ← Conv.outDimT gv k s 0 d
        return [1, 1, i, j]) := if_neg (show ¬ (1 = 0 ∨ o ≠ o ∨ o % 1 ≠ 0) by omega)
    rw [e, out h1, out h2, hh, hv]
    rfl
  obtain ⟨sh, e'⟩ := Conv.transposed_accepted _ _ _ _ e
  refine ⟨Conv.ConvOp.convTranspose2d.at (plain s d) [1, o, gh, gv] [o, 1, k, k] g.at_ w.at_, ?_, fun u u' => ?_⟩
  · unfold Conv.ConvOp.secret Conv.ConvOp.run
    rw [hg, hw, e, ok_bind, pure_eq_ok, ok_bind, e']
    rfl
  · rw [Conv.at_textbook _ _ _ _ _ e]
    change Conv.kernelCopies (plain s d) gh gv (o / 1) k k (0 / 1) (0 % 1) g.at_ w.at_ 0 u u' = _
    rw [Nat.div_one, Nat.div_one, Nat.zero_mod]
    simp only [Conv.kernelCopies, plain, Finset.sum_range]
    refine Finset.sum_congr rfl fun m _ => ?_
    refine Finset.sum_congr rfl fun i _ => ?_
    refine Finset.sum_congr rfl fun j _ => ?_
    refine Finset.sum_congr rfl fun p _ => ?_
    refine Finset.sum_congr rfl fun q _ => ?_
    refine if_congr ?_ (by simp) rfl
    rw [Nat.cast_zero, sub_zero, sub_zero]
    norm_cast

theorem reshape_ok {T : Type} (x : Tensor T) (s' : List Nat) (hn : numel s' = numel x.shape) :
    reshape x s' = .ok ⟨s', fun idx => x.at_ (unflat x.shape (flat s' idx))⟩ := if_pos hn

/-- the gradient of the kernels, element by element -/
theorem gradKernel_ok (gh gv : Nat) (x g : Tensor ℝ) (hx : x.shape = [1, 1, h, v]) (hg : g.shape = [1, o, gh, gv])
    (hs : 0 < s) (hd : 0 < d) (hk : 0 < k) (ho : 0 < o) (h1 : 0 < gh) (h2 : 0 < gv) (hh : (gh - 1) * s + d * (k - 1) + 1 = h)
    (hv : (gv - 1) * s + d * (k - 1) + 1 = v) :
    ∃ r, gradKernel x g k k s 0 d 1 = .ok r ∧ r.shape = [o, 1, k, k] ∧ ∀ m a b, m < o → a < k → b < k →
      r.at_ [m, 0, a, b] = ∑ i ∈ range gh, ∑ j ∈ range gv, x.at_ [0, 0, a * d + i * s, b * d + j * s] * g.at_ [0, m, i, j] := by
  obtain ⟨gs, ga⟩ := g
  obtain ⟨xs, xa⟩ := x
  dsimp only at hx hg
  subst hx hg
  have f1 : ∀ {m i j}, m < o → i < gh → j < gv → unflat [1, o * 1, gh, gv] (flat [1 * (o * 1), 1, gh, gv] [m, 0, i, j]) = [0, m, i, j] := by
    intro m i j hm hi hj
    have e : flat [1 * (o * 1), 1, gh, gv] [m, 0, i, j] = flat [1, o * 1, gh, gv] [0, m, i, j] := by simp [flat, numel]
    rw [e]
    exact unflat_flat _ _ ⟨by omega, by omega, hi, hj, trivial⟩
  have hout : ∀ {n g : Nat}, 0 < g → (g - 1) * s + d * (k - 1) + 1 = n → (n - s * (g - 1) - 1) / d + 1 = k := by
    intro n g _ hn
    have : n - s * (g - 1) - 1 = d * (k - 1) := by
      rw [mul_comm s]
      omega
    rw [this, Nat.mul_div_cancel_left _ hd]
    omega
  have hle : ∀ {n g : Nat}, 0 < g → (g - 1) * s + d * (k - 1) + 1 = n → s * (g - 1) + 1 ≤ n := by
    intro n g _ hn
    rw [mul_comm s]
    omega
  let g' : Tensor ℝ := ⟨[1 * (o * 1), 1, gh, gv], fun idx => (match unflat [1, o * 1, gh, gv] (flat [1 * (o * 1), 1, gh, gv] idx) with
    | [n, m, i, j] => ga [n, m % o, i, j]
    | idx => ga idx)⟩
  let x' : Tensor ℝ := ⟨[1, 1 * 1, h, v], fun idx => xa (unflat [1, 1, h, v] (flat [1, 1 * 1, h, v] idx))⟩
  have hsec := secret_plain h v o gh gv d s x' g' (by simp [x']) (by simp [g']) hd hs h1 h2 ho (hle h1 hh) (hle h2 hv)
  rw [hout h1 hh, hout h2 hv] at hsec
  let c : Tensor ℝ := ⟨[1, o, k, k], Conv.convAt (plain d s) [1, 1, h, v] [o, 1, gh, gv] x'.at_ g'.at_⟩
  let c1 : Tensor ℝ := ⟨[1, o / 1, k, k], fun idx => c.at_ (unflat [1, o, k, k] (flat [1, o / 1, k, k] idx))⟩
  let c2 : Tensor ℝ := ⟨[o / 1, k, k], fun idx => Conv.sumTo 1 fun i => c1.at_ (i :: idx)⟩
  let c3 : Tensor ℝ := ⟨[1 / 1, o, k, k], fun idx => c2.at_ (unflat [o / 1, k, k] (flat [1 / 1, o, k, k] idx))⟩
  let c4 : Tensor ℝ := ⟨[o, 1 / 1, k, k], fun idx => match idx with
    | i :: j :: idx => c3.at_ (j :: i :: idx)
    | idx => c3.at_ idx⟩
  have run : gradKernel ⟨[1, 1, h, v], xa⟩ ⟨[1, o, gh, gv], ga⟩ k k s 0 d 1 = .ok ⟨[o, 1 / 1, k, k], c4.at_⟩ := by
    have r1 : reshape (⟨[1, o * 1, gh, gv], fun idx => match idx with
      | [n, m, i, j] => ga [n, m % o, i, j]
      | idx => ga idx⟩ : Tensor ℝ) [1 * (o * 1), 1, gh, gv] = .ok g' := reshape_ok _ _ (by simp [numel])
    have r2 : reshape (⟨[1, 1, h, v], xa⟩ : Tensor ℝ) [1, 1 * 1, h, v] = .ok x' := reshape_ok _ _ (by simp)
    have r3 : reshape c [1, o / 1, k, k] = .ok c1 := reshape_ok _ _ (by simp [c])
    have r4 : reshape c2 [1 / 1, o, k, k] = .ok c3 := reshape_ok _ _ (by simp [c2, numel])
    have r5 : narrow 2 k c4 = .ok ⟨[o, 1 / 1, k, k], c4.at_⟩ := if_neg (Nat.lt_irrefl k)
    have r6 : narrow 3 k (⟨[o, 1 / 1, k, k], c4.at_⟩ : Tensor ℝ) = .ok ⟨[o, 1 / 1, k, k], c4.at_⟩ := if_neg (Nat.lt_irrefl k)
    have e : gradKernel ⟨[1, 1, h, v], xa⟩ ⟨[1, o, gh, gv], ga⟩ k k s 0 d 1 = (do
      let g ← reshape (⟨[1, o * 1, gh, gv], fun idx => match idx with
        | [n, m, i, j] => ga [n, m % o, i, j]
        | idx => ga idx⟩ : Tensor ℝ) [1 * (o * 1), 1, gh, gv]
      let x ← reshape (⟨[1, 1, h, v], xa⟩ : Tensor ℝ) [1, 1 * 1, h, v]
      let wg ← Conv.ConvOp.secret .conv2d (plain d s) x g
      let wg ← reshape wg [1, wg.shape.getD 1 0 / 1, wg.shape.getD 2 0, wg.shape.getD 3 0]
      let wg ← reshape (← sumFirst wg) [1 / 1, o, wg.shape.getD 2 0, wg.shape.getD 3 0]
      let wg ← transpose01 wg
      let wg ← narrow 2 k wg
      narrow 3 k wg) := rfl
    rw [e, r1, ok_bind, r2, ok_bind, hsec, ok_bind]
    change (do
      let wg ← reshape c [1, o / 1, k, k]
      let wg ← reshape (← sumFirst wg) [1 / 1, o, wg.shape.getD 2 0, wg.shape.getD 3 0]
      let wg ← transpose01 wg
      let wg ← narrow 2 k wg
      narrow 3 k wg) = _
    rw [r3, ok_bind]
    change (do
      let wg ← reshape c2 [1 / 1, o, k, k]
      let wg ← transpose01 wg
      let wg ← narrow 2 k wg
      narrow 3 k wg) = _
    rw [r4, ok_bind]
    change (do
      let wg ← narrow 2 k c4
      narrow 3 k wg) = _
    rw [r5, ok_bind, r6]
  refine ⟨_, run, by simp, fun m a b hm ha hb => ?_⟩
  have q1 : unflat [o / 1, k, k] (flat [1 / 1, o, k, k] [0, m, a, b]) = [m, a, b] := by
    have e : flat [1 / 1, o, k, k] [0, m, a, b] = flat [o / 1, k, k] [m, a, b] := by simp [flat]
    rw [e]
    exact unflat_flat _ _ ⟨by simpa using hm, ha, hb, trivial⟩
  have q2 : unflat [1, o, k, k] (flat [1, o / 1, k, k] [0, m, a, b]) = [0, m, a, b] := by
    have e : flat [1, o / 1, k, k] [0, m, a, b] = flat [1, o, k, k] [0, m, a, b] := by simp [flat]
    rw [e]
    exact unflat_flat _ _ ⟨by omega, hm, ha, hb, trivial⟩
  have bound : ∀ {n g a i : Nat}, 0 < g → (g - 1) * s + d * (k - 1) + 1 = n → a < k → i ≤ g - 1 → a * d + i * s < n := by
    intro n g a i _ hn ha hi
    have b1 : i * s ≤ (g - 1) * s := Nat.mul_le_mul_right _ hi
    have b2 : a * d ≤ (k - 1) * d := Nat.mul_le_mul_right _ (by omega)
    rw [mul_comm (k - 1)] at b2
    omega
  change c2.at_ (unflat [o / 1, k, k] (flat [1 / 1, o, k, k] [0, m, a, b])) = _
  rw [q1]
  change Conv.sumTo 1 (fun i => c1.at_ [i, m, a, b]) = _
  rw [Conv.sumTo_eq, Fin.sum_univ_one]
  change c.at_ (unflat [1, o, k, k] (flat [1, o / 1, k, k] [0, m, a, b])) = _
  rw [q2]
  change Conv.convAt (plain d s) [1, 1, h, v] [o, 1, gh, gv] x'.at_ g'.at_ [0, m, a, b] = _
  rw [convAt_plain h v o gh gv d s _ _ m a b hm (bound h1 hh ha le_rfl) (bound h2 hv hb le_rfl)]
  unfold cc
  refine Finset.sum_congr rfl fun i hi => ?_
  refine Finset.sum_congr rfl fun j hj => ?_
  rw [Finset.mem_range] at hi hj
  have e1 : x'.at_ [0, 0, a * d + i * s, b * d + j * s] = xa [0, 0, a * d + i * s, b * d + j * s] := by
    change xa (unflat [1, 1, h, v] (flat [1, 1 * 1, h, v] [0, 0, a * d + i * s, b * d + j * s])) = _
    rw [show ([1, 1 * 1, h, v] : List Nat) = [1, 1, h, v] from rfl,
      unflat_flat [1, 1, h, v] [0, 0, a * d + i * s, b * d + j * s] ⟨by omega, by omega, bound h1 hh ha (by omega), bound h2 hv hb (by omega), trivial⟩]
  have e2 : g'.at_ [m, 0, i, j] = ga [0, m, i, j] := by
    simp only [g', f1 hm hi hj, Nat.mod_eq_of_lt hm]
  rw [e1, e2]

theorem back_conv (x w : Tensor ℝ) (hx : x.shape = [1, 1, h, v]) (hw : w.shape = [o, 1, k, k]) (hs : 0 < s) (hd : 0 < d) (hk : 0 < k)
    (ho : 0 < o) (hh : d * (k - 1) + 1 ≤ h) (hv : d * (k - 1) + 1 ≤ v) (dh : s ∣ h - d * (k - 1) - 1) (dv : s ∣ v - d * (k - 1) - 1) :
    Back [1, o, (h - d * (k - 1) - 1) / s + 1, (v - d * (k - 1) - 1) / s + 1] (gradConv2d x w ⟨.one s, .one 0, .one d, 1⟩)
      [x.shape, w.shape] (convJ k s d x.at_ w.at_) := by
  obtain ⟨gh, hgh⟩ : ∃ gh, gh = (h - d * (k - 1) - 1) / s + 1 := ⟨_, rfl⟩
  obtain ⟨gv, hgv⟩ : ∃ gv, gv = (v - d * (k - 1) - 1) / s + 1 := ⟨_, rfl⟩
  have eh : (gh - 1) * s + d * (k - 1) + 1 = h := by
    rw [hgh, Nat.add_sub_cancel, Nat.div_mul_cancel dh]
    omega
  have ev : (gv - 1) * s + d * (k - 1) + 1 = v := by
    rw [hgv, Nat.add_sub_cancel, Nat.div_mul_cancel dv]
    omega
  rw [← hgh, ← hgv]
  have g1 : 0 < gh := hgh ▸ Nat.succ_pos _
  have g2 : 0 < gv := hgv ▸ Nat.succ_pos _
  refine back_two fun y hy => ?_
  obtain ⟨at', a1, a2⟩ := secret_transposed h v o k s d gh gv y w hy hw hs hd hk g1 g2 eh ev
  obtain ⟨r, b1, b2, b3⟩ := gradKernel_ok h v o k s d gh gv x y hx hy hs hd hk ho g1 g2 eh ev
  have pad : ∀ {n g : Nat}, 0 < g → (g - 1) * s + d * (k - 1) + 1 = n → inputPadding g n k s 0 d = .ok 0 := by
    intro n g hg hn
    have e : ((g : Int) - 1) * s - 2 * (0 : Nat) + 1 + d * ((k : Int) - 1) = n := by
      rw [← hn]
      push_cast [Nat.cast_sub (show 1 ≤ g from hg), Nat.cast_sub (show 1 ≤ k from hk)]
      ring
    unfold inputPadding
    rw [e, if_neg (by omega)]
    simp
  refine ⟨⟨[1, 1, h, v], at'⟩, r, ?_, ⟨hx.symm, ?_⟩, by rw [b2, hw], ?_⟩
  · unfold gradConv2d
    rw [hx, hw, hy]
    dsimp only
    rw [pad g1 eh, ok_bind, pad g2 ev, ok_bind]
    change (do
      let xg ← Conv.ConvOp.secret .convTranspose2d (plain s d) y w
      let wg ← gradKernel x y k k s 0 d 1
      return [xg, wg]) = _
    rw [a1, ok_bind, b1]
    rfl
  · intro i hi
    rw [hx] at hi
    have hl := hi.length
    obtain ⟨z, z', u, u', rfl⟩ : ∃ n m i' j, i = [n, m, i', j] := by
      match i, hl with
      | [n, m, i, j], _ => exact ⟨n, m, i, j, rfl⟩
    obtain ⟨hz, hz', -⟩ : z < 1 ∧ z' < 1 ∧ _ := hi
    obtain rfl : z = 0 := by omega
    obtain rfl : z' = 0 := by omega
    change at' [0, 0, u, u'] = _
    rw [a2, sum_cube]
    simp only [Finset.sum_range_one, convJ, if_true, Finset.mul_sum, mul_ite, mul_zero]
  · intro i hi
    rw [hw] at hi
    have hl := hi.length
    obtain ⟨m, z, a, b, rfl⟩ : ∃ n m i' j, i = [n, m, i', j] := by
      match i, hl with
      | [n, m, i, j], _ => exact ⟨n, m, i, j, rfl⟩
    obtain ⟨hm, hz, ha, hb, -⟩ : m < o ∧ z < 1 ∧ a < k ∧ b < k ∧ True := hi
    obtain rfl : z = 0 := by omega
    rw [b3 m a b hm ha hb, sum_cube, Finset.sum_range_one]
    symm
    rw [Finset.sum_eq_single m]
    · refine Finset.sum_congr rfl fun i _ => ?_
      refine Finset.sum_congr rfl fun j _ => ?_
      simp only [convJ, if_true, one_ne_zero, if_false]
      rw [mul_comm, add_comm (i * s), add_comm (j * s)]
    · intro c _ hc
      simp [convJ, hc]
    · intro h
      exact absurd (Finset.mem_range.mpr hm) h

end

end SyMPC.Grad
