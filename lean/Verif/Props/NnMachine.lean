import Verif.Props.Nn
import Verif.Props.AlgoMachine

/-!
# C55 in a two-party session
-/

namespace SyMPC

open Machine

variable {Key : Type}

/-- C55 in a two-party session: `relu` is off by at most two quanta. -/
theorem C55_relu_session {n : Nat} (M : Machine Key) (hM : M.Fair) (x : MX n) (ok : M.Ok x)
    (hx : ∀ i, |(x.value i).toInt| < 2 ^ 30) (w : MState Key) (hw : M.Inv w) :
    reluS M.ops x w = .error (.inr ()) ∨
    ∃ z w', reluS M.ops x w = .ok (z, w') ∧ M.Inv w' ∧ M.Ok z ∧
      ∀ i, |(z.value i).toInt - max (x.value i).toInt 0| ≤ 2 := by
  obtain ⟨d1, d2, d3⟩ := sort_room M.scale hM.pos _ rfl
  have hS : (0 : ℚ) < M.scale := by exact_mod_cast hM.pos
  have := C55_relu (M.sound hM) (by
      change 0 ≤ ((2 : ℚ) ^ 30 - 1) / M.scale
      apply div_nonneg (by norm_num) hS.le) x ok (by
      intro i
      change |M.val x i| ≤ ((2 : ℚ) ^ 30 - 1) / M.scale
      unfold Machine.val
      rw [abs_div, abs_of_pos hS]
      apply div_le_div_of_nonneg_right _ hS.le
      have h : |(x.value i).toInt| ≤ 2 ^ 30 - 1 := by have := hx i; omega
      exact_mod_cast h)
  rcases this w hw with h | ⟨z, w', h1, ⟨h3, h4⟩, h6⟩
  · exact Or.inl h
  · refine Or.inr ⟨z, w', h1, h6, h3, fun i => ?_⟩
    have h5 : |M.val z i - max (M.val x i) 0| ≤ 2 / M.scale := (h4 i).trans d2
    have e : M.val z i - max (M.val x i) 0 = (((z.value i).toInt - max (x.value i).toInt 0 : Int) : ℚ) / M.scale := by
      have : max (M.val x i) 0 = ((max (x.value i).toInt 0 : Int) : ℚ) / M.scale := by
        unfold Machine.val
        rcases le_total (x.value i).toInt 0 with h | h
        · rw [max_eq_right h, max_eq_right]
          · simp
          · apply div_nonpos_of_nonpos_of_nonneg _ hS.le
            exact_mod_cast h
        · rw [max_eq_left h, max_eq_left]
          apply div_nonneg _ hS.le
          exact_mod_cast h
      rw [this]
      unfold Machine.val
      push_cast
      ring
    rw [e, abs_div, abs_of_pos hS, div_le_div_iff_of_pos_right hS] at h5
    exact_mod_cast h5

theorem windowCell_map {G H : Type} (f : G → H) {h w : Nat} (img : Fin h → Fin w → G) (a : PoolArgs) (c : G) (i j u v : Nat) :
    windowCell (fun y z => f (img y z)) a (f c) i j u v = f (windowCell img a c i j u v) := by
  unfold windowCell bordered
  split <;> rfl

/-- C55, `max_pool2d` in a two-party session, in quanta.  The images have no negative numbers and the numbers of a row of a window are
different.  If the largest number of the image in each window exceeds those in the other rows of the window by more than `4 kw`
quanta, then the result is this number, off by at most `2 (kw + kh)` quanta, with any padding.  Comparisons read numbers modulo `2^32`,
hence the bound. -/
theorem C55_pool_session_partial (M : Machine Key) (hM : M.Fair) (kernel : Size) (stride : Option Size)
    (padding dilation : Size) (a : PoolArgs) (ha : poolArgs kernel stride padding dilation = .ok a) (b h w : Nat)
    (hfit : a.kh ≤ h + 2 * a.ph ∧ a.kw ≤ w + 2 * a.pw) (hs : 0 < a.sh ∧ 0 < a.sw)
    (x : MX (b * h * w)) (ok : M.Ok x) (C : Nat) (hC : ∀ i, 0 ≤ (x.value i).toInt ∧ (x.value i).toInt ≤ C) (hC25 : 25 ≤ C)
    (hS : 2 * a.kw ≤ M.scale)
    (hB : (a.kh + 2) * (a.kw + 2) * (C + M.scale) < 2 ^ 30)
    (cell : Fin b → Fin (poolOut h a.kh a.sh a.ph) → Fin (poolOut w a.kw a.sw a.pw) → Fin a.kh → Fin a.kw → Int)
    (hcell : ∀ r i j u v, cell r i j u v = windowCell (fun y z => (x.value (at3 r y z)).toInt) a (-25) i j u v)
    (row : Fin b → Fin (poolOut h a.kh a.sh a.ph) → Fin (poolOut w a.kw a.sw a.pw) → Fin a.kh)
    (column : Fin b → Fin (poolOut h a.kh a.sh a.ph) → Fin (poolOut w a.kw a.sw a.pw) → Fin a.kw)
    (hin : ∀ (r : Fin b) (i : Fin (poolOut h a.kh a.sh a.ph)) (j : Fin (poolOut w a.kw a.sw a.pw)),
      InImage a h w i j (row r i j) (column r i j))
    (hd : ∀ (r : Fin b) (i : Fin (poolOut h a.kh a.sh a.ph)) (j : Fin (poolOut w a.kw a.sw a.pw)) (u : Fin a.kh) (v v' : Fin a.kw),
      InImage a h w i j u v → InImage a h w i j u v' → v ≠ v' → cell r i j u v ≠ cell r i j u v')
    (hcol : ∀ (r : Fin b) (i : Fin (poolOut h a.kh a.sh a.ph)) (j : Fin (poolOut w a.kw a.sw a.pw)) (v : Fin a.kw),
      InImage a h w i j (row r i j) v → cell r i j (row r i j) v ≤ cell r i j (row r i j) (column r i j))
    (hrow : ∀ (r : Fin b) (i : Fin (poolOut h a.kh a.sh a.ph)) (j : Fin (poolOut w a.kw a.sw a.pw)) (u : Fin a.kh) (v : Fin a.kw),
      u ≠ row r i j → InImage a h w i j u v → cell r i j u v + 4 * a.kw < cell r i j (row r i j) (column r i j))
    (s : MState Key) (hw : M.Inv s) :
    maxPool2d M.ops 2 kernel stride padding dilation b h w x s = .error (.inr ()) ∨
    ∃ z s', maxPool2d M.ops 2 kernel stride padding dilation b h w x s = .ok (⟨a, z⟩, s') ∧ M.Inv s' ∧ M.Ok z.1 ∧ M.Ok z.2 ∧
      (∀ r i j, |(z.1.value (at3 r i j)).toInt - cell r i j (row r i j) (column r i j)| ≤ 2 * (a.kw + a.kh)) ∧
      ∀ r i j u v, |(z.2.value (finProdFinEquiv (finProdFinEquiv (at3 r i j, u), v))).toInt
        - if u = row r i j ∧ v = column r i j then M.scale else 0| ≤ 2 := by
  obtain ⟨d1, d2, d3⟩ := sort_room M.scale hM.pos _ rfl
  have hQ : (0 : ℚ) < M.scale := by exact_mod_cast hM.pos
  have hQ1 : (1 : ℚ) ≤ M.scale := by exact_mod_cast hM.pos
  have hSq : (2 : ℚ) * a.kw ≤ M.scale := by exact_mod_cast hS
  have hkw0 : (0 : ℚ) ≤ a.kw := Nat.cast_nonneg _
  have hkh0 : (0 : ℚ) ≤ a.kh := Nat.cast_nonneg _
  have hC0 : (0 : ℚ) ≤ C := Nat.cast_nonneg _
  have hBq : ((a.kh : ℚ) + 2) * (a.kw + 2) * (C + M.scale) ≤ 2 ^ 30 - 1 := by
    have : (a.kh + 2) * (a.kw + 2) * (C + M.scale) ≤ 2 ^ 30 - 1 := by omega
    have h := (Nat.cast_le (α := ℚ)).mpr this
    push_cast at h
    linarith
  have hp1 : (0 : ℚ) ≤ a.kw * C := mul_nonneg hkw0 hC0
  have hp2 : (0 : ℚ) ≤ a.kh * (a.kw * C) := mul_nonneg hkh0 hp1
  have hp3 : (0 : ℚ) ≤ a.kh * C := mul_nonneg hkh0 hC0
  have hp4 : (0 : ℚ) ≤ a.kh * M.scale := mul_nonneg hkh0 hQ.le
  have hp5 : (0 : ℚ) ≤ a.kw * M.scale := mul_nonneg hkw0 hQ.le
  have hp6 : (0 : ℚ) ≤ a.kh * (a.kw * M.scale) := mul_nonneg hkh0 hp5
  have hBe : ((a.kh : ℚ) + 2) * (a.kw + 2) * (C + M.scale) = a.kh * (a.kw * C) + a.kh * (a.kw * M.scale) + 2 * (a.kh * C)
      + 2 * (a.kh * M.scale) + 2 * (a.kw * C) + 2 * (a.kw * M.scale) + 4 * C + 4 * M.scale := by ring
  have hδ : (M.sound hM).δ ≤ 2 / M.scale := d2
  have hkd : (a.kw : ℚ) * (M.sound hM).δ ≤ a.kw * (2 / M.scale) := mul_le_mul_of_nonneg_left hδ hkw0
  have hpad : (M.sound hM).padding = ((-25 : Int) : ℚ) / M.scale := by
    change (-25 : ℚ) / M.scale = _
    norm_num
  -- comparing numbers of quanta
  have hB1 : ∀ t : ℚ, t * M.scale ≤ 2 ^ 30 - 1 → t ≤ (M.sound hM).B := by
    intro t ht
    change t ≤ ((2 : ℚ) ^ 30 - 1) / M.scale
    rw [le_div_iff₀ hQ]
    exact ht
  have hqlt : ∀ y z : Int, (y : ℚ) / M.scale < z / M.scale ↔ y < z := by
    intro y z
    rw [div_lt_div_iff_of_pos_right hQ]
    exact_mod_cast Iff.rfl
  have hqle : ∀ y z : Int, (y : ℚ) / M.scale ≤ z / M.scale ↔ y ≤ z := by
    intro y z
    rw [div_le_div_iff_of_pos_right hQ]
    exact_mod_cast Iff.rfl
  have hCS : (C : ℚ) / M.scale * M.scale = C := div_mul_cancel₀ _ hQ.ne'
  have hk4 : (2 : ℚ) * (a.kw * (M.sound hM).δ) ≤ (4 * a.kw : Int) / M.scale := by
    have : (2 : ℚ) * (a.kw * (2 / M.scale)) = (4 * a.kw : Int) / M.scale := by
      push_cast
      ring
    linarith
  have key := C55_pool_padding_partial (M.sound hM) kernel stride padding dilation a ha b h w hfit hs d1 d3
    (by
      refine hkd.trans ?_
      rw [mul_div_assoc', div_le_one hQ]
      linarith)
    (by
      rw [hpad]
      have : ((-25 : Int) : ℚ) / M.scale + 2 * (2 / M.scale) = -21 / M.scale := by
        push_cast
        ring
      have h2 : (-21 : ℚ) / M.scale < 0 := div_neg_of_neg_of_pos (by norm_num) hQ
      linarith)
    x ok (C / M.scale) (div_nonneg hC0 hQ.le)
    (fun i => by
      change 0 ≤ ((x.value i).toInt : ℚ) / M.scale
      apply div_nonneg _ hQ.le
      exact_mod_cast (hC i).1)
    (fun i => by
      change ((x.value i).toInt : ℚ) / M.scale ≤ ((C : Nat) : ℚ) / M.scale
      rw [div_le_div_iff_of_pos_right hQ]
      exact_mod_cast (hC i).2)
    (by
      rw [hpad, abs_div, abs_of_pos hQ, div_le_div_iff_of_pos_right hQ]
      norm_num
      exact hC25)
    (hB1 _ (by
      have : 2 * (a.kw * (C / M.scale : ℚ) + 1) * M.scale = 2 * (a.kw * C) + 2 * M.scale := by
        rw [← hCS]
        field_simp
      rw [this]
      linarith))
    (hB1 _ (by
      rw [mul_assoc, hCS]
      linarith))
    (hB1 _ (by
      have : a.kh * (a.kw * (C / M.scale : ℚ) + 2) * M.scale = a.kh * (a.kw * C) + 2 * (a.kh * M.scale) := by
        rw [← hCS]
        field_simp
      rw [this]
      linarith))
    (hB1 _ (by
      have : a.kw * ((C / M.scale : ℚ) + 1) * M.scale = a.kw * C + a.kw * M.scale := by
        rw [← hCS]
        field_simp
      rw [this]
      linarith))
    (fun r i j u v => (cell r i j u v : ℚ) / M.scale)
    (by
      intro r i j u v
      rw [hcell, hpad]
      exact (windowCell_map (fun t : Int => (t : ℚ) / M.scale) (fun y z => (x.value (at3 r y z)).toInt) a (-25) i j u v).symm)
    row column hin
    (by
      intro r i j u v v' h1 h2 h3 h4
      apply hd r i j u v v' h1 h2 h3
      rw [div_left_inj' hQ.ne'] at h4
      exact_mod_cast h4)
    (by
      intro r i j v h1
      rw [hqle]
      exact hcol r i j v h1)
    (by
      intro r i j u v h1 h2
      have h3 := hrow r i j u v h1 h2
      have h4 := (hqlt _ _).mpr h3
      refine lt_of_le_of_lt ?_ h4
      push_cast at hk4 ⊢
      rw [add_div]
      linarith)
  rcases key s hw with h | ⟨t, s', h1, ⟨z, rfl, h3, h4, h5, h6⟩, h7⟩
  · exact Or.inl h
  · refine Or.inr ⟨z, s', h1, h7, h3, h4, fun r i j => ?_, fun r i j u v => ?_⟩
    · have e := h5 r i j
      have e2 : |M.val z.1 (at3 r i j) - (cell r i j (row r i j) (column r i j) : ℚ) / M.scale| ≤ (a.kw + a.kh) * (2 / M.scale) :=
        e.trans (mul_le_mul_of_nonneg_left hδ (add_nonneg hkw0 hkh0))
      unfold Machine.val at e2
      rw [← sub_div, abs_div, abs_of_pos hQ, mul_div_assoc', div_le_div_iff_of_pos_right hQ] at e2
      have e3 : |((z.1.value (at3 r i j)).toInt : ℚ) - (cell r i j (row r i j) (column r i j) : ℚ)| ≤ 2 * (a.kw + a.kh) := by linarith
      exact_mod_cast e3
    · have e := (h6 r i j u v).trans hδ
      change |M.val z.2 _ - _| ≤ _ at e
      unfold Machine.val at e
      have e1 : (if u = row r i j ∧ v = column r i j then (1 : ℚ) else 0)
          = ((if u = row r i j ∧ v = column r i j then (M.scale : Int) else 0 : Int) : ℚ) / M.scale := by
        split
        · rw [Int.cast_natCast, div_self hQ.ne']
        · simp
      rw [e1, ← sub_div, abs_div, abs_of_pos hQ, div_le_div_iff_of_pos_right hQ] at e
      exact_mod_cast e

/-! ## Witnesses -/

/-- the outputs of `max_pool2d` in a two-party session, in quanta -/
def exPool (kernel : Size) (stride : Option Size) (padding : Size) (h w : Nat) (v : Fin (1 * h * w) → Int) : Option (List Int × List Int) :=
  ((maxPool2d exMachine.ops 2 kernel stride padding (.one 1) 1 h w (exVector v)) start).toOption.map fun r =>
    ((List.finRange _).map fun q => (r.1.2.1.value q).toInt, (List.finRange _).map fun q => (r.1.2.2.value q).toInt)

/-- C55 is false with ties: the maximum of the window `[[5, 5], [1, 2]]` is returned as 10. -/
theorem C55_pool_ties_wrong : (exPool (.one 2) none (.one 0) 2 2 ![5 * 65536, 5 * 65536, 65536, 2 * 65536]).map (·.1)
    = some [10 * 65536] := by decide +kernel

/-- C55 is false for padded images with negative numbers: the maximum of the window around the image `[[-3]]` is returned as -50 quanta. -/
theorem C55_pool_padding_wrong : (exPool (.one 3) none (.one 1) 1 1 ![-3 * 65536]).map (·.1) = some [-50] := by decide +kernel

/-- C55 is false for paddings of more than half of the kernel, which are accepted: the first of the nine windows does not meet the
image. -/
theorem C55_pool_wide_padding_wrong :
    (exPool (.one 1) none (.one 1) 1 1 ![7 * 65536]).map (·.1) = some [-25, -25, -25, -25, 7 * 65536, -25, -25, -25, -25] := by
  decide +kernel

/-- C55: pooling of an image with a border, in steps of two: `[[1, 2, 3], [4, 5, 6], [7, 8, 9]]` -/
example : (exPool (.one 2) none (.one 1) 3 3 ![65536, 2 * 65536, 3 * 65536, 4 * 65536, 5 * 65536, 6 * 65536, 7 * 65536, 8 * 65536, 9 * 65536]).map
    (·.1) = some [65536, 3 * 65536, 7 * 65536, 9 * 65536] := by decide +kernel

/-- C55: maximum and indices of one window -/
example : exPool (.one 2) none (.one 0) 2 2 ![65536, 3 * 65536, 4 * 65536, 2 * 65536] = some ([4 * 65536], [0, 0, 65536, 0]) := by
  decide +kernel

/-- C55: `relu` of `[5, -3, 0]` -/
example : ((reluS exMachine.ops (exVector ![5 * 65536, -3 * 65536, 0]) start).toOption.map fun r =>
    (List.finRange 3).map fun q => (r.1.value q).toInt) = some [5 * 65536, 0, 0] := by decide +kernel

/-- the hypotheses of `C55_pool_session_partial` for the image `[[1, 3], [4, 2]]` with a border of one, in windows of two by two -/
example : poolArgs (.one 2) none (.one 1) (.one 1) = .ok ⟨2, 2, 2, 2, 1, 1⟩ ∧
    (∀ i, 0 ≤ ((exVector (n := 1 * 2 * 2) ![65536, 3 * 65536, 4 * 65536, 2 * 65536]).value i).toInt ∧
      ((exVector (n := 1 * 2 * 2) ![65536, 3 * 65536, 4 * 65536, 2 * 65536]).value i).toInt ≤ (4 * 65536 : Nat)) ∧
    (2 + 2) * (2 + 2) * (4 * 65536 + exMachine.scale) < 2 ^ 30 ∧ 2 * 2 ≤ exMachine.scale ∧
    ∃ (row : Fin 1 → Fin 2 → Fin 2 → Fin 2) (column : Fin 1 → Fin 2 → Fin 2 → Fin 2),
      (∀ (r : Fin 1) (i j : Fin 2), InImage ⟨2, 2, 2, 2, 1, 1⟩ 2 2 i j (row r i j) (column r i j)) ∧
      ∀ (r : Fin 1) (i j u v : Fin 2), u ≠ row r i j → ¬ InImage ⟨2, 2, 2, 2, 1, 1⟩ 2 2 i j u v := by
  refine ⟨by decide, by decide +kernel, by decide +kernel, by decide +kernel, fun _ i _ => i.rev, fun _ _ j => j.rev, by decide, by decide⟩

end SyMPC
