import Verif.Props.Machine
import Verif.Props.Argmax

/-!
# The algorithms in a two-party session
-/

namespace SyMPC

open Machine

variable {Key : Type}

/-- the largest number of an approximate sort of `N` numbers up to `C0`: an exchange may add `ε` -/
theorem sort_room (S : Nat) (hS : 0 < S) (δ : ℚ) (hδ : δ = 2 * (S - 1) / S / S) : 0 ≤ δ ∧ δ ≤ 2 / S ∧ δ ≤ 1 := by
  have hQ : (1 : ℚ) ≤ S := by exact_mod_cast hS
  have h0 : (0 : ℚ) < S := by linarith
  refine ⟨?_, ?_, ?_⟩
  · rw [hδ]
    apply div_nonneg (div_nonneg (by linarith) h0.le) h0.le
  · rw [hδ, div_div, div_le_div_iff₀ (mul_pos h0 h0) h0]
    nlinarith
  · rw [hδ, div_div, div_le_one (mul_pos h0 h0)]
    nlinarith [sq_nonneg ((S : ℚ) - 1)]

/-- C40 in a two-party session with Beaver triples and function secret sharing: from stores as they are after any number of
operations, sorting a list of secrets raises no exception.  Unless one of the two recorded events happens (a share addition
that leaves the ring, an output `-2^31` of a key), the values of the result are those given, permuted and off by at most `ε` per
exchange, and in order up to `ε` per exchange. -/
theorem C40_sort_session (M : Machine Key) (hM : M.Fair) (l : List (MX 1)) (ok : ∀ x ∈ l, M.Ok x) (shapeOk : List Bool)
    (hsh : ∀ b ∈ shapeOk, b = true) (ascending : Bool) (C0 C ε T : ℚ) (h0 : ∀ x ∈ l, |M.val x 0| ≤ C0)
    (hε : ε = (C + 2) * (2 * (M.scale - 1) / M.scale / M.scale)) (hT : T = (l.length * (l.length - 1) / 2 : Nat)) (hC0 : 0 ≤ C)
    (hC : C0 + T * ε ≤ C) (hB : 6 * (C + 1) ≤ (2 ^ 30 - 1) / M.scale) (w : MState Key) (hw : M.Inv w) :
    sort M.ops l shapeOk ascending w = .error (.inr ()) ∨
    ∃ res mutated w', sort M.ops l shapeOk ascending w = .ok ((res, mutated), w') ∧ M.Inv w' ∧
      res = (if ascending then mutated else mutated.reverse) ∧ (∀ x ∈ mutated, M.Ok x) ∧
      ∃ zs, zs.Perm (l.map fun x => M.val x 0) ∧
        List.Forall₂ (fun y z => |y - z| ≤ T * ε) (mutated.map fun x => M.val x 0) zs ∧
        (mutated.map fun x => M.val x 0).Pairwise fun a b => a ≤ b + (T + 1) * ε := by
  obtain ⟨d1, d2, d3⟩ := sort_room M.scale hM.pos _ rfl
  have := C40_sort (M.sound hM) d1 d3 l ok shapeOk hsh ascending C0 C ε T h0
    (by rw [hε]; unfold swapError; change _ = C * (2 * (M.scale - 1) / M.scale / M.scale) + 2 * (2 * (M.scale - 1) / M.scale / M.scale); ring) hT hC0 hC hB
  rcases this w hw with h | ⟨⟨res, mut'⟩, w', h1, ⟨-, h3, h4, h5⟩, h6⟩
  · exact Or.inl h
  · exact Or.inr ⟨res, mut', w', h1, h6, h3, h4, h5⟩

/-- C40 in a two-party session that computes with integers (precision 0): sorting is exact for up to 27 bits. -/
theorem C40_sort_integers (M : Machine Key) (hM : M.Fair) (hp : M.session.config.encoderPrecision = 0) (l : List (MX 1))
    (ok : ∀ x ∈ l, M.Ok x) (shapeOk : List Bool) (hsh : ∀ b ∈ shapeOk, b = true) (ascending : Bool)
    (h0 : ∀ x ∈ l, |(x.value 0).toInt| ≤ 2 ^ 27) (w : MState Key) (hw : M.Inv w) :
    sort M.ops l shapeOk ascending w = .error (.inr ()) ∨
    ∃ res mutated w', sort M.ops l shapeOk ascending w = .ok ((res, mutated), w') ∧ M.Inv w' ∧
      (res.map fun x => (x.value 0).toInt).Perm (l.map fun x => (x.value 0).toInt) ∧
      (res.map fun x => (x.value 0).toInt).Pairwise (if ascending then (· ≤ ·) else (· ≥ ·)) := by
  have hS : M.scale = 1 := by unfold Machine.scale; rw [hp, pow_zero]
  have hval : ∀ x : MX 1, M.val x 0 = ((x.value 0).toInt : ℚ) := by
    intro x
    unfold Machine.val
    rw [hS]
    simp
  have hδ : (M.sound hM).δ = 0 := by
    change 2 * ((M.scale : ℚ) - 1) / M.scale / M.scale = 0
    rw [hS]
    norm_num
  have hB : (M.sound hM).B = 2 ^ 30 - 1 := by
    change ((2 : ℚ) ^ 30 - 1) / M.scale = _
    rw [hS]
    norm_num
  have := C40_sort_exact (M.sound hM) hδ l ok shapeOk hsh ascending (2 ^ 27) (by norm_num) (by
    intro x hx
    change |M.val x 0| ≤ _
    rw [hval]
    have := h0 x hx
    exact_mod_cast this) (by rw [hB]; norm_num)
  rcases this w hw with h | ⟨⟨res, mut'⟩, w', h1, ⟨h3, h4, -⟩, h6⟩
  · exact Or.inl h
  · have e : ∀ l : List (MX 1), (l.map fun x => M.val x 0) = (l.map fun x => (x.value 0).toInt).map (fun z : Int => (z : ℚ)) := by
      intro l
      simp [hval, Function.comp_def]
    refine Or.inr ⟨res, mut', w', h1, h6, ?_, ?_⟩
    · have h3' : (res.map fun x => M.val x 0).Perm (l.map fun x => M.val x 0) := h3
      rw [e, e] at h3'
      simpa [Function.comp_def] using h3'.map Rat.num
    · have h4' : (res.map fun x => M.val x 0).Pairwise (if ascending then (· ≤ ·) else (· ≥ ·)) := h4
      rw [e, List.pairwise_map] at h4'
      refine h4'.imp ?_
      intro a b hab
      cases ascending
      · simpa using hab
      · simpa using hab

/-- C41 in a two-party session: the index of a unique maximum, off by at most `2 / scale` per element. -/
theorem C41_argmax_session_partial {n : Nat} (M : Machine Key) (hM : M.Fair) (x : MX n) (ok : M.Ok x)
    (hx : ∀ i, |M.val x i| ≤ (2 ^ 30 - 1) / M.scale / 2) (h2 : (2 : ℚ) ≤ (2 ^ 30 - 1) / M.scale)
    (hl : (n : ℚ) * (n + 1) ≤ (2 ^ 30 - 1) / M.scale) (hn : (n : ℚ) * (2 / M.scale) < 1)
    (t : Fin n) (ht : ∀ j, j ≠ t → (x.value j).toInt < (x.value t).toInt) (w : MState Key) (hw : M.Inv w) :
    argmaxAll M.ops n x w = .error (.inr ()) ∨
    ∃ z w', argmaxAll M.ops n x w = .ok (z, w') ∧ M.Inv w' ∧ M.Ok z ∧ |M.val z 0 - (t.val : ℚ)| ≤ n * (2 / M.scale) := by
  obtain ⟨d1, d2, d3⟩ := sort_room M.scale hM.pos _ rfl
  have hS : (0 : ℚ) < M.scale := by exact_mod_cast hM.pos
  have hnd : (n : ℚ) * (M.sound hM).δ ≤ n * (2 / M.scale) := mul_le_mul_of_nonneg_left d2 (Nat.cast_nonneg _)
  have := C41_argmax_partial (M.sound hM) (lt_of_le_of_lt hnd hn) x ok _ hx (by
      change 2 * ((2 ^ 30 - 1) / (M.scale : ℚ) / 2) ≤ (2 ^ 30 - 1) / (M.scale : ℚ)
      linarith) h2 hl t (by
      intro j hj
      change M.val x j < M.val x t
      unfold Machine.val
      exact div_lt_div_of_pos_right (by exact_mod_cast ht j hj) hS)
  rcases this w hw with h | ⟨z, w', h1, ⟨h3, h4⟩, h6⟩
  · exact Or.inl h
  · exact Or.inr ⟨z, w', h1, h6, h3, le_trans h4 hnd⟩

/-- C41 in a two-party session that computes with integers: `x.argmax(dim)` and `x.max(dim)` are exact for fibres with unique
maxima and up to about a thousand elements. -/
theorem C41_max_integers_partial {n : Nat} (M : Machine Key) (hM : M.Fair) (hp : M.session.config.encoderPrecision = 0)
    (L : Layout n) (hL : L.len ≤ 2 ^ 14) (x : MX n) (ok : M.Ok x)
    (hx : ∀ i, |(x.value i).toInt| < 2 ^ 15) (top : Fin L.rows → Fin L.len)
    (htop : ∀ r j, j ≠ top r → (x.value (L.pos r j)).toInt < (x.value (L.pos r (top r))).toInt) (w : MState Key) (hw : M.Inv w) :
    maxDim M.ops L x w = .error (.inr ()) ∨
    ∃ z w', maxDim M.ops L x w = .ok (z, w') ∧ M.Inv w' ∧ M.Ok z.1 ∧ M.Ok z.2 ∧
      (∀ r, z.1.value r = x.value (L.pos r (top r))) ∧ ∀ r, (z.2.value r).toInt = (top r).val := by
  have hS : M.scale = 1 := by unfold Machine.scale; rw [hp, pow_zero]
  have hval : ∀ {k : Nat} (x : MX k) i, M.val x i = ((x.value i).toInt : ℚ) := by
    intro k x i
    unfold Machine.val
    rw [hS]
    simp
  have hδ : (M.sound hM).δ = 0 := by
    change 2 * ((M.scale : ℚ) - 1) / M.scale / M.scale = 0
    rw [hS]
    norm_num
  have hB : (M.sound hM).B = 2 ^ 30 - 1 := by
    change ((2 : ℚ) ^ 30 - 1) / M.scale = _
    rw [hS]
    norm_num
  have hLq : (L.len : ℚ) ≤ 2 ^ 14 := by exact_mod_cast hL
  have hL0 : (0 : ℚ) ≤ L.len := Nat.cast_nonneg _
  have := C41_max_dim_partial (M.sound hM) (by rw [hδ]; norm_num) L x ok (2 ^ 15 - 1) (by norm_num) (by
      intro i
      change |M.val x i| ≤ _
      rw [hval]
      have : |(x.value i).toInt| ≤ 2 ^ 15 - 1 := by have := hx i; omega
      exact_mod_cast this) (by rw [hB]; norm_num) (by rw [hB]; norm_num)
      (by rw [hB]; nlinarith) (by rw [hB]; linarith) top (by
      intro r j hj
      change M.val x _ < M.val x _
      rw [hval, hval]
      exact_mod_cast htop r j hj)
  rcases this w hw with h | ⟨z, w', h1, ⟨h3, h4, h5, h6⟩, h7⟩
  · exact Or.inl h
  · refine Or.inr ⟨z, w', h1, h7, h3, h4, fun r => ?_, fun r => ?_⟩
    · have := h5 r
      rw [hδ, mul_zero, abs_nonpos_iff, sub_eq_zero] at this
      change M.val _ _ = M.val _ _ at this
      rw [hval, hval] at this
      exact BitVec.eq_of_toInt_eq (by exact_mod_cast this)
    · have := h6 r
      rw [hδ, mul_zero, abs_nonpos_iff, sub_eq_zero] at this
      change M.val _ _ = _ at this
      rw [hval] at this
      exact_mod_cast this

/-! ## Examples -/

/-- a two-party session with the default encoder, in which all triples and keys are drawn alike -/
def exMachine : Machine (BitVec 32 × BitVec 32) where
  env := exPairEnv
  session := exPair
  sycret := exSycret (fun m α => decide (SignedLe m α)) 77777
  triples := fun _ i => ⟨fun j => BitVec.ofNat 64 (i * 1000 + j), fun j => BitVec.ofInt 64 (-5 * j + 3), fun _ _ => 12345, fun _ _ => 54321,
    fun _ _ => 99999⟩
  keygen := fun r n => (List.range n).map fun i => exKey (BitVec.ofNat 32 (r + 100)) (BitVec.ofNat 32 (i + 200))
  draw := fun r i => BitVec.ofNat 64 (r + 31 * i)

theorem exMachine_fair : exMachine.Fair where
  pair := exPairPair
  base := by decide
  small := by decide
  one := quantum_base2 _ rfl (by decide)
  keys := by
    intro r n
    refine ⟨by simp [exMachine], ?_⟩
    intro k hk
    simp only [exMachine, List.mem_map] at hk
    obtain ⟨i, _, rfl⟩ := hk
    exact exKey_comp SignedLe _ _ _

/-- three secrets of the session: 2.5, -1.25 and 1 -/
def exNumbers : List (MX 1) :=
  [exPairSecret (fun _ => 2 * 65536 + 32768 + 777) (fun _ => BitVec.ofInt 64 (-777)),
   exPairSecret (fun _ => BitVec.ofInt 64 (-65536 - 16384 - 8888)) (fun _ => 8888),
   exPairSecret (fun _ => 65536 - 100) (fun _ => 100)]

theorem exNumbers_ok : ∀ x ∈ exNumbers, exMachine.Ok x := by
  intro x hx
  simp only [exNumbers, List.mem_cons, List.not_mem_nil, or_false] at hx
  rcases hx with rfl | rfl | rfl <;> exact ⟨exPairSecret_wf _ _, rfl⟩

/-- C40: the three numbers in ascending order, in quanta; the first one is off by two. -/
example : ((sort exMachine.ops exNumbers [true, true, true] true start).toOption.map fun r =>
      r.1.1.map fun x => (x.value 0).toInt) = some [-65536 - 16384 + 2, 65536, 2 * 65536 + 32768] := by decide +kernel

/-- the hypotheses of `C40_sort_session` for the three numbers -/
example : (∀ x ∈ exNumbers, |exMachine.val x 0| ≤ 3) ∧ ∃ C ε T : ℚ, ε = (C + 2) * (2 * (exMachine.scale - 1) / exMachine.scale / exMachine.scale) ∧
    T = (exNumbers.length * (exNumbers.length - 1) / 2 : Nat) ∧ 0 ≤ C ∧ 3 + T * ε ≤ C ∧
    6 * (C + 1) ≤ (2 ^ 30 - 1) / exMachine.scale := by
  have hS : exMachine.scale = 65536 := by decide
  refine ⟨?_, 4, _, 3, rfl, ?_, ?_, ?_, ?_⟩
  · intro x hx
    unfold Machine.val
    rw [hS]
    simp only [exNumbers, List.mem_cons, List.not_mem_nil, or_false] at hx
    have key : ∀ z : Int, |z| ≤ 3 * 65536 → |(z : ℚ) / (65536 : Nat)| ≤ 3 := by
      intro z hz
      have : |(z : ℚ)| ≤ 3 * 65536 := by exact_mod_cast hz
      push_cast
      rw [abs_div, abs_of_pos (by norm_num : (0 : ℚ) < 65536), div_le_iff₀ (by norm_num)]
      exact this
    rcases hx with rfl | rfl | rfl
    all_goals
      apply key
      decide +kernel
  all_goals
    try rw [hS]
    norm_num [exNumbers]

/-- a vector of secrets with the given values, in quanta -/
def exVector {n : Nat} (v : Fin n → Int) : MX n := exPairSecret (fun i => BitVec.ofInt 64 (v i - 4321)) (fun _ => 4321)

/-- C41 is false with ties: the index that `argmax` returns for `[5, 5, 5, 1]` is 3, where the value is 1; no exception is
raised. -/
theorem C41_ties_wrong :
    ((argmaxAll exMachine.ops 4 (exVector ![5 * 65536, 5 * 65536, 5 * 65536, 65536]) start).toOption.map fun r =>
      (r.1.value 0).toInt) = some (3 * 65536) := by decide +kernel

/-- C41 is false with ties: the maximum of `[5, 5]` is 10. -/
theorem C41_max_ties_wrong :
    ((maxAll exMachine.ops (exVector ![5 * 65536, 5 * 65536]) start).toOption.map fun r => (r.1.value 0).toInt)
      = some (10 * 65536) := by decide +kernel

/-- C41 is false for tensors of more than one dimension without `dim`: for the shape `(3, 1)` and the values `[5, 3, 1]`
`argmax` returns 1. -/
theorem C41_shape_wrong :
    ((argmaxAll exMachine.ops 1 (exVector ![5 * 65536, 3 * 65536, 65536]) start).toOption.map fun r => (r.1.value 0).toInt)
      = some 65536 := by decide +kernel

/-- C41: `argmax` and `max` of `[5, 3, 7]`. -/
example : ((argmaxAll exMachine.ops 3 (exVector ![5 * 65536, 3 * 65536, 7 * 65536]) start).toOption.map fun r => (r.1.value 0).toInt)
      = some (2 * 65536) ∧
    ((maxAll exMachine.ops (exVector ![5 * 65536, 3 * 65536, 7 * 65536]) start).toOption.map fun r => (r.1.value 0).toInt)
      = some (7 * 65536) := by decide +kernel

/-- C41: columns of a 2 x 2 matrix `[[5, 3], [2, 7]]`. -/
example : ((maxDim exMachine.ops (Layout.middle 1 2 2) (exVector (n := 1 * 2 * 2) ![5 * 65536, 3 * 65536, 2 * 65536, 7 * 65536]) start).toOption.map fun r =>
      ((r.1.1.value (0 : Fin 2)).toInt, (r.1.1.value (1 : Fin 2)).toInt, (r.1.2.value (0 : Fin 2)).toInt, (r.1.2.value (1 : Fin 2)).toInt))
      = some (5 * 65536, 7 * 65536, 0, 65536) := by decide +kernel

/-- the hypotheses of `C41_argmax_session_partial` for `[5, 3, 7]` -/
example : (∀ i, |exMachine.val (exVector ![5 * 65536, 3 * 65536, 7 * 65536]) i| ≤ (2 ^ 30 - 1) / exMachine.scale / 2) ∧
    (2 : ℚ) ≤ (2 ^ 30 - 1) / exMachine.scale ∧ ((3 : ℕ) : ℚ) * ((3 : ℕ) + 1) ≤ (2 ^ 30 - 1) / exMachine.scale ∧
    ((3 : ℕ) : ℚ) * (2 / exMachine.scale) < 1 ∧
    ∀ j, j ≠ (2 : Fin 3) → ((exVector ![5 * 65536, 3 * 65536, 7 * 65536]).value j).toInt
      < ((exVector ![5 * 65536, 3 * 65536, 7 * 65536]).value 2).toInt := by
  have hS : exMachine.scale = 65536 := by decide
  refine ⟨?_, ?_, ?_, ?_, by decide +kernel⟩
  · have : ∀ i, |((exVector ![5 * 65536, 3 * 65536, 7 * 65536]).value i).toInt| ≤ 7 * 65536 := by decide +kernel
    intro i
    have h : |(((exVector ![5 * 65536, 3 * 65536, 7 * 65536]).value i).toInt : ℚ)| ≤ 7 * 65536 := by exact_mod_cast this i
    unfold Machine.val
    rw [hS, abs_div, Nat.cast_ofNat, abs_of_pos (by norm_num : (0 : ℚ) < 65536), div_le_iff₀ (by norm_num)]
    refine h.trans (by norm_num)
  all_goals
    rw [hS]
    norm_num

end SyMPC
