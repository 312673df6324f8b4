import Verif.Spec.Operators
import Mathlib.Tactic.Linarith
import Mathlib.Tactic.NormNum
import Mathlib.Tactic.FieldSimp
import Mathlib.Tactic.Ring

/-!
# C84: names and Python operators of secret tensors
-/

namespace SyMPC.Operators

variable {n : Nat}

/-! ## names -/

/-- Recording changes the meaning of exactly the names that have a gradient function. -/
theorem C84_names (name : String) : getattribute true name ≠ getattribute false name ↔ name ∈ gradFuncs := by
  by_cases h : name ∈ gradFuncs
  · simp only [getattribute, h, true_and, if_true, iff_true]
    simp only [Bool.false_eq_true, if_false]
    split_ifs <;> simp
  · simp [getattribute, h]

example : "mul" ∈ gradFuncs ∧ "rsub" ∉ gradFuncs := by decide +kernel

/-- The methods `relu` and `max_pool2d` exist only while gradients are recorded; no other name comes and goes. -/
theorem C84_names_only_recorded (name : String) :
    (getattribute true name = .ok (.recorded name) ∧ getattribute false name = .error .attributeError) ↔
      name = "relu" ∨ name = "max_pool2d" := by
  constructor
  · rintro ⟨h1, h2⟩
    have hm : name ∈ gradFuncs := by
      by_contra hn
      simp only [getattribute, hn, false_and, if_false] at h1
      split_ifs at h1 <;> simp at h1
    simp only [gradFuncs, List.mem_cons, List.not_mem_nil, or_false] at hm
    rcases hm with rfl | rfl | rfl | rfl | rfl | rfl | rfl | rfl | rfl | rfl | rfl | rfl | rfl | rfl <;>
      first | (left; rfl) | (right; rfl) | (exfalso; revert h2; decide +kernel)
  · rintro (rfl | rfl) <;> exact ⟨by decide +kernel, by decide +kernel⟩

/-- Where gradients are not recorded, the function behind an operator is the function of the class; where they are recorded, it is
the gradient function if there is one. -/
theorem C84_names_of_operators (m : Method) :
    getattribute false m.name = .ok (.own m.name) ∧
    getattribute true m.name = .ok (if m ∈ [Method.add, .sub, .mul, .matmul, .truediv, .pow] then .recorded m.name else .own m.name) := by
  cases m <;> exact ⟨by decide +kernel, by decide +kernel⟩

/-! ## methods -/

theorem wrapper_off (C : Ctx n) (h : C.active = false) (m : Method) (x : Mat n) (rx : Bool) (y : Val n) :
    wrapper C m x rx y = body C m x rx y := by
  simp only [wrapper, h, (C84_names_of_operators m).1]
  rfl

theorem wrapper_on (C : Ctx n) (h : C.active = true) (m : Method) (x : Mat n) (rx : Bool) (y : Val n) :
    wrapper C m x rx y = if m ∈ [Method.add, .sub, .mul, .matmul, .truediv, .pow] then forward C m x rx y else body C m x rx y := by
  simp only [wrapper, h, (C84_names_of_operators m).2]
  split_ifs <;> rfl

theorem powLoop_nat (k : Nat) (result : Option (Mat n)) (base : Mat n) :
    powLoop (k : ℚ) result base =
      if k = 0 then result else some fun i j => (match result with | none => 1 | some r => r i j) * base i j ^ k := by
  induction k using Nat.strong_induction_on generalizing result base with
  | _ k ih =>
    rw [powLoop.eq_def]
    by_cases hk : k = 0
    · simp [hk]
    · have hpos : (k : ℚ) > 0 := by exact_mod_cast Nat.pos_of_ne_zero hk
      have hfl : ⌊(k : ℚ) / 2⌋ = ((k / 2 : Nat) : Int) := by
        have := Rat.floor_intCast_div_natCast (k : ℤ) 2
        push_cast at this ⊢
        exact this
      rw [dif_pos hpos, if_neg hk, hfl]
      have hc : (((k / 2 : Nat) : Int) : ℚ) = ((k / 2 : Nat) : ℚ) := by norm_cast
      rw [hc, ih (k / 2) (Nat.div_lt_self (Nat.pos_of_ne_zero hk) (by norm_num))]
      have hmod : ((k : ℚ) - 2 * ((k / 2 : Nat) : ℚ) = 1) ↔ k % 2 = 1 := by
        have hq : (k : ℚ) = 2 * ((k / 2 : Nat) : ℚ) + ((k % 2 : Nat) : ℚ) := by exact_mod_cast (Nat.div_add_mod k 2).symm
        rw [hq]
        constructor
        · intro h
          have h' : ((k % 2 : Nat) : ℚ) = 1 := by linarith
          exact_mod_cast h'
        · intro h; rw [h]; push_cast; ring
      by_cases hodd : k % 2 = 1
      · simp only [hmod.2 hodd, if_true]
        by_cases h0 : k / 2 = 0
        · have : k = 1 := by omega
          subst this
          rw [if_pos h0]
          cases result <;> simp
        · rw [if_neg h0]
          congr 1
          funext i j
          have hk2 : base i j ^ k = base i j * (base i j * base i j) ^ (k / 2) := by
            conv_lhs => rw [← Nat.div_add_mod k 2, hodd, pow_add, pow_mul]
            ring
          rw [hk2]
          cases result <;> (simp; try ring)
      · have hne : ¬ ((k : ℚ) - 2 * ((k / 2 : Nat) : ℚ) = 1) := fun h => hodd (hmod.1 h)
        simp only [hne, if_false]
        have h0 : k / 2 ≠ 0 := by omega
        rw [if_neg h0]
        congr 1
        funext i j
        have hk2 : base i j ^ k = (base i j * base i j) ^ (k / 2) := by
          conv_lhs => rw [← Nat.div_add_mod k 2, show k % 2 = 0 by omega, Nat.add_zero, pow_mul]
          ring
        rw [hk2]

theorem powLoop_fraction (q : ℚ) (h0 : 0 ≤ q) (hq : ∀ k : Int, q ≠ k) (base : Mat n) :
    powLoop q none base = if ⌊q / 2⌋₊ = 0 then none else some fun i j => base i j ^ (2 * ⌊q / 2⌋₊) := by
  have hpos : q > 0 := lt_of_le_of_ne h0 fun h => hq 0 (by simpa using h.symm)
  rw [powLoop.eq_def, dif_pos hpos]
  have hne : ¬ (q - 2 * (⌊q / 2⌋ : ℚ) = 1) := fun h => hq (2 * ⌊q / 2⌋ + 1) (by push_cast; linarith)
  simp only [hne, if_false]
  have hfl : ((⌊q / 2⌋ : Int) : ℚ) = ((⌊q / 2⌋₊ : Nat) : ℚ) := by
    have hz : 0 ≤ ⌊q / 2⌋ := Int.floor_nonneg.2 (by linarith)
    have : ((⌊q / 2⌋₊ : Nat) : Int) = ⌊q / 2⌋ := Int.natCast_floor_eq_floor (by linarith)
    rw [← this]; norm_cast
  rw [hfl, powLoop_nat]
  split_ifs with h
  · rfl
  · congr 1; funext i j; rw [pow_mul]; ring

/-! ## operators -/

/-- what the functions ask of their argument, for the operators of expressions -/
def ArgFine (C : Ctx n) (m : Method) (x : Mat n) (y : Val n) : Prop :=
  match m with
  | .add | .sub | .rsub | .isub | .mul | .matmul | .rmatmul => True
  | .rtruediv => ∀ i j, C.recip (x i j) = (x i j)⁻¹
  | .truediv => (y.isSecret = true ∧ C.parties ≤ 2 ∧ ∀ i j, C.recip (y.mat i j) = (y.mat i j)⁻¹)
      ∨ (∃ k : Int, k ≠ 0 ∧ y = .int k) ∨ ∃ m : Fin n → Fin n → Int, (∀ i j, m i j ≠ 0) ∧ y = .long m
  | .pow => ∃ k : Int, 1 ≤ k ∧ y = .int k
  | .le | .ge | .eq | .ne => C.compares = true
  | .lt | .gt => C.compares = true ∧ 0 < C.unit ∧ Mat.OnGrid C.unit x ∧ Mat.OnGrid C.unit y.mat
  | .xor => False

/-- the operator and the order of the operands that a function stands for -/
def Method.value (m : Method) (x y : Mat n) : Mat n :=
  match m with
  | .add => BinOp.value .add x y
  | .sub | .isub => BinOp.value .sub x y
  | .rsub => BinOp.value .sub y x
  | .mul => BinOp.value .mul x y
  | .matmul => BinOp.value .matmul x y
  | .rmatmul => BinOp.value .matmul y x
  | .truediv => BinOp.value .truediv x y
  | .rtruediv => BinOp.value .truediv y x
  | .pow => BinOp.value .pow x y
  | .le => BinOp.value .le x y
  | .ge => BinOp.value .ge x y
  | .lt => BinOp.value .lt x y
  | .gt => BinOp.value .gt x y
  | .eq => BinOp.value .eq x y
  | .ne => BinOp.value .ne x y
  | .xor => 0

theorem grid_lt {u a b : ℚ} (hu : 0 < u) (ha : ∃ k : Int, a = k * u) (hb : ∃ k : Int, b = k * u) : a + u ≤ b ↔ a < b := by
  obtain ⟨k, rfl⟩ := ha
  obtain ⟨l, rfl⟩ := hb
  constructor
  · intro h; linarith
  · intro h
    have hkl : (k : ℚ) < l := lt_of_mul_lt_mul_right h hu.le
    have hkl' : k + 1 ≤ l := by exact_mod_cast hkl
    have : ((k : ℚ) + 1) ≤ l := by exact_mod_cast hkl'
    nlinarith

/-- the `requires_grad` of a function that is executed as written -/
def Method.bodyRequires (C : Ctx n) (m : Method) (rx : Bool) (y : Val n) : Bool :=
  match m with
  | .isub => rx
  | .rtruediv => C.active && (rx || y.requires)
  | .truediv => C.active && (y.isSecret && (rx || y.requires))
  | _ => false

theorem body_fine (C : Ctx n) (m : Method) (x : Mat n) (rx : Bool) (y : Val n) (h : ArgFine C m x y) :
    body C m x rx y = .ok (.secret (m.value x y.mat) (m.bodyRequires C rx y)) := by
  cases m with
  | add | sub | isub | mul | matmul | rmatmul => rfl
  | rsub =>
    simp only [body, star, Method.value, BinOp.value, Method.bodyRequires, Val.mat, Val.requires]
    congr 2
    · funext i j; push_cast; ring
    · simp
  | rtruediv =>
    simp only [body, star, reciprocal, Method.value, BinOp.value, Method.bodyRequires]
    congr 2
    · funext i j; rw [h i j]; ring
    · cases C.active <;> simp
  | truediv =>
    rcases h with ⟨hs, hp, hr⟩ | ⟨k, hk, rfl⟩ | ⟨l, hl, rfl⟩
    · cases y with
      | secret w rw =>
        simp only [body, star, reciprocal, Method.value, BinOp.value, Method.bodyRequires, Val.mat, Val.requires, Val.isSecret]
        rw [if_neg (by omega)]
        congr 2
        · funext i j; rw [show C.recip (w i j) = (w i j)⁻¹ from hr i j]; rfl
        · cases C.active <;> simp
      | _ => simp [Val.isSecret] at hs
    · simp only [body, if_neg hk, Method.value, BinOp.value, Method.bodyRequires, Val.mat, Val.requires, Val.isSecret]
      simp
    · have hn : ¬ ∃ i j, l i j = 0 := fun ⟨i, j, e⟩ => hl i j e
      simp only [body, if_neg hn, Method.value, BinOp.value, Method.bodyRequires, Val.mat, Val.requires, Val.isSecret]
      simp
  | pow =>
    obtain ⟨k, hk, rfl⟩ := h
    obtain ⟨l, rfl⟩ := Int.eq_ofNat_of_zero_le (show 0 ≤ k by omega)
    have hl : l ≠ 0 := by omega
    simp only [body, Method.value, BinOp.value, Method.bodyRequires, Val.mat]
    rw [if_neg (by omega)]
    have := powLoop_nat l none x
    rw [if_neg hl] at this
    simp only [Int.cast_natCast]
    rw [this]
    simp [powResult]
  | le => simp only [body, if_pos (show C.compares = true from h)]; rfl
  | ge => simp only [body, if_pos (show C.compares = true from h)]; rfl
  | eq => simp only [body, if_pos (show C.compares = true from h)]; rfl
  | ne =>
    have hm : (Val.int (-1) : Val n).mat = fun _ _ => ((-1 : Int) : ℚ) := rfl
    simp only [body, if_pos (show C.compares = true from h), star, Method.value, BinOp.value, Method.bodyRequires, hm, Val.requires]
    congr 2
    · funext i j
      by_cases e : x i j = y.mat i j <;> simp [e]
    · simp
  | lt =>
    obtain ⟨h1, h2, h3, h4⟩ := h
    simp only [body, if_pos h1, Method.value, BinOp.value, Method.bodyRequires]
    congr 2
    funext i j
    simp only [grid_lt h2 (h3 i j) (h4 i j)]
  | gt =>
    obtain ⟨h1, h2, h3, h4⟩ := h
    simp only [body, if_pos h1, Method.value, BinOp.value, Method.bodyRequires]
    congr 2
    funext i j
    simp only [grid_lt h2 (h4 i j) (h3 i j), gt_iff_lt]
  | xor => exact h.elim

/-- the `requires_grad` of a function called by an operator -/
def Method.requires (C : Ctx n) (m : Method) (rx : Bool) (y : Val n) : Bool :=
  if C.active = true ∧ m ∈ [Method.add, .sub, .mul, .matmul, .truediv, .pow] then rx || y.requires
  else m.bodyRequires C rx y

theorem wrapper_fine (C : Ctx n) (m : Method) (x : Mat n) (rx : Bool) (y : Val n) (h : ArgFine C m x y) :
    wrapper C m x rx y = .ok (.secret (m.value x y.mat) (m.requires C rx y)) := by
  cases hC : C.active with
  | false => rw [wrapper_off C hC, body_fine C m x rx y h]; simp [Method.requires, hC]
  | true =>
    rw [wrapper_on C hC]
    by_cases hm : m ∈ [Method.add, .sub, .mul, .matmul, .truediv, .pow]
    · rw [if_pos hm]
      have hb : body { C with active := false } m x rx y = _ := body_fine { C with active := false } m x rx y
        (by cases m <;> exact h)
      have hpow : m = .pow → ∃ k, y = .int k := by
        rintro rfl
        obtain ⟨k, _, e⟩ := h
        exact ⟨k, e⟩
      simp only [Method.requires, hC, hm, and_self, if_true]
      by_cases hp : m = .pow
      · obtain ⟨k, rfl⟩ := hpow hp
        subst hp
        simp only [forward, hb, if_true]
        rfl
      · simp only [forward, hb, if_neg hp]
        rfl
    · rw [if_neg hm, body_fine C m x rx y h]; simp [Method.requires, hm]

theorem binary_public_left (C : Ctx n) (op : BinOp) (x : Val n) (v : Mat n) (rx : Bool) (hx : x.isSecret = false) :
    binary C op x (.secret v rx) = match reflected op with
      | some m => wrapper C m v rx x
      | none => .error .typeError := by
  cases x with
  | secret _ _ => cases hx
  | _ => rfl

theorem binary_reflected (C : Ctx n) (op : BinOp) (a b : Expr n) (x y : Val n) (hp : x.isSecret = false) (hpr : x.requires = false)
    (hop : OpFine C op a b) (hs : a.isSecret = true ∨ b.isSecret = true)
    (hx : x.mat = a.value) (hy : y.mat = b.value) (hxs : x.isSecret = a.isSecret) (hys : y.isSecret = b.isSecret) :
    ∃ v r, binary C op x y = .ok (.secret v r) ∧ v = op.value x.mat y.mat ∧ (C.active = true →
      (r = true ↔ (op.Differentiable ∧ x.requires = true) ∨ (op.Differentiable ∧ a.isSecret = true ∧ y.requires = true)
        ∨ ((op = .add ∨ op = .mul ∨ op = .truediv) ∧ a.isSecret = false ∧ y.requires = true))) := by
  have ha : a.isSecret = false := by rw [← hxs]; exact hp
  have hb : b.isSecret = true := by
    rcases hs with h | h
    · rw [ha] at h; cases h
    · exact h
  cases y with
  | int _ | float _ | long _ | floats _ => all_goals (rw [hb] at hys; cases hys)
  | secret v rx =>
    have key : ∀ m : Method, reflected op = some m → ArgFine C m v x → m.value v x.mat = op.value x.mat v →
        (C.active = true → (m.requires C rx x = true ↔ (op = .add ∨ op = .mul ∨ op = .truediv) ∧ rx = true)) →
        ∃ w r, binary C op x (.secret v rx) = .ok (.secret w r) ∧ w = op.value x.mat (Val.secret v rx).mat ∧ (C.active = true →
          (r = true ↔ (op.Differentiable ∧ x.requires = true) ∨ (op.Differentiable ∧ a.isSecret = true ∧ (Val.secret v rx).requires = true)
            ∨ ((op = .add ∨ op = .mul ∨ op = .truediv) ∧ a.isSecret = false ∧ (Val.secret v rx).requires = true))) := by
      intro m hm hf hv hr
      refine ⟨_, _, ?_, hv, fun hC => (hr hC).trans ?_⟩
      · rw [binary_public_left C op x v rx hp, hm]
        exact wrapper_fine C m v rx x hf
      · rw [hpr, show (Val.secret v rx).requires = rx from rfl]; simp [ha]
    have comm (f g : Mat n) (h : ∀ i j, f i j = g i j) : f = g := by funext i j; exact h i j
    cases op with
    | add => exact key .add rfl trivial (comm _ _ fun _ _ => add_comm _ _) fun hC => by simp [Method.requires, hC, hpr]
    | sub => exact key .rsub rfl trivial rfl fun hC => by simp [Method.requires, Method.bodyRequires]
    | mul => exact key .mul rfl trivial (comm _ _ fun _ _ => mul_comm _ _) fun hC => by simp [Method.requires, hC, hpr]
    | matmul => exact key .rmatmul rfl trivial rfl fun hC => by simp [Method.requires, Method.bodyRequires]
    | truediv =>
      refine key .rtruediv rfl ?_ rfl fun hC => by simp [Method.requires, Method.bodyRequires, hC, hpr]
      rcases hop with ⟨_, _, h3⟩ | ⟨h1, _⟩ | ⟨h1, _⟩
      · rw [← hy] at h3; exact h3
      · rw [ha] at h1; cases h1
      · rw [ha] at h1; cases h1
    | pow => obtain ⟨h1, _⟩ := hop; rw [ha] at h1; cases h1
    | le => exact key .ge rfl hop rfl fun hC => by simp [Method.requires, Method.bodyRequires]
    | ge => exact key .le rfl hop rfl fun hC => by simp [Method.requires, Method.bodyRequires]
    | eq => exact key .eq rfl hop (comm _ _ fun _ _ => by simp only [Method.value, BinOp.value, eq_comm])
              fun hC => by simp [Method.requires, Method.bodyRequires]
    | ne => exact key .ne rfl hop (comm _ _ fun _ _ => by simp only [Method.value, BinOp.value, ne_comm])
              fun hC => by simp [Method.requires, Method.bodyRequires]
    | lt =>
      obtain ⟨h1, h2, h3, h4⟩ := hop
      rw [← hx] at h3; rw [← hy] at h4
      exact key .gt rfl ⟨h1, h2, h4, h3⟩ rfl fun hC => by simp [Method.requires, Method.bodyRequires]
    | gt =>
      obtain ⟨h1, h2, h3, h4⟩ := hop
      rw [← hx] at h3; rw [← hy] at h4
      exact key .lt rfl ⟨h1, h2, h4, h3⟩ rfl fun hC => by simp [Method.requires, Method.bodyRequires]
    | floordiv | mod | lshift | rshift | and | or | xor => exact hop.elim

/-- whether the operator keeps track of gradients: of the left operand, of the right one beside a secret, and of the right one beside
a public value -/
theorem binary_fine (C : Ctx n) (op : BinOp) (a b : Expr n) (x y : Val n) (hop : OpFine C op a b) (hs : a.isSecret = true ∨ b.isSecret = true)
    (hx : x.mat = a.value) (hy : y.mat = b.value) (hxs : x.isSecret = a.isSecret) (hys : y.isSecret = b.isSecret)
    (hyc : ∀ v, b = .const v → y = v) :
    ∃ v r, binary C op x y = .ok (.secret v r) ∧ v = op.value a.value b.value ∧ (C.active = true →
      (r = true ↔ (op.Differentiable ∧ x.requires = true) ∨ (op.Differentiable ∧ a.isSecret = true ∧ y.requires = true)
        ∨ ((op = .add ∨ op = .mul ∨ op = .truediv) ∧ a.isSecret = false ∧ y.requires = true))) := by
  rw [← hx, ← hy]
  cases x with
  | secret v rx =>
    have ha : a.isSecret = true := hxs ▸ rfl
    have key : ∀ m : Method, dunder op = some m → ArgFine C m v y → m.value v y.mat = op.value v y.mat →
        (C.active = true → (m.requires C rx y = true ↔ op.Differentiable ∧ (rx = true ∨ y.requires = true))) →
        ∃ w r, binary C op (.secret v rx) y = .ok (.secret w r) ∧ w = op.value (Val.secret v rx).mat y.mat ∧ (C.active = true →
          (r = true ↔ (op.Differentiable ∧ (Val.secret v rx).requires = true) ∨ (op.Differentiable ∧ a.isSecret = true ∧ y.requires = true)
            ∨ ((op = .add ∨ op = .mul ∨ op = .truediv) ∧ a.isSecret = false ∧ y.requires = true))) := by
      intro m hm hf hv hr
      refine ⟨_, _, ?_, hv, fun hC => (hr hC).trans ?_⟩
      · simp only [binary, hm]
        exact wrapper_fine C m v rx y hf
      · simp only [ha, Val.requires, Bool.true_eq_false, false_and, and_false, or_false, true_and]
        tauto
    cases op with
    | add => exact key .add rfl trivial rfl fun hC => by simp [Method.requires, hC, BinOp.Differentiable]
    | sub => exact key .sub rfl trivial rfl fun hC => by simp [Method.requires, hC, BinOp.Differentiable]
    | mul => exact key .mul rfl trivial rfl fun hC => by simp [Method.requires, hC, BinOp.Differentiable]
    | matmul => exact key .matmul rfl trivial rfl fun hC => by simp [Method.requires, hC, BinOp.Differentiable]
    | truediv =>
      refine key .truediv rfl ?_ rfl fun hC => by simp [Method.requires, hC, BinOp.Differentiable]
      rcases hop with ⟨h1, h2, h3⟩ | ⟨_, k, hk, hb⟩ | ⟨_, l, hl, hb⟩
      · exact .inl ⟨hys.trans h1, h2 ha, by rw [hy]; exact h3⟩
      · exact .inr (.inl ⟨k, hk, hyc _ hb⟩)
      · exact .inr (.inr ⟨l, hl, hyc _ hb⟩)
    | pow =>
      obtain ⟨_, k, hk, hb⟩ := hop
      exact key .pow rfl ⟨k, hk, hyc _ hb⟩ rfl fun hC => by simp [Method.requires, hC, BinOp.Differentiable]
    | le => exact key .le rfl hop rfl fun hC => by simp [Method.requires, Method.bodyRequires, BinOp.Differentiable]
    | ge => exact key .ge rfl hop rfl fun hC => by simp [Method.requires, Method.bodyRequires, BinOp.Differentiable]
    | eq => exact key .eq rfl hop rfl fun hC => by simp [Method.requires, Method.bodyRequires, BinOp.Differentiable]
    | ne => exact key .ne rfl hop rfl fun hC => by simp [Method.requires, Method.bodyRequires, BinOp.Differentiable]
    | lt =>
      obtain ⟨h1, h2, h3, h4⟩ := hop
      rw [← hx] at h3; rw [← hy] at h4
      exact key .lt rfl ⟨h1, h2, h3, h4⟩ rfl fun hC => by simp [Method.requires, Method.bodyRequires, BinOp.Differentiable]
    | gt =>
      obtain ⟨h1, h2, h3, h4⟩ := hop
      rw [← hx] at h3; rw [← hy] at h4
      exact key .gt rfl ⟨h1, h2, h3, h4⟩ rfl fun hC => by simp [Method.requires, Method.bodyRequires, BinOp.Differentiable]
    | floordiv | mod | lshift | rshift | and | or | xor => exact hop.elim
  | int _ | float _ | long _ | floats _ =>
    all_goals exact binary_reflected C op a b _ y rfl rfl hop hs hx hy hxs hys

theorem tracked_bin (op : BinOp) (a b : Expr n) : (Expr.bin op a b).Tracked ↔
    (op.Differentiable ∧ a.Tracked) ∨ (op.Differentiable ∧ a.isSecret = true ∧ b.Tracked)
      ∨ ((op = .add ∨ op = .mul ∨ op = .truediv) ∧ a.isSecret = false ∧ b.Tracked) := by
  constructor
  · intro h
    cases h with
    | left h1 h2 => exact .inl ⟨h1, h2⟩
    | right h1 h2 h3 => exact .inr (.inl ⟨h1, h2, h3⟩)
    | reflected h1 h2 h3 => exact .inr (.inr ⟨h1, h2, h3⟩)
  · rintro (⟨h1, h2⟩ | ⟨h1, h2, h3⟩ | ⟨h1, h2, h3⟩)
    · exact .left h1 h2
    · exact .right h1 h2 h3
    · exact .reflected h1 h2 h3

theorem const_requires (v : Val n) : v.requires = true ↔ (Expr.const v).Tracked := by
  constructor
  · intro h
    cases v with
    | secret w r => cases (show r = true from h); exact .leaf w
    | _ => cases h
  · intro h; cases h; rfl

theorem eval_fine (C : Ctx n) (e : Expr n) (h : e.Fine C) :
    ∃ v, e.eval C = .ok v ∧ v.mat = e.value ∧ v.isSecret = e.isSecret ∧ (∀ w, e = .const w → v = w) ∧
      (C.active = true → (v.requires = true ↔ e.Tracked)) := by
  induction e with
  | const v => exact ⟨v, rfl, rfl, rfl, fun w hw => by cases hw; rfl, fun _ => const_requires v⟩
  | bin op a b iha ihb =>
    obtain ⟨h1, h2, h3, h4⟩ := h
    obtain ⟨x, ex, mx, sx, cx, tx⟩ := iha h1
    obtain ⟨y, ey, my, sy, cy, ty⟩ := ihb h2
    obtain ⟨v, r, e, hv, hr⟩ := binary_fine C op a b x y h4 h3 mx my sx sy cy
    refine ⟨.secret v r, ?_, hv, ?_, fun w hw => (by cases hw), fun hC => (hr hC).trans ?_⟩
    · simp only [Expr.eval, ex, ey]; exact e
    · rcases h3 with h | h <;> simp [Val.isSecret, Expr.isSecret, h]
    · rw [tracked_bin, tx hC, ty hC]
  | neg a _ =>
    obtain ⟨v, hv, rfl⟩ := h
    cases v with
    | secret _ _ => cases hv
    | int k => exact ⟨.int (-k), rfl, by funext i j; simp [Val.mat, Expr.value], rfl, fun w hw => (by cases hw), fun _ => ⟨fun h => (by cases h), fun h => (by cases h)⟩⟩
    | float q => exact ⟨.float (-q), rfl, rfl, rfl, fun w hw => (by cases hw), fun _ => ⟨fun h => (by cases h), fun h => (by cases h)⟩⟩
    | long m => exact ⟨.long fun i j => -m i j, rfl, by funext i j; simp [Val.mat, Expr.value], rfl, fun w hw => (by cases hw),
        fun _ => ⟨fun h => (by cases h), fun h => (by cases h)⟩⟩
    | floats m => exact ⟨.floats fun i j => -m i j, rfl, rfl, rfl, fun w hw => (by cases hw),
        fun _ => ⟨fun h => (by cases h), fun h => (by cases h)⟩⟩

/-- Expressions with secrets evaluate to what Python's operators denote, whichever side the secrets are on.  Missing: the operators that
secrets do not have (`C84_missing_operators`) and powers that are not integers (`C84_fractional_power`). -/
theorem C84_expressions_partial (C : Ctx n) (e : Expr n) (h : e.Fine C) (hs : e.isSecret = true) :
    ∃ r, e.eval C = .ok (.secret e.value r) := by
  obtain ⟨v, hv, hm, hsec, _⟩ := eval_fine C e h
  cases v with
  | secret w r => exact ⟨r, by rw [hv]; exact congrArg (fun u => Except.ok (Val.secret u r)) hm⟩
  | _ => rw [hs] at hsec; cases hsec

/-- a session of two parties with function secret sharing, sixteen binary places and exact reciprocals -/
def sampleCtx (active : Bool) : Ctx 1 where
  active := active
  unit := 1 / 65536
  recip := fun q => q⁻¹
  parties := 2
  compares := true
  xorOp := fun x y => .ok fun i j => x i j + y i j - 2 * x i j * y i j
  python := fun _ _ _ => .error .typeError

/-- `(3 - x) * x / 2 < x ** 3` -/
def sampleExpr (x : Val 1) : Expr 1 :=
  .bin .lt (.bin .truediv (.bin .mul (.bin .sub (.const (.int 3)) (.const x)) (.const x)) (.const (.int 2)))
    (.bin .pow (.const x) (.const (.int 3)))

example (b : Bool) : (sampleExpr (.secret (fun _ _ => 5) true)).Fine (sampleCtx b) ∧
    (sampleExpr (.secret (fun _ _ => 5) true)).isSecret = true ∧ (sampleExpr (.secret (fun _ _ => 5) true)).value 0 0 = 1 := by
  refine ⟨⟨⟨⟨⟨trivial, trivial, .inr rfl, trivial⟩, trivial, .inl rfl, trivial⟩, trivial, .inl rfl, .inr (.inl ⟨rfl, 2, by norm_num, rfl⟩)⟩,
    ⟨trivial, trivial, .inl rfl, rfl, 3, by norm_num, rfl⟩, .inl rfl, rfl, by norm_num [sampleCtx], fun i j => ⟨-327680, ?_⟩,
    fun i j => ⟨8192000, ?_⟩⟩, rfl, ?_⟩
  · norm_num [sampleCtx, Expr.value, BinOp.value, Val.mat]
  · have : ⌊((3 : ℤ) : ℚ)⌋₊ = 3 := by norm_num
    norm_num [sampleCtx, Expr.value, BinOp.value, Val.mat]
  · have : ⌊((3 : ℤ) : ℚ)⌋₊ = 3 := by norm_num
    norm_num [sampleExpr, Expr.value, BinOp.value, Val.mat]

example (v : Mat 1) : (Expr.bin .mul (.const (.int 2)) (.const (.secret v true))).Tracked ∧
    ¬ (Expr.bin .sub (.const (.int 2)) (.const (.secret v true))).Tracked := by
  refine ⟨.reflected (.inr (.inl rfl)) rfl (.leaf v), fun h => ?_⟩
  rw [tracked_bin] at h
  rcases h with ⟨_, h⟩ | ⟨_, h, _⟩ | ⟨h, _⟩
  · cases h
  · cases h
  · rcases h with h | h | h <;> cases h

/-- While gradients are recorded, the result of an expression takes part in training exactly if a tensor with `requires_grad` is connected
to it by differentiable operators. -/
theorem C84_tracking_partial (C : Ctx n) (hC : C.active = true) (e : Expr n) (h : e.Fine C) (v : Mat n) (r : Bool)
    (he : e.eval C = .ok (.secret v r)) : r = true ↔ e.Tracked := by
  obtain ⟨w, hw, _, _, _, ht⟩ := eval_fine C e h
  rw [he] at hw
  cases hw
  exact ht hC

/-- Where gradients are not recorded, no operator gives a result with `requires_grad`. -/
theorem C84_not_recorded (C : Ctx n) (hC : C.active = false) (op : BinOp) (x y : Val n) (v : Mat n) (r : Bool)
    (hs : x.isSecret = true ∨ y.isSecret = true) (h : binary C op x y = .ok (.secret v r)) : r = false := by
  have key : ∀ (m : Method) (x : Mat n) (rx : Bool) (y : Val n), m ≠ .isub → body C m x rx y = .ok (.secret v r) → r = false := by
    intro m x rx y hm hb
    cases m with
    | isub => exact absurd rfl hm
    | add | sub | mul | matmul | rmatmul => simp only [body] at hb; cases hb; rfl
    | rsub | rtruediv => simp only [body, star, reciprocal, hC, Bool.false_and] at hb; cases hb; rfl
    | truediv =>
      cases y with
      | secret w rw =>
        simp only [body, star, reciprocal, hC, Bool.false_and] at hb
        split_ifs at hb; cases hb; rfl
      | int k => simp only [body] at hb; split_ifs at hb; cases hb; rfl
      | long k => simp only [body] at hb; split_ifs at hb; cases hb; rfl
      | float _ | floats _ => cases hb
    | pow =>
      have hp : ∀ o : Option (Mat n), Except.ok (ε := PyErr) (powResult o) = .ok (.secret v r) → r = false := by
        intro o ho
        cases o with
        | none => cases ho
        | some w => simp only [powResult] at ho; cases ho; rfl
      cases y with
      | int k => simp only [body] at hb; split_ifs at hb; exact hp _ hb
      | float k => simp only [body] at hb; split_ifs at hb; exact hp _ hb
      | secret _ _ => simp only [body] at hb; split_ifs at hb; cases hb
      | long _ | floats _ => cases hb
    | le | ge | lt | gt | eq => simp only [body] at hb; split_ifs at hb; cases hb; rfl
    | ne => simp only [body, star, hC, Bool.false_and] at hb; split_ifs at hb; cases hb; rfl
    | xor =>
      simp only [body] at hb
      cases hx : C.xorOp x y.mat with
      | error e => rw [hx] at hb; cases hb
      | ok w => rw [hx] at hb; cases hb; rfl
  by_cases hxs : x.isSecret = true
  · cases x with
    | secret w rw =>
      simp only [binary] at h
      cases hd : dunder op with
      | none => rw [hd] at h; cases h
      | some m =>
        rw [hd] at h
        refine key m w rw y ?_ ((wrapper_off C hC m w rw y).symm.trans h)
        rintro rfl; cases op <;> cases hd
    | _ => cases hxs
  · have hys : y.isSecret = true := hs.resolve_left hxs
    cases y with
    | secret w rw =>
      rw [binary_public_left C op x w rw (by simpa using hxs)] at h
      cases hd : reflected op with
      | none => rw [hd] at h; cases h
      | some m =>
        rw [hd] at h
        refine key m w rw x ?_ ((wrapper_off C hC m w rw x).symm.trans h)
        rintro rfl; cases op <;> cases hd
    | _ => cases hys

/-- Secrets have no `//`, `%`, `<<`, `>>`, `&`, `|` and no unary minus, and a public value on the left has no `**` and no `^`: these raise
`TypeError`. -/
theorem C84_missing_operators (C : Ctx n) (op : BinOp) (x y : Val n) (v : Mat n) (r : Bool) (hx : x.isSecret = false) :
    (op ∈ [BinOp.floordiv, .mod, .lshift, .rshift, .and, .or] → binary C op (.secret v r) y = .error .typeError) ∧
    (op ∈ [BinOp.floordiv, .mod, .lshift, .rshift, .and, .or, .pow, .xor] → binary C op x (.secret v r) = .error .typeError) ∧
    (Expr.neg (.const (.secret v r))).eval C = .error .typeError := by
  refine ⟨fun h => ?_, fun h => ?_, rfl⟩
  · cases op <;> first | rfl | (exfalso; revert h; decide)
  · rw [binary_public_left C op x v r hx]
    cases op <;> first | rfl | (exfalso; revert h; decide)

/-- A power that is not an integer is not refused where gradients are not recorded: the result is the even power below it, and the
number 1 if the power is less than 2. -/
theorem C84_fractional_power (C : Ctx n) (hC : C.active = false) (v : Mat n) (r : Bool) (q : ℚ) (h0 : 0 ≤ q) (hq : ∀ k : Int, q ≠ k) :
    binary C .pow (.secret v r) (.float q) = .ok (if q < 2 then .int 1 else .secret (fun i j => v i j ^ (2 * ⌊q / 2⌋₊)) false) := by
  simp only [binary, dunder, wrapper_off C hC, body, if_neg (not_lt.2 h0), powLoop_fraction q h0 hq]
  have hi : ⌊q / 2⌋₊ = 0 ↔ q < 2 := by
    rw [Nat.floor_eq_zero]
    constructor <;> intro h <;> linarith
  by_cases h2 : q < 2
  · rw [if_pos (hi.2 h2), if_pos h2]; rfl
  · rw [if_neg (fun h => h2 (hi.1 h)), if_neg h2]; rfl

/-- the square root of 4 is 1, and 2 to the power 3.5 is 4 -/
example (v : Mat 1) (h : v = fun _ _ => 2) : binary (sampleCtx false) .pow (.secret (fun _ _ => 4) false) (.float (1 / 2)) = .ok (.int 1) ∧
    binary (sampleCtx false) .pow (.secret v false) (.float (7 / 2)) = .ok (.secret (fun _ _ => 4) false) := by
  have hf (a : Int) (ha : a % 2 = 1) : ∀ k : Int, ((a : ℚ) / 2) ≠ k := by
    intro k hk
    have h2 : (a : ℚ) = 2 * k := by linarith
    have h3 : a = 2 * k := by exact_mod_cast h2
    omega
  have h1 := C84_fractional_power (sampleCtx false) rfl (fun _ _ => 4) false (1 / 2) (by norm_num) (by simpa using hf 1 rfl)
  have h2 := C84_fractional_power (sampleCtx false) rfl v false (7 / 2) (by norm_num) (by simpa using hf 7 rfl)
  refine ⟨h1.trans (by norm_num), h2.trans ?_⟩
  have : ⌊(7 / 2 / 2 : ℚ)⌋₊ = 1 := by rw [Nat.floor_eq_iff (by norm_num)]; norm_num
  rw [if_neg (by norm_num), this, h]
  norm_num

/-- While gradients are recorded such powers are refused. -/
theorem C84_fractional_power_recorded (C : Ctx n) (hC : C.active = true) (v : Mat n) (r : Bool) (q : ℚ) :
    binary C .pow (.secret v r) (.float q) = .error .typeError := by
  simp only [binary, dunder, wrapper_on C hC]
  rfl

/-- C84 is false while gradients are recorded: `x ** 0` raises `AttributeError`, because the result is the number 1, which has no
`requires_grad`. -/
theorem C84_zero_power_recorded (C : Ctx n) (hC : C.active = true) (v : Mat n) (r : Bool) :
    binary C .pow (.secret v r) (.int 0) = .error .attributeError := by
  simp only [binary, dunder, wrapper_on C hC]
  rw [if_pos (by decide)]
  have h : powLoop ((0 : Int) : ℚ) none v = none := by
    rw [powLoop.eq_def]
    simp
  simp only [forward, body, h]
  rfl

/-- A public value minus a secret, and a public matrix times a secret, are lost for training although the secret has `requires_grad`. -/
theorem C84_reflected_untracked (C : Ctx n) (v : Mat n) (x : Val n) (hx : x.isSecret = false) :
    binary C .sub x (.secret v true) = .ok (.secret (fun i j => x.mat i j - v i j) false) ∧
    binary C .matmul x (.secret v true) = .ok (.secret (matProd x.mat v) false) := by
  rw [binary_public_left C _ x v true hx, binary_public_left C _ x v true hx]
  refine ⟨(wrapper_fine C .rsub v true x trivial).trans ?_, (wrapper_fine C .rmatmul v true x trivial).trans ?_⟩
  · simp [Method.requires, Method.bodyRequires, Method.value, BinOp.value]
  · simp [Method.requires, Method.bodyRequires, Method.value, BinOp.value]
    rfl

/-! ## statements -/

/-- the value of a variable -/
def Store.read (s : Store n) (x : Nat) : Mat n × Bool := s.content (s.object x)

/-- `x -= y` changes the tensor: every variable bound to the same tensor has the difference afterwards, and no other variable changes.
`requires_grad` stays as it was, also if `y` has it. -/
theorem C84_in_place (C : Ctx n) (s : Store n) (x : Nat) (y : Val n) :
    ∃ t, Stmt.exec C s (.augmented .sub x y) = .ok t ∧
      (∀ w, t.read w = if s.object w = s.object x then (fun i j => (s.read x).1 i j - y.mat i j, (s.read x).2) else s.read w) := by
  have h := wrapper_fine C .isub (s.read x).1 (s.read x).2 y trivial
  have hr : Method.requires C .isub (s.read x).2 y = (s.read x).2 := by simp [Method.requires, Method.bodyRequires]
  rw [hr] at h
  refine ⟨{ s with content := fun p => if p = s.object x then (fun i j => (s.read x).1 i j - y.mat i j, (s.read x).2) else s.content p },
    ?_, ?_⟩
  · simp only [Stmt.exec, if_true]
    rw [show wrapper C Method.isub (s.content (s.object x)).1 (s.content (s.object x)).2 y = _ from h]
    rfl
  · intro w
    simp only [Store.read]

/-- The other assignments `x ⊕= y` bind the variable to a new tensor: no other variable changes. -/
theorem C84_rebound (C : Ctx n) (s t : Store n) (op : BinOp) (hop : op ≠ .sub) (x : Nat) (y : Val n) (hs : ∀ w, s.object w < s.size)
    (h : Stmt.exec C s (.augmented op x y) = .ok t) :
    (∃ v r, binary C op (.secret (s.read x).1 (s.read x).2) y = .ok (.secret v r) ∧ t.read x = (v, r)) ∧
    (∀ w, w ≠ x → t.read w = s.read w) ∧ ∀ w, t.object w < t.size := by
  simp only [Stmt.exec, if_neg hop] at h
  cases hb : binary C op (.secret (s.content (s.object x)).1 (s.content (s.object x)).2) y with
  | error e => rw [hb] at h; cases h
  | ok u =>
    rw [hb] at h
    cases u with
    | secret v r =>
      cases h
      refine ⟨⟨v, r, hb, ?_⟩, fun w hw => ?_, fun w => ?_⟩
      · simp [Store.read]
      · simp only [Store.read, if_neg hw]
        rw [if_neg (Nat.ne_of_lt (hs w))]
      · dsimp only
        split_ifs
        · exact Nat.lt_succ_self _
        · exact Nat.lt_succ_of_lt (hs w)
    | _ => cases h

/-- two variables bound to one tensor: `x -= 1` is seen by both, `x += 1` by `x` only -/
example (v : Mat 1) : ∃ t u, Stmt.exec (sampleCtx false) ⟨fun _ => 0, fun _ => (v, false), 1⟩ (.augmented .sub 0 (.int 1)) = .ok t ∧
    (t.read 1).1 0 0 = v 0 0 - 1 ∧
    Stmt.exec (sampleCtx false) ⟨fun _ => 0, fun _ => (v, false), 1⟩ (.augmented .add 0 (.int 1)) = .ok u ∧
    (u.read 0).1 0 0 = v 0 0 + 1 ∧ (u.read 1).1 0 0 = v 0 0 :=
  ⟨_, _, rfl, by simp [Store.read, Val.mat], rfl, by simp [Store.read, Val.mat], rfl⟩

end SyMPC.Operators
