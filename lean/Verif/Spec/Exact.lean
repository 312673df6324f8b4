import Verif.Spec.Algo
import Verif.Lemmas.Py

/-!
# The operators on numbers in the clear

What the algorithms compute if no operator makes an error.  The numbers are those of an ordered field (`ℚ` to run the
algorithms, `ℝ` to compare them with the functions they approximate).
-/

namespace SyMPC

variable {F : Type} [Field F] [LinearOrder F] [IsStrictOrderedRing F]

/-- exact operators -/
def exactOps (F : Type) [Field F] [LinearOrder F] : SecretOps Py (fun n => Fin n → F) F where
  raise e := .error e
  add x y := .ok fun i => x i + y i
  sub x y := .ok fun i => x i - y i
  mul x y := .ok fun i => x i * y i
  addP x c := .ok fun i => x i + c
  subP x c := .ok fun i => x i - c
  rsubP c x := .ok fun i => c - x i
  mulP x c := .ok fun i => x i * c
  divP x d := if d = 0 then .error .zeroDivision else .ok fun i => x i / d
  gt x y := .ok fun i => if x i > y i then 1 else 0
  gtP x c := .ok fun i => if x i > c then 1 else 0
  ltP x c := .ok fun i => if x i < c then 1 else 0
  geP x c := .ok fun i => if x i ≥ c then 1 else 0
  mulT x t := .ok fun i => x i * t i
  view σ x := .ok fun j => x (σ j)
  -- with the default configuration (`config.py:10-21`) the padding is -25 quanta of size 2^-16
  pad σ x := .ok fun j => (σ j).elim (-25 / 65536) x
  sums f x := .ok fun j => ((f j).map x).sum
  reconstruct x := .ok x

/-- Exact operators are sound, with any bound on the numbers. -/
def exactSound (B : F) : Sound (exactOps F) surePy where
  Ok _ := True
  val x := x
  B := B
  δ := 0
  δd := 0
  δc := 0
  padding := -25 / 65536
  add _ _ _ _ _ := ⟨_, rfl, trivial, fun _ => rfl⟩
  sub _ _ _ _ _ := ⟨_, rfl, trivial, fun _ => rfl⟩
  mul _ _ _ _ _ := ⟨_, rfl, trivial, fun _ => by simp⟩
  addP _ _ _ _ := ⟨_, rfl, trivial, fun _ => rfl⟩
  subP _ _ _ _ := ⟨_, rfl, trivial, fun _ => rfl⟩
  rsubP _ _ _ _ := ⟨_, rfl, trivial, fun _ => by simp⟩
  mulP _ _ _ _ := ⟨_, rfl, trivial, fun _ => by simp⟩
  divP _ d _ h _ := ⟨_, if_neg (by omega), trivial, fun _ => by simp⟩
  addF _ _ _ _ := ⟨_, rfl, trivial, fun _ => by simp⟩
  subF _ _ _ _ := ⟨_, rfl, trivial, fun _ => by simp⟩
  rsubF _ _ _ _ := ⟨_, rfl, trivial, fun _ => by simp⟩
  mulF _ _ _ _ := ⟨_, rfl, trivial, fun _ => by simp⟩
  gt _ _ _ _ _ _ := ⟨_, rfl, trivial, fun _ => rfl⟩
  gtP _ _ _ _ _ := ⟨_, rfl, trivial, fun _ => rfl⟩
  ltP _ _ _ _ _ := ⟨_, rfl, trivial, fun _ => rfl⟩
  geP _ _ _ _ _ := ⟨_, rfl, trivial, fun _ => rfl⟩
  mulT _ _ _ _ := ⟨_, rfl, trivial, fun _ => by simp⟩
  view _ _ _ := ⟨_, rfl, trivial, fun _ => rfl⟩
  pad _ _ _ := ⟨_, rfl, trivial, fun _ => rfl⟩
  sums _ _ _ _ := ⟨_, rfl, trivial, fun _ => rfl⟩
  reconstruct _ _ := ⟨_, rfl, rfl⟩

section
omit [IsStrictOrderedRing F]
variable {n : Nat} (x y : Fin n → F) (c : F) (d : Nat)

theorem exact_add : (exactOps F).add x y = .ok fun i => x i + y i := rfl
theorem exact_sub : (exactOps F).sub x y = .ok fun i => x i - y i := rfl
theorem exact_mul : (exactOps F).mul x y = .ok fun i => x i * y i := rfl
theorem exact_addP : (exactOps F).addP x c = .ok fun i => x i + c := rfl
theorem exact_subP : (exactOps F).subP x c = .ok fun i => x i - c := rfl
theorem exact_rsubP : (exactOps F).rsubP c x = .ok fun i => c - x i := rfl
theorem exact_mulP : (exactOps F).mulP x c = .ok fun i => x i * c := rfl
theorem exact_divP (h : d ≠ 0) : (exactOps F).divP x d = .ok fun i => x i / d := if_neg h
theorem exact_div2 : (exactOps F).divP x 2 = .ok fun i => x i / 2 := by simp [exactOps]
theorem exact_div8 : (exactOps F).divP x 8 = .ok fun i => x i / 8 := by simp [exactOps]
theorem exact_view {k : Nat} (σ : Fin k → Fin n) : (exactOps F).view σ x = .ok fun j => x (σ j) := rfl
end

end SyMPC
