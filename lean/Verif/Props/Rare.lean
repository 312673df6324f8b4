import Verif.Props.RProgram
import Verif.Props.Truncation
import Mathlib.Data.Fintype.Card
import Mathlib.Data.Fintype.EquivFin
import Mathlib.Order.Interval.Finset.Nat
import Mathlib.Data.Int.Interval

/-!
# C32: how rarely a truncation goes wrong
-/

namespace SyMPC

/-- the sum of the two integers leaves the range of `w` bit integers -/
def Leaves (w : Nat) (a b : BitVec w) : Prop :=
  a.toInt + b.toInt < -(2 ^ (w - 1) : Int) ∨ (2 ^ (w - 1) : Int) ≤ a.toInt + b.toInt

instance (w : Nat) (a b : BitVec w) : Decidable (Leaves w a b) := by unfold Leaves; infer_instance

instance (w : Nat) : Fintype (BitVec w) := Fintype.ofEquiv (Fin (2 ^ w)) ⟨BitVec.ofFin, BitVec.toFin, fun _ => rfl, fun _ => rfl⟩

/-- **C32**: of the `2**w` ways to share `t` between two summands, exactly `t + 1` (`t` not negative) or `-t - 1` (`t` negative) leave
the range. -/
theorem C32_wraps_count (w : Nat) (hw : 0 < w) (t : BitVec w) :
    ((Finset.univ.filter fun a : BitVec w => Leaves w a (t - a)).card : Int) = if 0 ≤ t.toInt then t.toInt + 1 else -t.toInt - 1 := by
  have hiff : ∀ a : BitVec w, Leaves w a (t - a) ↔
      ¬ ((0 ≤ t.toInt → t.toInt - 2 ^ (w - 1) < a.toInt) ∧ (t.toInt < 0 → a.toInt ≤ t.toInt + 2 ^ (w - 1))) := by
    intro a
    rw [← C32_wraps_iff w hw a t]
    unfold Leaves
    omega
  have ht := toInt_bounds' hw t
  have hp : (0 : Int) < 2 ^ (w - 1) := by positivity
  have hof : ∀ z : Int, -(2 ^ (w - 1) : Int) ≤ z → z < 2 ^ (w - 1) → (BitVec.ofInt w z).toInt = z := by
    intro z h1 h2
    rw [BitVec.toInt_ofInt]
    have h3 : ((2 ^ w : Nat) : Int) = 2 * 2 ^ (w - 1) := by
      rw [Nat.cast_pow, Nat.cast_ofNat, ← pow_succ']; congr 1; omega
    apply Int.bmod_eq_of_le_mul_two <;> rw [h3] <;> omega
  have key : ∀ lo hi : Int, -(2 ^ (w - 1) : Int) ≤ lo → hi ≤ 2 ^ (w - 1) → lo ≤ hi →
      (∀ a : BitVec w, Leaves w a (t - a) ↔ lo ≤ a.toInt ∧ a.toInt < hi) →
      ((Finset.univ.filter fun a : BitVec w => Leaves w a (t - a)).card : Int) = hi - lo := by
    intro lo hi h1 h2 h3 h4
    have : (Finset.univ.filter fun a : BitVec w => Leaves w a (t - a)).card = (Finset.Ico lo hi).card := by
      refine Finset.card_bij (fun a _ => a.toInt) ?_ ?_ ?_
      · intro a ha
        simp only [Finset.mem_filter, Finset.mem_univ, true_and, h4] at ha
        exact Finset.mem_Ico.mpr ha
      · intro a _ b _ h
        exact BitVec.eq_of_toInt_eq h
      · intro z hz
        rw [Finset.mem_Ico] at hz
        refine ⟨BitVec.ofInt w z, ?_, hof z (by omega) (by omega)⟩
        simp only [Finset.mem_filter, Finset.mem_univ, true_and, h4]
        rw [hof z (by omega) (by omega)]
        exact hz
    rw [this, Int.card_Ico]
    omega
  split
  · rename_i h
    rw [key (-(2 ^ (w - 1))) (t.toInt - 2 ^ (w - 1) + 1) (by omega) (by omega) (by omega) (by
      intro a
      have ha := toInt_bounds' hw a
      rw [hiff]
      constructor
      · intro h'
        refine ⟨ha.1, ?_⟩
        by_contra hc
        exact h' ⟨fun _ => by omega, fun _ => by omega⟩
      · rintro ⟨h1, h2⟩ ⟨h3, -⟩
        have := h3 h
        omega)]
    ring
  · rename_i h
    rw [key (t.toInt + 2 ^ (w - 1) + 1) (2 ^ (w - 1)) (by omega) (by omega) (by omega) (by
      intro a
      have ha := toInt_bounds' hw a
      rw [hiff]
      constructor
      · intro h'
        refine ⟨?_, ha.2⟩
        by_contra hc
        exact h' ⟨fun _ => by omega, fun _ => by omega⟩
      · rintro ⟨h1, h2⟩ ⟨-, h3⟩
        have := h3 (by omega)
        omega)]
    ring

/-- **C32** in `x * y` of two secrets: whatever the parties hold and whatever two of the three generators give (`f` without its first
entry), at most `|x y| + 1` of the numbers of the remaining generator make the shares of the product leave the range before the
truncation. -/
theorem C32_product_wraps_rare (w : Nat) (hw : w = 8 ∨ w = 16 ∨ w = 32 ∨ w = 64) {env : Env} {s : Session} (hs : s.Three env)
    {x y : RMPC (BitVec w)} {c c' : Config} {a b : BitVec w} (hx : x.Is (powSem w) s (2 ^ w) c a)
    (hy : y.Is (powSem w) s (2 ^ w) c' b) (f1 f2 : BitVec w) :
    ∃ bad : Finset (BitVec w), (bad.card : Int) ≤ |(a * b).toInt| + 1 ∧
      ∀ f0, ∃ z0 z1 z2, Falcon.mulShares (powOps w) env (powKit w).product (RProgram.zeroShare (powKit w) ![f0, f1, f2]) s x y
          = .ok [z0, z1, z2] ∧ z0 + (z1 + z2) = a * b ∧ (Leaves w z0 (z1 + z2) → f0 ∈ bad) := by
  have hw0 : 0 < w := by omega
  have hK : RProgram.Std (powKit w) (powSem w) :=
    { kit := powKitSem w hw
      valid := fun _ => trivial
      den := fun _ => rfl
      size := by
        show ¬ (2 ^ w = 2 ∨ 2 ^ w = 67)
        rcases hw with rfl | rfl | rfl | rfl <;> norm_num
      nonEmpty := powKit_nonEmpty w }
  obtain ⟨u0, u1, u2, p0, p1, p2, c0, c1, c2, hu, -⟩ := three_unpack hs
  obtain ⟨x0, x1, x2, rfl, -, -, -, hv⟩ := is_unpack hu hx
  obtain ⟨y0, y1, y2, rfl, -, -, -, hv'⟩ := is_unpack hu hy
  have hv : x0 + x1 + x2 = a := hv
  have hv' : y0 + y1 + y2 = b := hv'
  obtain ⟨k, hk⟩ := RProgram.getOp_mul hK
  let base := RProgram.prod3 ![x0, x1, x2] ![y0, y1, y2] 0 - f1
  refine ⟨(Finset.univ.filter fun m : BitVec w => Leaves w m (a * b - m)).image fun m => m - base, ?_, fun f0 => ?_⟩
  · have h1 : (((Finset.univ.filter fun m : BitVec w => Leaves w m (a * b - m)).image fun m => m - base).card : Int)
        ≤ (Finset.univ.filter fun m : BitVec w => Leaves w m (a * b - m)).card := by exact_mod_cast Finset.card_image_le
    rw [C32_wraps_count w hw0] at h1
    have h2 := le_abs_self (a * b).toInt
    have h3 := neg_abs_le (a * b).toInt
    split at h1 <;> omega
  · have hm := RProgram.mulShares_rep hK hs (powKit w).size hk c c' ![x0, x1, x2] ![y0, y1, y2] ![f0, f1, f2]
    rw [RProgram.rep_eq hu, RProgram.rep_eq hu] at hm
    have hsum := RProgram.masked_val ![x0, x1, x2] ![y0, y1, y2] ![f0, f1, f2]
    refine ⟨_, _, _, hm, ?_, fun hl => ?_⟩
    · rw [← hv, ← hv', ← add_assoc]
      exact hsum
    · have ht : RProgram.masked ![x0, x1, x2] ![y0, y1, y2] ![f0, f1, f2] 1 + RProgram.masked ![x0, x1, x2] ![y0, y1, y2] ![f0, f1, f2] 2
          = a * b - RProgram.masked ![x0, x1, x2] ![y0, y1, y2] ![f0, f1, f2] 0 := by
        rw [← hv, ← hv', eq_sub_iff_add_eq']
        rw [← add_assoc]
        exact hsum
      rw [ht] at hl
      refine Finset.mem_image.mpr ⟨_, Finset.mem_filter.mpr ⟨Finset.mem_univ _, hl⟩, ?_⟩
      show RProgram.prod3 ![x0, x1, x2] ![y0, y1, y2] 0 + (f0 - f1) - (RProgram.prod3 ![x0, x1, x2] ![y0, y1, y2] 0 - f1) = f0
      ring

/-- the example session, and 1.5 and -2 in it with 16 bits -/
example : (exRep (2 ^ 64) {} 98304 5 (-5)).Is (powSem 64) exRSession (2 ^ 64) {} 98304 ∧
    (exRep (2 ^ 64) {} (-131072) 7 (-7)).Is (powSem 64) exRSession (2 ^ 64) {} (-131072) ∧ |((98304 * -131072 : I64)).toInt| = 12884901888 := by
  refine ⟨?_, ?_, by decide⟩
  · have := exRep_is (powSem 64) (2 ^ 64) {} (98304 : I64) 5 (-5) trivial trivial trivial
    exact this
  · have := exRep_is (powSem 64) (2 ^ 64) {} (-131072 : I64) 7 (-7) trivial trivial trivial
    exact this

/-- in the ring of 8 bits, 7 of the 256 ways to share 6 leave the range -/
example : ((Finset.univ.filter fun a : BitVec 8 => Leaves 8 a (6 - a)).card : Int) = 7 := C32_wraps_count 8 (by norm_num) 6

end SyMPC
