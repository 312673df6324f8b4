import Verif.Model.Program
import Verif.Spec.Share

/-!
# What whole computations should compute and show

The plain meaning of a program, and what all parties but one can see of a run.
-/

namespace SyMPC.Program

variable {P T : Type}

/-- the tensors that a statement names exist -/
def Valid (k : Nat) : Cmd P T → Prop
  | .secret _ => True
  | .lin _ i j => i < k ∧ j < k
  | .linPublic _ i _ => i < k
  | .mulPublic i _ => i < k
  | .method _ i => i < k
  | .mul i j => i < k ∧ j < k

/-- each statement names earlier tensors only; there are `k` before the first statement -/
def ValidProg : Nat → List (Cmd P T) → Prop
  | _, [] => True
  | k, c :: cs => Valid k c ∧ ValidProg (k + 1) cs

/-- the methods used are additive (those that move, copy, drop or add up elements) -/
def Additive [Add T] : Cmd P T → Prop
  | .method f _ => ∀ a b, f (a + b) = f a + f b
  | _ => True

/-- the value of the new tensor, from the values of the earlier ones -/
def evalCmd [AddCommGroup T] [PubEnc P T] (c : Config) (op : T → T → T) (vs : List T) : Cmd P T → T
  | .secret v => PubEnc.enc c v
  | .lin o i j => LinOp.den o (vs.getD i 0) (vs.getD j 0)
  | .linPublic o i v => LinOp.den o (vs.getD i 0) (PubEnc.enc c v)
  | .mulPublic i v => op (vs.getD i 0) (PubEnc.enc c v)
  | .method f i => f (vs.getD i 0)
  | .mul i j => op (vs.getD i 0) (vs.getD j 0)

/-- the values of all tensors of a program -/
def eval [AddCommGroup T] [PubEnc P T] (c : Config) (op : T → T → T) : List T → List (Cmd P T) → List T
  | vs, [] => vs
  | vs, cmd :: cs => eval c op (vs ++ [evalCmd c op vs cmd]) cs

/-- what is drawn or shown -/
inductive Kind where
  | sharing
  | product
  deriving DecidableEq

/-- what must be drawn for a statement, and what can be seen of it -/
def Cmd.kind : Cmd P T → Option Kind
  | .secret _ => some .sharing
  | .mul _ _ => some .product
  | _ => none

def Draw.kind {m : Nat} : Draw m T → Kind
  | .sharing _ => .sharing
  | .triple .. => .product

def Event.kind : Event T → Kind
  | .shared _ => .sharing
  | .product .. => .product

/-- how many parties an event shows -/
def Event.parties : Event T → Nat
  | .shared l => l.length
  | .product _ _ l => l.length

/-- the tape has what the program needs -/
def Fits {m : Nat} (prog : List (Cmd P T)) (tape : List (Draw m T)) : Prop := tape.map Draw.kind = prog.filterMap Cmd.kind

/-- the list of events has the form of what `k` parties see of the program -/
def Form (k : Nat) (prog : List (Cmd P T)) (view : List (Event T)) : Prop :=
  view.map Event.kind = prog.filterMap Cmd.kind ∧ ∀ e ∈ view, e.parties = k

/-- what is seen by all parties but `h` -/
def hide (h : Nat) : Event T → Event T
  | .shared l => .shared (l.eraseIdx h)
  | .product eps delta l => .product eps delta (l.eraseIdx h)

/-- the same statement but for the secret -/
def SameBut : Cmd P T → Cmd P T → Prop
  | .secret _, .secret _ => True
  | c, c' => c = c'

end SyMPC.Program

namespace SyMPC.Program

/-- the integer that a number stands for -/
def intOf : FixedPointEncoder.Val → ℤ
  | .int z => z
  | .long t => t.toInt
  | .float q => FixedPointEncoder.truncRat q

/-- the same programs on integers, element by element -/
def evalIntCmd {ι : Type} (vs : List (ι → ℤ)) : Cmd (ι → FixedPointEncoder.Val) (ι → I64) → ι → ℤ
  | .secret v => fun k => intOf (v k)
  | .lin o i j => LinOp.den o (vs.getD i 0) (vs.getD j 0)
  | .linPublic o i v => LinOp.den o (vs.getD i 0) fun k => intOf (v k)
  | .mulPublic i v => fun k => vs.getD i 0 k * intOf (v k)
  | .mul i j => fun k => vs.getD i 0 k * vs.getD j 0 k
  | .method _ _ => 0

/-- the integers of all tensors of a program -/
def evalInt {ι : Type} : List (ι → ℤ) → List (Cmd (ι → FixedPointEncoder.Val) (ι → I64)) → List (ι → ℤ)
  | vs, [] => vs
  | vs, cmd :: cs => evalInt (vs ++ [evalIntCmd vs cmd]) cs

/-- a statement of arithmetic -/
def Arith {ι : Type} : Cmd (ι → FixedPointEncoder.Val) (ι → I64) → Prop
  | .method _ _ => False
  | _ => True

end SyMPC.Program
