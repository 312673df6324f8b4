import Verif.Model.Py
import Mathlib.Algebra.BigOperators.Group.Finset.Basic
import Mathlib.Algebra.Order.Floor.Semiring
import Mathlib.Algebra.Order.Round
import Mathlib.Data.Fintype.BigOperators
import Mathlib.Data.Rat.Floor
import Mathlib.Tactic.Linarith

/-!
# Names and Python operators of secret tensors

`MPCTensor.__getattribute__`, `wrapper_getattribute`, the table of operators and the methods behind it,
`src/sympc/tensor/mpc_tensor.py:46-71, 406-472, 552-652, 897-926, 1069-1186`; `forward`,
`src/sympc/grads/grad_functions.py:766-795`.

This part of the model says which function a Python expression runs, on which operands and in which order, and whether the
result takes part in training (`requires_grad`).  Simplified: tensors are square matrices of one size, numbers stand for
matrices with equal elements, and the methods compute without rounding and without overflow: how far the shares of a result are
from these numbers is the subject of the other models (`Share`, `Spdz`, `Shape`, `ShapeFixed`, `Machine`).
-/

namespace SyMPC.Operators

/-! ## names -/

/-- `GRAD_FUNCS`, `grad_functions.py:798-813` -/
def gradFuncs : List String :=
  ["t", "mul", "pow", "matmul", "sub", "add", "sum", "truediv", "sigmoid", "flatten", "conv2d", "reshape", "relu",
    "max_pool2d"]

/-- `STATIC_FUNCS`, `static.py:322-327` -/
def staticFuncs : List String := ["argmax", "max", "stack", "cat"]

/-- `APPROXIMATIONS`, `approximations/__init__.py:8-14` -/
def approximations : List String := ["sigmoid", "log", "exp", "reciprocal", "sign"]

/-- What the class and its instances define themselves: the slots (`mpc_tensor.py:98-111`), the functions of the class body and
what the metaclass adds (`mpc_tensor.py:114-129`, `tensor.py:35-51`).  Names with underscores are left out. -/
def ownNames : List String :=
  ["share_ptrs", "session", "shape", "grad", "requires_grad", "grad_fn", "ctx", "parents", "nr_out_edges"]
  ++ ["sanity_checks", "generate_przs", "generate_shares", "reconstruct", "get", "get_shares", "add", "isub", "sub", "rsub", "mul",
    "matmul", "conv2d", "conv_transpose2d", "rmatmul", "rtruediv", "truediv", "pow", "truncate", "backward", "hook_property",
    "hook_method", "le", "ge", "lt", "gt", "eq", "ne", "xor"]
  ++ ["numel", "t", "squeeze", "unsqueeze", "view", "sum", "clone", "flatten", "reshape", "repeat", "narrow", "dim", "transpose"]
  ++ ["T"]

/-- What a name of a secret tensor stands for. -/
inductive Target where
  /-- `functools.partial(forward, self, grad_fn)` -/
  | recorded (name : String)
  /-- a function of `static.py` with the tensor as first argument -/
  | static (name : String)
  /-- an approximation with the tensor as first argument -/
  | approximation (name : String)
  /-- the attribute of the object -/
  | own (name : String)
  deriving DecidableEq, Repr

/-- `__getattribute__`, `mpc_tensor.py:897-926` -/
def getattribute (active : Bool) (name : String) : Py Target :=
  if name ∈ gradFuncs ∧ active then .ok (.recorded name)
  else if name ∈ staticFuncs then .ok (.static name)
  else if name ∈ approximations then .ok (.approximation name)
  else if name ∈ ownNames then .ok (.own name)
  else .error .attributeError

/-! ## operators -/

/-- The binary operators of Python. -/
inductive BinOp where
  | add | sub | mul | matmul | truediv | floordiv | mod | pow | lshift | rshift | and | or | xor
  | le | ge | lt | gt | eq | ne
  deriving DecidableEq, Repr

/-- The functions of the class that operators run. -/
inductive Method where
  | add | sub | rsub | isub | mul | matmul | rmatmul | truediv | rtruediv | pow | le | ge | lt | gt | eq | ne | xor
  deriving DecidableEq, Repr

/-- `func.__name__`, `mpc_tensor.py:68` -/
def Method.name : Method → String
  | .add => "add" | .sub => "sub" | .rsub => "rsub" | .isub => "isub" | .mul => "mul" | .matmul => "matmul"
  | .rmatmul => "rmatmul" | .truediv => "truediv" | .rtruediv => "rtruediv" | .pow => "pow" | .le => "le" | .ge => "ge"
  | .lt => "lt" | .gt => "gt" | .eq => "eq" | .ne => "ne" | .xor => "xor"

/-- `__add__ = wrapper_getattribute(add)` and so on, `mpc_tensor.py:1168-1186`: the function behind `x ⊕ y` for a secret `x`.
There are no `__floordiv__`, `__mod__`, `__lshift__`, `__rshift__`, `__and__`, `__or__`. -/
def dunder : BinOp → Option Method
  | .add => some .add
  | .sub => some .sub
  | .mul => some .mul
  | .matmul => some .matmul
  | .truediv => some .truediv
  | .pow => some .pow
  | .xor => some .xor
  | .le => some .le
  | .ge => some .ge
  | .lt => some .lt
  | .gt => some .gt
  | .eq => some .eq
  | .ne => some .ne
  | .floordiv | .mod | .lshift | .rshift | .and | .or => none

/-- `__radd__`, `__rsub__`, `__rmul__`, `__rmatmul__`, `__rtruediv__`, `mpc_tensor.py:1168-1186`: the function behind `y ⊕ x` for a
secret `x` and a public `y`.  The reflections of `<=`, `<`, `==` and so on are Python's. -/
def reflected : BinOp → Option Method
  | .add => some .add
  | .sub => some .rsub
  | .mul => some .mul
  | .matmul => some .rmatmul
  | .truediv => some .rtruediv
  | .le => dunder .ge
  | .ge => dunder .le
  | .lt => dunder .gt
  | .gt => dunder .lt
  | .eq => dunder .eq
  | .ne => dunder .ne
  | .floordiv | .mod | .pow | .lshift | .rshift | .and | .or | .xor => none

/-- square matrices -/
abbrev Mat (n : Nat) := Fin n → Fin n → ℚ

variable {n : Nat}

/-- The values of expressions. -/
inductive Val (n : Nat) where
  /-- an `MPCTensor` with its value and its attribute `requires_grad` -/
  | secret (v : Mat n) (requires : Bool)
  | int (k : Int)
  | float (q : ℚ)
  /-- a public `LongTensor` -/
  | long (m : Fin n → Fin n → Int)
  /-- a public tensor of another type -/
  | floats (m : Mat n)

/-- the elements of a value -/
def Val.mat : Val n → Mat n
  | .secret v _ => v
  | .int k => fun _ _ => k
  | .float q => fun _ _ => q
  | .long m => fun i j => m i j
  | .floats m => m

/-- `requires_grad`; public values have no such attribute and are not among the parents, `grad_functions.py:780-781` -/
def Val.requires : Val n → Bool
  | .secret _ r => r
  | _ => false

/-- What the operators need to know of the session. -/
structure Ctx (n : Nat) where
  /-- `session.autograd_active` -/
  active : Bool
  /-- `fp_encoder.decode(1)`, `mpc_tensor.py:1106-1110` -/
  unit : ℚ
  /-- `APPROXIMATIONS["reciprocal"]` on one element -/
  recip : ℚ → ℚ
  /-- `len(session.session_ptrs)` -/
  parties : Nat
  /-- whether the protocol of the session has the functions `le` and `eq` (`FSS` does, `Falcon` and `ABY3` do not) -/
  compares : Bool
  /-- `__apply_op(y, "xor")` -/
  xorOp : Mat n → Mat n → Py (Mat n)
  /-- operators between public values -/
  python : BinOp → Val n → Val n → Py (Val n)

/-- the matrix product -/
def matProd (x y : Mat n) : Mat n := fun i j => ∑ k, x i k * y k j

/-- `x * y` for a secret `x` (also `y * x` for a public `y`): `mul` (`mpc_tensor.py:452-461`), through `forward` if gradients are
recorded.  Used in the bodies of other functions. -/
def star (C : Ctx n) (x : Mat n) (rx : Bool) (y : Val n) : Val n :=
  .secret (fun i j => x i j * y.mat i j) (C.active && (rx || y.requires))

/-- `reciprocal(x)`, `reciprocal.py:9-42`.  It multiplies with `sign(x) * x`, which is recorded (`approximations/utils.py:16-26`), so
`requires_grad` is that of `x` if gradients are recorded. -/
def reciprocal (C : Ctx n) (x : Mat n) (rx : Bool) : Mat n × Bool := (fun i j => C.recip (x i j), C.active && rx)

/-- One round of the loop of `pow`, `mpc_tensor.py:645-651`, and the rounds after it.  `none` is the number 1 that `result` starts
with.  The power may be a `float`: `power % 2 == 1` and `power // 2` are those of Python. -/
def powLoop (power : ℚ) (result : Option (Mat n)) (base : Mat n) : Option (Mat n) :=
  if _h : power > 0 then
    let result' := if power - 2 * (⌊power / 2⌋ : ℚ) = 1 then
        some (match result with | none => fun i j => base i j * 1 | some r => fun i j => r i j * base i j)
      else result
    powLoop (⌊power / 2⌋ : ℚ) result' fun i j => base i j * base i j
  else result
termination_by ⌈power⌉₊
decreasing_by
  have h1 : ((⌊power / 2⌋ : ℤ) : ℚ) ≤ power / 2 := Int.floor_le _
  have h0 : 0 ≤ ⌊power / 2⌋ := Int.floor_nonneg.2 (by linarith)
  rw [Nat.lt_ceil]
  have : (⌈((⌊power / 2⌋ : ℤ) : ℚ)⌉₊ : ℚ) = (⌊power / 2⌋ : ℤ) := by
    obtain ⟨k, hk⟩ := Int.eq_ofNat_of_zero_le h0
    rw [hk]; simp
  rw [this]; linarith

/-- the end of `pow`: `none` is the number 1 -/
def powResult : Option (Mat n) → Val n
  | none => .int 1
  | some r => .secret r false

/-- The functions of the class, executed as written.  Names are those of `mpc_tensor.py`; `x` is the receiver and `y` the argument.
A result made from shares has `requires_grad=False` (`mpc_tensor.py:131-138`). -/
def body (C : Ctx n) : Method → Mat n → Bool → Val n → Py (Val n)
  -- 406-415
  | .add, x, _, y => .ok (.secret (fun i j => x i j + y.mat i j) false)
  -- 430-439
  | .sub, x, _, y => .ok (.secret (fun i j => x i j - y.mat i j) false)
  -- 417-428; see `augmented`
  | .isub, x, rx, y => .ok (.secret (fun i j => x i j - y.mat i j) rx)
  -- 441-450
  | .rsub, x, _, y => .ok (star C (fun i j => x i j - y.mat i j) false (.int (-1)))
  -- 452-461
  | .mul, x, _, y => .ok (.secret (fun i j => x i j * y.mat i j) false)
  -- 463-472
  | .matmul, x, _, y => .ok (.secret (matProd x y.mat) false)
  -- 552-577
  | .rmatmul, x, _, y => .ok (.secret (matProd y.mat x) false)
  -- 579-589
  | .rtruediv, x, rx, y => let r := reciprocal C x rx; .ok (star C r.1 r.2 y)
  -- 591-619 with `public_divide` (`spdz.py:181-228`) and `div` (`share_tensor.py:312-332`)
  | .truediv, x, rx, y =>
    match y with
    | .secret w rw =>
      if C.parties > 2 then .error .valueError
      else let r := reciprocal C w rw; .ok (star C x rx (.secret r.1 r.2))
    | .int k => if k = 0 then .error .runtimeError else .ok (.secret (fun i j => x i j / k) false)
    | .long m => if ∃ i j, m i j = 0 then .error .runtimeError else .ok (.secret (fun i j => x i j / m i j) false)
    | .float _ | .floats _ => .error .valueError
  -- 621-652.  `power < 0` is a secret tensor if `power` is one, and its truth value is `len(self) != 0`; the truth value of a
  -- public tensor with several elements is an error (simplified: tensors with one or no element are not powers here).
  | .pow, x, _, y =>
    match y with
    | .int k => if k < 0 then .error .runtimeError else .ok (powResult (powLoop k none x))
    | .float q => if q < 0 then .error .runtimeError else .ok (powResult (powLoop q none x))
    | .secret _ _ => if n = 0 then .ok (.int 1) else .error .runtimeError
    | .long _ | .floats _ => .error .runtimeError
  -- 1069-1080
  | .le, x, _, y =>
    if C.compares then .ok (.secret (fun i j => if x i j ≤ y.mat i j then 1 else 0) false) else .error .attributeError
  -- 1082-1093
  | .ge, x, _, y =>
    if C.compares then .ok (.secret (fun i j => if y.mat i j ≤ x i j then 1 else 0) false) else .error .attributeError
  -- 1095-1111
  | .lt, x, _, y =>
    if C.compares then .ok (.secret (fun i j => if x i j + C.unit ≤ y.mat i j then 1 else 0) false) else .error .attributeError
  -- 1113-1130
  | .gt, x, _, y =>
    if C.compares then .ok (.secret (fun i j => if y.mat i j + C.unit ≤ x i j then 1 else 0) false) else .error .attributeError
  -- 1132-1143
  | .eq, x, _, y =>
    if C.compares then .ok (.secret (fun i j => if x i j = y.mat i j then 1 else 0) false) else .error .attributeError
  -- 1145-1155: `1 - self.eq(other)` runs `rsub`
  | .ne, x, _, y =>
    if C.compares then
      .ok (star C (fun i j => (if x i j = y.mat i j then 1 else 0) - 1) false (.int (-1)))
    else .error .attributeError
  -- 1157-1166
  | .xor, x, _, y => do .ok (.secret (← C.xorOp x y.mat) false)

/-- `forward`, `grad_functions.py:766-795`: the function is executed with recording switched off (`GradAdd.forward` and the like),
then `requires_grad` is set.  `GradPow.forward` insists on an integer (`grad_functions.py:337-340`); a result that is a Python
number has no attribute `requires_grad`. -/
def forward (C : Ctx n) (m : Method) (x : Mat n) (rx : Bool) (y : Val n) : Py (Val n) := do
  if m = .pow then
    match y with
    | .int _ => pure ()
    | _ => throw .typeError
  match ← body { C with active := false } m x rx y with
  | .secret v _ => return .secret v (rx || y.requires)
  | _ => throw .attributeError

/-- `wrapper_func`, `mpc_tensor.py:56-69`: the name of the function is looked up with `getattr`, and what is found is called. -/
def wrapper (C : Ctx n) (m : Method) (x : Mat n) (rx : Bool) (y : Val n) : Py (Val n) := do
  match ← getattribute C.active m.name with
  | .recorded _ => forward C m x rx y
  | _ => body C m x rx y

/-- A binary operator, by Python's rules: the method of the left operand, then the reflected method of the right one.  Numbers and
torch tensors answer `NotImplemented` for an `MPCTensor` (trusted). -/
def binary (C : Ctx n) (op : BinOp) (a b : Val n) : Py (Val n) :=
  match a, b with
  | .secret x rx, _ =>
    match dunder op with
    | some m => wrapper C m x rx b
    | none => .error .typeError
  | _, .secret x rx =>
    match reflected op with
    | some m => wrapper C m x rx a
    | none => .error .typeError
  | _, _ => C.python op a b

/-- Expressions over secret and public values.  `-x` is `neg`. -/
inductive Expr (n : Nat) where
  | const (v : Val n)
  | bin (op : BinOp) (a b : Expr n)
  | neg (a : Expr n)

/-- Evaluation.  There is no `__neg__` in the class. -/
def Expr.eval (C : Ctx n) : Expr n → Py (Val n)
  | .const v => .ok v
  | .bin op a b => do
    let x ← a.eval C
    let y ← b.eval C
    binary C op x y
  | .neg a => do
    match ← a.eval C with
    | .secret _ _ => throw .typeError
    | .int k => return .int (-k)
    | .float q => return .float (-q)
    | .long m => return .long fun i j => -m i j
    | .floats m => return .floats fun i j => -m i j

/-! ## names bound to tensors -/

/-- The variables of a program that are bound to secret tensors, and the tensors. -/
structure Store (n : Nat) where
  /-- the object a variable is bound to -/
  object : Nat → Nat
  /-- value and `requires_grad` of the objects -/
  content : Nat → Mat n × Bool
  /-- the number of objects -/
  size : Nat

/-- Statements. -/
inductive Stmt (n : Nat) where
  /-- `x = y` -/
  | alias (x y : Nat)
  /-- `x ⊕= y` with the value of the right side -/
  | augmented (op : BinOp) (x : Nat) (y : Val n)

/-- `__isub__ = wrapper_getattribute(isub)`, `mpc_tensor.py:1171`, is the only operator of this kind; the others run the binary
operator and bind the variable to the result.  `isub` changes the shares of the object and returns the object
(`mpc_tensor.py:417-428`).  Simplified: a statement that binds the variable to a Python number (`x **= 0`) ends the program. -/
def Stmt.exec (C : Ctx n) (s : Store n) : Stmt n → Py (Store n)
  | .alias x y => .ok { s with object := fun v => if v = x then s.object y else s.object v }
  | .augmented op x y => do
    let o := s.object x
    let c := s.content o
    if op = .sub then
      match ← wrapper C .isub c.1 c.2 y with
      | .secret v r => return { s with content := fun p => if p = o then (v, r) else s.content p }
      | _ => throw .typeError
    else
      match ← binary C op (.secret c.1 c.2) y with
      | .secret v r => return { object := fun w => if w = x then s.size else s.object w,
                                content := fun p => if p = s.size then (v, r) else s.content p, size := s.size + 1 }
      | _ => throw .typeError

end SyMPC.Operators
