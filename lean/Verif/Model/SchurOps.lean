import Verif.Model.LC
import Verif.Model.Ring
/-!
# Model of Python's `+`, `*`, `-`, `**` on `Schur` objects, linear combinations, numbers and sympy expressions

`Schur.__add__`, `__mul__`, `__pow__` (schur.py:45-74) together with `LinearCombination.__add__`, ... (Model/LC)
and the rules by which Python chooses between the method of the left and the reflected method of the right operand.
sympy's own operators return `NotImplemented` for objects that sympy cannot convert, so a sympy expression on the
left leaves the work to the right operand.  Numbers and sympy expressions among themselves are left to sympy.

Simplification: the expressions are those held by sympy after its automatic evaluation; `bool(expr)` is then false
exactly for the number zero.
-/

namespace Verif.Op

/-- The objects. `other`: an object without arithmetic and without an attribute `expr`, such as a list or `None`. -/
inductive Val where
  | num (c : Rat)
  | expr (e : Expr)
  | schur (p : List Int)
  | lc (e : Expr)
  | other

/-- The exceptions. -/
inductive Err where
  | valueError
  | typeError
  | attributeError
  deriving DecidableEq, Repr

/-- `bool(other.expr)` -/
def truthy : Expr → Bool
  | .num c => decide (c ≠ 0)
  | _ => true

/-- The operand as `LinearCombination.__add__` etc. see it. -/
def toOperand : Val → LC.Operand
  | .num c => .num c
  | .expr e => .expr e
  | .lc e => .lc e
  | .schur _ => .other
  | .other => .other

/-- Results and exceptions of the methods of `LinearCombination`. -/
def ofRes : Except PyErr LC.Res → Except Err Val
  | .ok (.lc e) => .ok (.lc e)
  | .ok (.raw e) => .ok (.expr e)
  | .error .typeError => .error .typeError
  | .error _ => .error .valueError

/-- `Schur.__add__` (schur.py:45-52) and `__mul__` (schur.py:56-63), for sympy's operation `op`. -/
def schurOp (op : Expr → Expr → Expr) (p : List Int) : Val → Except Err Val
  | .schur p' => .ok (.expr (op (.sym (.S p)) (.sym (.S p'))))
  | .num c => .ok (.expr (op (.sym (.S p)) (.num c)))
  | .expr e => .ok (.expr (op (.sym (.S p)) e))
  | .lc e => if truthy e then .ok (.expr (op (.sym (.S p)) e)) else .error .valueError
  | .other => .error .attributeError

/-- `a + b`. -/
def plus : Val → Val → Except Err Val
  | .lc a, b => ofRes (LC.add a (toOperand b))
  | .schur p, b => schurOp .add p b
  | a, .lc b => ofRes (LC.radd b (toOperand a))
  | a, .schur p => schurOp .add p a
  | .num a, .num b => .ok (.num (a + b))
  | .num a, .expr b => .ok (.expr (.add (.num a) b))
  | .expr a, .num b => .ok (.expr (.add a (.num b)))
  | .expr a, .expr b => .ok (.expr (.add a b))
  | _, _ => .error .typeError

/-- `a * b`. -/
def times : Val → Val → Except Err Val
  | .lc a, b => ofRes (LC.mul a (toOperand b))
  | .schur p, b => schurOp .mul p b
  | a, .lc b => ofRes (LC.rmul b (toOperand a))
  | a, .schur p => schurOp .mul p a
  | .num a, .num b => .ok (.num (a * b))
  | .num a, .expr b => .ok (.expr (.mul (.num a) b))
  | .expr a, .num b => .ok (.expr (.mul a (.num b)))
  | .expr a, .expr b => .ok (.expr (.mul a b))
  | _, _ => .error .typeError

/-- `a - b`: `Schur` has no `__sub__` and no `__rsub__`. -/
def minus : Val → Val → Except Err Val
  | .lc a, b => ofRes (LC.sub a (toOperand b))
  | a, .lc b => ofRes (LC.rsub b (toOperand a))
  | .num a, .num b => .ok (.num (a - b))
  | .num a, .expr b => .ok (.expr (LC.minus (.num a) b))
  | .expr a, .num b => .ok (.expr (LC.minus a (.num b)))
  | .expr a, .expr b => .ok (.expr (LC.minus a b))
  | _, _ => .error .typeError

/-- `a ** n` for a natural number `n` (schur.py:67-74, lc.py:61-66). -/
def power : Val → Nat → Except Err Val
  | .lc a, n => ofRes (LC.pow a n)
  | .schur p, n => .ok (.expr (.pow (.sym (.S p)) n))
  | .num a, n => .ok (.num (a ^ n))
  | .expr a, n => .ok (.expr (.pow a n))
  | .other, _ => .error .typeError

end Verif.Op
