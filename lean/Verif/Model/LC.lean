import Verif.Model.Expr
/-!
# Model of the arithmetic of `LinearCombination` (lc.py:40-84)

`a - b` of sympy is `a + (-1)*b`.
-/

namespace Verif.LC

/-- The right operand of an arithmetic operator, by the cases the code distinguishes: a
`LinearCombination`, an `int`/`float`/`Number`, another `sp.Expr`, or anything else (e.g. a `Schur`). -/
inductive Operand where
  | lc (e : Expr)
  | num (c : Rat)
  | expr (e : Expr)
  | other

/-- The result is a `LinearCombination` or a bare sympy expression. -/
inductive Res where
  | lc (e : Expr)
  | raw (e : Expr)

/-- `a - b` in sympy. -/
def minus (a b : Expr) : Expr := .add a (.mul (.num (-1)) b)

/-- `LinearCombination.__add__` (lc.py:40-45). -/
def add (a : Expr) : Operand → Except PyErr Res
  | .lc b => .ok (.lc (.add a b))
  | .num c => .ok (.lc (.add a (.num c)))
  | .expr b => .ok (.lc (.add a b))
  | .other => .error .valueError

/-- `__radd__ = __add__` (lc.py:47). -/
def radd (a : Expr) : Operand → Except PyErr Res := add a

/-- `LinearCombination.__mul__` (lc.py:49-56). -/
def mul (a : Expr) : Operand → Except PyErr Res
  | .lc b => .ok (.lc (.mul a b))
  | .num c => .ok (.lc (.mul a (.num c)))
  | .expr b => .ok (.lc (.mul a b))
  | .other => .error .typeError

/-- `__rmul__ = __mul__` (lc.py:58). -/
def rmul (a : Expr) : Operand → Except PyErr Res := mul a

/-- `LinearCombination.__pow__` (lc.py:61-66) with a natural number as exponent. -/
def pow (a : Expr) (n : Nat) : Except PyErr Res := .ok (.lc (.pow a n))

/-- `LinearCombination.__sub__` (lc.py:69-77): only `lc - lc` returns a `LinearCombination`. -/
def sub (a : Expr) : Operand → Except PyErr Res
  | .num c => .ok (.raw (minus a (.num c)))
  | .expr b => .ok (.raw (minus a b))
  | .lc b => .ok (.lc (minus a b))
  | .other => .error .typeError

/-- `LinearCombination.__rsub__` (lc.py:79-86): `other - self`. -/
def rsub (a : Expr) : Operand → Except PyErr Res
  | .num c => .ok (.raw (minus (.num c) a))
  | .expr b => .ok (.raw (minus b a))
  | .lc b => .ok (.lc (minus b a))
  | .other => .error .typeError

end Verif.LC
