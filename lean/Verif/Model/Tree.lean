import Verif.Model.Expr
import Verif.Model.Partition
import Mathlib.Data.List.Dedup
/-!
# Model of the inspection functions of `LinearCombination` (lc.py:89-121, 187-236)

They look at the shape of the sympy expression: numbers, symbols, n-ary `Add` and `Mul`, and `Pow` with the two
arguments base and exponent.  Other kinds of sympy expressions do not occur in results of the library and are left
out.  The functions on trees and on lists of trees (`expr.args`) are defined together.
-/

namespace Verif

/-- A sympy expression. -/
inductive Tree where
  | num (c : Rat)
  | sym (s : Sym)
  | add (args : List Tree)
  | mul (args : List Tree)
  | pow (base exp : Tree)

namespace Tree

/-- `isinstance(expr, sp.Number)` -/
def isNumber : Tree → Bool
  | .num _ => true
  | _ => false

/-- `isSchur(expr)` (schur.py:175-176): the names of `q`, `q1`, `q2` do not start with `S`. -/
def isSchur : Tree → Bool
  | .sym (.S _) => true
  | _ => false

/-- `LinearCombination.__len__` (lc.py:89-99). -/
def len : Tree → Nat
  | .add l => l.length
  | .mul l => l.length
  | _ => 1

/-- `LinearCombination.is_operator` (lc.py:101-109); the operator is a character. -/
def isOperator (op : Char) : Tree → Except PyErr Bool
  | t =>
    if op = '+' then .ok (match t with | .add _ => true | _ => false)
    else if op = '*' then .ok (match t with | .mul _ => true | _ => false)
    else if op = '^' then .ok (match t with | .pow _ _ => true | _ => false)
    else .error .valueError

/-- What `list_schur_oprands` returns: `None`, a `Schur`, or a list of such values. -/
inductive Ops where
  | none
  | schur (p : List Int)
  | list (l : List Ops)

mutual
/-- `recursive_list` (lc.py:113-118). -/
def ops : Tree → Ops
  | .add l => .list (opsL l)
  | .mul l => .list (opsL l)
  | .pow b e => .list [ops b, ops e]
  | .sym (.S p) => .schur p
  | .sym _ => .none
  | .num _ => .none
/-- on `expr.args` -/
def opsL : List Tree → List Ops
  | [] => []
  | t :: r => ops t :: opsL r
end

mutual
/-- `recursive_has_part_zero_padding` (lc.py:191-196) with `Schur.has_part_zero_padding` (schur.py:82-83). -/
def zeroPadded : Tree → Bool
  | .add l => zeroPaddedL l
  | .mul l => zeroPaddedL l
  | .pow b e => zeroPadded b || zeroPadded e
  | .sym (.S p) => decide (partClip p ≠ p)
  | .sym _ => false
  | .num _ => false
/-- `any(... for arg in _expr.args)` -/
def zeroPaddedL : List Tree → Bool
  | [] => false
  | t :: r => zeroPadded t || zeroPaddedL r
end

mutual
/-- `is_linear` (lc.py:207-233), i.e. `LinearCombination.is_valid`. -/
def isLinear : Tree → Bool
  | .num _ => true
  | .sym _ => true
  | .add l => isLinearL l
  | .mul l => if (l.filter isNumber).length = 1 ∧ l.length = 2 then isLinearNN l else false
  | .pow b e =>
    match e with
    | .num c => if c = 1 then isLinear b else false
    | _ => false
/-- `all(is_linear(arg) for arg in expr.args)` -/
def isLinearL : List Tree → Bool
  | [] => true
  | t :: r => isLinear t && isLinearL r
/-- `all(is_linear(arg) for arg in expr.args if not isinstance(arg, sp.Number))` -/
def isLinearNN : List Tree → Bool
  | [] => true
  | t :: r => (isNumber t || isLinear t) && isLinearNN r
end

/-- The symbols of a monomial with their exponents, as arguments of a sympy product. -/
def ofMono (m : Mono) : List Tree :=
  m.dedup.map (fun s => if m.count s = 1 then .sym s else .pow (.sym s) (.num (m.count s)))

/-- sympy's `Mul(*args)` of arguments that need no simplification: a single argument is returned as it is. -/
def mulOf : List Tree → Tree
  | [] => .num 1
  | [t] => t
  | l => .mul l

/-- The term `c*m` of an expanded expression; the coefficient 1 is not written. -/
def ofTerm (t : Mono × Rat) : Tree := mulOf (if t.2 = 1 then ofMono t.1 else .num t.2 :: ofMono t.1)

/-- The sympy expression of an expanded polynomial (up to the order of the arguments, on which none of the
functions above depends except for the order of `ops`). -/
def ofPoly : Poly → Tree
  | [] => .num 0
  | [t] => ofTerm t
  | ts => .add (ts.map ofTerm)

end Tree

end Verif
