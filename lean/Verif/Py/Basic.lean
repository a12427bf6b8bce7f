/-!
# Python semantics used by the model

Python's `int` is `Int`, a Python list of ints is `List Int`.  Exceptions are values.
-/

namespace Verif

/-- The exceptions the modelled code can raise. -/
inductive PyErr where
  | valueError
  | typeError
  | indexError
  | zeroDivisionError
  | nameError
  /-- Not a Python exception: the model's recursion bound was reached (a loop that does not end
  within the bound). Theorems that give a value show that this does not happen. -/
  | outOfFuel
  deriving DecidableEq, Repr

/-- `l[i]` for an index that Python would accept; out of range (where Python raises
`IndexError`) it is `0`.  Every use says why the index is in range, or the property covers it. -/
def at' (l : List Int) (i : Nat) : Int := l.getD i 0

/-- `l[-1]` (Python raises `IndexError` on the empty list; here `0`). -/
def last' (l : List Int) : Int := l.getLastD 0

/-- `[x] * c`: empty when `c ≤ 0`. -/
def rep (x : Int) (c : Int) : List Int := List.replicate c.toNat x

/-- `range(a, b)` for integers. -/
def pyRange (a b : Int) : List Int := (List.range (b - a).toNat).map (fun i => a + Int.ofNat i)

/-- Python's list comparison `a < b` (lexicographic, a proper prefix is smaller). -/
def listLt : List Int → List Int → Bool
  | [], [] => false
  | [], _ :: _ => true
  | _ :: _, [] => false
  | a :: as, b :: bs => if a < b then true else if b < a then false else listLt as bs

end Verif
