import Verif.Py.Basic
import Mathlib.Algebra.Ring.Rat
/-!
# Model of the sympy expressions used by the library

`LinearCombination.expr` (lc.py) is a sympy expression: a polynomial with rational coefficients in the
symbols `q`, `q1`, `q2` and the Schubert symbols `S[...]`.  `Poly` is such a polynomial in expanded
form: a list of terms (commutative monomial, coefficient) with different monomials and non-zero
coefficients.  `Expr` is an expression tree as it can be written by a user.

Simplification: sympy keeps unexpanded trees (`q*(a+b)`) where the model immediately
expands.  Theorem C17 (`Expr.apply` depends only on the polynomial) says that this makes no difference.
-/

namespace Verif

/-- The symbols: `sp.Symbol('q')`, `q1`, `q2` (orthogonal_grassmannian.py:303-305) and
`Schur(p).symbol()` (schur.py:76-77). -/
inductive Sym where
  | q | q1 | q2
  | S (p : List Int)
  deriving DecidableEq, Repr

/-- A list of ints that determines the symbol, used only to keep monomials sorted. -/
def Sym.code : Sym → List Int
  | .q => [0]
  | .q1 => [1]
  | .q2 => [2]
  | .S p => 3 :: p

/-- Commutative monomials: sorted lists of symbols. -/
abbrev Mono := List Sym

/-- Sorted insertion. -/
def Mono.ins (s : Sym) : Mono → Mono
  | [] => [s]
  | t :: m => if listLt t.code s.code then t :: Mono.ins s m else s :: t :: m

/-- Product of monomials. -/
def Mono.mul (a b : Mono) : Mono := a.foldr Mono.ins b

/-- Polynomials in expanded form. -/
abbrev Poly := List (Mono × Rat)

namespace Poly

/-- Collecting a term, as sympy's `Add` does: equal monomials are merged, zero terms vanish. -/
def addTerm (m : Mono) (c : Rat) : Poly → Poly
  | [] => if c = 0 then [] else [(m, c)]
  | (m', c') :: r =>
    if m = m' then (if c + c' = 0 then r else (m, c + c') :: r) else (m', c') :: addTerm m c r

/-- `a + b`. -/
def add (a b : Poly) : Poly := a.foldr (fun t acc => addTerm t.1 t.2 acc) b

/-- `c * a` for a number `c`. -/
def scale (c : Rat) (a : Poly) : Poly := if c = 0 then [] else a.map (fun t => (t.1, c * t.2))

/-- `a - b`. -/
def sub (a b : Poly) : Poly := add a (scale (-1) b)

/-- product with one term -/
def mulTerm (m : Mono) (c : Rat) (a : Poly) : Poly :=
  a.foldr (fun t acc => addTerm (Mono.mul m t.1) (c * t.2) acc) []

/-- `expand(a * b)`. -/
def mul (a b : Poly) : Poly := a.foldr (fun t acc => add (mulTerm t.1 t.2 b) acc) []

/-- a number -/
def const (c : Rat) : Poly := if c = 0 then [] else [([], c)]

/-- a symbol -/
def sym (s : Sym) : Poly := [([s], 1)]

/-- `expand(a ** n)` for a natural number `n`. -/
def pow (a : Poly) : Nat → Poly
  | 0 => const 1
  | n + 1 => mul a (pow a n)

/-- `recursive_apply` on a symbol (lc.py:139-156): Schubert symbols are replaced by `func(s.p)`,
everything else is left alone. -/
def applySym (f : List Int → Except PyErr Poly) : Sym → Except PyErr Poly
  | .S p => f p
  | s => .ok (sym s)

/-- `recursive_apply` on a product. -/
def applyMono (f : List Int → Except PyErr Poly) : Mono → Except PyErr Poly
  | [] => .ok (const 1)
  | s :: m => do
    let a ← applySym f s
    let b ← applyMono f m
    .ok (mul a b)

/-- `apply_lc(f, lc)` (qcalc.py:602-604) = `LinearCombination.apply` (lc.py:128-161) on an expanded
expression. (`LinearCombination(str(new_expr))` re-parses the text; see property C30.) -/
def apply (f : List Int → Except PyErr Poly) : Poly → Except PyErr Poly
  | [] => .ok []
  | (m, c) :: r => do
    let a ← applyMono f m
    let b ← apply f r
    .ok (add (scale c a) b)

end Poly

/-- Expression trees. `Add` and `Mul` of sympy are n-ary; here binary and nested. -/
inductive Expr where
  | num (c : Rat)
  | sym (s : Sym)
  | add (a b : Expr)
  | mul (a b : Expr)
  | pow (a : Expr) (n : Nat)
  deriving Repr

/-- `sp.expand`. -/
def Expr.expand : Expr → Poly
  | .num c => Poly.const c
  | .sym s => Poly.sym s
  | .add a b => Poly.add a.expand b.expand
  | .mul a b => Poly.mul a.expand b.expand
  | .pow a n => Poly.pow a.expand n

/-- `LinearCombination.apply` (lc.py:128-161) on an expression tree: each node rebuilds the
operation from the transformed arguments and expands it. -/
def Expr.apply (f : List Int → Except PyErr Poly) : Expr → Except PyErr Poly
  | .num c => .ok (Poly.const c)
  | .sym s => Poly.applySym f s
  | .add a b => do
    let x ← a.apply f
    let y ← b.apply f
    .ok (Poly.add x y)
  | .mul a b => do
    let x ← a.apply f
    let y ← b.apply f
    .ok (Poly.mul x y)
  | .pow a n => do
    let x ← a.apply f
    .ok (Poly.pow x n)

end Verif
