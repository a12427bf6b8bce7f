import Verif.Model.Partition
import Mathlib.Algebra.Ring.Defs
/-!
# Model of `SchurPol` (utils/mix.py:76-128)

The result of the Python function is a sympy `Poly` over `ZZ` in `x_1, …, x_n`.  The model is
parametric in a commutative semiring `R` and the values `x : Nat → R` of the variables (`x i` is `x_{i+1}`,
as in the code's list `x`); taking `R` to be a polynomial ring gives the polynomial.

The table `S` is passed as a copy (`S.copy()`) to every recursive call and written only at the end of a call,
so no entry is ever seen by another call: every lookup finds `None`. It is left out. (For huge shapes
`np.full` runs out of memory; not modelled.)
-/

namespace Verif

/-- `__drop_trailing_zeros__` and `__make_partition__` (utils/mix.py:60-74), integer entries. -/
def makePartition (l : List Int) : Except PyErr (List Int) :=
  let mu := partClip l
  if !(isNonIncreasing (mu ++ [0])) then .error .valueError else .ok mu

variable {R : Type} [CommSemiring R]

/-- The `while` loop of `sch` (utils/mix.py:116-124) with `c` more rows, row number `i` (1-based) and
partial sum `s`; `g` is the recursive call of `sch`. -/
def schLoop (x : Nat → R) (g : Nat → Nat → List Int → Option R) (m : Nat) (nu : List Int) :
    Nat → Nat → R → Option R
  | 0, _, s => some s
  | c + 1, i, s =>
    if at' nu (i - 1) > 0 then
      if nu.length = i ∨ at' nu (i - 1) > at' nu i then
        let nu' := nu.set (i - 1) (at' nu (i - 1) - 1)
        match (if at' nu (i - 1) > 1 then g m i nu' else g (m - 1) 1 nu') with
        | none => none
        | some t => schLoop x g m nu c (i + 1) (s + x (m - 1) * t)
      else schLoop x g m nu c (i + 1) s
    else some s

/-- `sch(S, m, k, nu)` (utils/mix.py:103-127); the first argument bounds the recursion depth. -/
def sch (x : Nat → R) : Nat → Nat → Nat → List Int → Option R
  | 0, _, _, _ => none
  | f + 1, m, k, nu =>
    if nu.length = 0 ∨ at' nu 0 = 0 ∨ m = 0 then some 1
    else if nu.length > m ∧ at' nu m > 0 then some 0
    else if m = 1 then some (x 0 ^ (at' nu 0).toNat)
    else
      match sch x f (m - 1) 1 nu with
      | none => none
      | some s => schLoop x (sch x f) m nu (nu.length + 1 - k) k s

/-- `SchurPol(n, kappa)` (utils/mix.py:76-128). -/
def schurPol (x : Nat → R) (n : Int) (kappa : List Int) : Except PyErr R :=
  if n < 1 then .error .valueError
  else match makePartition kappa with
    | .error e => .error e
    | .ok mu =>
      match sch x (n.toNat + mu.sum.toNat + 1) n.toNat 1 mu with
      | none => .error .outOfFuel
      | some v => .ok v

end Verif
