import Verif.Spec.Tableau
/-! # Specification: Littlewood-Richardson tableaux -/

namespace Verif.Spec

/-- How often the entry `i` occurs in the columns of `T` from column `c` on (columns counted from 0). -/
def colContent (T : List (List Nat)) (c i : Nat) : Nat := (T.map (fun r => (r.drop c).count i)).sum

/-- `T` is a semistandard tableau of shape `mu` with entries in `1..m` such that adding the content of the columns from `c` on
to `l` gives a non-increasing sequence, for every `c`, and adding the content of all of `T` gives `nu`. -/
def LRTableau (m : Nat) (l mu nu : List Int) (T : List (List Nat)) : Prop :=
  Tableau m mu T ∧
  (∀ c i, i + 1 < m → part l (i + 1) + colContent T c (i + 2) ≤ part l i + colContent T c (i + 1)) ∧
  ∀ i, i < m → part nu i = part l i + colContent T 0 (i + 1)

end Verif.Spec
