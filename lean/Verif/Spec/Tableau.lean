import Verif.Spec.Partition
import Mathlib.Algebra.BigOperators.Group.List.Defs
import Mathlib.Algebra.Ring.Defs
/-! # Specification: semistandard tableaux -/

namespace Verif.Spec

/-- Row `i` of a filling given by its rows. -/
def row (T : List (List Nat)) (i : Nat) : List Nat := T.getD i []

/-- Entry in row `i`, column `j` (0-based). -/
def entry (T : List (List Nat)) (i j : Nat) : Nat := (row T i).getD j 0

/-- `T` is a semistandard tableau of shape `l` with entries in `1..n`: one row per entry of `l`, of that
length, rows weakly increasing, columns strictly increasing. -/
def Tableau (n : Nat) (l : List Int) (T : List (List Nat)) : Prop :=
  T.length = l.length ∧ (∀ i, ((row T i).length : Int) = part l i) ∧
  (∀ i, (row T i).Pairwise (· ≤ ·)) ∧ (∀ i, ∀ e ∈ row T i, 1 ≤ e ∧ e ≤ n) ∧
  ∀ i j, j < (row T (i + 1)).length → entry T i j < entry T (i + 1) j

/-- The monomial of a tableau: the product of the variables of its entries. -/
def weight {R : Type} [CommSemiring R] (x : Nat → R) (T : List (List Nat)) : R :=
  (T.map (fun r => (r.map (fun e => x (e - 1))).prod)).prod

end Verif.Spec
