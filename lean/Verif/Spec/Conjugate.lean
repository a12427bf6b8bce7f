import Verif.Spec.Partition
/-! # Specification: the transpose of a diagram -/

namespace Verif.Spec

/-- `c` is the conjugate of `l`: its `j`-th part (0-based) is the number of parts of `l` that are
at least `j + 1`, i.e. the height of column `j` of the diagram. -/
def IsConjugate (l c : List Int) : Prop :=
  ∀ j : Nat, part c j = (l.countP (fun x => decide ((j : Int) + 1 ≤ x)) : Nat)

end Verif.Spec
