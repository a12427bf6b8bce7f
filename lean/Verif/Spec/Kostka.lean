import Verif.Spec.Tableau
/-! # Specification: content of a tableau -/

namespace Verif.Spec

/-- The filling `T` contains the number `i + 1` exactly `a_i` times, for every `i`. -/
def Content (T : List (List Nat)) (a : List Nat) : Prop := ∀ i, T.flatten.count (i + 1) = a.getD i 0

end Verif.Spec
