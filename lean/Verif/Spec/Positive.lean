import Verif.Model.Expr
/-!
# Positive expressions
-/

namespace Verif.Spec

/-- All coefficients are positive integers. -/
def PosCoeffs (w : Poly) : Prop := ∀ t ∈ w, ∃ N : Nat, 0 < N ∧ t.2 = N

end Verif.Spec
