import Verif.Model.Expr
import Mathlib.Algebra.Algebra.Defs
import Mathlib.Data.Rat.Defs
/-! # Specification: the value of an expanded expression at given values of the symbols -/

namespace Verif.Spec

/-- Put `f s` for every symbol `s`. -/
def valueAt {R : Type} [CommSemiring R] [Algebra ℚ R] (f : Sym → R) (p : Poly) : R :=
  (p.map (fun t => algebraMap ℚ R t.2 * (t.1.map f).prod)).sum

end Verif.Spec
