import Mathlib.Algebra.Polynomial.Basic
import Mathlib.Algebra.Polynomial.Coeff
import Mathlib.Algebra.Field.Defs
import Mathlib.Algebra.Ring.Int.Units
/-!
# The points of the quantum rings of the maximal isotropic Grassmannians at `q = 1`
-/

namespace Verif.Spec
variable {K : Type*} [Field K]

/-- `e_p` is the elementary symmetric function of degree `p` of `y_1, ..., y_N`. -/
noncomputable def eSeq {N : ℕ} (y : Fin N → K) (p : ℕ) : K := (∏ j, (1 + Polynomial.C (y j) * Polynomial.X)).coeff p

/-- Change the signs of the `y_j`. -/
def withSigns {N : ℕ} (s : Fin N → ℤˣ) (y : Fin N → K) : Fin N → K := fun j => ((s j : ℤ) : K) * y j

/-- `y_1, ..., y_{n+1}` for `IG(n, 2n)`: the squares are the `n+1` different solutions of `4 u^(n+1) = (-1)^n`, the product is `1/2`. -/
structure LGRoots (n : ℕ) (y : Fin (n + 1) → K) : Prop where
  pow : ∀ j, 4 * (y j ^ 2) ^ (n + 1) = (-1) ^ n
  inj : Function.Injective (fun j => y j ^ 2)
  prod : 2 * ∏ j, y j = 1

/-- `y_1, ..., y_n` for `OG(n, 2n+1)`: the squares are the `n` different solutions of `u^n = - 4 (-1)^n`. -/
structure OGRoots (n : ℕ) (y : Fin n → K) : Prop where
  pow : ∀ j, (y j ^ 2) ^ n = -(4 * (-1) ^ n)
  inj : Function.Injective (fun j => y j ^ 2)

end Verif.Spec
