import Mathlib.LinearAlgebra.Matrix.Determinant.Basic
import Mathlib.Data.Nat.Factorial.Basic
import Mathlib.Data.Rat.Defs
import Mathlib.Data.Fintype.Perm
import Mathlib.Algebra.Order.Ring.Unbundled.Rat
import Mathlib.Order.Interval.Finset.Fin
import Verif.Spec.Partition
/-!
# Numbers of standard tableaux
-/

namespace Verif.Spec
open scoped Nat

/-- `1/z!`, zero for negative `z`. -/
def invFact (z : ℤ) : ℚ := if z < 0 then 0 else 1 / (z.toNat ! : ℚ)

/-- Aitken's determinant for the number of standard tableaux of shape `lam / mu` with at most `m` rows. -/
def aitken (m : ℕ) (lam mu : List Int) : ℚ :=
  ((lam.sum - mu.sum).toNat ! : ℚ) * (Matrix.of fun i j : Fin m => invFact (part lam i - part mu j - (i.val : ℤ) + (j.val : ℤ))).det

/-- The number of standard tableaux of shape `lam` with at most `m` rows: `|lam|! * ∏ (l_i - l_j) / ∏ l_i!` with
`l_i = lam_i + m - 1 - i`. -/
def stdCount (m : ℕ) (lam : List Int) : ℚ :=
  (lam.sum.toNat ! : ℚ) * (∏ i : Fin m, ∏ j ∈ Finset.Ioi i, ((part lam i - (i.val : ℤ) - (part lam j - (j.val : ℤ)) : ℤ) : ℚ)) /
    ∏ i : Fin m, ((part lam i + (m - 1 - i.val)).toNat ! : ℚ)

/-- `∏ 1/lam_i! * ∏_{i<j} (lam_i - lam_j)/(lam_i + lam_j)` -/
def shiftProd : List Int → ℚ
  | [] => 1
  | x :: l => invFact x * (l.map fun y => ((x - y : ℤ) : ℚ) / ((x + y : ℤ) : ℚ)).prod * shiftProd l

/-- The number of standard tableaux of the shifted shape of a strict partition: `|lam|! * ∏ 1/lam_i! * ∏_{i<j} (lam_i - lam_j)/(lam_i + lam_j)`. -/
def shiftCount (lam : List Int) : ℚ := (lam.sum.toNat ! : ℚ) * shiftProd lam

/-- the staircase `[n, n-1, .., 1]` -/
def stairs : ℕ → List Int
  | 0 => []
  | n + 1 => ((n : Int) + 1) :: stairs n

end Verif.Spec
