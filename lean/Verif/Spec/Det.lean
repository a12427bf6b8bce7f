import Mathlib.LinearAlgebra.Matrix.Determinant.Basic
import Verif.Spec.Denote
/-!
# The determinant of Jacobi and Trudi
-/

namespace Verif.Spec
open MvPolynomial

/-- The special class of degree `p`: `1` if `p = 0`, the symbol `S[p]` if `1 ≤ p ≤ K`, zero otherwise. -/
noncomputable def hvar (K p : ℤ) : P := if p = 0 then 1 else if 0 < p ∧ p ≤ K then X (.S [p]) else 0

/-- `det(h(l_i - i + j))`. -/
noncomputable def jacobiTrudi (K : ℤ) (l : List Int) : P :=
  (Matrix.of fun i j : Fin l.length => hvar K (l[i] - (i.val : ℤ) + (j.val : ℤ))).det

/-- The relations of the cohomology ring of `Gr(m, n)`: the determinants of `j` ones, `m < j ≤ n`. -/
def relGr (m : ℕ) (n : ℤ) : Set P := {r | ∃ j : ℕ, m < j ∧ (j : ℤ) ≤ n ∧ r = jacobiTrudi (n - m) (List.replicate j 1)}

/-- The relations of the quantum ring of `Gr(m, n)`: for `j = n` there is an additional `± q`. -/
def relQGr (m : ℕ) (n : ℤ) : Set P := {r | ∃ j : ℕ, m < j ∧ (j : ℤ) ≤ n ∧
  r = jacobiTrudi (n - m) (List.replicate j 1) + if (j : ℤ) = n then (-1) ^ (n - m).toNat * X .q else 0}

/-- The relations of the cohomology ring of `IG(n, 2n)`: `S[r]^2 - 2*S[r+1]*S[r-1] + 2*S[r+2]*S[r-2] - ...`. -/
def relLG (n : ℕ) : Set P := {x | ∃ r : ℕ, 1 ≤ r ∧ r ≤ n ∧
  x = hvar n r ^ 2 + 2 * ∑ i ∈ Finset.Icc 1 r, (-1) ^ i * (hvar n (r + i) * hvar n (r - i))}

/-- The relations of the quantum ring of `IG(n, 2n)`: in addition `± q * S[2r-n-1]`. -/
def relQLG (n : ℕ) : Set P := {x | ∃ r : ℕ, 1 ≤ r ∧ r ≤ n ∧
  x = hvar n r ^ 2 + 2 * ∑ i ∈ Finset.Icc 1 r, (-1) ^ i * (hvar n (r + i) * hvar n (r - i)) -
    (-1) ^ (n - r) * (X .q * hvar n (2 * r - n - 1))}

/-- The relations of the cohomology ring of `OG(n, 2n+1)`:
`S[r]^2 - 2*S[r+1]*S[r-1] + ... + (-1)^(r-1) * 2*S[2r-1]*S[1] + (-1)^r * S[2r]`. -/
def relOGm (n : ℕ) : Set P := {x | ∃ r : ℕ, 1 ≤ r ∧ r ≤ n ∧
  x = hvar n r ^ 2 + 2 * ∑ i ∈ Finset.Icc 1 (r - 1), (-1) ^ i * (hvar n (r + i) * hvar n (r - i)) + (-1) ^ r * hvar n (2 * r)}

/-- The relations of the quantum ring of `OG(n, 2n+1)`: the same, with `S[n]^2 - q` for `r = n`. -/
def relQOGm (n : ℕ) : Set P := {x | ∃ r : ℕ, 1 ≤ r ∧ r ≤ n ∧
  x = hvar n r ^ 2 + 2 * ∑ i ∈ Finset.Icc 1 (r - 1), (-1) ^ i * (hvar n (r + i) * hvar n (r - i)) + (-1) ^ r * hvar n (2 * r) -
    if r = n then X .q else 0}

end Verif.Spec
