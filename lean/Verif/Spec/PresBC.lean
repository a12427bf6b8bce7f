import Verif.Spec.Det
/-!
# The relations of `IG(m, 2m+2k)` and `OG(m, 2m+2k+1)` for `k ≥ 1` (Buch, Kresch, Tamvakis)
-/

namespace Verif.Spec
open MvPolynomial

/-- The determinant of `j` ones, `det(c(1 - a + b))`, `0 ≤ a, b < j`. -/
noncomputable def detOnes (c : ℤ → P) (j : ℕ) : P := (Matrix.of fun a b : Fin j => c (1 - (a.val : ℤ) + (b.val : ℤ))).det

/-- `S[p]` for `p ≤ k` and `2*S[p]` for `p > k`. -/
noncomputable def cvar (k K p : ℤ) : P := if p ≤ k then hvar K p else 2 * hvar K p

/-- The relations of `IG(m, 2m+2k)`: the determinants of `j` ones, `m < j ≤ m+2k`, and
`S[r]^2 - 2*S[r+1]*S[r-1] + 2*S[r+2]*S[r-2] - ...` for `k < r ≤ m+k`. -/
def relIG (m k : ℕ) : Set P :=
  {x | ∃ j : ℕ, m < j ∧ j ≤ m + 2 * k ∧ x = detOnes (hvar (m + 2 * k)) j} ∪
  {x | ∃ r : ℕ, k < r ∧ r ≤ m + k ∧ x = hvar (m + 2 * k) r ^ 2 +
    2 * ∑ i ∈ Finset.Icc 1 r, (-1) ^ i * (hvar (m + 2 * k) (r + i) * hvar (m + 2 * k) (r - i))}

/-- The relations of the quantum ring of `IG(m, 2m+2k)`: the quadratic ones have the additional term `± q * S[2r-m-2k-1]`. -/
def relQIG (m k : ℕ) : Set P :=
  {x | ∃ j : ℕ, m < j ∧ j ≤ m + 2 * k ∧ x = detOnes (hvar (m + 2 * k)) j} ∪
  {x | ∃ r : ℕ, k < r ∧ r ≤ m + k ∧ x = hvar (m + 2 * k) r ^ 2 +
    2 * ∑ i ∈ Finset.Icc 1 r, (-1) ^ i * (hvar (m + 2 * k) (r + i) * hvar (m + 2 * k) (r - i)) -
      (-1) ^ (m + 2 * k - r) * (X .q * hvar (m + 2 * k) (2 * r - (m + 2 * k) - 1))}

/-- The relations of `OG(m, 2m+2k+1)`: the determinants of `j` ones in the `c(p)`, `m < j ≤ m+2k`, and
`S[r]^2 - S[r+1]*c(r-1) + S[r+2]*c(r-2) - ...` for `k < r ≤ m+k`. -/
def relOG (m k : ℕ) : Set P :=
  {x | ∃ j : ℕ, m < j ∧ j ≤ m + 2 * k ∧ x = detOnes (cvar k (m + 2 * k)) j} ∪
  {x | ∃ r : ℕ, k < r ∧ r ≤ m + k ∧ x = hvar (m + 2 * k) r ^ 2 +
    ∑ i ∈ Finset.Icc 1 r, (-1) ^ i * (hvar (m + 2 * k) (r + i) * cvar k (m + 2 * k) (r - i))}

/-- The relations of the quantum ring of `OG(m, 2m+2k+1)`, `k ≥ 1`: the largest determinant is `-2*q`. -/
def relQOG (m k : ℕ) : Set P :=
  {x | ∃ j : ℕ, m < j ∧ j ≤ m + 2 * k ∧ x = detOnes (cvar k (m + 2 * k)) j + if j = m + 2 * k then 2 * X .q else 0} ∪
  {x | ∃ r : ℕ, k < r ∧ r ≤ m + k ∧ x = hvar (m + 2 * k) r ^ 2 +
    ∑ i ∈ Finset.Icc 1 r, (-1) ^ i * (hvar (m + 2 * k) (r + i) * cvar k (m + 2 * k) (r - i))}

end Verif.Spec
