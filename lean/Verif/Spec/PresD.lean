import Verif.Spec.PresBC
/-!
# The relations of `OG(m, 2m+2k)` for `k ≥ 1` (Buch, Kresch, Tamvakis)
-/

namespace Verif.Spec
open MvPolynomial

/-- `S[p]` for `p < k`, `S[k] + S[k,0]` for `p = k` and `2*S[p]` for `p > k`. -/
noncomputable def cvarD (k K p : ℤ) : P := if p < k then hvar K p else if p = k then hvar K p + X (.S [k, 0]) else 2 * hvar K p

/-- The relations of `OG(m, 2m+2k)`, `k ≥ 1`, with `K = m+2k-1`: the determinants of `j` ones in the `c(p)`, `m < j ≤ K`;
`S[r]^2 - S[r+1]*c(r-1) + S[r+2]*c(r-2) - ...` for `k < r < m+k`; `S[k]*S[k,0] - S[k+1]*S[k-1] + S[k+2]*S[k-2] - ...`;
and the product of `S[k] - S[k,0]` with the determinant of `m` ones. -/
def presD (m k : ℕ) : Set P :=
  {x | ∃ j : ℕ, m < j ∧ j < m + 2 * k ∧ x = detOnes (cvarD k (m + 2 * k - 1)) j} ∪
  {x | ∃ r : ℕ, k < r ∧ r < m + k ∧ x = hvar (m + 2 * k - 1) r ^ 2 +
    ∑ i ∈ Finset.Icc 1 r, (-1) ^ i * (hvar (m + 2 * k - 1) (r + i) * cvarD k (m + 2 * k - 1) (r - i))} ∪
  {hvar (m + 2 * k - 1) k * X (.S [(k : ℤ), 0]) +
    ∑ i ∈ Finset.Icc 1 k, (-1) ^ i * (hvar (m + 2 * k - 1) (k + i) * hvar (m + 2 * k - 1) (k - i))} ∪
  {(hvar (m + 2 * k - 1) k - X (.S [(k : ℤ), 0])) * detOnes (cvarD k (m + 2 * k - 1)) m}

/-- The relations of the quantum ring of `OG(m, 2m+2k)`, `k ≥ 2`: the largest determinant is `2*q`. -/
def presQD (m k : ℕ) : Set P :=
  {x | ∃ j : ℕ, m < j ∧ j < m + 2 * k ∧ x = detOnes (cvarD k (m + 2 * k - 1)) j - if j + 1 = m + 2 * k then 2 * X .q else 0} ∪
  {x | ∃ r : ℕ, k < r ∧ r < m + k ∧ x = hvar (m + 2 * k - 1) r ^ 2 +
    ∑ i ∈ Finset.Icc 1 r, (-1) ^ i * (hvar (m + 2 * k - 1) (r + i) * cvarD k (m + 2 * k - 1) (r - i))} ∪
  {hvar (m + 2 * k - 1) k * X (.S [(k : ℤ), 0]) +
    ∑ i ∈ Finset.Icc 1 k, (-1) ^ i * (hvar (m + 2 * k - 1) (k + i) * hvar (m + 2 * k - 1) (k - i))} ∪
  {(hvar (m + 2 * k - 1) k - X (.S [(k : ℤ), 0])) * detOnes (cvarD k (m + 2 * k - 1)) m}

/-- The relations of the quantum ring of `OG(m, 2m+2)` with its parameters `q1` and `q2`: the determinant of `m+1` ones is `q1 + q2`;
`S[r]^2 - S[r+1]*c(r-1) + S[r+2]*c(r-2) - ...` for `1 < r ≤ m`; `S[1]*S[1,0] - S[2]`; and the product of `S[1] - S[1,0]` with the determinant
of `m` ones is `q1 - q2`. -/
def presQ2 (m : ℕ) : Set P :=
  {detOnes (cvarD 1 (m + 1)) (m + 1) - (X .q1 + X .q2)} ∪
  {x | ∃ r : ℕ, 1 < r ∧ r ≤ m ∧ x = hvar (m + 1) r ^ 2 + ∑ i ∈ Finset.Icc 1 r, (-1) ^ i * (hvar (m + 1) (r + i) * cvarD 1 (m + 1) (r - i))} ∪
  {X (.S [1]) * X (.S [1, 0]) - X (.S [2])} ∪
  {(X (.S [1]) - X (.S [1, 0])) * detOnes (cvarD 1 (m + 1)) m - (X .q1 - X .q2)}

end Verif.Spec
