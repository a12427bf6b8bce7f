import Verif.Spec.Denote
import Mathlib.Algebra.BigOperators.Group.Finset.Basic
/-!
# Giambelli polynomials of two rows: specification

A. Buch, A. Kresch, H. Tamvakis, *A Giambelli formula for isotropic Grassmannians*, Selecta Math. 23 (2017): the class of `(a, b)` is
`(1 - R) ϑ_a ϑ_b` if `a + b ≤ 2k + 1`, and `(1 - R)/(1 + R) ϑ_a ϑ_b` otherwise, where `R` raises `a` and lowers `b` by one.
-/

namespace Verif.Spec
open MvPolynomial

/-- `(1 - R) ϑ_a ϑ_b` or `(1 - R)/(1 + R) ϑ_a ϑ_b` -/
noncomputable def twoRow (k : ℕ) (θ : ℕ → P) (a b : ℕ) : P :=
  if a + b ≤ 2 * k + 1 then θ a * θ b - (if b = 0 then 0 else θ (a + 1) * θ (b - 1))
  else θ a * θ b + 2 * ∑ i ∈ Finset.range b, (-1) ^ (i + 1) * (θ (a + (i + 1)) * θ (b - (i + 1)))

/-- the special classes of `IG(m,2n)`, where `N = 2n - m`; `h` stands for the class of degree `N + 1`, which is `0` in the classical
ring and `q/2` in the quantum ring -/
noncomputable def thetaC (N : ℕ) (h : P) (p : ℕ) : P :=
  if p = 0 then 1 else if p ≤ N then X (.S [(p : Int)]) else if p = N + 1 then h else 0

/-- the Chern classes of `OG(m,2n+1)`, which are twice the special classes from degree `k + 1 = n - m + 1` on -/
noncomputable def thetaB (N k : ℕ) (p : ℕ) : P :=
  if p = 0 then 1 else if p ≤ N then (if p ≤ k then 1 else 2) * X (.S [(p : Int)]) else 0

end Verif.Spec
