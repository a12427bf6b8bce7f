import Mathlib.Algebra.BigOperators.Group.Finset.Basic
import Mathlib.Algebra.Ring.Basic
/-!
# The polynomials `Q̃` of Pragacz and Ratajski, as Pfaffians
-/

namespace Verif.Spec
variable {R : Type*} [CommRing R]

/-- `e_b e_a - 2 e_{b+1} e_{a-1} + 2 e_{b+2} e_{a-2} - ... ± 2 e_{b+a} e_0` -/
def rowPair (e : ℕ → R) (b a : ℕ) : R := ∑ i ∈ Finset.range (a + 1), (-1) ^ i * (if i = 0 then 1 else 2) * (e (b + i) * e (a - i))

/-- `Q̃` for a list of `r` parts: the Pfaffian of the matrix of the pairs of parts, expanded along the first row; for an odd number of parts
the alternating sum of `e_part` times the Pfaffian without this part. -/
def qtil (e : ℕ → R) : ℕ → List Int → R
  | 0, _ => 1
  | 1, l => e (l.getD 0 0).toNat
  | r + 2, l =>
    if r % 2 = 0 then
      ∑ j ∈ Finset.range (r + 1), (-1) ^ j * (rowPair e (l.getD 0 0).toNat (l.tail.getD j 0).toNat * qtil e r (l.tail.eraseIdx j))
    else ∑ j ∈ Finset.range (r + 2), (-1) ^ j * (e (l.getD j 0).toNat * qtil e (r + 1) (l.eraseIdx j))

/-- `Q̃_l` as a polynomial in `e_1, e_2, ...`. -/
def qTilde (e : ℕ → R) (l : List Int) : R := qtil e l.length l

/-- The sequences `e` at which the relations of `IG(n, 2n)` hold with the value `t` of `q`. -/
structure LGPoint (n : ℕ) (t : R) (e : ℕ → R) : Prop where
  zero : e 0 = 1
  high : ∀ p, n + 1 < p → e p = 0
  top : 2 * e (n + 1) = t
  rel : ∀ r, 1 ≤ r → r ≤ n → rowPair e r r = 0

/-- The sequences `e` at which the relations of `OG(n, 2n+1)` hold with the value `t` of `q`. -/
structure OGPoint (n : ℕ) (t : R) (e : ℕ → R) : Prop where
  zero : e 0 = 1
  high : ∀ p, n < p → e p = 0
  top : e n ^ 2 = 4 * t
  rel : ∀ r, 1 ≤ r → r < n → rowPair e r r = 0

end Verif.Spec
