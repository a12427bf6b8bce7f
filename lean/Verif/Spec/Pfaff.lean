import Verif.Spec.Ring
import Mathlib.Algebra.BigOperators.Group.Finset.Basic
/-!
# Expansions of a class along a row
-/

namespace Verif.Spec

/-- The products `S[a j] * S[b j]`, `j < r`, are returned, and their alternating sum
`S[a 0]*S[b 0] - S[a 1]*S[b 1] + ...` has the coefficients `z`. -/
def AltSum (mul : Poly → Poly → Except PyErr Poly) (r : ℕ) (a b : ℕ → List Int) (z : Mono → Rat) : Prop :=
  ∃ w : ℕ → Poly, (∀ j < r, mul (Poly.sym (.S (a j))) (Poly.sym (.S (b j))) = .ok (w j)) ∧
    ∀ m, ∑ j ∈ Finset.range r, (-1) ^ j * coeffOf m (w j) = z m

/-- The expansions of a class into products with classes of one and of two rows. -/
structure RowExpansions (cls : List Int → Prop) (mul : Poly → Poly → Except PyErr Poly) : Prop where
  /-- `S[l_1]*S[l without l_1] - S[l_2]*S[l without l_2] + ...` is `S[l]` if `l` has an odd number of parts, and `0` otherwise -/
  odd : ∀ l, cls l → AltSum mul l.length (fun j => [l.getD j 0]) (fun j => l.eraseIdx j)
    (fun m => if l.length % 2 = 1 ∧ m = [.S l] then 1 else 0)
  /-- `S[b,l_1]*S[l without l_1] - S[b,l_2]*S[l without l_2] + ...` is `S[b,l]` if `b,l` has an even number of parts -/
  even : ∀ b l, cls (b :: l) → l.length % 2 = 1 → AltSum mul l.length (fun j => [b, l.getD j 0]) (fun j => l.eraseIdx j)
    (fun m => if m = [.S (b :: l)] then 1 else 0)

end Verif.Spec
