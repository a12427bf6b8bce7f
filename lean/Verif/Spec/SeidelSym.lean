import Verif.Spec.Ring
/-!
# Symmetry of the structure constants under a class that permutes the classes
-/

namespace Verif.Spec

/-- Whenever the products of `S[s]` with `S[l]` and `S[nu]` are `q^d * S[l']` and `q^e * S[nu']`, the coefficient of
`q^b * S[nu']` in `S[l'] * S[mu]` is that of `q^a * S[nu]` in `S[l] * S[mu]` for `b + d = a + e`, and the coefficients with no
partner are zero. -/
def ShiftSym (f : Poly → Poly → Except PyErr Poly) (cls : List Int → Prop) (s : List Int) : Prop :=
  ∀ (l mu nu l' nu' : List Int) (d e : Nat), cls l → cls mu → cls nu →
    f (Poly.sym (.S s)) (Poly.sym (.S l)) = .ok [(List.replicate d .q ++ [.S l'], 1)] →
    f (Poly.sym (.S s)) (Poly.sym (.S nu)) = .ok [(List.replicate e .q ++ [.S nu'], 1)] →
    ∃ w w', f (Poly.sym (.S l)) (Poly.sym (.S mu)) = .ok w ∧ f (Poly.sym (.S l')) (Poly.sym (.S mu)) = .ok w' ∧
      (∀ a b, b + d = a + e → coeffOf (List.replicate b .q ++ [.S nu']) w' = coeffOf (List.replicate a .q ++ [.S nu]) w) ∧
      (∀ a, a + e < d → coeffOf (List.replicate a .q ++ [.S nu]) w = 0) ∧
      (∀ b, b + d < e → coeffOf (List.replicate b .q ++ [.S nu']) w' = 0)

end Verif.Spec
