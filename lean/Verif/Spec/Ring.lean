import Verif.Spec.Denote
/-!
# Linear combinations of Schubert classes and polynomials in special classes
-/

namespace Verif.Spec

/-- `p` is an expanded linear combination: every term is `c * q^d * S[l]` with `l` a class. -/
def LinComb (cls : List Int → Prop) (p : Poly) : Prop :=
  WF p ∧ ∀ t ∈ p, ∃ d l, t.1 = List.replicate d Sym.q ++ [Sym.S l] ∧ cls l

/-- `p` is an expanded polynomial in `q` and the special classes `S[1]`, ..., `S[K]`. -/
def SpecialPoly (K : Nat) (p : Poly) : Prop :=
  WF p ∧ ∀ t ∈ p, ∀ s ∈ t.1, s = .q ∨ ∃ i : Int, 1 ≤ i ∧ i ≤ K ∧ s = .S [i]

/-- Both calls return, and the results are equal up to the order of the terms. -/
def SameResult (r r' : Except PyErr Poly) : Prop := ∃ w w', r = .ok w ∧ r' = .ok w' ∧ w.Perm w'

/-- No term contains `q`. -/
def QFree (p : Poly) : Prop := ∀ t ∈ p, Sym.q ∉ t.1

/-- The coefficient of a monomial in an expanded expression. -/
def coeffOf (m : Mono) (p : Poly) : Rat := ((p.filter (fun t => decide (t.1 = m))).map Prod.snd).sum

end Verif.Spec
