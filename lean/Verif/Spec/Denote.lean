import Verif.Model.Expr
import Mathlib.Algebra.MvPolynomial.Eval
/-!
# What an expression means: polynomials with rational coefficients in the symbols
-/

namespace Verif.Spec
open MvPolynomial

/-- The polynomial ring `ℚ[q, q1, q2, S[...]]`. -/
abbrev P := MvPolynomial Sym ℚ

/-- Value of a monomial. -/
noncomputable def monoDen (m : Mono) : P := (m.map X).prod

/-- Value of an expanded expression. -/
noncomputable def den (p : Poly) : P := (p.map (fun t => C t.2 * monoDen t.1)).sum

/-- Value of an expression tree. -/
noncomputable def exprDen : Expr → P
  | .num c => C c
  | .sym s => X s
  | .add a b => exprDen a + exprDen b
  | .mul a b => exprDen a * exprDen b
  | .pow a n => exprDen a ^ n

/-- Replacing every Schubert symbol `S[l]` by `σ l` and nothing else. -/
noncomputable def subst (σ : List Int → P) : P →ₐ[ℚ] P :=
  aeval (fun s => match s with
    | .S l => σ l
    | s => X s)

/-- Expanded form: sorted monomials, no monomial twice, no zero coefficient. -/
def WF (p : Poly) : Prop :=
  (p.map Prod.fst).Nodup ∧ ∀ t ∈ p, t.2 ≠ 0 ∧ t.1.Pairwise (fun a b => listLt b.code a.code = false)

end Verif.Spec
