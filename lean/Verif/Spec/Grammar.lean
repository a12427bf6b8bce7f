import Verif.Model.LcText
import Verif.Spec.Denote
/-!
# Specification: what a text with `+`, `-`, `*`, `/`, `**` means

The rules of Python's expression grammar, with the polynomial that an expression stands for.
-/

namespace Verif.Spec
open MvPolynomial

/-- The syntactic categories.  `termTail a` is what may follow a term that has the value `a` so far (`* factor` or
`/ factor`, repeated), `sumTail a` what may follow a sum. -/
inductive Cat where
  | atom | factor | term | sum
  | termTail (a : P)
  | sumTail (a : P)

/-- `Means c ts v`: the tokens `ts` form a phrase of category `c` with the value `v`.  Products and sums associate to
the left, `**` binds tighter than a sign on its left. -/
inductive Means : Cat → List Tok → P → Prop
  | int (n : Nat) : Means .atom [.int n] (C (n : ℚ))
  | name (y : Sym) : Means .atom [.name y.text] (X y)
  | paren {ts v} : Means .sum ts v → Means .atom (.lpar :: (ts ++ [.rpar])) v
  | pos {ts v} : Means .factor ts v → Means .factor (.plus :: ts) v
  | neg {ts v} : Means .factor ts v → Means .factor (.minus :: ts) (-v)
  | atom {ts v} : Means .atom ts v → Means .factor ts v
  | pow {ts us v} (n : Nat) : Means .atom ts v → Means .factor us (C (n : ℚ)) →
      Means .factor (ts ++ .dstar :: us) (v ^ n)
  | term {ts us v w} : Means .factor ts v → Means (.termTail v) us w → Means .term (ts ++ us) w
  | termEnd (a : P) : Means (.termTail a) [] a
  | mul {a ts us v w} : Means .factor ts v → Means (.termTail (a * v)) us w →
      Means (.termTail a) (.star :: (ts ++ us)) w
  | div {a ts us w} (c : ℚ) : c ≠ 0 → Means .factor ts (C c) → Means (.termTail (a * C c⁻¹)) us w →
      Means (.termTail a) (.slash :: (ts ++ us)) w
  | sum {ts us v w} : Means .term ts v → Means (.sumTail v) us w → Means .sum (ts ++ us) w
  | sumEnd (a : P) : Means (.sumTail a) [] a
  | add {a ts us v w} : Means .term ts v → Means (.sumTail (a + v)) us w →
      Means (.sumTail a) (.plus :: (ts ++ us)) w
  | sub {a ts us v w} : Means .term ts v → Means (.sumTail (a - v)) us w →
      Means (.sumTail a) (.minus :: (ts ++ us)) w

/-- The polynomial of a list of terms. -/
noncomputable def termsDen (T : List PTerm) : P :=
  (T.map (fun t => C t.2 * (t.1.map (fun y => (X y.1 : P) ^ y.2)).prod)).sum

/-- No partition with a negative entry occurs. -/
def SymNonneg : Sym → Prop
  | .S p => ∀ x ∈ p, 0 ≤ x
  | _ => True

end Verif.Spec
