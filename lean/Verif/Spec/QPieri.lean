import Verif.Spec.PieriBCD
import Verif.Spec.Index
/-!
# Specification: terms of the classical Pieri rules of types B and D

Used in the statement of the quantum Pieri rules of Buch, Kresch and Tamvakis, whose quantum terms come from classical
Pieri products on other shapes.
-/

namespace Verif.Spec

/-- `c * τ_mu` is a term of `τ_p · τ_lam` in type B, for `k`-strict partitions in the `m × cols` rectangle -/
def PieriTermB (k m : Nat) (cols p : Int) (lam mu : List Int) (c : Rat) : Prop :=
  (ReducedPart mu ∧ KStrict k mu ∧ InRect mu m cols) ∧ mu.sum = lam.sum + p ∧ PieriArrow k 0 lam mu ∧
    ∃ e : Nat, numComps k 0 lam mu = (if p ≤ k then e else e + 1) ∧ c = 2 ^ e

/-- `c * τ_mu` is a term of `τ_p · τ_lam` in type D, for typed `k`-strict partitions in the `m × cols` rectangle -/
def PieriTermD (k m : Nat) (cols p : Int) (lam mu : List Int) (c : Rat) : Prop :=
  TypedClass k m cols mu ∧ mu.sum = lam.sum + p.natAbs ∧ PieriArrow k 1 lam mu ∧
    clsType k lam + clsType k mu ≠ 3 ∧ CoefD k p lam mu c

/-- the partition without its first column -/
def dropColumn (lam : List Int) : List Int := (lam.map (fun x => x - 1)).filter (fun x => decide (0 < x))

/-- remove the first row and add a first column of the same length -/
def rowToColumn : List Int → List Int
  | [] => []
  | r :: mu => mu.map (fun x => x + 1) ++ List.replicate (r - mu.length).toNat 1

/-- the class of that shape whose type is 2 (type 0 if `k` is not a part) -/
def typeTwo (k : Int) (mu : List Int) : List Int := if k ∈ mu then mu ++ [0] else mu

/-- the classical products behind the terms with `q1` and `q2` for `OG(n, 2n+2)`: for `|p| > 1` the terms of
`τ_{|p|-1} · τ_lb` on `OG(n+1, 2n+2)`, where `lb` is `lam` without its first column; for `|p| ≤ 1` just `τ_lb` -/
def ReducedTerm (n p : Int) (lam mu : List Int) (c : Rat) : Prop :=
  if p.natAbs ≤ 1 then mu = dropColumn lam ∧ c = 1
  else PieriTermD 0 (n + 1).toNat n (p.natAbs - 1) (dropColumn lam) mu c

end Verif.Spec
