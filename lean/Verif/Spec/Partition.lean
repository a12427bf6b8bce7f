/-!
# Specification vocabulary: partitions

Written independently of the model.
-/

namespace Verif.Spec

/-- The `i`-th part (0-based) of a list read as a sequence padded with zeros. -/
def part (l : List Int) (i : Nat) : Int := l.getD i 0

/-- Weakly decreasing list of non-negative integers. -/
def IsPartition (l : List Int) : Prop := l.Pairwise (· ≥ ·) ∧ ∀ x ∈ l, 0 ≤ x

/-- No trailing zero. -/
def NoTrailingZero (l : List Int) : Prop := l.getLast? ≠ some 0

/-- A partition written without trailing zeros. -/
def ReducedPart (l : List Int) : Prop := l.Pairwise (· ≥ ·) ∧ ∀ x ∈ l, 0 < x

/-- Fits into `r` rows and `c` columns. -/
def InRect (l : List Int) (r : Nat) (c : Int) : Prop := l.length ≤ r ∧ ∀ x ∈ l, x ≤ c

/-- No part bigger than `k` is repeated. -/
def KStrict (k : Int) (l : List Int) : Prop := l.Pairwise (fun a b => k < a → b < a)

/-- Diagram containment. -/
def Contained (l m : List Int) : Prop := ∀ i, part l i ≤ part m i

/-- `m / l` is a horizontal strip: `m₀ ≥ l₀ ≥ m₁ ≥ l₁ ≥ …`. -/
def HorizontalStrip (l m : List Int) : Prop := ∀ i, part l i ≤ part m i ∧ part m (i + 1) ≤ part l i

/-- The quantum condition of Bertram's Pieri rule on `Gr(m, n)`:
`l₁ - 1 ≥ ν₁ ≥ l₂ - 1 ≥ ν₂ ≥ … ≥ l_m - 1 ≥ ν_m ≥ 0`. -/
def Bertram (m : Nat) (l nu : List Int) : Prop :=
  ReducedPart nu ∧ nu.length ≤ m ∧
    ∀ i < m, part nu i ≤ part l i - 1 ∧ (i + 1 < m → part l (i + 1) - 1 ≤ part nu i)

end Verif.Spec
