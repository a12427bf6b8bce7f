import Verif.Spec.Partition
/-! # Specification: index sets of Schubert varieties -/

namespace Verif.Spec

/-- `m` numbers from `1..N` in increasing order. -/
def IndexList (m : Nat) (N : Int) (idx : List Int) : Prop :=
  idx.length = m ∧ idx.Pairwise (· < ·) ∧ ∀ x ∈ idx, 1 ≤ x ∧ x ≤ N

/-- No two entries (equal or not) sum to `N + 1`: the coordinate subspace is isotropic for the form
pairing `e_i` with `e_{N+1-i}`. -/
def Isotropic (N : Int) (idx : List Int) : Prop := ∀ x ∈ idx, ∀ y ∈ idx, x + y ≠ N + 1

/-- The classes of `OG(m,2n+2)`, `k = n+1-m`: k-strict partitions in the rectangle; a partition with a
part `k` gives two classes, the second one written with one trailing zero. -/
def TypedClass (k : Int) (m : Nat) (c : Int) (x : List Int) : Prop :=
  ∃ mu, ReducedPart mu ∧ KStrict k mu ∧ InRect mu m c ∧ (x = mu ∨ (k ∈ mu ∧ x = mu ++ [0]))

end Verif.Spec
