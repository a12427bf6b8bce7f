import Verif.Spec.Partition
import Mathlib.Combinatorics.SimpleGraph.Connectivity.Connected
import Mathlib.SetTheory.Cardinal.Finite
/-!
# Specification: the Pieri relation of Buch, Kresch and Tamvakis

A. Buch, A. Kresch, H. Tamvakis, *Quantum Pieri rules for isotropic Grassmannians*, Invent. Math. 178 (2009).
Rows and columns of boxes are counted from 0 here; the paper counts from 1.
-/

namespace Verif.Spec

/-- the box in row `r` and column `c` belongs to the diagram of `l` -/
def InShape (l : List Int) (r c : Nat) : Prop := (c : Int) < part l r

/-- the boxes of `mu ∖ lam` -/
def Added (lam mu : List Int) (r c : Nat) : Prop := ¬ InShape lam r c ∧ InShape mu r c

/-- the number of boxes in column `c` -/
def colHeight (l : List Int) (c : Nat) : Nat := l.countP (fun x => decide ((c : Int) < x))

/-- `k`-related boxes (`d = 0`, types B and C): with 1-based coordinates, `|c - k - 1| + r = |c' - k - 1| + r'`;
`k'`-related boxes (`d = 1`, type D): `|c - k - 1/2| + r = |c' - k - 1/2| + r'`. Both sides are doubled. -/
def Related (k : Nat) (d : Int) (r c r' c' : Nat) : Prop :=
  (2 * ((c : Int) + 1) - (2 * k + 2 - d)).natAbs + 2 * (r + 1) =
    (2 * ((c' : Int) + 1) - (2 * k + 2 - d)).natAbs + 2 * (r' + 1)

/-- `lam → mu`. -/
structure PieriArrow (k : Nat) (d : Int) (lam mu : List Int) : Prop where
  /-- remove a vertical strip from the first `k` columns, then add a horizontal strip -/
  strips : ∃ nu, IsPartition nu ∧
    (∀ r, part nu r ≤ part lam r ∧ part lam r ≤ part nu r + 1 ∧ (part nu r < part lam r → part lam r ≤ k)) ∧
    HorizontalStrip nu mu
  /-- the bottom box of an unchanged column is related to at most one new box -/
  same : ∀ c < k, colHeight mu c = colHeight lam c → ∀ r, r + 1 = colHeight lam c → ∀ s e s' e',
    Added lam mu s e → Related k d r c s e → Added lam mu s' e' → Related k d r c s' e' → s = s' ∧ e = e'
  /-- in a shortened column the removed boxes and the new bottom box are each related to exactly one new box,
  all in one row -/
  fewer : ∀ c, colHeight mu c < colHeight lam c → ∃ s, ∀ r, colHeight mu c ≤ r + 1 → r + 1 ≤ colHeight lam c →
    ∃ e, Added lam mu s e ∧ Related k d r c s e ∧
      ∀ s' e', Added lam mu s' e' → Related k d r c s' e' → s' = s ∧ e' = e

/-- The box `(s, e)` is mentioned in the conditions of the Pieri relation: it is related to the bottom box of an
unchanged column or, in a shortened column, to a removed box or to the new bottom box. -/
def Mentioned (k : Nat) (d : Int) (lam mu : List Int) (s e : Nat) : Prop :=
  ∃ c < k, ∃ r, colHeight mu c ≤ r + 1 ∧ r + 1 ≤ colHeight lam c ∧ Related k d r c s e

/-- the set `𝔸` of the boxes of `mu ∖ lam` outside the first `k` columns that are not mentioned -/
def Leftover (k : Nat) (d : Int) (lam mu : List Int) : Set (Nat × Nat) :=
  {b | Added lam mu b.1 b.2 ∧ k ≤ b.2 ∧ ¬ Mentioned k d lam mu b.1 b.2}

/-- Two boxes of a set are connected if they share at least a vertex. -/
def boxGraph (A : Set (Nat × Nat)) : SimpleGraph A where
  Adj a b := a ≠ b ∧ a.1.1 ≤ b.1.1 + 1 ∧ b.1.1 ≤ a.1.1 + 1 ∧ a.1.2 ≤ b.1.2 + 1 ∧ b.1.2 ≤ a.1.2 + 1
  symm := ⟨fun _ _ ⟨h, h1, h2, h3, h4⟩ => ⟨h.symm, h2, h1, h4, h3⟩⟩
  loopless := ⟨fun _ h => h.1 rfl⟩

/-- the number of connected components of `𝔸` -/
noncomputable def numComps (k : Nat) (d : Int) (lam mu : List Int) : Nat :=
  Nat.card (boxGraph (Leftover k d lam mu)).ConnectedComponent

/-- `N(lam, mu)`: the number of connected components of `𝔸` without a box in column `k` (the `k+1`-st) -/
noncomputable def numCompsOff (k : Nat) (d : Int) (lam mu : List Int) : Nat :=
  Nat.card {C : (boxGraph (Leftover k d lam mu)).ConnectedComponent //
    ∀ b, (boxGraph (Leftover k d lam mu)).connectedComponentMk b = C → b.1.2 ≠ k}

/-- the type of a class of an even orthogonal Grassmannian: `0` without a part `k`, else `1` or `2`, where a final
zero marks type `2` -/
def clsType (k : Int) (x : List Int) : Nat := if k ∈ x then (if (0 : Int) ∈ x then 2 else 1) else 0

/-- the number of columns of `mu` among the first `k` that do not have more boxes than the same column of `lam` -/
def notLonger (k : Nat) (lam mu : List Int) : Nat :=
  ((List.range k).filter (fun c => decide (colHeight mu c ≤ colHeight lam c))).length

/-- `c` is the coefficient of `τ_mu` in `τ_p · τ_lam` (type D); a negative `p` stands for the second special class
`τ'_k` of degree `k`. -/
structure CoefD (k : Nat) (p : Int) (lam mu : List Int) (c : Rat) : Prop where
  small : p.natAbs < k → c = 2 ^ numComps k 1 lam mu
  large : k < p.natAbs → 1 ≤ numComps k 1 lam mu ∧ c = 2 ^ (numComps k 1 lam mu - 1)
  middle : p.natAbs = k → 1 ≤ numComps k 1 lam mu → c = 2 ^ (numComps k 1 lam mu - 1)
  /-- tie breaking -/
  tie : p.natAbs = k → numComps k 1 lam mu = 0 →
    c = 1 ∧ (Odd (notLonger k lam mu + max (clsType k lam) (clsType k mu)) ↔ 0 ≤ p)

/-- `nt` is obtained from the partition `nu` with `rows` rows, `nu_1 ≤ cols`, by removing the first row and
`cols - nu_1` boxes from the first column, where the rows that lose a box consist of that box -/
def Tilde (rows cols : Int) (nu nt : List Int) : Prop :=
  (nu.length : Int) = rows ∧ part nu 0 ≤ cols ∧
    nu = part nu 0 :: (nt ++ List.replicate (cols - part nu 0).toNat 1)

/-- `y` has the parts of `ν̃`, and its type is that of `nu` when this is `0`, and the other one of `1` and `2` otherwise
(a final zero marks type `2`) -/
def TildeD (k rows cols : Int) (nu y : List Int) : Prop :=
  ∃ mu nt, 0 ∉ mu ∧ Tilde rows cols mu nt ∧
    ((k ∉ mu ∧ nu = mu ∧ y = nt) ∨ (k ∈ mu ∧ nu = mu ∧ y = nt ++ [0]) ∨ (k ∈ mu ∧ nu = mu ++ [0] ∧ y = nt))

end Verif.Spec
