import Verif.Model.Ring
/-!
# Products with invertible classes: specification

On each space one class permutes all classes under the quantum product, up to a power of `q`. Here the power and the class
of the result are written down by the partition alone.
-/

namespace Verif.Spec

/-- the expected product of the class of a point's row `S[n+k]` and `S[l]` on `OG(m, 2n+1)`, `k = n-m`: the power of `q` and the
partition -/
def topRowB (k m n : ℕ) (l : List Int) : ℕ × List Int :=
  if l.head? = some ((n : Int) + k) then (if k = 0 then 1 else 2, l.tail)
  else if l.length < m then (0, ((n : Int) + k) :: l)
  else (1, l)

/-- the other class with the same parts, if there are two -/
def otherType (k : ℕ) (l : List Int) : List Int :=
  if (0 : Int) ∈ l then l.filter (· ≠ 0) else if (k : Int) ∈ l ∧ 0 < k then l ++ [0] else l

/-- the expected product of `S[n+k]` and `S[l]` on `OG(m, 2n+2)`, `k = n+1-m`; a zero at the end of `l` only marks the type -/
def topRowD (k m n : ℕ) (l : List Int) : ℕ × List Int :=
  if l.head? = some ((n : Int) + k) then (if k = 0 then 1 else 2, l.tail)
  else if (l.filter (· ≠ 0)).length < m then (0, ((n : Int) + k) :: l)
  else (1, otherType k l)

/-- the expected product of `S[n+1]` and `S[l]` on `OG(n, 2n+2)`: the parameters and the class; a zero at the end of `l` marks the type -/
def topRow2 (n : ℕ) (l : List Int) : Mono × List Int :=
  if l.head? = some ((n : Int) + 1) then ([.q1, .q2], l.tail)
  else if (l.filter (· ≠ 0)).length < n then ([], ((n : Int) + 1) :: l)
  else ([if (0 : Int) ∈ l then .q2 else .q1], otherType 1 l)

/-- the rotation of a Schubert symbol of `IG(m, 2n)` by `n` -/
def rotIdx (n : Int) (idx : List Int) : List Int :=
  (idx.filter (fun x => n < x)).map (· - n) ++ (idx.filter (fun x => x ≤ n)).map (· + n)

/-- the staircase `n, n-1, ..., k+1` -/
def stair (k n : ℕ) : List Int := (List.range (n - k)).map (fun i : ℕ => (n : Int) - i)

/-- exchange the two coordinates in the middle -/
def midSwap (M : Int) (idx : List Int) : List Int := idx.map (fun x => if x = M then M + 1 else if x = M + 1 then M else x)

/-- the staircase `n, n-1, ..., k` of `OG(m, 2n+2)`, `k = n+1-m`, without a zero; `t` marks the second type -/
def stairD (k n : ℕ) (t : Bool) : List Int := stair (k - 1) n ++ if t then [0] else []

/-- the Schubert symbol of a class before the rotation; `s` is `0` or `1`, the type of the staircase -/
def spinPre (m n s : ℕ) (idx : List Int) : List Int := if (m + s) % 2 = 1 then midSwap (n + 1) idx else idx

/-- the rotation of a Schubert symbol of `OG(m, 2n+2)` by `n+1`, with the two middle coordinates exchanged before or after -/
def spinIdx (m n s : ℕ) (idx : List Int) : List Int :=
  if (n + 1 + m + s) % 2 = 1 then midSwap (n + 1) (rotIdx (n + 1) (spinPre m n s idx)) else rotIdx (n + 1) (spinPre m n s idx)

/-- the power of `q`: the coordinates in the first half before the rotation, by pairs if `m = n+1` -/
def spinExp (m n s : ℕ) (idx : List Int) : ℕ :=
  (spinPre m n s idx).countP (fun x => x ≤ (n : Int) + 1) / if m = n + 1 then 2 else 1

/-- the parameters on `OG(n, 2n+2)`: `q1` and `q2` by turns, for the second type `q2` first -/
def spinPar (d s : ℕ) : Mono := List.replicate ((d + 1 - s) / 2) .q1 ++ List.replicate ((d + s) / 2) .q2

end Verif.Spec
