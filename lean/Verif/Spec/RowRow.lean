import Verif.Spec.TwoRow
/-!
# Products of two special classes on IG(m,2n) and OG(m,2n+1): specification

The expected products as explicit lists of terms. In all of them `n = m + k`, and the classes have at most `m` parts, which are at
most `m + 2k`; parts greater than `k` are distinct.
-/

namespace Verif.Spec

/-- the indices `i` for which `(a+i, b-i)` is a class -/
def rowIdx (m k a b : ℕ) : List ℕ :=
  (List.range (b + 1)).filter (fun i => a + i ≤ m + 2 * k ∧ (two (a + i) (b - i)).length ≤ m ∧ ¬ (a + i = b - i ∧ k < b - i))

/-- the coefficient of `S[a+i,b-i]` in `S[a]*S[b]` on the symplectic Grassmannian -/
def rowCoefC (k a b i : ℕ) : ℚ := if i = 0 ∨ a + b ≤ 2 * k + 1 then 1 else 2

/-- the coefficient of `S[a+i,b-i]` in `S[a]*S[b]` on the odd orthogonal Grassmannian -/
def rowCoefB (k a b i : ℕ) : ℚ :=
  if i = 0 then 1
  else if k < b then (if k < b - i then 2 else 1)
  else if 2 * k + 1 < a + b ∨ (a ≤ k ∧ k < a + i) then 2 else 1

/-- the expected product on `IG(m,2n)` -/
def rowRowC (m k a b : ℕ) : Poly := (rowIdx m k a b).map (fun i => ([Sym.S (two (a + i) (b - i))], rowCoefC k a b i))

/-- the expected product on `OG(m,2n+1)` -/
def rowRowB (m k a b : ℕ) : Poly := (rowIdx m k a b).map (fun i => ([Sym.S (two (a + i) (b - i))], rowCoefB k a b i))

/-- the expected quantum product on `IG(m,2n)` -/
def qrowRowC (m k a b : ℕ) : Poly :=
  rowRowC m k a b ++ if m + 2 * k < a + b then [([Sym.q, Sym.S (two (a + b - (m + 2 * k + 1)) 0)], 1)] else []

/-- the expected quantum product on `OG(m,2n+1)`, `m ≥ 2` -/
def qrowRowB (m k a b : ℕ) : Poly :=
  rowRowB m k a b ++
    if a = m + 2 * k ∧ b = m + 2 * k then [((if k = 0 then [Sym.q] else [Sym.q, Sym.q]) ++ [Sym.S []], 1)] else []

end Verif.Spec
