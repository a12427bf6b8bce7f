/-! # Specification: the ring of the even quadric `OG(1, 2n+2)` -/

namespace Verif.Spec

/-- The class of degree `c` on the quadric `OG(1, 2n+2)`; there are two classes of degree `n`, the second one (`t`) written `[n, 0]`. -/
def quadCls (n c : Nat) (t : Bool) : List Int := if c = n ∧ t = true then [(n : Int), 0] else if c = 0 then [] else [(c : Int)]

/-- The power of a hyperplane of degree `s`, times `q^d`, as a list of terms `(power of q, class, coefficient)`. -/
def hypTerms (n d s : Nat) : List (Nat × (Nat × Bool) × Rat) :=
  if s < n then [(d, (s, false), 1)] else if s = n then [(d, (n, false), 1), (d, (n, true), 1)] else [(d, (s, false), 2)]

/-- The terms of the quantum product of the classes of degrees `c` and `u` (and types `t` and `s`, if the degree is `n`) on the
quadric `OG(1, 2n+2)`. -/
def quadTerms (n c : Nat) (t : Bool) (u : Nat) (s : Bool) : List (Nat × (Nat × Bool) × Rat) :=
  if c = 0 then [(0, (u, s), 1)]
  else if u = 0 then [(0, (c, t), 1)]
  else if c = 2 * n then (if u = 2 * n then [(2, (0, false), 1)] else [(1, (u, !s), 1)])
  else if u = 2 * n then [(1, (c, !t), 1)]
  else if c = n ∧ u = n then (if (t = s ↔ n % 2 = 0) then [(0, (2 * n, false), 1)] else [(1, (0, false), 1)])
  else if c < n ∧ u < n then hypTerms n 0 (c + u)
  else if n < c ∧ n < u then hypTerms n 1 (c + u - 2 * n)
  else if c + u < 2 * n then [(0, (c + u, false), 1)]
  else if c + u = 2 * n then [(0, (2 * n, false), 1), (1, (0, false), 1)]
  else [(1, (c + u - 2 * n, false), if c = n ∨ u = n then 1 else 2)]

end Verif.Spec
