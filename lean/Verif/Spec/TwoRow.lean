import Verif.Model.Ring
/-!
# Products on Gr(2,n): specification

The expected products of two classes on the Grassmannian of planes, as explicit lists of terms.
-/

namespace Verif.Spec

/-- the partition with parts `x ≥ y`, without zeros -/
def two (x y : ℕ) : List Int := ([x, y].filter (fun z => 0 < z)).map (fun z => (z : Int))

/-- the expected classical product of `S[a,b]` and `S[c,d]` on `Gr(2,k+2)`: the Clebsch-Gordan sum cut off at `k` -/
def cgList (k a b c d : ℕ) : Poly :=
  ((List.range (min (a - b) (c - d) + 1)).filter (fun t => a + c ≤ k + t)).map
    (fun t => ([Sym.S (two (a + c - t) (b + d + t))], 1))

/-- the class of a term `(x,y)` of the sum after removing rim hooks of size `n = k+2`: the power of `q` and the partition -/
def cgFold (k x y : ℕ) : ℕ × List Int :=
  if x ≤ k then (0, two x y)
  else if y ≤ k + 1 then (1, two (y - 1) (x + 1 - (k + 2)))
  else (2, two (x - (k + 2)) (y - (k + 2)))

/-- the expected quantum product of `S[a,b]` and `S[c,d]` on `Gr(2,k+2)`: the sum now starts at `(a-b)+(c-d)-k` -/
def qcgList (k a b c d : ℕ) : Poly :=
  ((List.range (min (a - b) (c - d) + 1)).filter (fun t => (a - b) + (c - d) ≤ k + t)).map
    (fun t => let (e, l) := cgFold k (a + c - t) (b + d + t); (List.replicate e Sym.q ++ [Sym.S l], 1))

end Verif.Spec
