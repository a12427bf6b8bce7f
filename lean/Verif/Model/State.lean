import Verif.Model.SchurPol
import Verif.Model.Spaces
import Verif.Model.Ring
/-!
# Model of a side effect of `to_polinomial_str`, and of the texts of the spaces
-/

namespace Verif

/-- The loop of `__drop_trailing_zeros__` (utils/mix.py:60-65): `x.pop()` while the last entry is zero. The first
argument is the Python variable `n` plus one. -/
def popZeros : Nat → List Int → List Int
  | 0, x => x
  | n + 1, x => if at' x n = 0 then popZeros n x.dropLast else x

variable {R : Type} [CommSemiring R]

/-- `Schur.to_polinomial_str(n)` (schur.py:156-168) on an object with `self.p = p`: the polynomial (or the exception)
and `self.p` afterwards. `self.partition()` is the list object `self.p` itself, and `SchurPol` pops its zeros after the
check of `n` (utils/mix.py:98-100). -/
def toPolState (x : Nat → R) (n : Int) (p : List Int) : Except PyErr R × List Int :=
  (schurPol x n p, if n < 1 then p else popZeros p.length p)

/-- The letter of the type. -/
def GType.letter : GType → Char
  | .A => 'A'
  | .B => 'B'
  | .C => 'C'
  | .D => 'D'

/-- The name of the constructor. -/
def GType.short : GType → List Char
  | .A => "Gr".toList
  | .C => "IG".toList
  | .B | .D => "OG".toList

/-- `__str__` of the spaces (grassmannian.py:46-52, isotropic_grassmannian.py:46-52,
orthogonal_grassmannian.py:55-67). -/
def Space.str (X : Space) : List Char :=
  let d := X.typeData
  "Type ".toList ++ d.1.letter :: (" ;  (k,n) = (".toList ++ (intText d.2.1 ++ ',' :: (intText d.2.2.1 ++
    (") ;  ".toList ++ (d.1.short ++ '(' :: (intText d.2.2.2.1 ++ ',' :: (intText d.2.2.2.2.1 ++
      (") ;  deg(q) = ".toList ++ intText d.2.2.2.2.2))))))))

end Verif
