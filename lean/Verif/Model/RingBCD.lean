import Verif.Model.Ring
import Verif.Model.PieriBCD
/-!
# The methods `pieri`, `qpieri`, `act`, ... of all three kinds of spaces

`abstract_grassmannian.py` lines 106-180, with the attributes `_pieri` and `_qpieri` set by the constructors
(grassmannian.py:42-43, isotropic_grassmannian.py:42-43, orthogonal_grassmannian.py:45-52). For type A these agree with the
definitions of `Model/Ring.lean`. `X.k` is passed on as a natural number, see `Model/PieriBCD.lean`.

`ord` is the order in which Python iterates over a set (only used in type D with `k = 1`).
-/

namespace Verif
namespace Space

variable (ord : List Int → List Int) (X : Space)

/-- `_pieri(i, lam, k, n)`. -/
def pieriFn (i : Int) (lam : List Int) : Except PyErr Poly :=
  match X.type with
  | .A => pieriA i lam X.k X.n
  | .B => pieriB i lam X.k.toNat X.n
  | .C => pieriC i lam X.k.toNat X.n
  | .D => pieriD i lam X.k.toNat X.n

/-- `_qpieri(i, lam, k, n)`. -/
def qpieriFn (i : Int) (lam : List Int) : Except PyErr Poly :=
  match X.type with
  | .A => qpieriA i lam X.k X.n
  | .B => qpieriB i lam X.k.toNat X.n
  | .C => qpieriC i lam X.k.toNat X.n
  | .D => qpieriD ord i lam X.k.toNat X.n

/-- `pieri(i, lc)` (abstract_grassmannian.py:106-110). -/
def pieri (i : Int) (lc : Poly) : Except PyErr Poly := Poly.apply (X.pieriFn i) lc

/-- `qpieri(i, lc)` (abstract_grassmannian.py:136-141). -/
def qpieri (i : Int) (lc : Poly) : Except PyErr Poly := Poly.apply (X.qpieriFn ord i) lc

/-- `act` (abstract_grassmannian.py:113-116). -/
def act (e lc : Poly) : Except PyErr Poly := X.actLc X.pieriFn e lc

/-- `giambelli` (abstract_grassmannian.py:119-122). -/
def giambelli (fuel : Nat) (lc : Poly) : Except PyErr Poly := giamRec X.pieriFn X.k fuel lc

/-- `mult` (abstract_grassmannian.py:125-128). -/
def mult (fuel : Nat) (a b : Poly) : Except PyErr Poly := do
  let g ← X.giambelli fuel a
  X.act g b

/-- `toS` (abstract_grassmannian.py:131-133). -/
def toS (fuel : Nat) (a : Poly) : Except PyErr Poly := do
  let g ← X.giambelli fuel a
  X.act g (Poly.sym (.S []))

/-- `qact` (abstract_grassmannian.py:144-150). -/
def qact (e lc : Poly) : Except PyErr Poly := X.actLc (X.qpieriFn ord) e lc

/-- `qgiambelli` (abstract_grassmannian.py:153-157). -/
def qgiambelli (fuel : Nat) (lc : Poly) : Except PyErr Poly := giamRec (X.qpieriFn ord) X.k fuel lc

/-- `qmult` (abstract_grassmannian.py:160-174). -/
def qmult (fuel : Nat) (a b : Poly) : Except PyErr Poly := do
  let g ← X.qgiambelli ord fuel a
  X.qact ord g b

/-- `qtoS` (abstract_grassmannian.py:177-180). -/
def qtoS (fuel : Nat) (a : Poly) : Except PyErr Poly := do
  let g ← X.qgiambelli ord fuel a
  X.qact ord g (Poly.sym (.S []))

/-- `dualize(lc)` (abstract_grassmannian.py, the three overrides): `apply_lc` of the map on partitions. -/
def dualizeLc (lc : Poly) : Except PyErr Poly :=
  Poly.apply (fun lam => do let r ← X.dualize lam; .ok (Poly.sym (.S r))) lc

end Space
end Verif
