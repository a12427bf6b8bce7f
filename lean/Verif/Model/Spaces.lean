import Verif.Model.Kstrict
import Verif.Model.Conversions
import Mathlib.Data.List.Dedup
/-!
# Model of the constructors and static data of the three Grassmannian classes

`grassmannian.py`, `isotropic_grassmannian.py`, `orthogonal_grassmannian.py`.
-/

namespace Verif

inductive GType where
  | A | B | C | D
  deriving DecidableEq, Repr

/-- The state of a Grassmannian object: `_type`, `_k`, `_n`. -/
structure Space where
  type : GType
  k : Int
  n : Int
  deriving DecidableEq, Repr

/-- `Grassmannian.__init__` (grassmannian.py:31-43), integer arguments. -/
def mkGr (m n : Int) : Except PyErr Space :=
  if m < 0 ∨ n < 0 then .error .valueError
  else if m > n then .error .valueError
  else .ok ⟨.A, n - m, n⟩

/-- `IsotropicGrassmannian.__init__` (isotropic_grassmannian.py:29-43).
`%` and `//` with positive divisor are `Int.emod`, `Int.ediv`. -/
def mkIG (m n : Int) : Except PyErr Space :=
  if m < 0 ∨ n < 0 then .error .valueError
  else if n % 2 = 1 then .error .valueError
  else if m > n / 2 then .error .valueError
  else .ok ⟨.C, n / 2 - m, n / 2⟩

/-- `OrthogonalGrassmannian.__init__` (orthogonal_grassmannian.py:35-52). -/
def mkOG (m n : Int) : Except PyErr Space :=
  if m < 0 ∨ n < 0 then .error .valueError
  else if n % 2 = 1 then .ok ⟨.B, (n - 1) / 2 - m, (n - 1) / 2⟩
  else .ok ⟨.D, n / 2 - m, n / 2 - 1⟩

/-- `degree_q` (grassmannian.py:62-63, isotropic_grassmannian.py:63-64,
orthogonal_grassmannian.py:85-86). -/
def Space.degreeQ (X : Space) : Int :=
  match X.type with
  | .A => X.n
  | .C => X.n + 1 + X.k
  | .B | .D => if X.k = 0 then 2 * X.n else X.n + X.k

/-- `get_type_data` (grassmannian.py:54-60, isotropic_grassmannian.py:54-60,
orthogonal_grassmannian.py:69-83): the entries 0 and 4, 5, 6 (type letter, the two constructor
parameters, `degree_q`), with entries 1, 2 being `k`, `n`. -/
def Space.typeData (X : Space) : GType × Int × Int × Int × Int × Int :=
  match X.type with
  | .A => (.A, X.k, X.n, X.n - X.k, X.n, X.degreeQ)
  | .C => (.C, X.k, X.n, X.n - X.k, 2 * X.n, X.degreeQ)
  | .B => (.B, X.k, X.n, X.n - X.k, 2 * X.n + 1, X.degreeQ)
  | .D => (.D, X.k, X.n, X.n + 1 - X.k, 2 * X.n + 2, X.degreeQ)

/-- `clone` (abstract_grassmannian.py:102-103): `self.__class__(self._n - self._k, self._n)`. -/
def Space.clone (X : Space) : Except PyErr Space :=
  match X.type with
  | .A => mkGr (X.n - X.k) X.n
  | .C => mkIG (X.n - X.k) X.n
  | .B | .D => mkOG (X.n - X.k) X.n

/-- `unique_schur_list` (schur.py:170-171): `sorted(list(set(xs)))` with `Schur.__lt__` = list order,
`Schur.__eq__` = list equality. Python's set order is unspecified; the model uses first
occurrences (property C40 shows that the order is irrelevant). -/
def uniqueSchurList (xs : List (List Int)) : List (List Int) :=
  xs.dedup.mergeSort (fun a b => !listLt b a)

/-- `schub_classes` (grassmannian.py:65-74, isotropic_grassmannian.py:67-74,
orthogonal_grassmannian.py:88-106). `partitions.sort()` is the same order. -/
def Space.schubClasses (X : Space) (fuel : Nat) : Option (List (List Int)) :=
  match X.type with
  | .A => (partGen fuel (rep X.k (X.n - X.k))).map
      (fun l => uniqueSchurList (l.mergeSort (fun a b => !listLt b a)))
  | .B | .C => (allKstrict fuel X.k (X.n - X.k) (X.n + X.k)).map uniqueSchurList
  | .D => (allKstrict fuel X.k (X.n + 1 - X.k) (X.n + X.k)).map (fun l =>
      uniqueSchurList (l.flatMap (fun mu => if X.k ∈ mu then [mu, mu ++ [0]] else [mu])))

/-- `generators` (grassmannian.py:76-85, isotropic_grassmannian.py:77-87,
orthogonal_grassmannian.py:108-121). -/
def Space.generators (X : Space) : List (List Int) :=
  match X.type with
  | .A => if X.k = X.n then [] else (pyRange 1 (X.k + 1)).map (fun i => [i])
  | .B | .C =>
    if X.k = X.n then []
    else (pyRange 1 (X.k + 1)).map (fun i => [i])
      ++ (pyRange (X.k + 1) (X.n + X.k + 1)).map (fun i => [i])
  | .D =>
    (pyRange 1 (X.k + 1)).map (fun i => [i]) ++ (if X.k > 0 then [[X.k, 0]] else [])
      ++ (pyRange (X.k + 1) (X.n + X.k + 1)).map (fun i => [i])

/-- `point_class` (grassmannian.py:87-93, isotropic_grassmannian.py:90-98,
orthogonal_grassmannian.py:123-136). In type A with `k = 0` the code returns the bare list `[]`
instead of `Schur([])`; both are represented by `[]`. -/
def Space.pointClass (X : Space) : List Int :=
  match X.type with
  | .A => if X.k > 0 then rep X.k (X.n - X.k) else []
  | .B | .C => (pyRange 0 (X.n - X.k)).map (fun i => X.n + X.k - i)
  | .D =>
    let delta := if X.k > 0 then 0 else 1
    (pyRange 0 (X.n - X.k - delta + 1)).map (fun i => X.n + X.k - i)

end Verif
