import Verif.Model.Spaces
/-!
# Class-by-class maps of the Grassmannian objects

The methods apply these functions to every Schubert symbol of a linear combination through
`apply_lc`; here they are given on one symbol, i.e. on one list.
-/

namespace Verif

/-- `part2index` on one symbol (grassmannian.py:105, isotropic_grassmannian.py:118,
orthogonal_grassmannian.py:160-164). -/
def Space.part2index (X : Space) (lam : List Int) : List Int :=
  match X.type with
  | .A => part2indexA lam X.k X.n
  | .B => part2indexB lam X.k X.n
  | .C => part2indexC lam X.k X.n
  | .D => part2indexD lam X.k X.n

/-- `index2part` on one symbol (grassmannian.py:111, isotropic_grassmannian.py:124,
orthogonal_grassmannian.py:171-175). -/
def Space.index2part (X : Space) (idx : List Int) : Except PyErr (List Int) :=
  match X.type with
  | .A => index2partA idx X.k X.n
  | .B => index2partB idx X.k X.n
  | .C => index2partC idx X.k X.n
  | .D => index2partD idx X.k X.n

/-- The `N` used in `dualize` (grassmannian.py:115, isotropic_grassmannian.py:128,
orthogonal_grassmannian.py:180-182). -/
def Space.ambient (X : Space) : Int :=
  match X.type with
  | .A => X.n
  | .B => 2 * X.n + 1
  | .C => 2 * X.n
  | .D => 2 * X.n + 2

/-- `dualize` on one symbol (grassmannian.py:113-119, isotropic_grassmannian.py:126-132,
orthogonal_grassmannian.py:177-186). -/
def Space.dualize (X : Space) (lam : List Int) : Except PyErr (List Int) :=
  X.index2part (dualizeIndex (X.part2index lam) X.ambient (X.type = .D))

/-- `part2index(list)` (grassmannian.py:103-104, isotropic_grassmannian.py:116-117,
orthogonal_grassmannian.py:157-158): calls the module-level `qcalc.part2index`
(qcalc.py:680-694), whose module-level `_type` is `None` (qcalc.py:646), so that the final
`raise ValueError` is reached. -/
def Space.part2indexList (_ : Space) (_ : List Int) : Except PyErr (List Int) := .error .valueError

/-- `type_swap(list, k)` (grassmannian.py:122-123 and the two others): `self.type_swap(symbol)`
without the required argument `k` is a `TypeError`. -/
def Space.typeSwapList (_ : Space) (_ : List Int) : Except PyErr (List Int) := .error .typeError

/-- `type_swap` on one symbol (grassmannian.py:124, isotropic_grassmannian.py:137,
orthogonal_grassmannian.py:188-195); the argument `k` is ignored. -/
def Space.typeSwap (X : Space) (lam : List Int) : List Int :=
  if X.type = .D then Verif.typeSwap lam X.k else lam

/-- `static_miami_swap_inner` (abstract_grassmannian.py:75-91). -/
def miamiSwapInner (lam : List Int) (k : Int) : List Int :=
  if k ∉ lam then lam
  else if lam.countP (fun x => decide (k < x)) % 2 = 0 then lam
  else if last' lam = 0 then lam.dropLast
  else lam ++ [0]

/-- `miami_swap` on one symbol (abstract_grassmannian.py:94-99). -/
def Space.miamiSwap (X : Space) (lam : List Int) : List Int :=
  if X.type = .D then miamiSwapInner lam X.k else lam

/-- `schub_type` (grassmannian.py:126-127, isotropic_grassmannian.py:139-140,
orthogonal_grassmannian.py:197-206) on a list. -/
def Space.schubType (X : Space) (lam : List Int) : Except PyErr Int :=
  if X.type ≠ .D then .error .valueError
  else if X.k ∉ lam then .ok 0
  else if lam.length = 0 ∨ last' lam > 0 then .ok 1
  else .ok 2

/-- `num2spec` (abstract_grassmannian.py:264-265). -/
def num2spec (p : Int) : List Int := if p > 0 then [p] else [-p, 0]

/-- `spec2num` (abstract_grassmannian.py:182-189) on a `Schur` object with list `p`;
`sc.p[0]` raises `IndexError` on the empty list. -/
def Space.spec2num (X : Space) (p : List Int) : Except PyErr Int :=
  if p.length > 1 ∧ (X.type ≠ .D ∨ at' p 1 ≠ 0) then .error .valueError
  else if p.length = 0 then .error .indexError
  else if p.length > 1 then .ok (-(at' p 0))
  else .ok (at' p 0)

end Verif
