import Verif.Model.Ring
/-!
# Model of the module-level interface of `qcalc.py` (lines 590-788)

The functions read the globals `_type`, `_k`, `_n`, `_pieri`, `_qpieri`.  The module sets them once (lines 650-654) to
`None` and `fail_no_type`, and no function of the library changes them, so the model uses these values.  The name
`giambelli_rec` is not defined in the module.
-/

namespace Verif.Globals

/-- `_pieri(i, p, _k, _n)` and `_qpieri(i, p, _k, _n)` (qcalc.py:653-654): `fail_no_type` (qcalc.py:646-647) takes no arguments,
so the call with four arguments raises `TypeError` before its `raise ValueError`. -/
def pieriVar (_i : Int) (_p : List Int) : Except PyErr Poly := .error .typeError

/-- `fail_no_type()` (qcalc.py:646-647). -/
def failNoType {α : Type} : Except PyErr α := .error .valueError

/-- `spec2num` (qcalc.py:591-598) on a symbol; `_type != "D"` holds. -/
def spec2num : Sym → Except PyErr Int
  | .S p => if p.length > 1 then .error .valueError else if p.length = 0 then .error .indexError else .ok (at' p 0)
  | _ => .error .valueError

/-- `act_lc` (qcalc.py:605-638), the same text as the method of `AbstractGrassmannian`. -/
def actLc (pieri : Int → List Int → Except PyErr Poly) (expc lc : Poly) : Except PyErr Poly :=
  actLoop spec2num pieri (expc.size + 1) expc lc

/-- `pieri(i, lc)` (qcalc.py:732-736) on a list. -/
def pieriList (i : Int) (p : List Int) : Except PyErr Poly := pieriVar i p

/-- `pieri(i, lc)` (qcalc.py:732-736) on an expression. -/
def pieri (i : Int) (lc : Poly) : Except PyErr Poly := Poly.apply (fun p => pieriVar i p) lc

/-- `qpieri(i, lc)` (qcalc.py:761-766). -/
def qpieri (i : Int) (lc : Poly) : Except PyErr Poly :=
  match lc with
  | [([.S p], c)] => if c = 1 then pieriVar i p else Poly.apply (fun p => pieriVar i p) lc
  | _ => Poly.apply (fun p => pieriVar i p) lc

/-- `act` (qcalc.py:739-742). -/
def act (e lc : Poly) : Except PyErr Poly := actLc (fun i p => pieriVar i p) e lc

/-- `qact` (qcalc.py:769-775). -/
def qact (e lc : Poly) : Except PyErr Poly := actLc (fun i p => pieriVar i p) e lc

/-- `giambelli` (qcalc.py:745-747): `giambelli_rec` is not a name of the module. -/
def giambelli (_lc : Poly) : Except PyErr Poly := .error .nameError

/-- `qgiambelli` (qcalc.py:778-782). -/
def qgiambelli (_lc : Poly) : Except PyErr Poly := .error .nameError

/-- `mult` (qcalc.py:750-753). -/
def mult (a b : Poly) : Except PyErr Poly := do
  let g ← giambelli a
  act g b

/-- `toS` (qcalc.py:756-758). -/
def toS (a : Poly) : Except PyErr Poly := do
  let g ← giambelli a
  act g (Poly.sym (.S []))

/-- `qtoS` (qcalc.py:785-788). -/
def qtoS (a : Poly) : Except PyErr Poly := do
  let g ← qgiambelli a
  qact g (Poly.sym (.S []))

/-- `part2pair` (qcalc.py:660-667) on a list: `min(item, None)` or `None - 0` raises `TypeError`. -/
def part2pairList (_p : List Int) : Except PyErr Poly := .error .typeError

/-- `part2pair` (qcalc.py:660-667) on an expression. -/
def part2pair (lc : Poly) : Except PyErr Poly := Poly.apply part2pairList lc

/-- `part2index` (qcalc.py:680-694): no branch fits `_type = None`. -/
def part2index (_lc : Poly) : Except PyErr Poly := failNoType

/-- `index2part` (qcalc.py:697-711). -/
def index2part (_lc : Poly) : Except PyErr Poly := failNoType

/-- `schub_type` (qcalc.py:717-729): `_type` is not a string. -/
def schubType (_p : List Int) : Except PyErr Int := .error .valueError

end Verif.Globals
