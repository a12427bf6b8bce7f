import Verif.Model.Expr
import Verif.Model.Kstrict
import Verif.Model.Conversions
/-!
# Model of the type A Pieri rules

`qcalc.py` lines 312-359 (`_pieri_fillA`, `_pieri_itrA`, `_part_star`), `grassmannian.py` lines 135-166.
-/

namespace Verif

/-- `while rr < len(lam)` in `_pieri_fillA` (qcalc.py:333-337); the first argument counts the
remaining rounds. -/
def fillLoopA (inner outer : List Int) : Nat → Nat → Int → List Int → List Int × Int
  | 0, _, pp, res => (res, pp)
  | c + 1, rr, pp, res =>
    let x := min (min (at' outer rr) (at' inner rr + pp)) (at' res (rr - 1))
    fillLoopA inner outer c (rr + 1) (pp - x + at' inner rr) (res.set rr x)

/-- `_pieri_fillA` (qcalc.py:312-342). -/
def pieriFillA (lam inner outer : List Int) (row : Nat) (p : Int) : Option (List Int) :=
  if lam.length = 0 then some lam
  else
    let r :=
      if row = 0 then
        let x := min (at' outer 0) (at' inner 0 + p)
        fillLoopA inner outer (lam.length - 1) 1 (p - x + at' inner 0) (lam.set 0 x)
      else fillLoopA inner outer (lam.length - row) row p lam
    if r.2 > 0 then none else some (r.1.take lam.length)

/-- The `for r in range(len(lam)-2, -1, -1)` loop of `_pieri_itrA` (qcalc.py:350-358); the argument
is Python's `r + 1`. -/
def itrLoopA (lam inner outer : List Int) : Nat → Int → Option (List Int)
  | 0, _ => none
  | r + 1, p =>
    if at' lam r > at' inner r then
      match pieriFillA (lam.set r (at' lam r - 1)) inner outer (r + 1) (p + 1) with
      | some l => some l
      | none => itrLoopA lam inner outer r (p + at' lam r - at' inner r)
    else itrLoopA lam inner outer r p

/-- `_pieri_itrA` (qcalc.py:345-359). -/
def pieriItrA (lam inner outer : List Int) : Option (List Int) :=
  if lam.length = 0 then none
  else itrLoopA lam inner outer (lam.length - 1) (last' lam - last' inner)

/-- The `while isinstance(mu, list)` loop of `pieriA_inner` (grassmannian.py:143-145). -/
def pieriLoopA (inner outer : List Int) : Nat → Option (List Int) → Poly → Except PyErr Poly
  | 0, _, _ => .error .outOfFuel
  | _ + 1, none, res => .ok res
  | f + 1, some mu, res =>
    pieriLoopA inner outer f (pieriItrA mu inner outer)
      (Poly.add (Poly.sym (.S (partClip mu))) res)

/-- Bound on the number of rounds of `pieriLoopA`: the number of lists between `inner` and `outer`. -/
def pieriFuelA (inner outer : List Int) : Nat :=
  ((List.zip inner outer).map (fun ab => (ab.2 - ab.1 + 1).toNat)).prod + 1

/-- `pieriA_inner(i, lam, k, n)` (grassmannian.py:135-146). `padding_right(lam, 0, c)`
(qcalc.py) appends `c` zeros. -/
def pieriA (i : Int) (lam : List Int) (k n : Int) : Except PyErr Poly :=
  let inner := lam ++ rep 0 (n - k - lam.length)
  let outer := k :: inner.dropLast
  pieriLoopA inner outer (pieriFuelA inner outer) (pieriFillA inner inner outer 0 i) []

/-- `_part_star` (qcalc.py:566-569). -/
def partStar (lam : List Int) (cols : Int) : Poly :=
  if lam.length = 0 ∨ at' lam 0 ≠ cols then [] else Poly.sym (.S lam.tail)

/-- `qpieriA_inner(i, lam, k, n)` (grassmannian.py:149-166). -/
def qpieriA (i : Int) (lam : List Int) (k n : Int) : Except PyErr Poly := do
  let res ← pieriA i lam k n
  if (lam.length : Int) = n - k ∧ lam.length = 0 then .error .indexError
  else if (lam.length : Int) = n - k ∧ at' lam (lam.length - 1) > 0 then
    if k = 1 then .ok (Poly.mul (Poly.sym .q) (Poly.sym (.S [])))
    else
      let lab := (lam.filter (fun x => decide (x > 1))).map (fun x => x - 1)
      let w ← pieriA (i - 1) lab (k - 1) n
      let z ← Poly.apply (fun x => .ok (partStar x (k - 1))) w
      .ok (Poly.add res (Poly.mul (Poly.sym .q) z))
  else .ok res

end Verif
