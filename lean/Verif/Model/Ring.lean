import Verif.Model.PieriA
import Verif.Model.SpaceMaps
/-!
# Model of the ring operations of `abstract_grassmannian.py`

`pieri` is a parameter of type `Int → List Int → Except PyErr Poly` as in the code (a `Callable`).
-/

namespace Verif

/-- `str(x)` of a list of ints without spaces, and `translate(ftable)` applied
(schur.py:23-24, const.py:1): `[`, `,`, `]` become `f`, `j`, `g`. -/
def intText (i : Int) : List Char :=
  if i < 0 then '-' :: Nat.toDigits 10 i.natAbs else Nat.toDigits 10 i.natAbs

/-- entries separated by `j` -/
def joinText : List Int → List Char
  | [] => []
  | [x] => intText x
  | x :: y :: r => intText x ++ 'j' :: joinText (y :: r)

/-- `str(symbol)` for each symbol. -/
def Sym.text : Sym → List Char
  | .q => ['q']
  | .q1 => ['q', '1']
  | .q2 => ['q', '2']
  | .S p => 'S' :: 'f' :: (joinText p ++ ['g'])

/-- Python's string order on `str(x)`, by code points. -/
def Sym.textLt (a b : Sym) : Bool :=
  listLt (a.text.map (fun c => (c.toNat : Int))) (b.text.map (fun c => (c.toNat : Int)))

/-- `expc.free_symbols - {q}` (abstract_grassmannian.py:195-196), as a list. -/
def Poly.vars (e : Poly) : List Sym := (e.flatMap (fun t => t.1)).filter (fun s => decide (s ≠ .q))

/-- `sorted(vars, key=str)[0]` (abstract_grassmannian.py:197, 203). -/
def leastSym : List Sym → Option Sym
  | [] => none
  | s :: r => match leastSym r with
    | none => some s
    | some t => if t.textLt s then some t else some s

/-- `expc.subs(v, 0)` (abstract_grassmannian.py:207): the terms without `v`. -/
def Poly.subs0 (v : Sym) (e : Poly) : Poly := e.filter (fun t => decide (v ∉ t.1))

/-- `sp.expand(e / v)` (abstract_grassmannian.py:208) for a polynomial all of whose terms contain `v`. -/
def Poly.divVar (v : Sym) (e : Poly) : Poly := e.map (fun t => (t.1.erase v, t.2))

/-- Bound for the recursion of `act_lc`: the number of symbol occurrences. -/
def Poly.size (e : Poly) : Nat := (e.map (fun t => t.1.length)).sum

/-- `spec2num` (abstract_grassmannian.py:182-189) on a symbol. `toSchur` of `q1`, `q2` fails in
`ast.literal_eval` with a `ValueError`. -/
def Space.spec2numSym (X : Space) : Sym → Except PyErr Int
  | .S p => X.spec2num p
  | _ => .error .valueError

/-- `act_lc` (abstract_grassmannian.py:191-224). -/
def actLoop (spec : Sym → Except PyErr Int) (pieri : Int → List Int → Except PyErr Poly) :
    Nat → Poly → Poly → Except PyErr Poly
  | 0, _, _ => .error .outOfFuel
  | f + 1, expc, lc =>
    match leastSym expc.vars with
    | none => .ok (Poly.mul expc lc)
    | some v => do
      let i ← spec v
      let expc0 := expc.subs0 v
      let expc1 := (Poly.sub expc expc0).divVar v
      let p1 ← actLoop spec pieri f expc1 lc
      let p2 ← actLoop spec pieri f expc0 lc
      let r ← Poly.apply (pieri i) p1
      .ok (Poly.add r p2)

/-- `act_lc` with a sufficient recursion bound. -/
def Space.actLc (X : Space) (pieri : Int → List Int → Except PyErr Poly) (expc lc : Poly) :
    Except PyErr Poly := actLoop X.spec2numSym pieri (expc.size + 1) expc lc

/-- `giambelli_rec_inner` (abstract_grassmannian.py:226-257); the first argument bounds the recursion
depth. `lam[1]` of a one-entry list ending in `0` raises `IndexError` (line 243). The memoisation
decorator is transparent (property C29). -/
def giamInner (pieri : Int → List Int → Except PyErr Poly) (k : Int) :
    Nat → List Int → Except PyErr Poly
  | 0, _ => .error .outOfFuel
  | f + 1, lam =>
    if lam.length = 0 then .ok (Poly.const 1)
    else
      let p := if at' lam 0 = k ∧ last' lam = 0 then -k else at' lam 0
      if last' lam = 0 ∧ lam.length = 1 then .error .indexError
      else
        let lam0 := if last' lam = 0 ∧ at' lam 1 < k then lam.tail.dropLast else lam.tail
        do
          let w ← pieri p lam0
          let stuff := Poly.sub w (Poly.sym (.S lam))
          let a ← giamInner pieri k f lam0
          let b ← Poly.apply (giamInner pieri k f) stuff
          .ok (Poly.sub (Poly.mul (Poly.sym (.S (num2spec p))) a) b)

/-- `giambelli_rec` (abstract_grassmannian.py:259-262). -/
def giamRec (pieri : Int → List Int → Except PyErr Poly) (k : Int) (fuel : Nat) (lc : Poly) :
    Except PyErr Poly := Poly.apply (giamInner pieri k fuel) lc

namespace Gr
/-! The methods of a `Grassmannian` object (type A), abstract_grassmannian.py:106-180. -/

variable (X : Space)

/-- `pieri(i, lc)` (abstract_grassmannian.py:106-110). -/
def pieri (i : Int) (lc : Poly) : Except PyErr Poly := Poly.apply (fun p => pieriA i p X.k X.n) lc

/-- `act` (abstract_grassmannian.py:113-116). -/
def act (e lc : Poly) : Except PyErr Poly := X.actLc (fun i p => pieriA i p X.k X.n) e lc

/-- `giambelli` (abstract_grassmannian.py:119-122). -/
def giambelli (fuel : Nat) (lc : Poly) : Except PyErr Poly :=
  giamRec (fun i p => pieriA i p X.k X.n) X.k fuel lc

/-- `mult` (abstract_grassmannian.py:125-128). -/
def mult (fuel : Nat) (a b : Poly) : Except PyErr Poly := do
  let g ← giambelli X fuel a
  act X g b

/-- `toS` (abstract_grassmannian.py:131-133). -/
def toS (fuel : Nat) (a : Poly) : Except PyErr Poly := do
  let g ← giambelli X fuel a
  act X g (Poly.sym (.S []))

/-- `qpieri` (abstract_grassmannian.py:136-141). On a single symbol the code calls the
same function directly. -/
def qpieri (i : Int) (lc : Poly) : Except PyErr Poly := Poly.apply (fun p => qpieriA i p X.k X.n) lc

/-- `qact` (abstract_grassmannian.py:144-150). -/
def qact (e lc : Poly) : Except PyErr Poly := X.actLc (fun i p => qpieriA i p X.k X.n) e lc

/-- `qgiambelli` (abstract_grassmannian.py:153-157). -/
def qgiambelli (fuel : Nat) (lc : Poly) : Except PyErr Poly :=
  giamRec (fun i p => qpieriA i p X.k X.n) X.k fuel lc

/-- `qmult` (abstract_grassmannian.py:160-174). -/
def qmult (fuel : Nat) (a b : Poly) : Except PyErr Poly := do
  let g ← qgiambelli X fuel a
  qact X g b

/-- `qtoS` (abstract_grassmannian.py:177-180). -/
def qtoS (fuel : Nat) (a : Poly) : Except PyErr Poly := do
  let g ← qgiambelli X fuel a
  qact X g (Poly.sym (.S []))

end Gr

end Verif
