import Verif.Model.Ring
import Verif.Model.Text
import Mathlib.Data.List.Sort
/-!
# Model of multiplication tables, CSV comparison, ASCII diagrams and `schur_expansion`
-/

namespace Verif

/-! ### `mult_table.py` -/

/-- `AbstractMultTable.__init__` (mult_table.py:28-43): row `i`, column `j` is the product of the labels.
The DataFrame is its matrix of values together with the labels. The first exception is raised. -/
def multTable (labels : List (List Int)) (prod : Poly → Poly → Except PyErr Poly) :
    Except PyErr (List (List Poly)) :=
  labels.mapM (fun a => labels.mapM (fun b => prod (Poly.sym (.S a)) (Poly.sym (.S b))))

/-! ### `csv_bijection.py` -/

/-- `_read_csv_transformed` (csv_bijection.py:5-18) on the rows delivered by the csv reader; `norm` is the
normalisation of the third column (encode, parse, expand, simplify, print, decode), which may raise.
The set is a list without repetitions. -/
def readCsv (norm : String → Except PyErr String) : List (List String) →
    Except PyErr (List (String × String × String))
  | [] => .ok []
  | row :: rest =>
    if !(row.any (fun f => decide (f ≠ ""))) then readCsv norm rest
    else match row with
      | a :: b :: c :: _ => do
        let c' ← norm c
        let s ← readCsv norm rest
        .ok (if (a, b, c') ∈ s then s else (a, b, c') :: s)
      | _ => readCsv norm rest

/-- `check_bijection_with_permutation` (csv_bijection.py:20-29). -/
def checkBijection (norm : String → Except PyErr String) (f g : List (List String)) : Except PyErr Bool := do
  let s ← readCsv norm f
  let t ← readCsv norm g
  .ok (decide (s.length = t.length ∧ (s.filter (fun r => decide (r ∈ t))).length = s.length))

/-! ### ASCII diagrams (utils/mix.py:14-40, lc.py:316-365) -/

/-- `"[]" * c` -/
def boxes (c : Int) : List Char := (List.replicate c.toNat ['[', ']']).flatten

/-- `"  " * c` -/
def blanks (c : Int) : List Char := (List.replicate c.toNat [' ', ' ']).flatten

/-- `max(l)` of a non-empty list, `0` for the empty one. -/
def maxOr0 : List Int → Int
  | [] => 0
  | [a] => a
  | a :: b :: r => max a (maxOr0 (b :: r))

/-- `partition_to_ascii` (utils/mix.py:14-19). -/
def partitionToAscii (p : List Int) : List (List Char) := p.map (fun r => boxes r ++ blanks (maxOr0 p - r))

/-- `embed_str` (utils/mix.py:21-30). -/
def embedStr (s : List Char) (height : Int) : List (List Char) :=
  (List.range height.toNat).map (fun i => if i = 0 then s else List.replicate s.length ' ')

/-- `embed_partition` (utils/mix.py:32-39). `res[0]` raises on the empty partition. -/
def embedPartition (p : List Int) (width height : Int) : Except PyErr (List (List Char)) :=
  match partitionToAscii p with
  | [] => .error .indexError
  | r0 :: rs =>
    let res := r0 :: rs
    let res := if width * 2 > (r0.length : Int) then
        res.map (fun row => row ++ blanks (width - (row.length : Int) / 2)) else res
    .ok (if height > (res.length : Int) then res ++ List.replicate (height - res.length).toNat (blanks width) else res)

/-- The blocks of `draw_ascii_partition` (lc.py:341-354): coefficient text and diagram of each term. -/
def drawBlocks (h : Int) : Bool → List (List Char × List Int) → Except PyErr (List (List (List Char)))
  | _, [] => .ok []
  | first, (c, p) :: rest =>
    if p = [] then .error .valueError  -- `max(part)`
    else do
      let d ← embedPartition p (maxOr0 p) h
      let cs := if first then c else " + ".toList ++ c
      let cb := embedStr cs h
      let more ← drawBlocks h false rest
      .ok ((List.zipWith (· ++ ·) cb d) :: more)

/-- `draw_ascii_partition` (lc.py:316-365) after the expansion has been computed: the printed lines.
Input: the text of each coefficient (`""` if it is 1, else `"c*"`) and the partition. -/
def drawAscii (terms : List (List Char × List Int)) : Except PyErr (List (List Char)) := do
  let h : Nat := terms.foldl (fun m t => max m t.2.length) 0
  let blocks ← drawBlocks h true terms
  .ok ((List.range h).map (fun i => (blocks.map (fun b => b.getD i [])).flatten))

/-! ### `schur_expansion` (lc.py:232-314) -/

/-- A coefficient (an expression) and a partition. -/
abbrev Part := Poly × List Int

/-- What `schur_expansion` returns: one pair for a single term, a list for a sum. -/
inductive Expansion where
  | single (t : Part)
  | list (ts : List Part)
  deriving DecidableEq

/-- `int(expr)` of a rational number: rounding towards zero. -/
def ratToInt (c : Rat) : Int := c.num.tdiv c.den

/-- An argument of the product `m` that is a Schubert symbol (exponent one). -/
def schurArg (m : Mono) : Sym → Option (List Int)
  | .S p => if m.count (.S p) = 1 then some p else none
  | _ => none

/-- The Schubert symbols among the arguments of a product. -/
def schurArgs (m : Mono) : List (List Int) := m.filterMap (schurArg m)

/-- `isSchur` on a monomial. -/
def asSchur : Mono → Option (List Int)
  | [.S p] => some p
  | _ => none

/-- Why `_schur_expansion` gives no value. -/
inductive ExpErr where
  | valueError
  /-- endless recursion of `_schur_expansion` on `self.expr` -/
  | recursion
  deriving DecidableEq, Repr

/-- `_schur_expansion` on one term (lc.py:276-284); `inSum` says that `self.expr` is a sum: then any other kind
of term (a power, a bare `q`) makes the function call itself on all of `self.expr` again without end. -/
def expandTerm (inSum : Bool) (t : Mono × Rat) : Except ExpErr Part :=
  if t.1 = [] then .ok (Poly.const (ratToInt t.2), [])
  else if t.2 = 1 ∧ (asSchur t.1).isSome then .ok (Poly.const 1, (asSchur t.1).getD [])
  else if t.2 ≠ 1 ∨ t.1.dedup.length > 1 then
    match schurArgs t.1 with
    | [] => .error .valueError
    | [p] => .ok ([(t.1.erase (.S p), t.2)], p)
    | _ => .error .valueError
  else if inSum then .error .recursion else .error .valueError

/-- `'q' in str(term)`: the text of a Schubert symbol contains no `q`. -/
def hasQ (m : Mono) : Bool := m.any (fun s => match s with
  | .S _ => false
  | _ => true)

/-- `schur_expansion(include_q)` (lc.py:297-314 with 253-295) of an expanded expression.
Python's `sorted` is a stable sort. -/
def schurExpansion (e : Poly) (includeQ : Bool) : Except ExpErr Expansion :=
  match e with
  | [] => .ok (.single (Poly.const 0, []))
  | [t] => do
    let r ← expandTerm false t
    .ok (.single r)
  | ts => do
    let rs ← (ts.filter (fun t => includeQ || !hasQ t.1)).mapM (expandTerm true)
    .ok (.list (rs.insertionSort (fun a b => listLt b.2 a.2 = false)))

end Verif
