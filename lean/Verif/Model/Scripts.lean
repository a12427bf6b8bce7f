import Verif.Model.Spaces
import Verif.Model.Ring
import Verif.Model.Text
import Mathlib.Algebra.Order.Floor.Defs
import Mathlib.Data.Rat.Floor
/-!
# Model of the helpers of the table test and of the coverage badges

`testcases/brute_force/test_zclass_csv_threaded.py` (reading rows, splitting into batches, choosing the space of a row) and
`scripts/coverage_badges.py` (texts and colours of the badges). The threads and the time measurement are left out: the results of the
batches are taken in order. `int(text)` is modelled for texts of digits with an optional minus sign; Python also accepts blanks around the
number, a plus sign and single underscores, which the model rejects with ValueError.
-/

namespace Verif

/-! ### `test_zclass_csv_threaded.py` -/

/-- `load_csv_data` (test_zclass_csv_threaded.py:99-108) on the rows delivered by the csv reader. -/
def loadCsvData {α : Type} (rows : List α) (maxRows : Option Int) : List α :=
  match maxRows with
  | none => rows
  | some r => if r = 0 then rows else rows.take r.toNat

/-- `split_into_batches` (test_zclass_csv_threaded.py:110-115): `range(0, len(data), batch_size)` has the length given here for a positive
step, is empty for a negative step, and raises for the step zero. -/
def splitIntoBatches {α : Type} (data : List α) (b : Int) : Except PyErr (List (List α)) :=
  if b = 0 then .error .valueError
  else if b < 0 then .ok []
  else .ok ((List.range ((data.length + b.toNat - 1) / b.toNat)).map (fun j => (data.drop (j * b.toNat)).take b.toNat))

/-- `batches[:max_threads] if len(batches) > max_threads else batches` (test_zclass_csv_threaded.py:136, 210). -/
def testBatches {α : Type} (batches : List (List α)) (maxThreads : Nat) : List (List α) :=
  if batches.length > maxThreads then batches.take maxThreads else batches

/-- `text.split(sep)` for one character. -/
def splitChar (sep : Char) : List Char → List (List Char)
  | [] => [[]]
  | c :: r =>
    if c = sep then [] :: splitChar sep r
    else match splitChar sep r with
      | [] => [[c]]
      | a :: l => (c :: a) :: l

/-- `int(text)`, see the head of this file. -/
def pyInt (t : List Char) : Except PyErr Int :=
  match t with
  | '-' :: r => if r ≠ [] ∧ r.all Char.isDigit then .ok (-(digitsVal r : Int)) else .error .valueError
  | r => if r ≠ [] ∧ r.all Char.isDigit then .ok (digitsVal r : Int) else .error .valueError

/-- The command and the parameters of a row (test_zclass_csv_threaded.py:35-39). -/
def rowCommand (t : List Char) : Except PyErr (List Char × List Int) :=
  match splitChar '(' t with
  | command :: a :: _ => do
    let params ← (splitChar ',' a.dropLast).mapM pyInt
    .ok (command, params)
  | _ => .error .indexError

/-- `dispatch` (test_zclass_csv_threaded.py:16-24); `none` is Python's `None`. -/
def dispatch (command : List Char) (params : List Int) : Except PyErr (Option Space) :=
  if command = "OG".toList then
    match params with
    | [m, n] => (mkOG m n).map some
    | _ => .error .typeError
  else if command = "IG".toList then
    match params with
    | [m, n] => (mkIG m n).map some
    | _ => .error .typeError
  else if command = "Gr".toList then
    match params with
    | [m, n] => (mkGr m n).map some
    | _ => .error .typeError
  else .ok none

/-- One round of the loop of `process_batch` (test_zclass_csv_threaded.py:33-92), up to the texts in the record: `none` when the row is
skipped, otherwise the entry `success`. `check X row` is the comparison of the product with the expected result (lines 47-67), which may raise;
`None.qmult` raises AttributeError. -/
def processRow (rh : Bool) (check : Space → List (List Char) → Except PyErr Bool) (row : List (List Char)) : Option Bool :=
  match row with
  | [] => some false
  | t :: _ =>
    match rowCommand t with
    | .error _ => some false
    | .ok (command, params) =>
      if rh ∧ command ≠ "Gr".toList then none
      else match dispatch command params with
        | .error _ => some false
        | .ok none => some false
        | .ok (some X) => match check X row with
          | .error _ => some false
          | .ok b => some b

/-- `test_1_threaded`, `test_2_threaded` (test_zclass_csv_threaded.py:119-255): the number of rows with `success` false, which is asserted to
be zero; the filter of lines 194-199 for the second test raises IndexError for a row without columns. -/
def failedRows (rh : Bool) (check : Space → List (List Char) → Except PyErr Bool) (batchSize : Int) (maxThreads : Nat)
    (data : List (List (List Char))) : Except PyErr Nat := do
  let sel ← if rh then
      (if data.any (fun row => row.isEmpty) then .error .indexError
        else .ok (data.filter (fun row => match row with
          | [] => false
          | t :: _ => decide ((splitChar '(' t).head? = some "Gr".toList))))
    else .ok data
  let batches ← splitIntoBatches sel batchSize
  .ok (((testBatches batches maxThreads).flatten.filterMap (processRow rh check)).count false)

/-! ### `coverage_badges.py` -/

/-- `int(x)` of a `Decimal`: towards zero. -/
def truncRat (x : Rat) : Int := if x < 0 then -⌊-x⌋ else ⌊x⌋

/-- `badge_color` (coverage_badges.py:29-34). -/
def badgeColor (rate : Rat) : String :=
  if rate ≥ 100 then "brightgreen" else if rate ≥ 70 then "orange" else "red"

/-- `evolution_color` (coverage_badges.py:37-40). -/
def evolutionColor (delta : Rat) : String :=
  if delta = 0 then "blue" else if delta > 0 then "brightgreen" else "red"

/-- Message and colour of the badge "Coverage evolution" (coverage_badges.py:51-57). -/
def evolutionBadge (prev : Option Rat) (cov : Rat) : List Char × String :=
  match prev with
  | some p => (intText (truncRat p) ++ ("% > ".toList ++ (intText (truncRat cov) ++ ['%'])), evolutionColor (cov - p))
  | none => (intText (truncRat cov) ++ ['%'], evolutionColor 0)

/-- Message and colour of the badge "PR Coverage" (coverage_badges.py:60-61). -/
def prBadge (cov : Rat) : List Char × String := (intText (truncRat cov) ++ ['%'], badgeColor cov)

end Verif
