import Verif.Model.Ring
/-!
# Model of the text conversions of `schur.py` and `utils/const.py`

Strings are lists of characters.  `sp.parse_expr` is modelled only on identifiers (it gives the symbol with
that name); `ast.literal_eval` only on nested lists of decimal integers.
-/

namespace Verif

/-- Python values that `Schur.p` can hold: ints and (nested) lists. -/
inductive PVal where
  | int (i : Int)
  | list (l : List PVal)

mutual
/-- `str(v)`. -/
def PVal.str : PVal → List Char
  | .int i => intText i
  | .list l => '[' :: (PVal.strs l ++ [']'])
/-- Entries joined by `", "`. -/
def PVal.strs : List PVal → List Char
  | [] => []
  | [v] => v.str
  | v :: w :: r => v.str ++ ',' :: ' ' :: PVal.strs (w :: r)
end

/-- `ftable` (const.py:1): `[`, `,`, `]` become `f`, `j`, `g`. -/
def fchar (c : Char) : Char :=
  if c = '[' then 'f' else if c = ',' then 'j' else if c = ']' then 'g' else c

/-- `btable` (const.py:2): the other way round. -/
def bchar (c : Char) : Char :=
  if c = 'f' then '[' else if c = 'j' then ',' else if c = 'g' then ']' else c

/-- `encode` (const.py:4-5). -/
def encode (t : List Char) : List Char := t.map fchar

/-- `decode` (const.py:7-8), also `translate_schur` (schur.py:179-181). -/
def decode (t : List Char) : List Char := t.map bchar

/-- `Schur.__str__` (schur.py:23-24): `f"S{p}".replace(' ', '')`. -/
def schurStr (p : List PVal) : List Char := ('S' :: (PVal.list p).str).filter (fun c => decide (c ≠ ' '))

/-- A Python identifier made of ASCII letters, digits and underscores. -/
def isIdent : List Char → Bool
  | [] => false
  | c :: r => (c.isAlpha || c == '_') && r.all (fun c => c.isAlphanum || c == '_')

/-- `sp.parse_expr(t)` on an identifier: the symbol with that name. `none`: something else than one
symbol. -/
def parseSymbol (t : List Char) : Option (List Char) := if isIdent t then some t else none

/-- `Schur.symbol` (schur.py:76-77); the result is the name of the symbol. -/
def schurSymbol (p : List PVal) : Option (List Char) := parseSymbol (encode (schurStr p))

/-- Blanks between tokens. -/
def skipWs (t : List Char) : List Char := t.dropWhile (fun c => decide (c = ' '))

/-- Value of a digit string. -/
def digitsVal (ds : List Char) : Nat := ds.foldl (fun a c => 10 * a + (c.toNat - '0'.toNat)) 0

/-- A decimal literal: digits without leading zeros (or only zeros). -/
def parseNat (t : List Char) : Option (Nat × List Char) :=
  let ds := t.takeWhile Char.isDigit
  let rest := t.dropWhile Char.isDigit
  match ds with
  | [] => none
  | d :: r => if d = '0' ∧ !(r.all (fun c => decide (c = '0'))) then none else some (digitsVal (d :: r), rest)

mutual
/-- A value of `ast.literal_eval` and the rest of the text; the `Nat` bounds the nesting. -/
def parseVal : Nat → List Char → Option (PVal × List Char)
  | 0, _ => none
  | f + 1, t =>
    match skipWs t with
    | [] => none
    | c :: r =>
      if c = '[' then
        match skipWs r with
        | [] => none
        | c' :: r' =>
          if c' = ']' then some (.list [], r')
          else match parseItems f (c' :: r') with
            | none => none
            | some (l, r'') => some (.list l, r'')
      else if c = '-' then
        match parseNat r with
        | none => none
        | some (n, r') => some (.int (-n), r')
      else match parseNat (c :: r) with
        | none => none
        | some (n, r') => some (.int n, r')
/-- The entries of a list after `[` or `,`, and the text after the closing bracket. A comma before the
bracket is allowed. -/
def parseItems : Nat → List Char → Option (List PVal × List Char)
  | 0, _ => none
  | f + 1, t =>
    match parseVal f t with
    | none => none
    | some (v, r) =>
      match skipWs r with
      | [] => none
      | c :: r' =>
        if c = ']' then some ([v], r')
        else if c = ',' then
          match skipWs r' with
          | [] => none
          | c' :: r'' =>
            if c' = ']' then some ([v], r'')
            else match parseItems f (c' :: r'') with
              | none => none
              | some (l, r) => some (v :: l, r)
        else none
end

/-- `ast.literal_eval(t)`; failures are `ValueError` here (Python: `ValueError` or `SyntaxError`, which are
not distinguished). -/
def literalEval (t : List Char) : Except PyErr PVal :=
  match parseVal (2 * t.length + 2) t with
  | none => .error .valueError
  | some (v, r) => if skipWs r = [] then .ok v else .error .valueError

/-- `toSchur(text)` (schur.py:183-190). -/
def toSchur (t : List Char) : Except PyErr (List PVal) :=
  match literalEval ((decode t).filter (fun c => decide (c ≠ 'S'))) with
  | .error e => .error e
  | .ok (.list l) => .ok l
  | .ok (.int _) => .error .valueError

/-- A list of ints as a Python value. -/
def pints (p : List Int) : List PVal := p.map .int

end Verif
