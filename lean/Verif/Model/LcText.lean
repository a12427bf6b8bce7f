import Verif.Model.Text
import Verif.Model.Expr
import Verif.Model.Partition
import Mathlib.Data.List.Dedup
/-!
# Model of the text form of a `LinearCombination`

`LinearCombination.__init__` (lc.py:11-32) and `__str__` (lc.py:34-35).  Both use sympy:

* `str(expr)` of an expanded polynomial with rational coefficients is modelled after sympy's printer: a sum of terms,
  each a product of an absolute coefficient `a/b` and powers of symbols.  The order in which sympy prints the
  terms and the factors is not modelled: they are printed in the order in which they are given, and the theorems
  hold for every order.
* `sp.parse_expr` is modelled on the texts made of natural numbers, names, `+`, `-`, `*`, `/`, `**` and
  parentheses, with the precedence of these operators in Python.  Quotients are modelled if the divisor is a
  non-zero number, powers if the exponent is a natural number; a name has to be `q`, `q1`, `q2` or the name of a
  Schubert symbol.  On all other texts the model has no value (`none`).
-/

namespace Verif

/-! ### sympy's printer -/

/-- A term of an expanded polynomial: symbols with exponents, and the coefficient. -/
abbrev PTerm := List (Sym × Nat) × Rat

/-- `str` of a natural number. -/
def natText (n : Nat) : List Char := Nat.toDigits 10 n

/-- A power of a symbol; the exponent one is not written. -/
def factorText (y : Sym × Nat) : List Char := y.1.text ++ if y.2 = 1 then [] else '*' :: '*' :: natText y.2

/-- `"*".join(l)` -/
def joinStar : List (List Char) → List Char
  | [] => []
  | [t] => t
  | t :: u :: r => t ++ '*' :: joinStar (u :: r)

/-- The numerator: the coefficient one is not written before a symbol. -/
def numText (t : PTerm) : List Char :=
  joinStar ((if t.2.num.natAbs = 1 ∧ t.1 ≠ [] then [] else [natText t.2.num.natAbs]) ++ t.1.map factorText)

/-- A term without its sign. -/
def bodyText (t : PTerm) : List Char := numText t ++ if t.2.den = 1 then [] else '/' :: natText t.2.den

/-- The following terms of a sum with their signs. -/
def tailText : List PTerm → List Char
  | [] => []
  | t :: r => (if t.2 < 0 then [' ', '-', ' '] else [' ', '+', ' ']) ++ (bodyText t ++ tailText r)

/-- `str(expr)` of the sum of the terms. -/
def termsText : List PTerm → List Char
  | [] => ['0']
  | t :: r => (if t.2 < 0 then ['-'] else []) ++ (bodyText t ++ tailText r)

/-- The terms of an expanded polynomial, in the order of the model. -/
def printTerms (p : Poly) : List PTerm := p.map (fun t => (t.1.dedup.map (fun s => (s, t.1.count s)), t.2))

/-! ### sympy's parser -/

/-- Tokens. -/
inductive Tok where
  | int (n : Nat)
  | name (s : List Char)
  | plus | minus | star | dstar | slash | lpar | rpar
  deriving DecidableEq, Repr

/-- Letters, digits and the underscore. -/
def isNameChar (c : Char) : Bool := c.isAlphanum || c == '_'

/-- The tokens of a text; the `Nat` bounds the recursion. -/
def tokens : Nat → List Char → Option (List Tok)
  | 0, _ => none
  | _ + 1, [] => some []
  | f + 1, c :: r =>
    if c = ' ' then tokens f r
    else if c = '+' then (tokens f r).map (.plus :: ·)
    else if c = '-' then (tokens f r).map (.minus :: ·)
    else if c = '/' then (tokens f r).map (.slash :: ·)
    else if c = '(' then (tokens f r).map (.lpar :: ·)
    else if c = ')' then (tokens f r).map (.rpar :: ·)
    else if c = '*' then
      if r.head? = some '*' then (tokens f r.tail).map (.dstar :: ·) else (tokens f r).map (.star :: ·)
    else if c.isDigit then
      match parseNat (c :: r) with
      | none => none
      | some (n, r') => (tokens f r').map (.int n :: ·)
    else if isNameChar c then
      (tokens f (r.dropWhile isNameChar)).map (.name (c :: r.takeWhile isNameChar) :: ·)
    else none

/-- The tokens of a text. -/
def lex (t : List Char) : Option (List Tok) := tokens (t.length + 1) t

/-- The ints of a list of Python values, if all are ints. -/
def unpints : List PVal → Option (List Int)
  | [] => some []
  | .int i :: r => (unpints r).map (i :: ·)
  | .list _ :: _ => none

/-- The symbol with a given name. -/
def symOfName (s : List Char) : Option Sym :=
  if s = Sym.text .q then some .q
  else if s = Sym.text .q1 then some .q1
  else if s = Sym.text .q2 then some .q2
  else match toSchur s with
    | .error _ => none
    | .ok l =>
      match unpints l with
      | none => none
      | some p => if s = Sym.text (.S p) then some (.S p) else none

/-- The value of an expression that is a number. -/
def constOf (e : Expr) : Option Rat :=
  match e.expand with
  | [] => some 0
  | [([], c)] => some c
  | _ => none

/-- The value of an expression that is a natural number. -/
def natOf (e : Expr) : Option Nat :=
  match constOf e with
  | none => none
  | some c => if c.den = 1 ∧ 0 ≤ c.num then some c.num.toNat else none

mutual
/-- `atom: NUMBER | NAME | '(' sum ')'`; the result is the expression and the remaining tokens. -/
def pAtom : Nat → List Tok → Option (Expr × List Tok)
  | 0, _ => none
  | _ + 1, [] => none
  | f + 1, t :: r =>
    match t with
    | .int n => some (.num n, r)
    | .name s => (symOfName s).map (fun y => (.sym y, r))
    | .lpar =>
      match pSum f r with
      | some (e, .rpar :: r') => some (e, r')
      | _ => none
    | _ => none
/-- `factor: '+' factor | '-' factor | atom ['**' factor]` -/
def pFactor : Nat → List Tok → Option (Expr × List Tok)
  | 0, _ => none
  | _ + 1, [] => none
  | f + 1, t :: r =>
    if t = .plus then pFactor f r
    else if t = .minus then (pFactor f r).map (fun x => (.mul (.num (-1)) x.1, x.2))
    else match pAtom f (t :: r) with
      | none => none
      | some (e, u) =>
        if u.head? = some .dstar then
          match pFactor f u.tail with
          | none => none
          | some (x, r') => (natOf x).map (fun n => (.pow e n, r'))
        else some (e, u)
/-- `term: factor | term '*' factor | term '/' factor` -/
def pTerm : Nat → List Tok → Option (Expr × List Tok)
  | 0, _ => none
  | f + 1, ts =>
    match pFactor f ts with
    | none => none
    | some (e, r) => pTermTail f e r
/-- The factors after the first one. -/
def pTermTail : Nat → Expr → List Tok → Option (Expr × List Tok)
  | 0, _, _ => none
  | _ + 1, a, [] => some (a, [])
  | f + 1, a, t :: r =>
    if t = .star then
      match pFactor f r with
      | none => none
      | some (e, r') => pTermTail f (.mul a e) r'
    else if t = .slash then
      match pFactor f r with
      | none => none
      | some (e, r') =>
        match constOf e with
        | none => none
        | some c => if c = 0 then none else pTermTail f (.mul a (.num c⁻¹)) r'
    else some (a, t :: r)
/-- `sum: term | sum '+' term | sum '-' term` -/
def pSum : Nat → List Tok → Option (Expr × List Tok)
  | 0, _ => none
  | f + 1, ts =>
    match pTerm f ts with
    | none => none
    | some (e, r) => pSumTail f e r
/-- The terms after the first one. -/
def pSumTail : Nat → Expr → List Tok → Option (Expr × List Tok)
  | 0, _, _ => none
  | _ + 1, a, [] => some (a, [])
  | f + 1, a, t :: r =>
    if t = .plus then
      match pTerm f r with
      | none => none
      | some (e, r') => pSumTail f (.add a e) r'
    else if t = .minus then
      match pTerm f r with
      | none => none
      | some (e, r') => pSumTail f (.add a (.mul (.num (-1)) e)) r'
    else some (a, t :: r)
end

/-- A sum that uses all tokens. -/
def parseToks (ts : List Tok) : Option Expr :=
  match pSum (4 * ts.length + 4) ts with
  | some (e, []) => some e
  | _ => none

/-- `sp.parse_expr(t)`. -/
def parseExpr (t : List Char) : Option Expr :=
  match lex t with
  | none => none
  | some ts => parseToks ts

/-! ### `LinearCombination` -/

/-- `t.replace('^', '**')` -/
def caretToStars (t : List Char) : List Char := t.flatMap (fun c => if c = '^' then ['*', '*'] else [c])

/-- `t.replace('**', '^')`: from left to right, without overlaps. -/
def starsToCaret : List Char → List Char
  | [] => []
  | [c] => [c]
  | c :: d :: r => if c = '*' ∧ d = '*' then '^' :: starsToCaret r else c :: starsToCaret (d :: r)

/-- `LinearCombination.__str__` (lc.py:34-35), given the text `str(self.expr)`. -/
def lcStr (t : List Char) : List Char := starsToCaret (decode t)

/-- The `str` case of `LinearCombination.__init__` (lc.py:18-22). -/
def lcRead (t : List Char) : Option Expr := parseExpr (encode (caretToStars t))

/-- The arguments that `LinearCombination.__init__` distinguishes: a list of ints, a `Schur` object, a text, a sympy
expression, a number, a `LinearCombination`, anything else. -/
inductive LcArg where
  | list (p : List Int)
  | schur (p : List Int)
  | str (t : List Char)
  | expr (e : Expr)
  | num (c : Rat)
  | lc (e : Expr)
  | other

/-- What the constructor does: it stores an expression, raises `ValueError`, or is asked to read a text on which the
parser is not modelled or raises. -/
inductive LcRes where
  | ok (e : Expr)
  | valueError
  | unread

/-- A parsed text. -/
def LcRes.ofOption : Option Expr → LcRes
  | none => .unread
  | some e => .ok e

/-- `Schur(p).symbol()` as an expression (schur.py:76-77): the text of the partition is parsed. -/
def schurExpr (p : List Int) : Option Expr := parseExpr (encode (schurStr (pints p)))

/-- `LinearCombination.__init__` (lc.py:11-32). -/
def lcInit : LcArg → LcRes
  | .list p => if isValidPart p then .ofOption (schurExpr p) else .valueError
  | .schur p => .ofOption (schurExpr p)
  | .str t => .ofOption (lcRead t)
  | .expr e => .ok e
  | .num c => .ok (.num c)
  | .lc e => .ok e
  | .other => .valueError

end Verif
