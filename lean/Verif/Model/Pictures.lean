import Verif.Model.Ring
/-!
# Model of the printed and LaTeX diagrams of a partition (schur.py:85-123, partition.py:47-53, utils/mix.py:10-13)

A text is a list of lines, a line a list of characters. `print` is modelled by the lines it writes.
-/

namespace Verif

/-- `s * c` for a text `s`. -/
def repText (s : List Char) (c : Int) : List Char := (List.replicate c.toNat s).flatten

/-- `Schur.print_partition` (schur.py:85-88). -/
def printPartition (p : List Int) : List (List Char) := p.map (fun r => repText "[ ]".toList r)

/-- `Partition.draw` (partition.py:47-53). -/
def partitionDraw (p : List Int) : List (List Char) := if p.length = 0 then ["0".toList] else p.map (fun r => repText "[]".toList r)

/-- `str(list)` of a list of ints. -/
def listText (p : List Int) : List Char := '[' :: ((List.intersperse [',', ' '] (p.map intText)).flatten ++ [']'])

/-- `yd` (utils/mix.py:10-13). -/
def ydText (p : List Int) : List (List Char) :=
  ("Young diagram for partition: ".toList ++ listText p) :: p.map (fun r => repText "[]".toList r)

/-- `str(tuple(p))`: a comma after a single entry. -/
def tupleText : List Int → List Char
  | [x] => '(' :: (intText x ++ [',', ')'])
  | p => '(' :: ((List.intersperse [',', ' '] (p.map intText)).flatten ++ [')'])

/-- `str(l * 2.5)` for a natural number `l` (a float; the values that occur have a short decimal text). -/
def half5Text (l : Nat) : List Char := Nat.toDigits 10 (l * 5 / 2) ++ (if l % 2 = 0 then ".0".toList else ".5".toList)

/-- The line of one box, column `x`, row `y` (schur.py:116). -/
def boxLine (x y : Nat) : List Char :=
  "\\node at (".toList ++ (intText (x * 5) ++ ("mm, ".toList ++ (intText (-(y : Int) * 5) ++ "mm) {};".toList)))

/-- The loop over rows and columns (schur.py:112-118); `y` is the current row. -/
def boxLines : Nat → List Int → List (List Char)
  | _, [] => []
  | y, r :: p => (List.range r.toNat).map (fun x => boxLine x y) ++ boxLines (y + 1) p

/-- `Schur._generate_tikzpicture` (schur.py:98-123). The result is the text `"\n".join(lines)`; here its lines. -/
def tikz (standalone : Bool) (p : List Int) : List (List Char) :=
  (if standalone then ["\\documentclass{standalone}".toList, "\\usepackage{tikz}".toList, "\\begin{document}".toList] else []) ++
  ["\\begin{tikzpicture}".toList, "\\usetikzlibrary{shapes.geometric}".toList,
   "\\tikzstyle{every node}=[draw, minimum size=5mm, inner sep=0pt]".toList,
   "\\node[draw=none, anchor=south] at (".toList ++ half5Text p.length ++ "mm, 5mm) {$S_{".toList ++ tupleText p ++ "}$};".toList] ++
  boxLines 0 p ++
  ["\\end{tikzpicture}".toList] ++
  (if standalone then ["\\end{document}".toList] else [])

end Verif
