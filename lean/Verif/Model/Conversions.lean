import Verif.Model.Partition
/-!
# Model of the partition utilities and conversions of `schubertpy/qcalc.py` (lines 57-307)

A `Schur` object built from a list of ints is represented by that list; `Schur([top, bot])`
by the pair `(top, bot)`.
-/

namespace Verif

/-- Loop of `part_conj` (qcalc.py:70-73): `m` rounds of "record the length, decrease all
entries by one, clip". -/
def partConjLoop : Nat → List Int → List Int
  | 0, _ => []
  | m + 1, lam => (lam.length : Int) :: partConjLoop m (partClip (lam.map (fun x => x - 1)))

/-- `part_conj` (qcalc.py:57-74). -/
def partConj (lam : List Int) : List Int :=
  let l := partClip lam
  if l.length = 0 then []
  else if l.any (fun x => decide (x < 0)) then []
  else partConjLoop (at' l 0).toNat l

/-- `part_len` (qcalc.py:125-129). -/
def partLen (l : List Int) : Nat := (partClip l).length

/-- `part_itr` (qcalc.py:99-112); `none` is Python's `None`. -/
def partItr (mu : List Int) : Option (List Int) :=
  if mu.length = 0 then none
  else if (partClip mu).length = 0 then none
  else
    let lastIdx := partLen mu - 1
    let a := at' mu lastIdx - 1
    some (mu.take lastIdx ++ List.replicate (mu.length - lastIdx) a)

/-- The `while mu is not None` loop of `part_gen` (qcalc.py:85-94); outer `none`: out of fuel. -/
def partGenLoop : Nat → Option (List Int) → Option (List (List Int))
  | 0, _ => none
  | _ + 1, none => some []
  | f + 1, some mu =>
    if mu.length > 0 then (partGenLoop f (partItr mu)).map (fun r => partClip mu :: r)
    else some [[]]

/-- `part_gen` (qcalc.py:77-96). -/
def partGen (fuel : Nat) (lam : List Int) : Option (List (List Int)) :=
  if lam = [] then some [] else partGenLoop fuel (some lam)

/-- Downward search of `part_itr_between` (qcalc.py:117-119): the argument and the result are
Python's `i + 1`. -/
def betweenLoop (mu tau : List Int) : Nat → Nat
  | 0 => 0
  | i + 1 => if at' mu i = at' tau i then betweenLoop mu tau i else i + 1

/-- `part_itr_between(mu, tau, lam)` (qcalc.py:116-122). -/
def partItrBetween (mu tau lam : List Int) : Option (List Int) :=
  match betweenLoop mu tau mu.length with
  | 0 => none
  | i + 1 =>
    some (mu.take i ++
      (List.range (mu.length - i)).map (fun j => min (at' mu i - 1) (at' lam (i + j))))

/-- `part2pair_inner` (qcalc.py:136-146). -/
def part2pair (lam : List Int) (k : Int) : List Int × List Int :=
  let top := partConj (lam.map (fun x => min x k))
  let bot := partClip (lam.map (fun x => max (x - k) 0))
  let top := top ++ rep 0 (k - top.length)
  let bot := if lam.length > 0 ∧ last' lam = 0 then bot ++ [0] else bot
  (top, bot)

/-- `pair2part_inner` (qcalc.py:149-165). The comprehension reads `lam[i]` for
`i < len(p2)`, which raises `IndexError` when `lam` is shorter. -/
def pair2part (pair : List Int × List Int) : Except PyErr (List Int) :=
  let p1 := pair.1
  let p2 := pair.2
  if p1.length = 0 then .ok p2
  else
    let lam := partConj p1
    let np2 := p2.length
    if lam.length < np2 then .error .indexError
    else
      let a := (List.range np2).map (fun i => at' lam i + at' p2 i) ++ lam.drop np2
      .ok (if np2 > 0 ∧ last' p2 = 0 then a ++ [0] else a)

/-- `type_swap_inner` (qcalc.py:168-178). -/
def typeSwap (lam : List Int) (k : Int) : List Int :=
  if lam.length = 0 then []
  else if k ∉ lam then
    if last' lam = 0 then lam.dropLast else lam
  else if last' lam = 0 then lam.dropLast
  else lam ++ [0]

/-- `part2indexA_inner` (qcalc.py:181-184). -/
def part2indexA (lam : List Int) (k n : Int) : List Int :=
  let la := lam ++ rep 0 (n - k)
  (List.range (n - k).toNat).map (fun j => k + j - at' la j + 1)

/-- `_count_inner` (qcalc.py:187-192). -/
def countInner (la : List Int) (k : Int) (j : Nat) (delta : Int) : Int :=
  ((List.range j).countP
    (fun i => decide (at' la i + at' la j ≤ 2 * k + delta + (j : Int) - (i : Int))) : Nat)

/-- `part2indexB_inner` (qcalc.py:195-205). -/
def part2indexB (lam : List Int) (k n : Int) : List Int :=
  let la := lam ++ rep 0 (n - k)
  (List.range (n - k).toNat).map (fun j =>
    if at' la j > k then n + k + 1 - at' la j
    else n + k + 2 - at' la j + countInner la k j 0)

/-- `part2indexC_inner` (qcalc.py:208-214). -/
def part2indexC (lam : List Int) (k n : Int) : List Int :=
  let la := lam ++ rep 0 (n - k)
  (List.range (n - k).toNat).map (fun j => n + k + 1 - at' la j + countInner la k j 0)

/-- `part2indexD_inner` (qcalc.py:217-234). -/
def part2indexD (lam : List Int) (k n : Int) : List Int :=
  let la := lam ++ rep 0 (n + 1 - k)
  let nt := if lam.length > 0 ∧ last' lam = 0 then n + 2 else n + 1
  (List.range (n + 1 - k).toNat).map (fun j =>
    let value := n + k - at' la j + countInner la k j (-1)
    if at' la j > k then value + 1
    else if at' la j = k ∧ (j = 0 ∨ k < at' la (j - 1)) ∧ (nt + (j : Int)) % 2 = 1 then value + 1
    else value + 2)

/-- `index2partA_inner` (qcalc.py:237-241). `idx[j]` raises `IndexError` on short lists. -/
def index2partA (idx : List Int) (k n : Int) : Except PyErr (List Int) :=
  if idx.length < (n - k).toNat then .error .indexError
  else .ok (partClip ((List.range (n - k).toNat).map (fun j => k + j + 1 - at' idx j)))

/-- The counting loop shared by `index2partC/B/D_inner` (qcalc.py:247-250, 262-265, 277-280). -/
def idxCount (idx : List Int) (j : Nat) (bound : Int) : Int :=
  ((List.range j).countP (fun i => decide (at' idx i + at' idx j > bound)) : Nat)

/-- `index2partC_inner` (qcalc.py:244-252). -/
def index2partC (idx : List Int) (k n : Int) : Except PyErr (List Int) :=
  if idx.length < (n - k).toNat then .error .indexError
  else .ok (partClip ((List.range (n - k).toNat).map
    (fun j => n + k + 1 - at' idx j + idxCount idx j (2 * n + 1))))

/-- `index2partB_inner` (qcalc.py:255-267). -/
def index2partB (idx : List Int) (k n : Int) : Except PyErr (List Int) :=
  if idx.length < (n - k).toNat then .error .indexError
  else .ok (partClip ((List.range (n - k).toNat).map (fun j =>
    if at' idx j ≤ n then n + k + 1 - at' idx j
    else n + k + 2 - at' idx j + idxCount idx j (2 * n + 2))))

/-- `index2partD_inner` (qcalc.py:270-290). -/
def index2partD (idx : List Int) (k n : Int) : Except PyErr (List Int) :=
  if idx.length < (n + 1 - k).toNat then .error .indexError
  else
    let la := partClip ((List.range (n + 1 - k).toNat).map (fun j =>
      if at' idx j ≤ n + 1 then n + k + 1 - at' idx j
      else n + k + 2 - at' idx j + idxCount idx j (2 * n + 3)))
    if k ∉ la then .ok la
    else
      let missing := (pyRange 1 (n + 2)).filter (fun x => decide (x ∉ idx))
      .ok (if missing.length % 2 = 1 then la ++ [0] else la)

/-- `dualize_index_inner` (qcalc.py:293-307).  Python's `N / 2` is the exact half (a float);
`(N / 2) % 2 == 1` holds iff `N % 4 == 2`, and then `N / 2` is an integer. -/
def dualizeIndex (idx : List Int) (N : Int) (isD : Bool) : List Int :=
  let res := idx.reverse.map (fun x => N + 1 - x)
  if isD ∧ N % 4 = 2 then
    res.map (fun x => if x = N / 2 then N / 2 + 1 else if x = N / 2 + 1 then N / 2 else x)
  else res

end Verif
