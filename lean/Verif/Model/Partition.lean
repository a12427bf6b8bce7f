import Verif.Py.Basic
/-!
# Model of `schubertpy/partition.py`
-/

namespace Verif

/-- Loop of `part_clip` (partition.py:7-9). The argument is Python's `i + 1`;
the loop walks down while the entry at `i` is zero. -/
def partClipLoop (l : List Int) : Nat → Nat
  | 0 => 0
  | i + 1 => if at' l i = 0 then partClipLoop l i else i + 1

/-- `part_clip` (partition.py:3-10): `lambda_[:i+1]`. -/
def partClip (l : List Int) : List Int := l.take (partClipLoop l l.length)

/-- `_is_non_increasing` (partition.py:13-20): compares each entry with the next one. -/
def isNonIncreasing : List Int → Bool
  | [] => true
  | [_] => true
  | a :: b :: r => if a < b then false else isNonIncreasing (b :: r)

/-- `is_valid_part` (partition.py:23-32) on a list of ints (the `isinstance` tests hold by typing). -/
def isValidPart (l : List Int) : Bool :=
  if !(l.all (fun x => decide (0 ≤ x))) then false
  else if !(isNonIncreasing l) then false
  else true

/-- `Partition.__init__` (partition.py:36-39). A `Partition` object is its list. -/
def mkPartition (l : List Int) : Except PyErr (List Int) :=
  if !(isValidPart l) then .error .valueError else .ok l

/-- `Partition._max_rim_size` (partition.py:55-56). -/
def maxRimSize (l : List Int) : Int := l.sum + l.length - 1

/-- `Partition.is_in_range` (partition.py:58-71). -/
def isInRange (l : List Int) (nrow ncol : Int) : Except PyErr Bool :=
  if nrow < 0 ∨ ncol < 0 then .error .valueError
  else if l.length = 0 then .ok true
  else if (l.length : Int) > nrow then .ok false
  else if at' l 0 > ncol then .ok false
  else .ok true

/-- Validation loop of `skew_partition_height` (partition.py:189-193), from row `i` on. -/
def skewCheck : List Int → List Int → Bool
  | [], _ => true
  | _ :: _, [] => false
  | a :: as, b :: bs => if a > b then false else skewCheck as bs

/-- Counting loop of `skew_partition_height` (partition.py:197-203). -/
def skewCount : List Int → List Int → Int
  | _, [] => 0
  | [], m :: ms => (if m > 0 then 1 else 0) + skewCount [] ms
  | l :: ls, m :: ms => (if m > l then 1 else 0) + skewCount ls ms

/-- `skew_partition_height(lambda_partition, mu_partition)` (partition.py:158-204). -/
def skewPartitionHeight (lam mu : List Int) : Except PyErr Int :=
  if lam.length = 0 then .ok mu.length
  else if !(skewCheck lam mu) then .error .valueError
  else .ok (skewCount lam mu)

/-- The inner `for i in range(len(_partition) - 1)` of `remove_rim_hooks`
(partition.py:108-130), started at row `i` with `c` rows left to visit, on the current
`_partition` `p` and `_rim_size` `r`.  `some p'` means the loop set
`rim_hook_removed_this_iteration` and left `p'`; `none` means it ended without a removal.
Indices `i`, `i+1` are below `len(_partition)`. -/
def rimLoop : Nat → Nat → List Int → Int → Option (List Int)
  | 0, _, _, _ => none
  | c + 1, i, p, r =>
    let delta := at' p i - at' p (i + 1)
    if delta ≥ r then some (p.set i (at' p i - r))
    else
      let delta := if at' p (i + 1) > 0 then delta + 1 else delta
      let r := r - delta
      let p := p.set i (at' p i - delta)
      if r ≤ 0 then
        if at' p i < at' p (i + 1) then none else some p
      else rimLoop c (i + 1) p r

/-- The result triple of `remove_rim_hooks`; `none` in the first place is the Python integer `0`
that the code returns instead of a `Partition` (partition.py:151). -/
abbrev RimOut := Option (List Int) × Int × Int

/-- The `while True` of `remove_rim_hooks` (partition.py:103-151); `orig` is `self.partition`,
`total` is `total_rim_hooks_removed`.  Outer `none`: out of fuel. -/
def rimWhile (orig : List Int) (rimSize nrow ncol : Int) :
    Nat → List Int → Int → Option (Except PyErr RimOut)
  | 0, _, _ => none
  | fuel + 1, cur, total =>
    let p0 := cur ++ [0]
    match rimLoop cur.length 0 p0 rimSize with
    | some p =>
      let total := total + 1
      if !(isNonIncreasing p) then
        some (match skewPartitionHeight [] orig with
          | .ok h => .ok (some [], total, h)
          | .error e => .error e)
      else
        match mkPartition (partClip p) with
        | .error e => some (.error e)
        | .ok new =>
          match isInRange new nrow ncol with
          | .error e => some (.error e)
          | .ok true =>
            some (match skewPartitionHeight new orig with
              | .ok h => .ok (some new, total, h)
              | .error e => .error e)
          | .ok false =>
            if new = cur then
              some (match skewPartitionHeight [] orig with
                | .ok h => .ok (some [], total, h)
                | .error e => .error e)
            else rimWhile orig rimSize nrow ncol fuel new total
    | none => some (.ok (none, 0, 0))

/-- `Partition.remove_rim_hooks` (partition.py:73-151) on a valid partition. -/
def removeRimHooks (fuel : Nat) (l : List Int) (rimSize nrow ncol : Int) :
    Option (Except PyErr RimOut) :=
  if l.length = 0 then some (.ok (some [], 0, 0))
  else if rimSize ≤ 0 then some (.ok (some l, 0, 0))
  else if rimSize > maxRimSize l then some (.ok (some [], 0, 0))
  else rimWhile l rimSize nrow ncol fuel l 0

end Verif
