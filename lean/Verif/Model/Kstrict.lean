import Verif.Model.Partition
/-!
# Model of `schubertpy/utils/kstrict.py`
-/

namespace Verif

/-- `_first_kstrict` (kstrict.py:4-28). -/
def firstKstrict (k rows cols : Int) : List Int :=
  (List.range rows.toNat).map (fun (i : Nat) => max k (cols - (i : Int)))

/-- `_itr_kstrict` (kstrict.py:31-48). Here `i = len(clip_lambda) ≥ 1`, `n ≥ i`. -/
def itrKstrict (lam : List Int) (k : Int) : List Int :=
  let n := lam.length
  let c := partClip lam
  if c.length = 0 then []
  else
    let i := c.length
    let li := at' lam (i - 1) - 1
    if li ≤ k then lam.take (i - 1) ++ List.replicate (n - i + 1) li
    else if li + i - n > k then
      lam.take (i - 1) ++ (List.range (n - i + 1)).map (fun (j : Nat) => li - (j : Int))
    else
      lam.take (i - 1) ++ (List.range (li - k + 1).toNat).map (fun (j : Nat) => li - (j : Int))
        ++ rep k ((n : Int) - i - li + k)

/-- The loop of `all_kstrict` (kstrict.py:63-71): `seen` and `res` hold the same lists in order of
discovery, so one list `res` represents both.  Outer `none`: out of fuel. -/
def allKstrictLoop (k : Int) : Nat → List Int → List (List Int) → Option (List (List Int))
  | 0, _, _ => none
  | f + 1, lam, res =>
    let clipped := partClip lam
    let res := if clipped ∉ res then res ++ [clipped] else res
    let lam := itrKstrict lam k
    if lam = [] then some res else allKstrictLoop k f lam res

/-- `all_kstrict` (kstrict.py:52-73). -/
def allKstrict (fuel : Nat) (k rows cols : Int) : Option (List (List Int)) :=
  allKstrictLoop k fuel (firstKstrict k rows cols) []

end Verif
