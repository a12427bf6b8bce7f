import Verif.Model.Ring
import Verif.Model.Partition
/-!
# Model of `Grassmannian.qmult_rh` (grassmannian.py:168-222)
-/

namespace Verif
namespace Gr

/-- `(-1)**e` for an integer `e`. For `e < 0` Python gives the float `1.0` or `-1.0`; the model
uses the number it equals. -/
def signPow (e : Int) : Rat := if e % 2 = 0 then 1 else -1

/-- `__rm_rim_hook(arr)` (grassmannian.py:193-218). The loop bound passed to
`remove_rim_hooks` is sufficient (C27). `x == 0` holds exactly for the integer `0`. -/
def rmRimHook (k n : Int) (arr : List Int) : Except PyErr Poly := do
  let p ← mkPartition arr
  let inside ← isInRange p (n - k) k
  if inside then .ok (Poly.sym (.S p))
  else
    match removeRimHooks (p.sum.toNat + 1) p n (n - k) k with
    | none => .error .outOfFuel
    | some (.error e) => .error e
    | some (.ok (x, qNum, height)) =>
      let sign := signPow (height - (n - k))
      match x with
      | none => .ok []
      | some x =>
        if qNum > 0 then
          .ok (Poly.scale sign (Poly.mul (Poly.sym (.S x)) (Poly.pow (Poly.sym .q) qNum.toNat)))
        else if x.length = 0 then .ok []
        else .ok (Poly.scale sign (Poly.sym (.S x)))

/-- The enlarged space of `qmult_rh` (grassmannian.py:173-183): `clone()` with `_n = 2n-1` and
`_k = 2n-1-kp`. -/
def rhSpace (X : Space) : Space := { X with n := 2 * X.n - 1, k := 2 * X.n - 1 - (X.n - X.k) }

/-- `qmult_rh` (grassmannian.py:168-222). -/
def qmultRh (X : Space) (fuel : Nat) (a b : Poly) : Except PyErr Poly := do
  let res ← mult (rhSpace X) fuel a b
  Poly.apply (rmRimHook X.k X.n) res

end Gr
end Verif
