import Verif.Model.Memo
/-! # Specification: the value of a recursive function without any cache -/

namespace Verif.Spec
open Memo

variable {K V E : Type}

/-- Evaluates a body when calls have the values given by `f`. -/
def evalBody (f : K → Option (Except E V)) : Prog K V E → Option (Except E V)
  | .ret r => some r
  | .call k c =>
    match f k with
    | none => none
    | some r => evalBody f (c r)

/-- Plain recursive evaluation; the `Nat` bounds the recursion depth. -/
def plain (body : K → Prog K V E) : Nat → K → Option (Except E V)
  | 0, _ => none
  | f + 1, k => evalBody (plain body f) (body k)

/-- The function `body` describes has the outcome `r` on `k`. -/
def Outcome (body : K → Prog K V E) (k : K) (r : Except E V) : Prop := ∃ N, plain body N k = some r

end Verif.Spec
