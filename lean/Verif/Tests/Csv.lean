import Verif.Tests.Spaces
/-!
# The model on rows of `testcases/brute_force/testcase.csv`

The file was written by the Maple original. Here are some of its rows; all 4368 rows were compared with the model once by `#eval`
and agree. Checks of the model, not proofs of properties.
-/

namespace Verif.Tests

def agrees (X : Space) (rows : List (List Int × List Int × Poly)) : Bool :=
  rows.all (fun t => gives (Space.qmult id X 40 (Poly.sym (.S t.1)) (Poly.sym (.S t.2.1))) t.2.2)

/-- `OG(2,6)` -/
example : agrees ⟨.D, 1, 2⟩ [
    ([2], [2,1,0], [([.q2, .S [1,1]], 1)]),
    ([1], [1,0], [([.S [2]], 1)]),
    ([1,1], [1,1], [([.q1, .S [1]], 1), ([.q1, .S [1,0]], 1)]),
    ([2], [2,1], [([.q1, .S [1,1,0]], 1)]),
    ([2,1,0], [2,1], [([.q1, .q2, .S []], 1)]),
    ([1,1,0], [3,1], [([.q1, .q2, .S []], 1), ([.q2, .S [2,1]], 1)]),
    ([2,1,0], [], [([.S [2,1,0]], 1)]),
    ([3,2], [1], [([.q1, .q2, .S []], 1), ([.q1, .S [2,1,0]], 1)]),
    ([1,0], [1,1], [([.S [3]], 1), ([.S [2,1]], 1)]),
    ([2], [], [([.S [2]], 1)]),
    ([2,1,0], [1,0], [([.q2, .S [1]], 1)]),
    ([], [3,1], [([.S [3,1]], 1)]),
    ([3,2], [3], [([.q1, .q2, .S [2]], 1)]),
    ([1,1,0], [2], [([.q2, .S [1]], 1), ([.S [3,1,0]], 1)]),
    ([], [], [([.S []], 1)]),
    ([1,1,0], [2,1], [([.S [3,2]], 1)]),
    ([1,1], [3,2], [([.q1, .q2, .S [1]], 1), ([.q1, .S [3,1,0]], 1)]),
    ([3,1], [3,2], [([.q1, .q2, .S [3]], 1), ([.q1, .q2, .S [2,1]], 1)]),
    ([3,2], [2,1], [([.q1, .q2, .S [1,1]], 1)]),
    ([2], [1,1], [([.q1, .S [1,0]], 1), ([.S [3,1]], 1)]),
    ([2,1], [3], [([.q1, .S [2,1,0]], 1)]),
    ([3,1,0], [1,1], [([.q1, .q2, .S []], 1), ([.q1, .S [2,1,0]], 1)]),
    ([1], [1], [([.S [1,1]], 1)]),
    ([3,1,0], [2,1], [([.q1, .q2, .S [1]], 1)]),
    ([3], [1,0], [([.S [3,1,0]], 1)]),
    ([], [3], [([.S [3]], 1)]),
    ([], [2], [([.S [2]], 1)]),
    ([1,1,0], [2,1,0], [([.q2, .S [2]], 1)]),
    ([2,1], [3,1,0], [([.q1, .q2, .S [1]], 1)]),
    ([1,1], [1,1,0], [([.S [3,1]], 1), ([.S [3,1,0]], 1)]),
    ([], [1], [([.S [1]], 1)]),
    ([1,1,0], [1,0], [([.q2, .S []], 1), ([.S [2,1,0]], 1)]),
    ([1,0], [], [([.S [1,0]], 1)]),
    ([3,1], [3], [([.q1, .q2, .S [1]], 1)]),
    ([2], [3], [([.S [3,2]], 1)]),
    ([1,0], [2,1], [([.S [3,1]], 1)]),
    ([3,1,0], [3,1], [([.q1, .q2, .S [2]], 1)]),
    ([1,1,0], [3,2], [([.q1, .q2, .S [1,0]], 1), ([.q2, .S [3,1]], 1)]),
    ([1,1], [3,1], [([.q1, .S [3]], 1), ([.q1, .S [2,1,0]], 1)]),
    ([2], [1,0], [([.S [3]], 1), ([.S [2,1,0]], 1)])] = true := by decide +kernel

/-- `OG(2,8)` -/
example : agrees ⟨.D, 2, 3⟩ [
    ([5,4], [5,2], [([.q, .q, .S [4,2]], 1), ([.q, .q, .S [5,1]], 1)]),
    ([3,2,0], [3], [([.q, .S [2,1]], 1)]),
    ([5,2,0], [4,3], [([.q, .q, .S [3,1]], 1)]),
    ([2,2], [4,2,0], [([.q, .S [5]], 2), ([.q, .S [4,1]], 1)]),
    ([4,3], [5,3], [([.q, .q, .S [3,2]], 1), ([.q, .q, .S [4,1]], 1), ([.q, .q, .S [3,2,0]], 1)]),
    ([2,2], [2,2,0], [([.q, .S [3]], 2)]),
    ([2,2], [2,1], [([.S [4,3]], 1), ([.S [5,2]], 1), ([.S [5,2,0]], 1)]),
    ([2,1,0], [4,3], [([.q, .q, .S []], 1), ([.q, .S [5]], 1), ([.q, .S [4,1]], 1)]),
    ([4,1], [2,1], [([.q, .S [3]], 1), ([.q, .S [2,1]], 1), ([.q, .S [2,1,0]], 1), ([.S [5,3]], 1)]),
    ([], [4,2,0], [([.S [4,2,0]], 1)]),
    ([5,3], [5,4], [([.q, .q, .S [4,3]], 1), ([.q, .q, .S [5,2]], 1), ([.q, .q, .S [5,2,0]], 1)]),
    ([5,2,0], [5,3], [([.q, .q, .S [5]], 1), ([.q, .q, .S [4,1]], 1), ([.q, .q, .S [3,2,0]], 1)]),
    ([4], [1,1], [([.q, .S [1]], 1), ([.S [5,1]], 1)]),
    ([2,0], [4,2,0], [([.q, .S [2,1]], 1), ([.S [5,3]], 1)]),
    ([4,1], [5,1], [([.q, .q, .S [1]], 1), ([.q, .S [4,2]], 1), ([.q, .S [5,1]], 1), ([.q, .S [4,2,0]], 1)]),
    ([5], [3], [([.S [5,3]], 1)]),
    ([4,3], [4], [([.q, .S [4,2]], 1), ([.q, .S [4,2,0]], 1)]),
    ([3,2,0], [2,1], [([.q, .S [3]], 1)]),
    ([5,4], [], [([.S [5,4]], 1)]),
    ([3,2,0], [5,1], [([.q, .S [4,2]], 1)]),
    ([2,1], [2], [([.S [5]], 1), ([.S [3,2]], 1), ([.S [4,1]], 1)]),
    ([4,1], [4,2,0], [([.q, .q, .S [1]], 1), ([.q, .S [4,2]], 1), ([.q, .S [5,1]], 1), ([.q, .S [4,2,0]], 1)]),
    ([4,1], [2], [([.q, .S [1,1]], 1), ([.q, .S [2,0]], 1), ([.S [4,3]], 1), ([.S [5,2,0]], 1)]),
    ([3,2,0], [2,0], [([.S [5,2,0]], 1)]),
    ([3,2,0], [4,2], [([.q, .S [5,1]], 1)]),
    ([5,2], [5,4], [([.q, .q, .S [4,2]], 1), ([.q, .q, .S [5,1]], 1)]),
    ([1], [3,2], [([.S [4,2]], 1)]),
    ([2,2,0], [3,2], [([.q, .S [4]], 1)]),
    ([3,1], [2,1], [([.q, .S [2]], 1), ([.q, .S [1,1]], 1), ([.q, .S [2,0]], 1), ([.S [4,3]], 1), ([.S [5,2]], 1), ([.S [5,2,0]], 1)]),
    ([5,3], [5], [([.q, .q, .S [3]], 1)])] = true := by decide +kernel

/-- `IG(2,6)` -/
example : agrees ⟨.C, 1, 3⟩ [
    ([3], [1,1], [([.q, .S []], 1), ([.S [4,1]], 1)]),
    ([4], [3,1], [([.q, .S [2,1]], 1)]),
    ([1], [4,3], [([.q, .S [3]], 1)]),
    ([2], [4,3], [([.q, .S [4]], 1), ([.q, .S [3,1]], 1)]),
    ([3], [4,3], [([.q, .S [3,2]], 1), ([.q, .S [4,1]], 1)]),
    ([4], [4], [([.q, .S [3]], 1)]),
    ([1], [3], [([.S [3,1]], 1), ([.S [4]], 2)]),
    ([3], [2,1], [([.q, .S [1]], 2), ([.S [4,2]], 1)]),
    ([3], [4], [([.q, .S [2]], 1), ([.S [4,3]], 1)]),
    ([1], [3,1], [([.S [3,2]], 1), ([.S [4,1]], 1)]),
    ([1], [4,2], [([.q, .S [2]], 1), ([.S [4,3]], 1)]),
    ([3], [4,1], [([.q, .S [3]], 1), ([.q, .S [2,1]], 1)]),
    ([3], [1], [([.S [3,1]], 1), ([.S [4]], 2)]),
    ([4], [4,2], [([.q, .S [3,2]], 1), ([.q, .S [4,1]], 1)]),
    ([3], [3,2], [([.q, .S [2,1]], 1)]),
    ([1], [1], [([.S [2]], 1), ([.S [1,1]], 1)]),
    ([3], [3,1], [([.q, .S [2]], 1), ([.q, .S [1,1]], 1)]),
    ([4], [2], [([.q, .S [1]], 1), ([.S [4,2]], 1)]),
    ([1], [4,1], [([.q, .S [1]], 1), ([.S [4,2]], 1)]),
    ([2], [4,2], [([.q, .S [3]], 1), ([.q, .S [2,1]], 1)]),
    ([3], [2], [([.q, .S []], 1), ([.S [3,2]], 1), ([.S [4,1]], 2)]),
    ([2], [3,2], [([.q, .S [2]], 1)]),
    ([2], [3,1], [([.q, .S [1]], 1), ([.S [4,2]], 1)]),
    ([4], [3,2], [([.q, .S [3,1]], 1)])] = true := by decide +kernel

/-- `OG(2,12)` -/
example : agrees ⟨.D, 4, 5⟩ [
    ([6,2], [4,2,0], [([.q, .S [5]], 2), ([.q, .S [3,2]], 1), ([.q, .S [4,1]], 2), ([.q, .S [4,1,0]], 2), ([.S [8,6]], 1), ([.S [9,5]], 2)]),
    ([9,2], [1,1], [([.q, .S [3,1]], 1)]),
    ([2,1], [8,2], [([.q, .S [4]], 1), ([.q, .S [3,1]], 2), ([.q, .S [4,0]], 1), ([.S [9,4]], 1), ([.S [9,4,0]], 1)]),
    ([2,1], [7,1], [([.q, .S [2]], 2), ([.q, .S [1,1]], 2), ([.S [8,3]], 1), ([.S [9,2]], 2)]),
    ([7,5], [4,1], [([.q, .S [6,2]], 1), ([.q, .S [7,1]], 1)]),
    ([3,3], [6,5], [([.q, .S [8]], 1), ([.S [9,8]], 1)]),
    ([], [9,8], [([.S [9,8]], 1)]),
    ([4,2,0], [8,1], [([.q, .S [3,3]], 1), ([.q, .S [4,2]], 1), ([.q, .S [5,1]], 2), ([.q, .S [4,2,0]], 1)]),
    ([3,1], [8,2], [([.q, .S [5]], 2), ([.q, .S [3,2]], 2), ([.q, .S [4,1]], 2), ([.q, .S [4,1,0]], 2), ([.S [9,5]], 2)]),
    ([8,1], [9,8], [([.q, .q, .S [7,1]], 2)])] = true := by decide +kernel

end Verif.Tests
