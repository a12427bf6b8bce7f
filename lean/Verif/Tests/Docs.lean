import Verif.Model.RingBCD
import Verif.Model.Spaces
/-!
# The model on the examples of the documentation

`docs/pieri_typeA_examples.md`, `docs/pieri_typeB_examples.md`, `docs/pieri_typeC_examples.md`, `docs/pieri_typeD_examples.md`, which
say that all their outputs are actual outputs. Checks of the model, not proofs of properties. Four of the outputs are not those of the
code read in `/repo`; these are at the end.
-/

namespace Verif.Tests

/-! ### type A -/

example : partClip [3, 2, 1, 0, 0] = [3, 2, 1] := by decide +kernel

example : partStar [2, 1, 1] 2 = Poly.sym (.S [1, 1]) ∧ partStar [3, 1, 1] 2 = [] := by decide +kernel

example : pieriFillA [2, 1, 0, 0, 0] [2, 1, 0, 0, 0] [5, 2, 1, 0, 0] 0 1 = some [3, 1, 0, 0, 0] := by decide +kernel

example : pieriItrA [3, 1, 0, 0, 0] [2, 1, 0, 0, 0] [5, 2, 1, 0, 0, 0] = some [2, 2, 0, 0, 0] := by decide +kernel

example : pieriA 1 [1] 2 4 = .ok [([.S [2]], 1), ([.S [1, 1]], 1)] := by decide +kernel

example : pieriA 1 [2, 1] 2 5 = .ok [([.S [2, 2]], 1), ([.S [2, 1, 1]], 1)] := by decide +kernel

example : qpieriA 1 [2, 2] 2 4 = .ok [([.q, .S [1]], 1)] := by decide +kernel

example : qpieriA 2 [1, 1] 2 4 = .ok [([.q, .S []], 1)] := by decide +kernel

example : mkGr 2 5 = .ok ⟨.A, 3, 5⟩ ∧ (Space.mk .A 3 5).pieri 1 (Poly.sym (.S [2, 1])) = .ok [([.S [3, 1]], 1), ([.S [2, 2]], 1)] ∧
    (Space.mk .A 3 5).qpieri id 1 (Poly.sym (.S [2, 1])) = .ok [([.S [2, 2]], 1), ([.S [3, 1]], 1)] ∧
    (Space.mk .A 3 5).qpieri id 1 (Poly.sym (.S [3, 2])) = .ok [([.q, .S [1]], 1), ([.S [3, 3]], 1)] := by decide +kernel

/-! ### type B -/

example : partConj [4, 2, 1] = [3, 2, 1, 1] := by decide +kernel

example : partTilde [2, 1] 3 4 = [] := by decide +kernel

/-- the row is 1 in the example of the documentation, 0 in the model -/
example : pieriFill [2, 1] [2, 1] [4, 3] 0 1 = some [3, 1] := by decide +kernel

example : pieriItr [3, 1] [2, 1] [4, 3] = none := by decide +kernel

example : countComps [1] [2] false 1 0 = 1 := by decide +kernel

example : pieriB 1 [2] 1 2 = .ok [([.S [3]], 1)] ∧ pieriB 1 [1] 1 1 = .ok [] := by decide +kernel

example : qpieriB 1 [3] 1 2 = .ok [([.q, .S [1]], 1)] := by decide +kernel

example : mkOG 1 5 = .ok ⟨.B, 1, 2⟩ ∧ (Space.mk .B 1 2).pieri 1 (Poly.sym (.S [2])) = .ok [([.S [3]], 1)] ∧
    (Space.mk .B 1 2).qpieri id 1 (Poly.sym (.S [2])) = .ok [([.q, .S []], 1), ([.S [3]], 1)] := by decide +kernel

/-! ### type C -/

example : pieriSet 1 [1] 1 2 0 = .ok [[2]] ∧ countComps [1] [2] true 1 0 = 0 := by decide +kernel

example : pieriC 1 [1] 1 2 = .ok [([.S [2]], 1)] ∧ qpieriC 1 [1] 1 2 = .ok [([.S [2]], 1)] := by decide +kernel

/-! ### type D -/

example : pieriSet 1 [1] 1 2 1 = .ok [[2], [1, 1]] ∧ countComps [1] [2] false 1 1 = 0 := by decide +kernel

example : dcoef 1 [1] [2] 1 1 = [] := by decide +kernel

example : pieriD 1 [1] 1 2 = .ok [([.S [1, 1]], 1)] ∧ qpieriD id 1 [1] 1 2 = .ok [([.S [1, 1]], 1)] := by decide +kernel

/-! ### outputs that differ -/

/-- `docs/pieri_typeC_examples.md` and `docs/pieri_typeD_examples.md` say `0` for `pieriB_inner(1, [1], 1, 2)`. -/
example : pieriB 1 [1] 1 2 = .ok [([.S [2]], 2)] := by decide +kernel

/-- `docs/pieri_typeC_examples.md` says `S[2] + S[]*q/2` for `qpieri(1, 'S[1]')` on `IG(1, 4)`, where `q` has degree 4. -/
example : mkIG 1 4 = .ok ⟨.C, 1, 2⟩ ∧ (Space.mk .C 1 2).qpieri id 1 (Poly.sym (.S [1])) = .ok [([.S [2]], 1)] := by decide +kernel

/-- `docs/pieri_typeD_examples.md` says `S[1,1]` for `pieri(1, 'S[1]')` and `qpieri(1, 'S[1]')` on `OG(1, 6)`. -/
example : mkOG 1 6 = .ok ⟨.D, 2, 2⟩ ∧ (Space.mk .D 2 2).pieri 1 (Poly.sym (.S [1])) = .ok [([.S [2, 0]], 1), ([.S [2]], 1)] ∧
    (Space.mk .D 2 2).qpieri id 1 (Poly.sym (.S [1])) = .ok [([.S [2]], 1), ([.S [2, 0]], 1)] := by decide +kernel

end Verif.Tests
