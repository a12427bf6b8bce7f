import Verif.Model.RingBCD
/-!
# The model on the repository's own unit tests

`testcases/basic/test_gr.py`, `test_ig.py`, `test_og_b.py`, `test_og_d.py`: arguments and expected results as there. These are
checks of the model, not proofs of properties. Terms are compared up to order (sympy prints them in its own order).
-/

namespace Verif.Tests

/-- the computation returns the given terms, in some order -/
def gives (r : Except PyErr Poly) (e : Poly) : Bool :=
  match r with
  | .ok w => w.isPerm e
  | .error _ => false

/-! ### test_gr.py -/

abbrev X_gr : Space := ⟨.A, 3, 5⟩

/-- `test_qpieri_simple` -/
example : gives (Space.qpieri id X_gr 1 [([.S [2,1]], 1)])
    [([.S [2,2]], 1), ([.S [3,1]], 1)] = true := by decide +kernel

/-- `test_qpieri_with_plus` -/
example : gives (Space.qpieri id X_gr 1 [([.S [2,1]], 1), ([.S [3,2]], 1)])
    [([.q, .S [1]], 1), ([.S [2,2]], 1), ([.S [3,1]], 1), ([.S [3,3]], 1)] = true := by decide +kernel

/-- `test_qpieri_with_minus` -/
example : gives (Space.qpieri id X_gr 1 [([.S [2,1]], 1), ([.S [3,2]], (-1))])
    [([.q, .S [1]], (-1)), ([.S [2,2]], 1), ([.S [3,1]], 1), ([.S [3,3]], (-1))] = true := by decide +kernel

/-- `test_qpieri_with_minus_and_coef` -/
example : gives (Space.qpieri id X_gr 1 [([.S [2,1]], 1), ([.S [3,2]], (-7))])
    [([.q, .S [1]], (-7)), ([.S [2,2]], 1), ([.S [3,1]], 1), ([.S [3,3]], (-7))] = true := by decide +kernel

/-- `test_qact` -/
example : gives (Space.qact id X_gr [([.S [1]], 1), ([.S [2], .S [3]], 1)] [([.S [2,1]], 1), ([.S [3,2]], 1)])
    [([.q, .S [1]], 1), ([.q, .S [2,1]], 1), ([.S [2,2]], 1), ([.q, .S [3]], 1), ([.S [3,1]], 1), ([.q, .S [3,2]], 1), ([.S [3,3]], 1), ([.q, .q, .S []], 1)] = true := by decide +kernel

/-- `test_qgiambelli` -/
example : gives (Space.qgiambelli id X_gr 30 [([.S [2,1], .S [2,1]], 1)])
    [([.S [1], .S [1], .S [2], .S [2]], 1), ([.S [1], .S [2], .S [3]], (-2)), ([.S [3], .S [3]], 1)] = true := by decide +kernel

/-- `test_qmult` -/
example : gives (Space.qmult id X_gr 30 [([.S [2,1]], 1)] [([.S [2,1]], 1), ([.S [3,2]], 1)])
    [([.q, .S [1]], 1), ([.q, .S [2,1]], 1), ([.q, .S [3]], 1), ([.S [3,3]], 1)] = true := by decide +kernel

/-- `test_qtoS` -/
example : gives (Space.qtoS id X_gr 30 [([.S [2,1], .S [2,1], .S [2,1]], 1)])
    [([.q, .S [2,2]], 1), ([.q, .S [3,1]], 2)] = true := by decide +kernel

/-- `test_dualize` -/
example : gives (X_gr.dualizeLc [([.S [1]], 1), ([.S [2]], 1)])
    [([.S [3,1]], 1), ([.S [3,2]], 1)] = true := by decide +kernel

/-- `test_pieri_simple` -/
example : gives (X_gr.pieri 1 [([.S [2,1]], 1)])
    [([.S [2,2]], 1), ([.S [3,1]], 1)] = true := by decide +kernel

/-- `test_pieri_with_plus` -/
example : gives (X_gr.pieri 1 [([.S [2,1]], 1), ([.S [3,2]], 1)])
    [([.S [2,2]], 1), ([.S [3,1]], 1), ([.S [3,3]], 1)] = true := by decide +kernel

/-- `test_pieri_with_minus` -/
example : gives (X_gr.pieri 1 [([.S [2,1]], 1), ([.S [3,2]], (-1))])
    [([.S [2,2]], 1), ([.S [3,1]], 1), ([.S [3,3]], (-1))] = true := by decide +kernel

/-- `test_pieri_with_minus_and_coef` -/
example : gives (X_gr.pieri 1 [([.S [2,1]], 1), ([.S [3,2]], (-7))])
    [([.S [2,2]], 1), ([.S [3,1]], 1), ([.S [3,3]], (-7))] = true := by decide +kernel

/-- `test_act` -/
example : gives (X_gr.act [([.S [1]], 1), ([.S [2], .S [3]], 1)] [([.S [2,1]], 1), ([.S [3,2]], 1)])
    [([.S [2,2]], 1), ([.S [3,1]], 1), ([.S [3,3]], 1)] = true := by decide +kernel

/-- `test_giambelli` -/
example : gives (X_gr.giambelli 30 [([.S [2,1], .S [2,1]], 1)])
    [([.S [1], .S [1], .S [2], .S [2]], 1), ([.S [1], .S [2], .S [3]], (-2)), ([.S [3], .S [3]], 1)] = true := by decide +kernel

/-- `test_mult` -/
example : gives (X_gr.mult 30 [([.S [2,1]], 1)] [([.S [2,1]], 1), ([.S [3,2]], 1)])
    [([.S [3,3]], 1)] = true := by decide +kernel

/-- `test_toS` -/
example : gives (X_gr.toS 30 [([.S [2,1], .S [2,1], .S [2,1]], 1)])
    [] = true := by decide +kernel

/-! ### test_ig.py -/

abbrev X_ig : Space := ⟨.C, 1, 3⟩

/-- `test_qpieri_simple` -/
example : gives (Space.qpieri id X_ig 1 [([.S [2,1]], 1)])
    [([.S [3,1]], 2), ([.S [4]], 1)] = true := by decide +kernel

/-- `test_qpieri_with_plus` -/
example : gives (Space.qpieri id X_ig 1 [([.S [2,1]], 1), ([.S [3,2]], 1)])
    [([.S [3,1]], 2), ([.S [4]], 1), ([.S [4,2]], 1)] = true := by decide +kernel

/-- `test_qpieri_with_minus` -/
example : gives (Space.qpieri id X_ig 1 [([.S [2,1]], 1), ([.S [3,2]], (-1))])
    [([.S [3,1]], 2), ([.S [4]], 1), ([.S [4,2]], (-1))] = true := by decide +kernel

/-- `test_qpieri_with_minus_and_coef` -/
example : gives (Space.qpieri id X_ig 1 [([.S [2,1]], 1), ([.S [3,2]], (-7))])
    [([.S [3,1]], 2), ([.S [4]], 1), ([.S [4,2]], (-7))] = true := by decide +kernel

/-- `test_qact` -/
example : gives (Space.qact id X_ig [([.S [1]], 1), ([.S [2], .S [3]], 1)] [([.S [2,1]], 1), ([.S [3,2]], 1)])
    [([.q, .S [2,1]], 3), ([.q, .S [3]], 3), ([.S [3,1]], 2), ([.q, .S [3,2]], 1), ([.S [4]], 1), ([.q, .S [4,1]], 2), ([.S [4,2]], 1), ([.q, .q, .S []], 1)] = true := by decide +kernel

/-- `test_qgiambelli_1` -/
example : gives (Space.qgiambelli id X_ig 30 [([.S [2,1], .S [2,1]], 1)])
    [([.S [1], .S [1], .S [2], .S [2]], 1), ([.S [1], .S [2], .S [3]], (-2)), ([.S [3], .S [3]], 1)] = true := by decide +kernel

/-- `test_qgiambelli_2` -/
example : gives (Space.qgiambelli id X_ig 30 [([.S [2,1], .S [2,1], .S [2,1]], 1)])
    [([.S [1], .S [1], .S [1], .S [2], .S [2], .S [2]], 1), ([.S [1], .S [1], .S [2], .S [2], .S [3]], (-3)), ([.S [1], .S [2], .S [3], .S [3]], 3), ([.S [3], .S [3], .S [3]], (-1))] = true := by decide +kernel

/-- `test_qmult` -/
example : gives (Space.qmult id X_ig 30 [([.S [2,1]], 1)] [([.S [2,1]], 1), ([.S [3,2]], 1)])
    [([.q, .S [1]], 1), ([.q, .S [3]], 1), ([.S [4,2]], 2)] = true := by decide +kernel

/-- `test_qtoS` -/
example : gives (Space.qtoS id X_ig 30 [([.S [2,1], .S [2,1], .S [2,1]], 1)])
    [([.q, .S [3,1]], 4), ([.q, .S [4]], 5)] = true := by decide +kernel

/-- `test_dualize` -/
example : gives (X_ig.dualizeLc [([.S [1]], 1), ([.S [2]], 1)])
    [([.S [4,1]], 1), ([.S [4,2]], 1)] = true := by decide +kernel

/-- `test_pieri_simple` -/
example : gives (X_ig.pieri 1 [([.S [2,1]], 1)])
    [([.S [3,1]], 2), ([.S [4]], 1)] = true := by decide +kernel

/-- `test_pieri_with_plus` -/
example : gives (X_ig.pieri 1 [([.S [2,1]], 1), ([.S [3,2]], 1)])
    [([.S [3,1]], 2), ([.S [4]], 1), ([.S [4,2]], 1)] = true := by decide +kernel

/-- `test_pieri_with_minus` -/
example : gives (X_ig.pieri 1 [([.S [2,1]], 1), ([.S [3,2]], (-1))])
    [([.S [3,1]], 2), ([.S [4]], 1), ([.S [4,2]], (-1))] = true := by decide +kernel

/-- `test_pieri_with_minus_and_coef` -/
example : gives (X_ig.pieri 1 [([.S [2,1]], 1), ([.S [3,2]], (-7))])
    [([.S [3,1]], 2), ([.S [4]], 1), ([.S [4,2]], (-7))] = true := by decide +kernel

/-- `test_act` -/
example : gives (X_ig.act [([.S [1]], 1), ([.S [2], .S [3]], 1)] [([.S [2,1]], 1), ([.S [3,2]], 1)])
    [([.S [3,1]], 2), ([.S [4]], 1), ([.S [4,2]], 1)] = true := by decide +kernel

/-- `test_giambelli` -/
example : gives (X_ig.giambelli 30 [([.S [2,1], .S [2,1]], 1)])
    [([.S [1], .S [1], .S [2], .S [2]], 1), ([.S [1], .S [2], .S [3]], (-2)), ([.S [3], .S [3]], 1)] = true := by decide +kernel

/-- `test_mult` -/
example : gives (X_ig.mult 30 [([.S [2,1]], 1)] [([.S [2,1]], 1), ([.S [3,2]], 1)])
    [([.S [4,2]], 2)] = true := by decide +kernel

/-- `test_toS` -/
example : gives (X_ig.toS 30 [([.S [2,1], .S [2,1], .S [2,1]], 1)])
    [] = true := by decide +kernel

/-! ### test_og_b.py -/

abbrev X_og_b : Space := ⟨.B, 1, 3⟩

/-- `test_qpieri_simple` -/
example : gives (Space.qpieri id X_og_b 1 [([.S [2,1]], 1)])
    [([.S [3,1]], 2), ([.S [4]], 1), ([.q, .S []], 1)] = true := by decide +kernel

/-- `test_qpieri_with_plus` -/
example : gives (Space.qpieri id X_og_b 1 [([.S [2,1]], 1), ([.S [3,2]], 1)])
    [([.q, .S [2]], 1), ([.S [3,1]], 2), ([.S [4]], 1), ([.S [4,2]], 1), ([.q, .S []], 1)] = true := by decide +kernel

/-- `test_qpieri_with_minus` -/
example : gives (Space.qpieri id X_og_b 1 [([.S [2,1]], 1), ([.S [3,2]], (-1))])
    [([.q, .S [2]], (-1)), ([.S [3,1]], 2), ([.S [4]], 1), ([.S [4,2]], (-1)), ([.q, .S []], 1)] = true := by decide +kernel

/-- `test_qpieri_with_minus_and_coef` -/
example : gives (Space.qpieri id X_og_b 1 [([.S [2,1]], 1), ([.S [3,2]], (-7))])
    [([.q, .S [2]], (-7)), ([.S [3,1]], 2), ([.S [4]], 1), ([.S [4,2]], (-7)), ([.q, .S []], 1)] = true := by decide +kernel

/-- `test_qact` -/
example : gives (Space.qact id X_og_b [([.S [1]], 1), ([.S [2], .S [3]], 1)] [([.S [2,1]], 1), ([.S [3,2]], 1)])
    [([.q, .q, .S [1,1]], 1), ([.q, .q, .S [2]], 1), ([.q, .S [2]], 1), ([.q, .S [3,1]], 3), ([.S [3,1]], 2), ([.q, .S [4]], 2), ([.S [4]], 1), ([.q, .S [4,2]], 1), ([.S [4,2]], 1), ([.q, .q, .S []], 2), ([.q, .S []], 1)] = true := by decide +kernel

/-- `test_qgiambelli_1` -/
example : gives (Space.qgiambelli id X_og_b 30 [([.S [2,1], .S [2,1]], 1)])
    [([.S [1], .S [1], .S [2], .S [2]], 1), ([.S [1], .S [2], .S [3]], (-2)), ([.S [3], .S [3]], 1)] = true := by decide +kernel

/-- `test_qgiambelli_2` -/
example : gives (Space.qgiambelli id X_og_b 30 [([.S [2,1], .S [2,1], .S [2,1]], 1)])
    [([.S [1], .S [1], .S [1], .S [2], .S [2], .S [2]], 1), ([.S [1], .S [1], .S [2], .S [2], .S [3]], (-3)), ([.S [1], .S [2], .S [3], .S [3]], 3), ([.S [3], .S [3], .S [3]], (-1))] = true := by decide +kernel

/-- `test_qmult` -/
example : gives (Space.qmult id X_og_b 30 [([.S [2,1]], 1)] [([.S [2,1]], 1), ([.S [3,2]], 1)])
    [([.q, .S [1,1]], 1), ([.q, .S [2]], 2), ([.q, .S [3,1]], 1), ([.q, .S [4]], 1), ([.S [4,2]], 2), ([.q, .q, .S []], 1)] = true := by decide +kernel

/-- `test_qtoS` -/
example : gives (Space.qtoS id X_og_b 30 [([.S [2,1], .S [2,1], .S [2,1]], 1)])
    [([.q, .q, .S [1]], 5), ([.q, .S [3,2]], 6), ([.q, .S [4,1]], 5)] = true := by decide +kernel

/-- `test_dualize` -/
example : gives (X_og_b.dualizeLc [([.S [1]], 1), ([.S [2]], 1)])
    [([.S [4,1]], 1), ([.S [4,2]], 1)] = true := by decide +kernel

/-- `test_pieri_simple` -/
example : gives (X_og_b.pieri 1 [([.S [2,1]], 1)])
    [([.S [3,1]], 2), ([.S [4]], 1)] = true := by decide +kernel

/-- `test_pieri_with_plus` -/
example : gives (X_og_b.pieri 1 [([.S [2,1]], 1), ([.S [3,2]], 1)])
    [([.S [3,1]], 2), ([.S [4]], 1), ([.S [4,2]], 1)] = true := by decide +kernel

/-- `test_pieri_with_minus` -/
example : gives (X_og_b.pieri 1 [([.S [2,1]], 1), ([.S [3,2]], (-1))])
    [([.S [3,1]], 2), ([.S [4]], 1), ([.S [4,2]], (-1))] = true := by decide +kernel

/-- `test_pieri_with_minus_and_coef` -/
example : gives (X_og_b.pieri 1 [([.S [2,1]], 1), ([.S [3,2]], (-7))])
    [([.S [3,1]], 2), ([.S [4]], 1), ([.S [4,2]], (-7))] = true := by decide +kernel

/-- `test_act` -/
example : gives (X_og_b.act [([.S [1]], 1), ([.S [2], .S [3]], 1)] [([.S [2,1]], 1), ([.S [3,2]], 1)])
    [([.S [3,1]], 2), ([.S [4]], 1), ([.S [4,2]], 1)] = true := by decide +kernel

/-- `test_giambelli` -/
example : gives (X_og_b.giambelli 30 [([.S [2,1], .S [2,1]], 1)])
    [([.S [1], .S [1], .S [2], .S [2]], 1), ([.S [1], .S [2], .S [3]], (-2)), ([.S [3], .S [3]], 1)] = true := by decide +kernel

/-- `test_mult` -/
example : gives (X_og_b.mult 30 [([.S [2,1]], 1)] [([.S [2,1]], 1), ([.S [3,2]], 1)])
    [([.S [4,2]], 2)] = true := by decide +kernel

/-- `test_toS` -/
example : gives (X_og_b.toS 30 [([.S [2,1], .S [2,1], .S [2,1]], 1)])
    [] = true := by decide +kernel

/-! ### test_og_d.py -/

abbrev X_og_d : Space := ⟨.D, 1, 2⟩

/-- `test_qpieri_simple` -/
example : gives (Space.qpieri id X_og_d 1 [([.S [2,1]], 1)])
    [([.q1, .S [1,0]], 1)] = true := by decide +kernel

/-- `test_qpieri_with_plus` -/
example : gives (Space.qpieri id X_og_d 1 [([.S [2,1]], 1), ([.S [3,2]], 1)])
    [([.q1, .S [1,0]], 1), ([.q1, .S [2,1,0]], 1), ([.q1, .q2, .S []], 1)] = true := by decide +kernel

/-- `test_qpieri_with_minus` -/
example : gives (Space.qpieri id X_og_d 1 [([.S [2,1]], 1), ([.S [3,2]], (-1))])
    [([.q1, .S [1,0]], 1), ([.q1, .S [2,1,0]], (-1)), ([.q1, .q2, .S []], (-1))] = true := by decide +kernel

/-- `test_qpieri_with_minus_and_coef` -/
example : gives (Space.qpieri id X_og_d 1 [([.S [2,1]], 1), ([.S [3,2]], (-7))])
    [([.q1, .S [1,0]], 1), ([.q1, .S [2,1,0]], (-7)), ([.q1, .q2, .S []], (-7))] = true := by decide +kernel

/-- `test_qact` -/
example : gives (Space.qact id X_og_d [([.S [1]], 1), ([.S [2], .S [3]], 1)] [([.S [2,1]], 1), ([.S [3,2]], 1)])
    [([.q1, .S [1,0]], 1), ([.q1, .q2, .S [1,1]], 1), ([.q1, .S [2,1,0]], 1), ([.q1, .q2, .S [3,1]], 1), ([.q1, .q2, .S [3,1,0]], 1), ([.q1, .q2, .S []], 1)] = true := by decide +kernel

/-- `test_qgiambelli_1` -/
example : gives (Space.qgiambelli id X_og_d 30 [([.S [2,1], .S [2,1]], 1)])
    [([.S [1], .S [1], .S [2], .S [2]], 1), ([.S [1], .S [2], .S [3]], (-2)), ([.S [3], .S [3]], 1)] = true := by decide +kernel

/-- `test_qgiambelli_2` -/
example : gives (Space.qgiambelli id X_og_d 30 [([.S [2,1], .S [2,1], .S [2,1]], 1)])
    [([.S [1], .S [1], .S [1], .S [2], .S [2], .S [2]], 1), ([.S [1], .S [1], .S [2], .S [2], .S [3]], (-3)), ([.S [1], .S [2], .S [3], .S [3]], 3), ([.S [3], .S [3], .S [3]], (-1))] = true := by decide +kernel

/-- `test_qmult` -/
example : gives (Space.qmult id X_og_d 30 [([.S [2,1]], 1)] [([.S [2,1]], 1), ([.S [3,2]], 1)])
    [([.q1, .q2, .S [1,1]], 1), ([.q1, .S [3]], 1)] = true := by decide +kernel

/-- `test_qtoS` -/
example : gives (Space.qtoS id X_og_d 30 [([.S [2,1], .S [2,1], .S [2,1]], 1)])
    [([.q1, .q1, .S [2,1,0]], 1)] = true := by decide +kernel

/-- `test_dualize` -/
example : gives (X_og_d.dualizeLc [([.S [1]], 1), ([.S [2]], 1)])
    [([.S [3]], 1), ([.S [3,1,0]], 1)] = true := by decide +kernel

/-- `test_dualize_2` -/
example : gives (X_og_d.dualizeLc [([.q1, .S [3,1]], 1)])
    [([.q1, .S [1,0]], 1)] = true := by decide +kernel

/-- `test_pieri_simple` -/
example : gives (X_og_d.pieri 1 [([.S [2,1]], 1)])
    [] = true := by decide +kernel

/-- `test_pieri_with_plus` -/
example : gives (X_og_d.pieri 1 [([.S [2,1]], 1), ([.S [3,2]], 1)])
    [] = true := by decide +kernel

/-- `test_pieri_with_minus` -/
example : gives (X_og_d.pieri 1 [([.S [2,1]], 1), ([.S [3,2]], (-1))])
    [] = true := by decide +kernel

/-- `test_pieri_with_minus_and_coef` -/
example : gives (X_og_d.pieri 1 [([.S [2,1]], 1), ([.S [3,2]], (-7))])
    [] = true := by decide +kernel

/-- `test_act` -/
example : gives (X_og_d.act [([.S [1]], 1), ([.S [2], .S [3]], 1)] [([.S [2,1]], 1), ([.S [3,2]], 1)])
    [] = true := by decide +kernel

/-- `test_giambelli` -/
example : gives (X_og_d.giambelli 30 [([.S [2,1], .S [2,1]], 1)])
    [([.S [1], .S [1], .S [2], .S [2]], 1), ([.S [1], .S [2], .S [3]], (-2)), ([.S [3], .S [3]], 1)] = true := by decide +kernel

/-- `test_mult` -/
example : gives (X_og_d.mult 30 [([.S [2,1]], 1)] [([.S [2,1]], 1), ([.S [3,2]], 1)])
    [] = true := by decide +kernel

/-- `test_toS` -/
example : gives (X_og_d.toS 30 [([.S [2,1], .S [2,1], .S [2,1]], 1)])
    [] = true := by decide +kernel

end Verif.Tests
