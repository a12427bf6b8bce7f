import Verif.Proofs.RingQB
import Verif.Props.DualBC
/-!
# C60-C63: the quantum ring of `OG(m, 2n+1)`

Every result is a value up to the order of its terms (`SameResult`), so each statement includes that
the calls terminate (with recursion depth at most `giamBoundBC`) and raise no exception. The hypothesis `0 < m` is needed:
for `m = 0 < n` already `qpieri` raises an `IndexError` (`C34_qpieri_OG_point`).
-/

namespace Verif
open Spec

theorem ogCase' {m n : Int} (hm : 0 < m) (hmn : m ≤ n) {X : Space} (hX : mkOG m (2 * n + 1) = .ok X) :
    ∃ a b : Nat, b < a ∧ n = a ∧ m = (a : Int) - b ∧ X = ⟨.B, b, a⟩ := by
  obtain ⟨a, b, h, h1, h2, h3⟩ := ogCase hmn hX
  exact ⟨a, b, by omega, h1, h2, h3⟩

/-! ### C60 -/

/-- **C60**. `qact` on `OG(m, 2n+1)` is a ring action of the polynomials in `q` and `S[1]`, ..., `S[2n-m]` on the linear
combinations of classes with coefficients in the polynomials in `q`. -/
theorem C60_qact (ord : List Int → List Int) {m n : Int} (hm : 0 < m) (hmn : m ≤ n) {X : Space}
    (hX : mkOG m (2 * n + 1) = .ok X) : RingAction (SpecialPoly (2 * n - m).toNat) (BCClass m n) (X.qact ord) := by
  obtain ⟨a, b, h, rfl, rfl, rfl⟩ := ogCase' hm hmn hX
  rw [bcClass_eq h.le, show (2 * (a : Int) - (a - b)).toNat = a + b by omega]
  exact ringAction_congr (specIn_iff _) (fun _ => Iff.rfl) (ringQOG ord a b h).ringAction

/-- `OG(2,7)` -/
example :
    (Space.mk .B 1 3).qact id [([.S [1], .S [4]], 1)] (Poly.sym (.S [3, 1])) =
      .ok [([.q, .S [3, 2]], 2), ([.q, .S [4, 1]], 1), ([.q, .q, .S [1]], 1)] ∧
    (Space.mk .B 1 3).qact id (Poly.sym (.S [4])) (Poly.sym (.S [3, 1])) = .ok [([.q, .S [3, 1]], 1)] := by
  decide +kernel

/-- **C60**. The special class `S[p]` acts by the quantum Pieri rule. -/
theorem C60_special (ord : List Int → List Int) {m n p : Int} (hm : 0 < m) (hmn : m ≤ n) {X : Space}
    (hX : mkOG m (2 * n + 1) = .ok X) (h1 : 1 ≤ p) (h2 : p ≤ 2 * n - m) {x : Poly} (hx : LinComb (BCClass m n) x) :
    SameResult (X.qact ord (Poly.sym (.S [p])) x) (X.qpieri ord p x) := by
  obtain ⟨a, b, h, rfl, rfl, rfl⟩ := ogCase' hm hmn hX
  rw [bcClass_eq h.le] at hx
  have hp : stdSpc (a + b) p := ⟨h1, by push_cast; omega⟩
  have e1 := (ringQOG ord a b h).gact_special hp hx
  rwa [num2spec_pos h1] at e1

example : (Space.mk .B 1 3).qact id (Poly.sym (.S [4])) (Poly.sym (.S [3])) = .ok [([.S [4, 3]], 1)] ∧
    (Space.mk .B 1 3).qpieri id 4 (Poly.sym (.S [3])) = .ok [([.S [4, 3]], 1)] := by decide +kernel

/-- **C60**. `qgiambelli` returns a polynomial in `q` and `S[1]`, ..., `S[2n-m]` whose action on `S[]` gives back the argument:
`qtoS` is the identity on linear combinations of classes. -/
theorem C60_qgiambelli (ord : List Int → List Int) {m n : Int} (hm : 0 < m) (hmn : m ≤ n) {X : Space}
    (hX : mkOG m (2 * n + 1) = .ok X) {fuel : Nat} (hf : giamBoundBC m n ≤ fuel) {a : Poly} (ha : LinComb (BCClass m n) a) :
    (∃ g, X.qgiambelli ord fuel a = .ok g ∧ SpecialPoly (2 * n - m).toNat g ∧
      SameResult (X.qact ord g (Poly.sym (.S []))) (.ok a)) ∧ SameResult (X.qtoS ord fuel a) (.ok a) := by
  obtain ⟨c, b, h, rfl, rfl, rfl⟩ := ogCase' hm hmn hX
  rw [bcClass_eq h.le] at ha
  rw [giamBoundBC_eq h.le] at hf
  rw [show (2 * (c : Int) - (c - b)).toNat = c + b by omega]
  obtain ⟨⟨g, h1, h2⟩, h3⟩ := (ringQOG ord c b h).ggiam hf ha
  refine ⟨⟨g, h1, (specIn_iff _ _).1 h2, ?_⟩, h3⟩
  rw [gmult, h1] at h3; exact h3

/-- `S[4]*S[4] + 2*q*S[2]` acting on `S[4,2]` in `OG(2, 7)` -/
example : mkOG 2 (2 * 3 + 1) = .ok ⟨.B, 1, 3⟩ ∧ giamBoundBC 2 3 = 45 ∧
    (Space.mk .B 1 3).qact id [([.S [4], .S [4]], 1), ([.q, .S [2]], 2)] (Poly.sym (.S [4, 2])) =
      .ok [([.q, .q, .S [4, 2]], 1), ([.q, .q, .S [3, 1]], 2), ([.q, .q, .q, .S []], 2)] ∧
    (Space.mk .B 1 3).qgiambelli id 45 (Poly.sym (.S [4, 3])) = .ok [([.S [3], .S [4]], 1)] := by
  refine ⟨by decide, by decide, ?_, ?_⟩ <;> decide +kernel

/-! ### C61 -/

/-- **C61**. `qmult` on `OG(m, 2n+1)` is a commutative and associative product with unit `S[]`. -/
theorem C61_qmult (ord : List Int → List Int) {m n : Int} (hm : 0 < m) (hmn : m ≤ n) {X : Space}
    (hX : mkOG m (2 * n + 1) = .ok X) {fuel : Nat} (hf : giamBoundBC m n ≤ fuel) :
    ClosedUnder (BCClass m n) (X.qmult ord fuel) ∧ Commutative (BCClass m n) (X.qmult ord fuel) ∧
    Associative (BCClass m n) (X.qmult ord fuel) ∧ HasUnit (BCClass m n) (X.qmult ord fuel) := by
  obtain ⟨a, b, h, rfl, rfl, rfl⟩ := ogCase' hm hmn hX
  rw [bcClass_eq h.le]
  rw [giamBoundBC_eq h.le] at hf
  exact ⟨(ringQOG ord a b h).closedUnder hf, (ringQOG ord a b h).commutative hf, (ringQOG ord a b h).associative hf,
    (ringQOG ord a b h).hasUnit hf⟩

example : LinComb (BCClass 2 3) [([.S [4]], 1), ([.q, .S [1, 1]], 3)] ∧
    (Space.mk .B 1 3).qmult id 45 [([.S [4]], 1), ([.q, .S [1, 1]], 3)] (Poly.sym (.S [2, 1])) =
      .ok [([.q, .S [2, 1]], 1), ([.q, .S [3, 2]], 6), ([.q, .S [4, 1]], 3), ([.q, .q, .S [1]], 3)] ∧
    (Space.mk .B 1 3).qmult id 45 (Poly.sym (.S [2, 1])) [([.S [4]], 1), ([.q, .S [1, 1]], 3)] =
      .ok [([.q, .S [4, 1]], 3), ([.q, .q, .S [1]], 3), ([.q, .S [2, 1]], 1), ([.q, .S [3, 2]], 6)] := by decide +kernel

/-- **C61**. The quantum product is linear in the first argument (hence, being commutative, in both). -/
theorem C61_linear (ord : List Int → List Int) {m n : Int} (hm : 0 < m) (hmn : m ≤ n) {X : Space}
    (hX : mkOG m (2 * n + 1) = .ok X) {fuel : Nat} (hf : giamBoundBC m n ≤ fuel) :
    Linear (BCClass m n) (X.qmult ord fuel) := by
  obtain ⟨a, b, h, rfl, rfl, rfl⟩ := ogCase' hm hmn hX
  rw [bcClass_eq h.le]
  rw [giamBoundBC_eq h.le] at hf
  exact (ringQOG ord a b h).linear hf

example :
    (Space.mk .B 1 3).qmult id 45 [([.S [3]], 2), ([.q, .S [1, 1]], 1)] (Poly.sym (.S [2, 1])) =
      .ok [([.S [4, 2]], 2), ([.q, .S [2]], 2), ([.q, .S [1, 1]], 2), ([.q, .S [3, 2]], 2), ([.q, .S [4, 1]], 1), ([.q, .q, .S [1]], 1)] ∧
    (Space.mk .B 1 3).qmult id 45 (Poly.sym (.S [3])) (Poly.sym (.S [2, 1])) =
      .ok [([.S [4, 2]], 1), ([.q, .S [2]], 1), ([.q, .S [1, 1]], 1)] ∧
    (Space.mk .B 1 3).qmult id 45 (Poly.sym (.S [1, 1])) (Poly.sym (.S [2, 1])) =
      .ok [([.S [3, 2]], 2), ([.S [4, 1]], 1), ([.q, .S [1]], 1)] := by decide +kernel

/-- **C61**. Multiplying by a special class is the quantum Pieri rule. -/
theorem C61_qpieri (ord : List Int → List Int) {m n p : Int} (hm : 0 < m) (hmn : m ≤ n) {X : Space}
    (hX : mkOG m (2 * n + 1) = .ok X) (h1 : 1 ≤ p) (h2 : p ≤ 2 * n - m) {fuel : Nat} (hf : giamBoundBC m n ≤ fuel) {x : Poly}
    (hx : LinComb (BCClass m n) x) : SameResult (X.qmult ord fuel (Poly.sym (.S [p])) x) (X.qpieri ord p x) := by
  obtain ⟨a, b, h, rfl, rfl, rfl⟩ := ogCase' hm hmn hX
  rw [bcClass_eq h.le] at hx
  rw [giamBoundBC_eq h.le] at hf
  have hp : stdSpc (a + b) p := ⟨h1, by push_cast; omega⟩
  have hc : clsBC a b (num2spec p) := by rw [num2spec_pos h1]; exact special_class (by omega) h1 (by omega)
  have e1 := (ringQOG ord a b h).gmult_pieri hf hp hc hx
  rwa [num2spec_pos h1] at e1

/-- `S[3,1] * S[2,1] = S[4,3] + q*S[3] + 2*q*S[2,1]` and `S[4,1] * S[4,1]` in the quantum ring of `OG(2, 7)`;
`S[3,1] * S[3,2]` in that of `OG(3, 7)`, where `q` has degree `6` -/
example : (Space.mk .B 1 3).qmult id 45 (Poly.sym (.S [3, 1])) (Poly.sym (.S [2, 1])) =
      .ok [([.q, .S [2, 1]], 2), ([.S [4, 3]], 1), ([.q, .S [3]], 1)] ∧
    (Space.mk .B 1 3).qmult id 45 (Poly.sym (.S [4, 1])) (Poly.sym (.S [4, 1])) =
      .ok [([.q, .q, .S [2]], 2), ([.q, .q, .S [1, 1]], 1)] ∧
    (Space.mk .B 0 3).qmult id 45 (Poly.sym (.S [3, 1])) (Poly.sym (.S [3, 2])) =
      .ok [([.q, .S [3]], 1), ([.q, .S [2, 1]], 1)] := by
  refine ⟨?_, ?_, ?_⟩ <;> decide +kernel

/-! ### C62 -/

/-- **C62**. The terms without `q` of the quantum product of expressions without `q` are the classical product. -/
theorem C62_limit (ord : List Int → List Int) {m n : Int} (hm : 0 < m) (hmn : m ≤ n) {X : Space}
    (hX : mkOG m (2 * n + 1) = .ok X) {fuel : Nat} (hf : giamBoundBC m n ≤ fuel) :
    ClassicalLimit (BCClass m n) (X.qmult ord fuel) (X.mult fuel) := by
  obtain ⟨a, b, h, rfl, rfl, rfl⟩ := ogCase' hm hmn hX
  rw [bcClass_eq h.le]
  rw [giamBoundBC_eq h.le] at hf
  intro x y hx hy hx0 hy0
  obtain ⟨w, h1, w1, w2, h2, h3, h4⟩ := (ringQOG ord a b h).gmult_q0 (ringOG a b h.le) (fun p l _ => q0_QOG a b h p.toNat l) hf hx hy hx0 hy0
  cases h3
  exact ⟨w, w1, h1, h2, h4.symm⟩

example :
    (Space.mk .B 1 3).qmult id 45 (Poly.sym (.S [3])) (Poly.sym (.S [2, 1])) =
      .ok [([.S [4, 2]], 1), ([.q, .S [2]], 1), ([.q, .S [1, 1]], 1)] ∧
    (Space.mk .B 1 3).mult 45 (Poly.sym (.S [3])) (Poly.sym (.S [2, 1])) = .ok [([.S [4, 2]], 1)] := by decide +kernel

/-- **C62**. The quantum product of the classes `l` and `mu` is homogeneous of degree `|l| + |mu|`, with `q` of degree
`degree_q`. -/
theorem C62_graded (ord : List Int → List Int) {m n : Int} (hm : 0 < m) (hmn : m ≤ n) {X : Space}
    (hX : mkOG m (2 * n + 1) = .ok X) {fuel : Nat} (hf : giamBoundBC m n ≤ fuel) :
    Graded (BCClass m n) X.degreeQ (X.qmult ord fuel) := by
  obtain ⟨a, b, h, rfl, rfl, rfl⟩ := ogCase' hm hmn hX
  rw [bcClass_eq h.le]
  rw [giamBoundBC_eq h.le] at hf
  intro l mu hl hmu
  exact (ringQOG ord a b h).gmult_hom (homT_toGiam (sysQOG a b h) b (fun p h1 h2 => homQOG a b h h1 h2)) hf hl hmu

example : (Space.mk .B 1 3).qmult id 45 (Poly.sym (.S [4])) (Poly.sym (.S [3, 2])) = .ok [([.q, .S [3, 2]], 1)] := by
  decide +kernel

/-- **C62**. The structure constants of the quantum product are integers. -/
theorem C62_integral (ord : List Int → List Int) {m n : Int} (hm : 0 < m) (hmn : m ≤ n) {X : Space}
    (hX : mkOG m (2 * n + 1) = .ok X) {fuel : Nat} (hf : giamBoundBC m n ≤ fuel) :
    Integral (BCClass m n) (X.qmult ord fuel) := by
  obtain ⟨a, b, h, rfl, rfl, rfl⟩ := ogCase' hm hmn hX
  rw [bcClass_eq h.le]
  rw [giamBoundBC_eq h.le] at hf
  intro l mu hl hmu
  exact (ringQOG ord a b h).gmult_int (intX_toGiam (sysQOG a b h) b (fun p h1 h2 => intQOG a b h h1 h2)) hf hl hmu

/-- `S[4,1] * S[2] = S[4,3] + q*S[2,1]` in the quantum ring of `OG(2, 7)`, of degree `7 = 4 + 3`, and `S[4,3]` in the classical one -/
example : (Space.mk .B 1 3).degreeQ = 4 ∧
    (Space.mk .B 1 3).qmult id 45 (Poly.sym (.S [4, 1])) (Poly.sym (.S [2])) = .ok [([.q, .S [2, 1]], 1), ([.S [4, 3]], 1)] ∧
    (Space.mk .B 1 3).mult 45 (Poly.sym (.S [4, 1])) (Poly.sym (.S [2])) = .ok [([.S [4, 3]], 1)] := by
  refine ⟨by decide, ?_, ?_⟩ <;> decide +kernel

/-! ### C63 -/

/-- **C63**. In the quantum product `S[l] * S[mu]` the point class occurs with coefficient `1` if `mu = dualize(l)` and not at
all otherwise, also not with a positive power of `q`: the quantum ring is a Frobenius algebra for the classical pairing. -/
theorem C63_qduality (ord : List Int → List Int) {m n : Int} (hm : 0 < m) (hmn : m ≤ n) {X : Space}
    (hX : mkOG m (2 * n + 1) = .ok X) {fuel : Nat} (hf : giamBoundBC m n ≤ fuel) {l mu : List Int} (hl : BCClass m n l)
    (hmu : BCClass m n mu) :
    ∃ w l', X.qmult ord fuel (Poly.sym (.S l)) (Poly.sym (.S mu)) = .ok w ∧ X.dualize l = .ok l' ∧
      ∀ d, coeffOf (List.replicate d .q ++ [.S X.pointClass]) w = if mu = l' ∧ d = 0 then 1 else 0 := by
  obtain ⟨a, b, h, rfl, rfl, rfl⟩ := ogCase' hm hmn hX
  rw [bcClass_eq h.le] at hl hmu
  rw [giamBoundBC_eq h.le] at hf
  obtain ⟨w, h1, h2⟩ := (ringQOG ord a b h).gdual (dlBC a b) (dlBC_cls h.le) (dlBC_dlBC h.le)
    (fun p l nu _ hl hn => tM_dual h.le (MQB b) (MQB_dual b) p.toNat hl hn) hf hl hmu
  refine ⟨w, dlBC a b l, h1, (dualize_dlBC h.le l hl).2, fun d => ?_⟩
  rw [← (pointClass_BC h.le).2]
  exact h2 d

example : (Space.mk .B 1 3).qmult id 45 (Poly.sym (.S [3, 1])) (Poly.sym (.S [3])) = .ok [([.q, .S [2, 1]], 2)] ∧
    (Space.mk .B 1 3).dualize [3, 1] = .ok [2, 1] ∧ (Space.mk .B 1 3).pointClass = [4, 3] := by decide +kernel

/-- in `OG(2, 7)` the dual of `S[3]` is `S[4]`, and `S[4] * S[4] = q^2` -/
example : BCClass 2 3 [4] ∧ (Space.mk .B 1 3).dualize [3] = .ok [4] ∧ (Space.mk .B 1 3).pointClass = [4, 3] ∧
    (Space.mk .B 1 3).qmult id 45 (Poly.sym (.S [4])) (Poly.sym (.S [3])) = .ok [([.S [4, 3]], 1)] ∧
    (Space.mk .B 1 3).qmult id 45 (Poly.sym (.S [4])) (Poly.sym (.S [4])) = .ok [([.q, .q, .S []], 1)] := by
  refine ⟨⟨⟨by decide, by decide⟩, by unfold KStrict; decide, by decide, by decide⟩, ?_, ?_, ?_, ?_⟩ <;> decide +kernel

end Verif
