import Verif.Proofs.RingBC
import Verif.Spec.Dec
/-!
# C51-C57: the rings computed for `IG(m, 2n)` and `OG(m, 2n+1)`

Every result is a value up to the order of its terms (`SameResult`), so each statement includes that
the calls terminate (with recursion depth at most `giamBoundBC`) and raise no exception.
-/

namespace Verif
open Spec

/-- `l` is a Schubert class of `IG(m, 2n)` and of `OG(m, 2n+1)`: an `(n-m)`-strict partition inside the
`m × (2n - m)` rectangle. -/
def Spec.BCClass (m n : Int) (l : List Int) : Prop := ReducedPart l ∧ KStrict (n - m) l ∧ InRect l m.toNat (2 * n - m)

instance (m n : Int) : DecidablePred (BCClass m n) := fun l => by unfold Spec.BCClass; infer_instance

/-- Recursion depth that is sufficient for `giambelli` on `IG(m, 2n)` and `OG(m, 2n+1)`. -/
def Spec.giamBoundBC (m n : Int) : Nat :=
  m.toNat * (2 * n - m).toNat * ((2 * n - m).toNat + 1) + ((2 * n - m).toNat + 1)

theorem bcClass_eq {n k : Nat} (hk : k ≤ n) : BCClass ((n : Int) - k) n = clsBC n k := by
  funext l
  exact propext (clsBC_eq hk l).symm

theorem giamBoundBC_eq {n k : Nat} (hk : k ≤ n) : giamBoundBC ((n : Int) - k) n = boundBC n k := by
  unfold giamBoundBC boundBC
  rw [show ((n : Int) - k).toNat = n - k by omega, show (2 * (n : Int) - (n - k)).toNat = n + k by omega]

theorem igCase {m n : Int} {X : Space} (hX : mkIG m (2 * n) = .ok X) :
    ∃ a b : Nat, b ≤ a ∧ n = a ∧ m = (a : Int) - b ∧ X = ⟨.C, b, a⟩ := by
  obtain ⟨h1, h2, h3, rfl⟩ := mkIG_even hX
  refine ⟨n.toNat, (n - m).toNat, by omega, by omega, by omega, ?_⟩
  congr 1 <;> omega

theorem ogCase {m n : Int} (hmn : m ≤ n) {X : Space} (hX : mkOG m (2 * n + 1) = .ok X) :
    ∃ a b : Nat, b ≤ a ∧ n = a ∧ m = (a : Int) - b ∧ X = ⟨.B, b, a⟩ := by
  obtain ⟨h1, h2, rfl⟩ := mkOG_odd hX
  refine ⟨n.toNat, (n - m).toNat, by omega, by omega, by omega, ?_⟩
  congr 1 <;> omega

/-! ### C51 -/

/-- **C51**, type C. `act` on `IG(m, 2n)` is a ring action of the polynomials in `q` and `S[1]`, ..., `S[2n-m]`
on the linear combinations of classes. -/
theorem C51_act_IG {m n : Int} {X : Space} (hX : mkIG m (2 * n) = .ok X) :
    RingAction (SpecialPoly (2 * n - m).toNat) (BCClass m n) X.act := by
  obtain ⟨a, b, h, rfl, rfl, rfl⟩ := igCase hX
  rw [bcClass_eq h, show (2 * (a : Int) - (a - b)).toNat = a + b by omega]
  exact ringAction_congr (specIn_iff _) (fun _ => Iff.rfl) (ringIG a b h).ringAction

/-- `IG(2,6)`: the product of two special classes acts as the composition. -/
example : SpecialPoly (2 * 3 - 2) [([.S [1], .S [3]], 1)] ∧
    (Space.mk .C 1 3).act [([.S [1], .S [3]], 1)] [([.S [2, 1]], 1), ([.q, .S [1]], 2)] =
      .ok [([.S [4, 3]], 1), ([.q, .S [4, 1]], 6), ([.q, .S [3, 2]], 2)] ∧
    (Space.mk .C 1 3).act [([.S [3]], 1)] [([.S [2, 1]], 1), ([.q, .S [1]], 2)] =
      .ok [([.S [4, 2]], 1), ([.q, .S [4]], 4), ([.q, .S [3, 1]], 2)] ∧
    (Space.mk .C 1 3).act [([.S [1]], 1)] [([.S [4, 2]], 2), ([.q, .S [4]], 2), ([.q, .S [3, 1]], 2)] =
      .ok [([.S [4, 3]], 2), ([.q, .S [4, 1]], 4), ([.q, .S [3, 2]], 2)] := by decide +kernel

/-- **C51**, type C. The same for `qact`. -/
theorem C51_qact_IG (ord : List Int → List Int) {m n : Int} {X : Space} (hX : mkIG m (2 * n) = .ok X) :
    RingAction (SpecialPoly (2 * n - m).toNat) (BCClass m n) (X.qact ord) := by
  obtain ⟨a, b, h, rfl, rfl, rfl⟩ := igCase hX
  rw [bcClass_eq h, show (2 * (a : Int) - (a - b)).toNat = a + b by omega]
  exact ringAction_congr (specIn_iff _) (fun _ => Iff.rfl) (ringQIG ord a b h).ringAction

example :
    (Space.mk .C 1 3).qact id [([.S [1], .S [4]], 1)] [([.S [3, 1]], 1)] =
      .ok [([.q, .S [3, 1]], 2), ([.q, .S [4]], 1)] ∧
    (Space.mk .C 1 3).qact id [([.S [4]], 1)] [([.S [3, 1]], 1)] = .ok [([.q, .S [2, 1]], 1)] := by decide +kernel

/-- **C51**, type B. -/
theorem C51_act_OG {m n : Int} (hmn : m ≤ n) {X : Space} (hX : mkOG m (2 * n + 1) = .ok X) :
    RingAction (SpecialPoly (2 * n - m).toNat) (BCClass m n) X.act := by
  obtain ⟨a, b, h, rfl, rfl, rfl⟩ := ogCase hmn hX
  rw [bcClass_eq h, show (2 * (a : Int) - (a - b)).toNat = a + b by omega]
  exact ringAction_congr (specIn_iff _) (fun _ => Iff.rfl) (ringOG a b h).ringAction

/-- `OG(2,7)` -/
example : LinComb (BCClass 2 3) [([.S [2, 1]], 1), ([.S [3]], -1)] ∧
    (Space.mk .B 1 3).act [([.S [1], .S [1]], 1), ([.S [2]], -1)] [([.S [2, 1]], 1), ([.S [3]], -1)] =
      .ok [([.S [3, 2]], 2)] := by decide +kernel

/-- **C51**, type C. The special class `S[p]` acts by the Pieri rule, classical and quantum. -/
theorem C51_special_IG (ord : List Int → List Int) {m n p : Int} {X : Space} (hX : mkIG m (2 * n) = .ok X) (h1 : 1 ≤ p)
    (h2 : p ≤ 2 * n - m) {x : Poly} (hx : LinComb (BCClass m n) x) :
    SameResult (X.act (Poly.sym (.S [p])) x) (X.pieri p x) ∧
    SameResult (X.qact ord (Poly.sym (.S [p])) x) (X.qpieri ord p x) := by
  obtain ⟨a, b, h, rfl, rfl, rfl⟩ := igCase hX
  rw [bcClass_eq h] at hx
  have hp : stdSpc (a + b) p := ⟨h1, by push_cast; omega⟩
  have e1 := (ringIG a b h).gact_special hp hx
  have e2 := (ringQIG ord a b h).gact_special hp hx
  rw [num2spec_pos h1] at e1 e2
  exact ⟨e1, e2⟩

example : (Space.mk .C 1 3).act (Poly.sym (.S [3])) (Poly.sym (.S [2, 1])) = .ok [([.S [4, 2]], 1)] ∧
    (Space.mk .C 1 3).pieri 3 (Poly.sym (.S [2, 1])) = .ok [([.S [4, 2]], 1)] ∧
    (Space.mk .C 1 3).qact id (Poly.sym (.S [4])) (Poly.sym (.S [2, 1])) =
      .ok [([.q, .S [2]], 1), ([.q, .S [1, 1]], 1)] ∧
    (Space.mk .C 1 3).qpieri id 4 (Poly.sym (.S [2, 1])) = .ok [([.q, .S [1, 1]], 1), ([.q, .S [2]], 1)] := by
  decide +kernel

/-- **C51**, type B. The special class `S[p]` acts by the Pieri rule. -/
theorem C51_special_OG {m n p : Int} (hmn : m ≤ n) {X : Space} (hX : mkOG m (2 * n + 1) = .ok X) (h1 : 1 ≤ p)
    (h2 : p ≤ 2 * n - m) {x : Poly} (hx : LinComb (BCClass m n) x) :
    SameResult (X.act (Poly.sym (.S [p])) x) (X.pieri p x) := by
  obtain ⟨a, b, h, rfl, rfl, rfl⟩ := ogCase hmn hX
  rw [bcClass_eq h] at hx
  have hp : stdSpc (a + b) p := ⟨h1, by push_cast; omega⟩
  have e1 := (ringOG a b h).gact_special hp hx
  rwa [num2spec_pos h1] at e1

/-- `S[1]*S[1] + 2*q*S[2]` acting on `S[3,1]` in `IG(2, 6)`, and `S[1]*S[2]` on `S[2]` in `OG(2, 7)` -/
example : mkIG 2 (2 * 3) = .ok ⟨.C, 1, 3⟩ ∧ mkOG 2 (2 * 3 + 1) = .ok ⟨.B, 1, 3⟩ ∧
    SpecialPoly (2 * 3 - 2 : Int).toNat [([.S [1], .S [1]], 1), ([.q, .S [2]], 2)] ∧
    LinComb (BCClass 2 3) (Poly.sym (.S [3, 1])) ∧
    (Space.mk .C 1 3).qact id [([.S [1], .S [1]], 1), ([.q, .S [2]], 2)] (Poly.sym (.S [3, 1])) =
      .ok [([.q, .S [4, 2]], 2), ([.q, .q, .S [1]], 2), ([.S [4, 2]], 2), ([.q, .S [1]], 1)] ∧
    (Space.mk .B 1 3).act [([.S [1], .S [2]], 1)] (Poly.sym (.S [2])) =
      .ok [([.S [4, 1]], 2), ([.S [3, 2]], 2)] := by
  refine ⟨by decide, by decide, ⟨⟨by decide, by decide⟩, ?_⟩, ⟨⟨by decide, by decide⟩, ?_⟩, by decide +kernel, by decide +kernel⟩
  · intro t ht
    simp at ht
    rcases ht with rfl | rfl
    · intro s hs; simp at hs; exact Or.inr ⟨1, by decide, by decide, hs⟩
    · intro s hs; simp at hs
      rcases hs with rfl | rfl
      · exact Or.inl rfl
      · exact Or.inr ⟨2, by decide, by decide, rfl⟩
  · intro t ht
    rw [List.mem_singleton.1 ht]
    exact ⟨0, [3, 1], rfl, ⟨by decide, by decide⟩, by unfold KStrict; decide, by decide, by decide⟩

/-! ### C52 -/

/-- **C52**, type C. `giambelli` and `qgiambelli` return polynomials in `q` and `S[1]`, ..., `S[2n-m]` whose action on `S[]`
gives back the argument: `toS` and `qtoS` are the identity on linear combinations of classes. -/
theorem C52_giambelli_IG (ord : List Int → List Int) {m n : Int} {X : Space} (hX : mkIG m (2 * n) = .ok X) {fuel : Nat}
    (hf : giamBoundBC m n ≤ fuel) {a : Poly} (ha : LinComb (BCClass m n) a) :
    (∃ g, X.giambelli fuel a = .ok g ∧ SpecialPoly (2 * n - m).toNat g ∧ SameResult (X.act g (Poly.sym (.S []))) (.ok a)) ∧
    (∃ g, X.qgiambelli ord fuel a = .ok g ∧ SpecialPoly (2 * n - m).toNat g ∧
      SameResult (X.qact ord g (Poly.sym (.S []))) (.ok a)) ∧
    SameResult (X.toS fuel a) (.ok a) ∧ SameResult (X.qtoS ord fuel a) (.ok a) := by
  obtain ⟨c, b, h, rfl, rfl, rfl⟩ := igCase hX
  rw [bcClass_eq h] at ha
  rw [giamBoundBC_eq h] at hf
  rw [show (2 * (c : Int) - (c - b)).toNat = c + b by omega]
  obtain ⟨⟨g, h1, h2⟩, h3⟩ := (ringIG c b h).ggiam hf ha
  obtain ⟨⟨g', h1', h2'⟩, h3'⟩ := (ringQIG ord c b h).ggiam hf ha
  refine ⟨⟨g, h1, (specIn_iff _ _).1 h2, ?_⟩, ⟨g', h1', (specIn_iff _ _).1 h2', ?_⟩, h3, h3'⟩
  · rw [gmult, h1] at h3; exact h3
  · rw [gmult, h1'] at h3'; exact h3'

example : LinComb (BCClass 2 3) [([.S [3, 2]], 1), ([.S [1, 1]], 3)] ∧
    (Space.mk .C 1 3).giambelli 45 [([.S [3, 2]], 1), ([.S [1, 1]], 3)] =
      .ok [([.S [2]], -3), ([.S [1], .S [1]], 3), ([.S [1], .S [4]], -2), ([.S [2], .S [3]], 1)] ∧
    (Space.mk .C 1 3).toS 45 [([.S [3, 2]], 1), ([.S [1, 1]], 3)] = .ok [([.S [3, 2]], 1), ([.S [1, 1]], 3)] ∧
    (Space.mk .C 1 3).qgiambelli id 45 (Poly.sym (.S [4, 1])) = .ok [([.q], -1), ([.S [1], .S [4]], 1)] ∧
    (Space.mk .C 1 3).qtoS id 45 (Poly.sym (.S [4, 1])) = .ok [([.S [4, 1]], 1)] := by decide +kernel

/-- **C52**, type B, classical. -/
theorem C52_giambelli_OG {m n : Int} (hmn : m ≤ n) {X : Space} (hX : mkOG m (2 * n + 1) = .ok X) {fuel : Nat}
    (hf : giamBoundBC m n ≤ fuel) {a : Poly} (ha : LinComb (BCClass m n) a) :
    (∃ g, X.giambelli fuel a = .ok g ∧ SpecialPoly (2 * n - m).toNat g ∧ SameResult (X.act g (Poly.sym (.S []))) (.ok a)) ∧
    SameResult (X.toS fuel a) (.ok a) := by
  obtain ⟨c, b, h, rfl, rfl, rfl⟩ := ogCase hmn hX
  rw [bcClass_eq h] at ha
  rw [giamBoundBC_eq h] at hf
  rw [show (2 * (c : Int) - (c - b)).toNat = c + b by omega]
  obtain ⟨⟨g, h1, h2⟩, h3⟩ := (ringOG c b h).ggiam hf ha
  refine ⟨⟨g, h1, (specIn_iff _ _).1 h2, ?_⟩, h3⟩
  rw [gmult, h1] at h3; exact h3

/-- on `IG(2, 6)` the two Giambelli polynomials of `S[4,3]` differ: `S[3]*S[4] - q*S[2]` and `S[3]*S[4]` -/
example : giamBoundBC 2 3 = 45 ∧ BCClass 2 3 [4, 3] ∧
    (Space.mk .C 1 3).qgiambelli id 45 (Poly.sym (.S [4, 3])) = .ok [([.q, .S [2]], -1), ([.S [3], .S [4]], 1)] ∧
    (Space.mk .C 1 3).giambelli 45 (Poly.sym (.S [4, 3])) = .ok [([.S [3], .S [4]], 1)] :=
  ⟨by decide, ⟨⟨by decide, by decide⟩, by unfold KStrict; decide, by decide, by decide⟩, by decide +kernel, by decide +kernel⟩

/-! ### C53 -/

/-- **C53**, type C, classical: `mult` on `IG(m, 2n)` is a commutative and associative product with unit `S[]`. -/
theorem C53_mult_IG {m n : Int} {X : Space} (hX : mkIG m (2 * n) = .ok X) {fuel : Nat} (hf : giamBoundBC m n ≤ fuel) :
    ClosedUnder (BCClass m n) (X.mult fuel) ∧ Commutative (BCClass m n) (X.mult fuel) ∧
    Associative (BCClass m n) (X.mult fuel) ∧ HasUnit (BCClass m n) (X.mult fuel) := by
  obtain ⟨a, b, h, rfl, rfl, rfl⟩ := igCase hX
  rw [bcClass_eq h]
  rw [giamBoundBC_eq h] at hf
  exact ⟨(ringIG a b h).closedUnder hf, (ringIG a b h).commutative hf, (ringIG a b h).associative hf, (ringIG a b h).hasUnit hf⟩

example : LinComb (BCClass 2 3) [([.S [2]], 1), ([.q, .S [1, 1]], 3)] ∧
    (Space.mk .C 1 3).mult 45 [([.S [2]], 1), ([.q, .S [1, 1]], 3)] (Poly.sym (.S [2, 1])) =
      .ok [([.q, .S [4, 1]], 3), ([.q, .S [3, 2]], 3), ([.S [4, 1]], 2), ([.S [3, 2]], 1)] ∧
    (Space.mk .C 1 3).mult 45 (Poly.sym (.S [2, 1])) [([.S [2]], 1), ([.q, .S [1, 1]], 3)] =
      .ok [([.S [4, 1]], 2), ([.S [3, 2]], 1), ([.q, .S [4, 1]], 3), ([.q, .S [3, 2]], 3)] := by decide +kernel

/-- **C53**, type C, quantum: `qmult` on `IG(m, 2n)` is a commutative and associative product with unit `S[]`. -/
theorem C53_qmult_IG (ord : List Int → List Int) {m n : Int} {X : Space} (hX : mkIG m (2 * n) = .ok X) {fuel : Nat}
    (hf : giamBoundBC m n ≤ fuel) :
    ClosedUnder (BCClass m n) (X.qmult ord fuel) ∧ Commutative (BCClass m n) (X.qmult ord fuel) ∧
    Associative (BCClass m n) (X.qmult ord fuel) ∧ HasUnit (BCClass m n) (X.qmult ord fuel) := by
  obtain ⟨a, b, h, rfl, rfl, rfl⟩ := igCase hX
  rw [bcClass_eq h]
  rw [giamBoundBC_eq h] at hf
  exact ⟨(ringQIG ord a b h).closedUnder hf, (ringQIG ord a b h).commutative hf, (ringQIG ord a b h).associative hf,
    (ringQIG ord a b h).hasUnit hf⟩

example :
    (Space.mk .C 1 3).qmult id 45 (Poly.sym (.S [4])) (Poly.sym (.S [3])) = .ok [([.S [4, 3]], 1), ([.q, .S [2]], 1)] ∧
    (Space.mk .C 1 3).qmult id 45 (Poly.sym (.S [3])) (Poly.sym (.S [4])) = .ok [([.S [4, 3]], 1), ([.q, .S [2]], 1)] ∧
    (Space.mk .C 1 3).qmult id 45 (Poly.sym (.S [4, 2])) (Poly.sym (.S [])) = .ok [([.S [4, 2]], 1)] := by decide +kernel

/-- **C53**, type B, classical: `mult` on `OG(m, 2n+1)` is a commutative and associative product with unit `S[]`. -/
theorem C53_mult_OG {m n : Int} (hmn : m ≤ n) {X : Space} (hX : mkOG m (2 * n + 1) = .ok X) {fuel : Nat}
    (hf : giamBoundBC m n ≤ fuel) :
    ClosedUnder (BCClass m n) (X.mult fuel) ∧ Commutative (BCClass m n) (X.mult fuel) ∧
    Associative (BCClass m n) (X.mult fuel) ∧ HasUnit (BCClass m n) (X.mult fuel) := by
  obtain ⟨a, b, h, rfl, rfl, rfl⟩ := ogCase hmn hX
  rw [bcClass_eq h]
  rw [giamBoundBC_eq h] at hf
  exact ⟨(ringOG a b h).closedUnder hf, (ringOG a b h).commutative hf, (ringOG a b h).associative hf, (ringOG a b h).hasUnit hf⟩

/-- `S[3,1] * S[2,1] = S[4,3] + q*S[2]` in the quantum ring of `IG(2, 6)`; `S[2,1] * S[2]` in `OG(2, 7)` -/
example : (Space.mk .C 1 3).qmult id 45 (Poly.sym (.S [3, 1])) (Poly.sym (.S [2, 1])) =
      .ok [([.q, .S [2]], 1), ([.S [4, 3]], 1)] ∧
    (Space.mk .B 1 3).mult 45 (Poly.sym (.S [2, 1])) (Poly.sym (.S [2])) = .ok [([.S [4, 1]], 1), ([.S [3, 2]], 1)] := by
  constructor <;> decide +kernel

/-! ### C54 -/

/-- **C54**, type C. Both products are linear in the first argument (hence, being commutative, in both). -/
theorem C54_linear_IG (ord : List Int → List Int) {m n : Int} {X : Space} (hX : mkIG m (2 * n) = .ok X) {fuel : Nat}
    (hf : giamBoundBC m n ≤ fuel) : Linear (BCClass m n) (X.mult fuel) ∧ Linear (BCClass m n) (X.qmult ord fuel) := by
  obtain ⟨a, b, h, rfl, rfl, rfl⟩ := igCase hX
  rw [bcClass_eq h]
  rw [giamBoundBC_eq h] at hf
  exact ⟨(ringIG a b h).linear hf, (ringQIG ord a b h).linear hf⟩

example :
    (Space.mk .C 1 3).qmult id 45 [([.S [3]], 2), ([.q, .S [1]], 1)] (Poly.sym (.S [4])) =
      .ok [([.S [4, 3]], 2), ([.q, .S [2]], 2), ([.q, .S [4, 1]], 1), ([.q, .q, .S []], 1)] ∧
    (Space.mk .C 1 3).qmult id 45 (Poly.sym (.S [3])) (Poly.sym (.S [4])) = .ok [([.S [4, 3]], 1), ([.q, .S [2]], 1)] ∧
    (Space.mk .C 1 3).qmult id 45 (Poly.sym (.S [1])) (Poly.sym (.S [4])) = .ok [([.S [4, 1]], 1), ([.q, .S []], 1)] := by
  decide +kernel

/-- **C54**, type B. -/
theorem C54_linear_OG {m n : Int} (hmn : m ≤ n) {X : Space} (hX : mkOG m (2 * n + 1) = .ok X) {fuel : Nat}
    (hf : giamBoundBC m n ≤ fuel) : Linear (BCClass m n) (X.mult fuel) := by
  obtain ⟨a, b, h, rfl, rfl, rfl⟩ := ogCase hmn hX
  rw [bcClass_eq h]
  rw [giamBoundBC_eq h] at hf
  exact (ringOG a b h).linear hf

example :
    (Space.mk .B 1 3).mult 45 [([.S [3]], 2), ([.S [1, 1]], 1)] (Poly.sym (.S [2, 1])) =
      .ok [([.S [4, 2]], 2), ([.S [4, 1]], 1), ([.S [3, 2]], 2)] ∧
    (Space.mk .B 1 3).mult 45 (Poly.sym (.S [3])) (Poly.sym (.S [2, 1])) = .ok [([.S [4, 2]], 1)] ∧
    (Space.mk .B 1 3).mult 45 (Poly.sym (.S [1, 1])) (Poly.sym (.S [2, 1])) = .ok [([.S [4, 1]], 1), ([.S [3, 2]], 2)] := by
  decide +kernel

theorem special_class {a b : Nat} (hba : b < a) {p : Int} (h1 : 1 ≤ p) (h2 : p ≤ a + b) : clsBC a b [p] := by
  rw [clsBC_eq hba.le]
  refine ⟨⟨by simp, by simp; omega⟩, by simp [KStrict], by simp; omega, by simp; omega⟩

/-- **C54**, type C. Multiplying by a special class is the Pieri rule. -/
theorem C54_pieri_IG (ord : List Int → List Int) {m n p : Int} {X : Space} (hX : mkIG m (2 * n) = .ok X) (hm : 0 < m) (h1 : 1 ≤ p)
    (h2 : p ≤ 2 * n - m) {fuel : Nat} (hf : giamBoundBC m n ≤ fuel) {x : Poly} (hx : LinComb (BCClass m n) x) :
    SameResult (X.mult fuel (Poly.sym (.S [p])) x) (X.pieri p x) ∧
    SameResult (X.qmult ord fuel (Poly.sym (.S [p])) x) (X.qpieri ord p x) := by
  obtain ⟨a, b, h, rfl, rfl, rfl⟩ := igCase hX
  rw [bcClass_eq h] at hx
  rw [giamBoundBC_eq h] at hf
  have hp : stdSpc (a + b) p := ⟨h1, by push_cast; omega⟩
  have hc : clsBC a b (num2spec p) := by rw [num2spec_pos h1]; exact special_class (by omega) h1 (by omega)
  have e1 := (ringIG a b h).gmult_pieri hf hp hc hx
  have e2 := (ringQIG ord a b h).gmult_pieri hf hp hc hx
  rw [num2spec_pos h1] at e1 e2
  exact ⟨e1, e2⟩

example :
    (Space.mk .C 1 3).qmult id 45 (Poly.sym (.S [2])) (Poly.sym (.S [4, 1])) =
      .ok [([.S [4, 3]], 1), ([.q, .S [1, 1]], 1), ([.q, .S [2]], 1)] ∧
    (Space.mk .C 1 3).qpieri id 2 (Poly.sym (.S [4, 1])) =
      .ok [([.q, .S [2]], 1), ([.q, .S [1, 1]], 1), ([.S [4, 3]], 1)] := by decide +kernel

/-- **C54**, type B. -/
theorem C54_pieri_OG {m n p : Int} (hmn : m ≤ n) {X : Space} (hX : mkOG m (2 * n + 1) = .ok X) (hm : 0 < m) (h1 : 1 ≤ p)
    (h2 : p ≤ 2 * n - m) {fuel : Nat} (hf : giamBoundBC m n ≤ fuel) {x : Poly} (hx : LinComb (BCClass m n) x) :
    SameResult (X.mult fuel (Poly.sym (.S [p])) x) (X.pieri p x) := by
  obtain ⟨a, b, h, rfl, rfl, rfl⟩ := ogCase hmn hX
  rw [bcClass_eq h] at hx
  rw [giamBoundBC_eq h] at hf
  have hp : stdSpc (a + b) p := ⟨h1, by push_cast; omega⟩
  have hc : clsBC a b (num2spec p) := by rw [num2spec_pos h1]; exact special_class (by omega) h1 (by omega)
  have e1 := (ringOG a b h).gmult_pieri hf hp hc hx
  rwa [num2spec_pos h1] at e1

/-- `S[3] * S[3,1]` in the quantum ring of `IG(2, 6)` -/
example : (Space.mk .C 1 3).qmult id 45 (Poly.sym (.S [3])) (Poly.sym (.S [3, 1])) = .ok [([.q, .S [2]], 1), ([.q, .S [1, 1]], 1)] ∧
    (Space.mk .C 1 3).qpieri id 3 (Poly.sym (.S [3, 1])) = .ok [([.q, .S [1, 1]], 1), ([.q, .S [2]], 1)] := by
  constructor <;> decide +kernel

/-! ### C55 -/

/-- **C55**, type C. The terms without `q` of the quantum product of expressions without `q` are the classical product. -/
theorem C55_limit_IG (ord : List Int → List Int) {m n : Int} {X : Space} (hX : mkIG m (2 * n) = .ok X) {fuel : Nat}
    (hf : giamBoundBC m n ≤ fuel) : ClassicalLimit (BCClass m n) (X.qmult ord fuel) (X.mult fuel) := by
  obtain ⟨a, b, h, rfl, rfl, rfl⟩ := igCase hX
  rw [bcClass_eq h]
  rw [giamBoundBC_eq h] at hf
  intro x y hx hy hx0 hy0
  obtain ⟨w, h1, w1, w2, h2, h3, h4⟩ := (ringQIG ord a b h).gmult_q0 (ringIG a b h) (fun p l _ => q0_QIG a b h p.toNat l) hf hx hy hx0 hy0
  cases h3
  exact ⟨w, w1, h1, h2, h4.symm⟩

/-- `S[3,1] * S[2,1] = S[4,3] + q*S[2]` in the quantum ring of `IG(2, 6)`, and `S[4,3]` in the classical one -/
example : (Space.mk .C 1 3).mult 45 (Poly.sym (.S [3, 1])) (Poly.sym (.S [2, 1])) = .ok [([.S [4, 3]], 1)] ∧
    QFree (Poly.sym (.S [3, 1])) := by
  refine ⟨by decide +kernel, ?_⟩
  intro t ht
  rw [List.mem_singleton.1 ht]; decide

/-! ### C56 -/

/-- **C56**, type C. The product of the classes `l` and `mu` is homogeneous of degree `|l| + |mu|`, with `q` of degree
`degree_q`; classical products contain no `q`. -/
theorem C56_graded_IG (ord : List Int → List Int) {m n : Int} {X : Space} (hX : mkIG m (2 * n) = .ok X) {fuel : Nat}
    (hf : giamBoundBC m n ≤ fuel) :
    GradedClassical (BCClass m n) (X.mult fuel) ∧ Graded (BCClass m n) X.degreeQ (X.qmult ord fuel) := by
  obtain ⟨a, b, h, rfl, rfl, rfl⟩ := igCase hX
  rw [bcClass_eq h]
  rw [giamBoundBC_eq h] at hf
  constructor
  · intro l mu hl hmu
    exact (ringIG a b h).gmult_hom_classical (fun N => homT_toGiam (sysIG a b h) b (N := N) (fun p h1 h2 => homIG a b h N h1 h2)) hf hl hmu
  · intro l mu hl hmu
    rw [show (Space.mk .C b a).degreeQ = (a : Int) + b + 1 by unfold Space.degreeQ; ring]
    exact (ringQIG ord a b h).gmult_hom (homT_toGiam (sysQIG a b h) b (fun p h1 h2 => homQIG a b h h1 h2)) hf hl hmu

/-- degrees `4 + 5 = 4 + 1*5` with `q` of degree 5. -/
example : (Space.mk .C 1 3).qmult id 45 (Poly.sym (.S [4])) (Poly.sym (.S [3, 2])) = .ok [([.q, .S [3, 1]], 1)] ∧
    (Space.mk .C 1 3).degreeQ = 5 := by decide +kernel

/-- **C56**, type B, classical. -/
theorem C56_graded_OG {m n : Int} (hmn : m ≤ n) {X : Space} (hX : mkOG m (2 * n + 1) = .ok X) {fuel : Nat}
    (hf : giamBoundBC m n ≤ fuel) : GradedClassical (BCClass m n) (X.mult fuel) := by
  obtain ⟨a, b, h, rfl, rfl, rfl⟩ := ogCase hmn hX
  rw [bcClass_eq h]
  rw [giamBoundBC_eq h] at hf
  intro l mu hl hmu
  exact (ringOG a b h).gmult_hom_classical (fun N => homT_toGiam (sysOG a b h) b (N := N) (fun p h1 h2 => homOG a b h N h1 h2)) hf hl hmu

/-- degrees `4 + 3 = 7 = 2 + 5` in `IG(2, 6)` -/
example : (Space.mk .C 1 3).degreeQ = 5 ∧ BCClass 2 3 [3, 1] ∧ BCClass 2 3 [2, 1] :=
  ⟨by decide, ⟨⟨by decide, by decide⟩, by unfold KStrict; decide, by decide, by decide⟩,
    ⟨by decide, by decide⟩, by unfold KStrict; decide, by decide, by decide⟩

/-! ### C57 -/

/-- **C57**, type C. The structure constants of both products are integers. -/
theorem C57_integral_IG (ord : List Int → List Int) {m n : Int} {X : Space} (hX : mkIG m (2 * n) = .ok X) {fuel : Nat}
    (hf : giamBoundBC m n ≤ fuel) : Integral (BCClass m n) (X.mult fuel) ∧ Integral (BCClass m n) (X.qmult ord fuel) := by
  obtain ⟨a, b, h, rfl, rfl, rfl⟩ := igCase hX
  rw [bcClass_eq h]
  rw [giamBoundBC_eq h] at hf
  constructor
  · intro l mu hl hmu
    exact (ringIG a b h).gmult_int (intX_toGiam (sysIG a b h) b (fun p h1 h2 => intIG a b h h1 h2)) hf hl hmu
  · intro l mu hl hmu
    exact (ringQIG ord a b h).gmult_int (intX_toGiam (sysQIG a b h) b (fun p h1 h2 => intQIG a b h h1 h2)) hf hl hmu

example : (Space.mk .C 1 3).qmult id 45 (Poly.sym (.S [3, 1])) (Poly.sym (.S [3, 2])) = .ok [([.q, .S [4]], 1)] := by
  decide +kernel

/-- **C57**, type B, classical. -/
theorem C57_integral_OG {m n : Int} (hmn : m ≤ n) {X : Space} (hX : mkOG m (2 * n + 1) = .ok X) {fuel : Nat}
    (hf : giamBoundBC m n ≤ fuel) : Integral (BCClass m n) (X.mult fuel) := by
  obtain ⟨a, b, h, rfl, rfl, rfl⟩ := ogCase hmn hX
  rw [bcClass_eq h]
  rw [giamBoundBC_eq h] at hf
  intro l mu hl hmu
  exact (ringOG a b h).gmult_int (intX_toGiam (sysOG a b h) b (fun p h1 h2 => intOG a b h h1 h2)) hf hl hmu

/-- a structure constant `2` in `IG(2, 6)` -/
example : (Space.mk .C 1 3).mult 45 (Poly.sym (.S [2])) (Poly.sym (.S [2, 1])) = .ok [([.S [4, 1]], 2), ([.S [3, 2]], 1)] := by
  decide +kernel

end Verif
