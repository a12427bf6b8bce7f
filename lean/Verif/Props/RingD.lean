import Verif.Proofs.RingD
import Verif.Props.RingQB
/-!
# C64-C67: the rings computed for `OG(m, 2n+2)`

Every result is a value up to the order of its terms (`SameResult`), so each statement includes that
the calls terminate (with recursion depth at most `giamBoundD`) and raise no exception. The quantum statements exclude `m = 0`,
where `qpieri` raises an `IndexError` (`C34_qpieri_OGeven_point`), and `m = n`, where the quantum parameters are `q1` and `q2`
and `qact` raises a `ValueError` on expressions with them (`C66_refuted_two_parameters`).
-/

namespace Verif
open Spec

/-- `l` is a Schubert class of `OG(m, 2n+2)`: an `(n+1-m)`-strict partition inside the `m × (2n+1-m)` rectangle, followed by a
zero for the second class of those with a part `n+1-m`. -/
def Spec.DClass (m n : Int) (l : List Int) : Prop := TypedClass (n + 1 - m) m.toNat (2 * n + 1 - m) l

instance (m n : Int) : DecidablePred (DClass m n) := fun l => by unfold Spec.DClass; infer_instance

/-- `l` is one of the special classes `S[1]`, ..., `S[2n+1-m]` and `S[n+1-m,0]` of `OG(m, 2n+2)`. -/
def Spec.DSpecial (m n : Int) (l : List Int) : Prop :=
  (∃ i : Int, 1 ≤ i ∧ i ≤ 2 * n + 1 - m ∧ l = [i]) ∨ (1 ≤ n + 1 - m ∧ l = [n + 1 - m, 0])

instance (m n : Int) : DecidablePred (DSpecial m n) := fun l =>
  decidable_of_iff ((∃ i ∈ (specialOf (.S l)).toList, 1 ≤ i ∧ i ≤ 2 * n + 1 - m) ∨ (1 ≤ n + 1 - m ∧ l = [n + 1 - m, 0])) (by
    unfold Spec.DSpecial
    refine or_congr ⟨?_, ?_⟩ Iff.rfl
    · rintro ⟨i, h0, h1, h2⟩
      refine ⟨i, h1, h2, ?_⟩
      unfold specialOf at h0
      split at h0 <;> simp_all
    · rintro ⟨i, h1, h2, rfl⟩
      exact ⟨i, by simp [specialOf], h1, h2⟩)

/-- `p` is an expanded polynomial in `q` and the special classes of `OG(m, 2n+2)`. -/
def Spec.DSpecialPoly (m n : Int) (p : Poly) : Prop := WF p ∧ ∀ t ∈ p, ∀ s ∈ t.1, s = .q ∨ ∃ l, DSpecial m n l ∧ s = .S l

instance (m n : Int) (p : Poly) : Decidable (DSpecialPoly m n p) :=
  decidable_of_iff (WF p ∧ ∀ t ∈ p, ∀ s ∈ t.1, s = .q ∨ ∃ l ∈ (classOf [s]).toList, DSpecial m n l ∧ s = .S l) (by
    unfold Spec.DSpecialPoly
    refine and_congr Iff.rfl (forall₂_congr fun t _ => forall₂_congr fun s _ => or_congr Iff.rfl ⟨?_, ?_⟩)
    · rintro ⟨l, -, h⟩
      exact ⟨l, h⟩
    · rintro ⟨l, h, rfl⟩
      exact ⟨l, by simp [classOf], h, rfl⟩)

/-- Recursion depth that is sufficient for `giambelli` on `OG(m, 2n+2)`. -/
def Spec.giamBoundD (m n : Int) : Nat :=
  m.toNat * (2 * n + 1 - m).toNat * ((2 * n + 1 - m).toNat + 1) + ((2 * n + 1 - m).toNat + 1)

theorem dClass_eq {n k : Nat} (hk : k ≤ n + 1) : DClass ((n : Int) + 1 - k) n = clsD n k := by
  funext l
  rw [propext (clsD_iff hk l)]
  unfold DClass
  rw [show (n : Int) + 1 - (n + 1 - k) = k by ring, show ((n : Int) + 1 - k).toNat = n + 1 - k by omega,
    show 2 * (n : Int) + 1 - (n + 1 - k) = n + k by ring]

theorem giamBoundD_eq {n k : Nat} (hk : k ≤ n + 1) : giamBoundD ((n : Int) + 1 - k) n = boundD n k := by
  unfold giamBoundD boundD
  rw [show ((n : Int) + 1 - k).toNat = n + 1 - k by omega, show (2 * (n : Int) + 1 - (n + 1 - k)).toNat = n + k by omega]

theorem ogdCase {m n : Int} (hn : 0 ≤ n) (hmn : m ≤ n + 1) {X : Space} (hX : mkOG m (2 * n + 2) = .ok X) :
    ∃ a b : Nat, b ≤ a + 1 ∧ n = a ∧ m = (a : Int) + 1 - b ∧ X = ⟨.D, b, a⟩ := by
  obtain ⟨h1, h2, rfl⟩ := mkOG_even hX
  refine ⟨n.toNat, (n + 1 - m).toNat, by omega, by omega, by omega, ?_⟩
  congr 1 <;> omega

theorem ogdCase' {m n : Int} (hm : 0 < m) (hmn : m ≤ n + 1) (hne : m ≠ n) {X : Space} (hX : mkOG m (2 * n + 2) = .ok X) :
    ∃ a b : Nat, b ≤ a ∧ b ≠ 1 ∧ n = a ∧ m = (a : Int) + 1 - b ∧ X = ⟨.D, b, a⟩ := by
  obtain ⟨a, b, h, h1, h2, h3⟩ := ogdCase (by omega) hmn hX
  exact ⟨a, b, by omega, by omega, h1, h2, h3⟩

theorem dSpecial_iff {a b : Nat} (l : List Int) : DSpecial ((a : Int) + 1 - b) a l ↔ ∃ p, spcD a b p ∧ l = num2spec p := by
  unfold DSpecial spcD
  rw [show (a : Int) + 1 - (a + 1 - b) = b by ring, show 2 * (a : Int) + 1 - (a + 1 - b) = a + b by ring]
  constructor
  · rintro (⟨i, h1, h2, rfl⟩ | ⟨h1, rfl⟩)
    · exact ⟨i, Or.inl ⟨h1, by push_cast; omega⟩, by rw [num2spec_pos h1]⟩
    · refine ⟨-b, Or.inr ⟨by omega, rfl⟩, ?_⟩
      unfold num2spec
      rw [if_neg (by omega), neg_neg]
  · rintro ⟨p, ⟨h1, h2⟩ | ⟨h1, rfl⟩, rfl⟩
    · exact Or.inl ⟨p, h1, by push_cast at h2; omega, by rw [num2spec_pos h1]⟩
    · refine Or.inr ⟨by omega, ?_⟩
      unfold num2spec
      rw [if_neg (by omega), neg_neg]

theorem dSpecIn_iff (a b : Nat) (e : Poly) : SpecIn (spcD a b) e ↔ DSpecialPoly ((a : Int) + 1 - b) a e := by
  unfold SpecIn DSpecialPoly
  apply and_congr_right
  intro _
  refine forall₂_congr (fun t _ => forall₂_congr (fun s _ => or_congr_right ?_))
  constructor
  · rintro ⟨p, h, rfl⟩
    exact ⟨_, (dSpecial_iff _).2 ⟨p, h, rfl⟩, rfl⟩
  · rintro ⟨l, h, rfl⟩
    obtain ⟨p, h1, rfl⟩ := (dSpecial_iff _).1 h
    exact ⟨p, h1, rfl⟩

/-! ### C64 -/

/-- **C64**. `act` on `OG(m, 2n+2)` is a ring action of the polynomials in `q` and the special classes on the linear
combinations of classes. -/
theorem C64_act {m n : Int} (hn : 0 ≤ n) (hmn : m ≤ n + 1) {X : Space} (hX : mkOG m (2 * n + 2) = .ok X) :
    RingAction (DSpecialPoly m n) (DClass m n) X.act := by
  obtain ⟨a, b, h, rfl, rfl, rfl⟩ := ogdCase hn hmn hX
  rw [dClass_eq h]
  exact ringAction_congr (dSpecIn_iff _ _) (fun _ => Iff.rfl) (ringD a b h).ringAction

/-- `OG(2,8)` -/
example : DSpecialPoly 2 3 [([.S [2], .S [2, 0]], 1)] ∧ LinComb (DClass 2 3) [([.S [1, 1]], 1), ([.S [2, 0]], 2)] ∧
    (Space.mk .D 2 3).act [([.S [2], .S [2, 0]], 1)] [([.S [1, 1]], 1), ([.S [2, 0]], 2)] =
      .ok [([.S [5, 1]], 3), ([.S [4, 2]], 3), ([.S [4, 2, 0]], 3)] ∧
    (Space.mk .D 2 3).act (Poly.sym (.S [2, 0])) [([.S [1, 1]], 1), ([.S [2, 0]], 2)] =
      .ok [([.S [3, 1]], 1), ([.S [4]], 2), ([.S [2, 2, 0]], 2)] := by decide +kernel

/-- **C64**. The same for `qact`. -/
theorem C64_qact (ord : List Int → List Int) {m n : Int} (hm : 0 < m) (hmn : m ≤ n + 1) (hne : m ≠ n) {X : Space}
    (hX : mkOG m (2 * n + 2) = .ok X) : RingAction (DSpecialPoly m n) (DClass m n) (X.qact ord) := by
  obtain ⟨a, b, h, h1, rfl, rfl, rfl⟩ := ogdCase' hm hmn hne hX
  rw [dClass_eq (by omega)]
  exact ringAction_congr (dSpecIn_iff _ _) (fun _ => Iff.rfl) (ringQD ord a b h h1).ringAction

example :
    (Space.mk .D 2 3).qact id [([.S [2, 0], .S [4]], 1)] (Poly.sym (.S [3, 1])) =
      .ok [([.q, .S [3, 2]], 2), ([.q, .q, .S []], 2), ([.q, .S [4, 1]], 4), ([.q, .S [5]], 2), ([.q, .S [3, 2, 0]], 2)] ∧
    (Space.mk .D 2 3).qact id (Poly.sym (.S [4])) (Poly.sym (.S [3, 1])) =
      .ok [([.S [5, 3]], 1), ([.q, .S [2, 1]], 1), ([.q, .S [2, 1, 0]], 1), ([.q, .S [3]], 1)] := by decide +kernel

/-- **C64**. The special class `S[p]` acts by the Pieri rule for `p`, and the second class of degree `k = n+1-m`, `S[k,0]`,
by the Pieri rule for `-k`. -/
theorem C64_special {m n p : Int} (hn : 0 ≤ n) (hmn : m ≤ n + 1) {X : Space} (hX : mkOG m (2 * n + 2) = .ok X) {x : Poly}
    (hx : LinComb (DClass m n) x) :
    (1 ≤ p → p ≤ 2 * n + 1 - m → SameResult (X.act (Poly.sym (.S [p])) x) (X.pieri p x)) ∧
    (1 ≤ n + 1 - m → SameResult (X.act (Poly.sym (.S [n + 1 - m, 0])) x) (X.pieri (-(n + 1 - m)) x)) := by
  obtain ⟨a, b, h, rfl, rfl, rfl⟩ := ogdCase hn hmn hX
  rw [dClass_eq h] at hx
  rw [show (a : Int) + 1 - (a + 1 - b) = b by ring]
  constructor
  · intro h1 h2
    have e1 := (ringD a b h).gact_special (p := p) (Or.inl ⟨h1, by push_cast; omega⟩) hx
    rwa [num2spec_pos h1] at e1
  · intro h1
    have e1 := (ringD a b h).gact_special (p := -b) (Or.inr ⟨by omega, rfl⟩) hx
    unfold num2spec at e1
    rwa [if_neg (by omega), neg_neg] at e1

example :
    (Space.mk .D 2 3).act (Poly.sym (.S [2, 0])) (Poly.sym (.S [3, 1])) =
      .ok [([.S [5, 1]], 1), ([.S [4, 2]], 1), ([.S [4, 2, 0]], 1)] ∧
    (Space.mk .D 2 3).pieri (-2) (Poly.sym (.S [3, 1])) = .ok [([.S [4, 2, 0]], 1), ([.S [4, 2]], 1), ([.S [5, 1]], 1)] ∧
    (Space.mk .D 2 3).act (Poly.sym (.S [2])) (Poly.sym (.S [3, 1])) =
      .ok [([.S [5, 1]], 1), ([.S [4, 2]], 1), ([.S [4, 2, 0]], 1)] ∧
    (Space.mk .D 2 3).pieri 2 (Poly.sym (.S [3, 1])) = .ok [([.S [4, 2, 0]], 1), ([.S [4, 2]], 1), ([.S [5, 1]], 1)] := by
  decide +kernel

/-- **C64**. The same for `qact`. -/
theorem C64_qspecial (ord : List Int → List Int) {m n p : Int} (hm : 0 < m) (hmn : m ≤ n + 1) (hne : m ≠ n) {X : Space}
    (hX : mkOG m (2 * n + 2) = .ok X) {x : Poly} (hx : LinComb (DClass m n) x) :
    (1 ≤ p → p ≤ 2 * n + 1 - m → SameResult (X.qact ord (Poly.sym (.S [p])) x) (X.qpieri ord p x)) ∧
    (1 ≤ n + 1 - m → SameResult (X.qact ord (Poly.sym (.S [n + 1 - m, 0])) x) (X.qpieri ord (-(n + 1 - m)) x)) := by
  obtain ⟨a, b, h, hb, rfl, rfl, rfl⟩ := ogdCase' hm hmn hne hX
  rw [dClass_eq (by omega)] at hx
  rw [show (a : Int) + 1 - (a + 1 - b) = b by ring]
  constructor
  · intro h1 h2
    have e1 := (ringQD ord a b h hb).gact_special (p := p) (Or.inl ⟨h1, by push_cast; omega⟩) hx
    rwa [num2spec_pos h1] at e1
  · intro h1
    have e1 := (ringQD ord a b h hb).gact_special (p := -b) (Or.inr ⟨by omega, rfl⟩) hx
    unfold num2spec at e1
    rwa [if_neg (by omega), neg_neg] at e1

/-- `S[2,0]*S[2]` acting on `S[2]` and `S[2,0]*S[2] + 2*q*S[1]` acting on `S[3,1]` in `OG(2, 8)` -/
example : mkOG 2 (2 * 3 + 2) = .ok ⟨.D, 2, 3⟩ ∧ DSpecialPoly 2 3 [([.S [2], .S [2, 0]], 1), ([.q, .S [1]], 2)] ∧
    LinComb (DClass 2 3) (Poly.sym (.S [2, 1, 0])) ∧
    (Space.mk .D 2 3).act [([.S [2], .S [2, 0]], 1)] (Poly.sym (.S [2])) =
      .ok [([.S [5, 1]], 1), ([.S [4, 2]], 1), ([.S [4, 2, 0]], 1)] ∧
    (Space.mk .D 2 3).qact id [([.S [2], .S [2, 0]], 1), ([.q, .S [1]], 2)] (Poly.sym (.S [3, 1])) =
      .ok [([.q, .S [2, 1, 0]], 2), ([.S [5, 3]], 2), ([.q, .S [3]], 2), ([.q, .S [2, 1]], 2), ([.q, .S [3, 2, 0]], 2),
        ([.q, .S [3, 2]], 2), ([.q, .S [5]], 2), ([.q, .S [4, 1]], 4), ([.q, .q, .S []], 2)] := by
  refine ⟨by decide, ⟨⟨by decide, by decide⟩, ?_⟩, ⟨⟨by decide, by decide⟩, ?_⟩, by decide +kernel, by decide +kernel⟩
  · intro t ht
    simp at ht
    rcases ht with rfl | rfl
    · intro s hs; simp at hs
      rcases hs with rfl | rfl
      · exact Or.inr ⟨_, Or.inl ⟨2, by decide, by decide, rfl⟩, rfl⟩
      · exact Or.inr ⟨_, Or.inr ⟨by decide, rfl⟩, rfl⟩
    · intro s hs; simp at hs
      rcases hs with rfl | rfl
      · exact Or.inl rfl
      · exact Or.inr ⟨_, Or.inl ⟨1, by decide, by decide, rfl⟩, rfl⟩
  · intro t ht
    rw [List.mem_singleton.1 ht]
    exact ⟨0, [2, 1, 0], rfl, [2, 1], ⟨by decide, by decide⟩, by unfold KStrict; decide, ⟨by decide, by decide⟩, Or.inr ⟨by decide, rfl⟩⟩

/-! ### C65 -/

/-- **C65**. `giambelli` returns a polynomial in `q` and the special classes whose action on `S[]` gives back the argument:
`toS` is the identity on linear combinations of classes. -/
theorem C65_giambelli {m n : Int} (hn : 0 ≤ n) (hmn : m ≤ n + 1) {X : Space} (hX : mkOG m (2 * n + 2) = .ok X) {fuel : Nat}
    (hf : giamBoundD m n ≤ fuel) {a : Poly} (ha : LinComb (DClass m n) a) :
    (∃ g, X.giambelli fuel a = .ok g ∧ DSpecialPoly m n g ∧ SameResult (X.act g (Poly.sym (.S []))) (.ok a)) ∧
    SameResult (X.toS fuel a) (.ok a) := by
  obtain ⟨c, b, h, rfl, rfl, rfl⟩ := ogdCase hn hmn hX
  rw [dClass_eq h] at ha
  rw [giamBoundD_eq h] at hf
  obtain ⟨⟨g, h1, h2⟩, h3⟩ := (ringD c b h).ggiam hf ha
  refine ⟨⟨g, h1, (dSpecIn_iff _ _ _).1 h2, ?_⟩, h3⟩
  rw [gmult, h1] at h3; exact h3

example : LinComb (DClass 2 3) [([.S [2, 2, 0]], 1), ([.S [1, 1]], 3)] ∧
    (Space.mk .D 2 3).giambelli 66 [([.S [2, 2, 0]], 1), ([.S [1, 1]], 3)] =
      .ok [([.S [2]], -3), ([.S [2, 0]], -3), ([.S [1], .S [1]], 3), ([.S [4]], -1), ([.S [2, 0], .S [2, 0]], 1)] ∧
    (Space.mk .D 2 3).toS 66 [([.S [2, 2, 0]], 1), ([.S [1, 1]], 3)] = .ok [([.S [2, 2, 0]], 1), ([.S [1, 1]], 3)] := by
  decide +kernel

/-- **C65**. The same for `qgiambelli` and `qtoS`. -/
theorem C65_qgiambelli (ord : List Int → List Int) {m n : Int} (hm : 0 < m) (hmn : m ≤ n + 1) (hne : m ≠ n) {X : Space}
    (hX : mkOG m (2 * n + 2) = .ok X) {fuel : Nat} (hf : giamBoundD m n ≤ fuel) {a : Poly} (ha : LinComb (DClass m n) a) :
    (∃ g, X.qgiambelli ord fuel a = .ok g ∧ DSpecialPoly m n g ∧ SameResult (X.qact ord g (Poly.sym (.S []))) (.ok a)) ∧
    SameResult (X.qtoS ord fuel a) (.ok a) := by
  obtain ⟨c, b, h, hb, rfl, rfl, rfl⟩ := ogdCase' hm hmn hne hX
  rw [dClass_eq (by omega)] at ha
  rw [giamBoundD_eq (by omega)] at hf
  obtain ⟨⟨g, h1, h2⟩, h3⟩ := (ringQD ord c b h hb).ggiam hf ha
  refine ⟨⟨g, h1, (dSpecIn_iff _ _ _).1 h2, ?_⟩, h3⟩
  rw [gmult, h1] at h3; exact h3

/-- `S[2,2,0] = S[2,0]*S[2,0] - S[4]` and `S[4,3] = S[3]*S[4] - S[2]*S[5] - S[2,0]*S[5]` in `OG(2, 8)` -/
example : giamBoundD 2 3 = 66 ∧
    (Space.mk .D 2 3).giambelli 66 (Poly.sym (.S [2, 2, 0])) = .ok [([.S [4]], -1), ([.S [2, 0], .S [2, 0]], 1)] ∧
    (Space.mk .D 2 3).qgiambelli id 66 (Poly.sym (.S [4, 3])) =
      .ok [([.S [2], .S [5]], -1), ([.S [2, 0], .S [5]], -1), ([.S [3], .S [4]], 1)] := by
  refine ⟨by decide, ?_, ?_⟩ <;> decide +kernel

/-! ### C66 -/

/-- **C66**. `mult` on `OG(m, 2n+2)` is a commutative and associative product with unit `S[]`, linear in the first argument
(hence in both). -/
theorem C66_mult {m n : Int} (hn : 0 ≤ n) (hmn : m ≤ n + 1) {X : Space} (hX : mkOG m (2 * n + 2) = .ok X) {fuel : Nat}
    (hf : giamBoundD m n ≤ fuel) :
    ClosedUnder (DClass m n) (X.mult fuel) ∧ Commutative (DClass m n) (X.mult fuel) ∧
    Associative (DClass m n) (X.mult fuel) ∧ HasUnit (DClass m n) (X.mult fuel) ∧ Linear (DClass m n) (X.mult fuel) := by
  obtain ⟨a, b, h, rfl, rfl, rfl⟩ := ogdCase hn hmn hX
  rw [dClass_eq h]
  rw [giamBoundD_eq h] at hf
  exact ⟨(ringD a b h).closedUnder hf, (ringD a b h).commutative hf, (ringD a b h).associative hf, (ringD a b h).hasUnit hf,
    (ringD a b h).linear hf⟩

example : LinComb (DClass 2 3) [([.S [2]], 1), ([.q, .S [1, 1]], 3)] ∧
    (Space.mk .D 2 3).mult 66 [([.S [2]], 1), ([.q, .S [1, 1]], 3)] (Poly.sym (.S [2, 1, 0])) =
      .ok [([.q, .S [4, 1]], 3), ([.q, .S [3, 2, 0]], 3), ([.S [4, 1]], 1), ([.S [3, 2, 0]], 1), ([.q, .S [3, 2]], 3)] ∧
    (Space.mk .D 2 3).mult 66 (Poly.sym (.S [2, 1, 0])) [([.S [2]], 1), ([.q, .S [1, 1]], 3)] =
      .ok [([.S [4, 1]], 1), ([.q, .S [4, 1]], 3), ([.S [3, 2, 0]], 1), ([.q, .S [3, 2]], 3), ([.q, .S [3, 2, 0]], 3)] := by
  decide +kernel

/-- **C66**. The same for `qmult`. -/
theorem C66_qmult (ord : List Int → List Int) {m n : Int} (hm : 0 < m) (hmn : m ≤ n + 1) (hne : m ≠ n) {X : Space}
    (hX : mkOG m (2 * n + 2) = .ok X) {fuel : Nat} (hf : giamBoundD m n ≤ fuel) :
    ClosedUnder (DClass m n) (X.qmult ord fuel) ∧ Commutative (DClass m n) (X.qmult ord fuel) ∧
    Associative (DClass m n) (X.qmult ord fuel) ∧ HasUnit (DClass m n) (X.qmult ord fuel) ∧
    Linear (DClass m n) (X.qmult ord fuel) := by
  obtain ⟨a, b, h, hb, rfl, rfl, rfl⟩ := ogdCase' hm hmn hne hX
  rw [dClass_eq (by omega)]
  rw [giamBoundD_eq (by omega)] at hf
  exact ⟨(ringQD ord a b h hb).closedUnder hf, (ringQD ord a b h hb).commutative hf, (ringQD ord a b h hb).associative hf,
    (ringQD ord a b h hb).hasUnit hf, (ringQD ord a b h hb).linear hf⟩

example : (Space.mk .D 2 3).qmult id 66 (Poly.sym (.S [4])) (Poly.sym (.S [3, 2, 0])) = .ok [([.q, .S [2, 2]], 1)] ∧
    (Space.mk .D 2 3).qmult id 66 (Poly.sym (.S [3, 2, 0])) (Poly.sym (.S [4])) = .ok [([.q, .S [2, 2]], 1)] := by
  decide +kernel

theorem special_classD {a b : Nat} (hba : b ≤ a) {p : Int} (hp : spcD a b p) : clsD a b (num2spec p) := by
  rw [clsD_iff (by omega)]
  rcases hp with ⟨h1, h2⟩ | ⟨h1, rfl⟩
  · rw [num2spec_pos h1]
    exact ⟨[p], ⟨by simp, by simp; omega⟩, by simp [KStrict], ⟨by simp; omega, by simp; push_cast at h2; omega⟩, Or.inl rfl⟩
  · unfold num2spec
    rw [if_neg (by omega), neg_neg]
    exact ⟨[(b : Int)], ⟨by simp, by simp; omega⟩, by simp [KStrict], ⟨by simp; omega, by simp⟩, Or.inr ⟨by simp, rfl⟩⟩

/-- **C66**. Multiplying by a special class is the Pieri rule. -/
theorem C66_pieri {m n p : Int} (hm : 0 < m) (hmn : m ≤ n + 1) {X : Space} (hX : mkOG m (2 * n + 2) = .ok X) {fuel : Nat}
    (hf : giamBoundD m n ≤ fuel) {x : Poly} (hx : LinComb (DClass m n) x) :
    (1 ≤ p → p ≤ 2 * n + 1 - m → SameResult (X.mult fuel (Poly.sym (.S [p])) x) (X.pieri p x)) ∧
    (1 ≤ n + 1 - m → SameResult (X.mult fuel (Poly.sym (.S [n + 1 - m, 0])) x) (X.pieri (-(n + 1 - m)) x)) := by
  obtain ⟨a, b, h, rfl, rfl, rfl⟩ := ogdCase (by omega) hmn hX
  rw [dClass_eq h] at hx
  rw [giamBoundD_eq h] at hf
  rw [show (a : Int) + 1 - (a + 1 - b) = b by ring]
  constructor
  · intro h1 h2
    have hp : spcD a b p := Or.inl ⟨h1, by push_cast; omega⟩
    have e1 := (ringD a b h).gmult_pieri hf hp (special_classD (by omega) hp) hx
    rwa [num2spec_pos h1] at e1
  · intro h1
    have hp : spcD a b (-b) := Or.inr ⟨by omega, rfl⟩
    have e1 := (ringD a b h).gmult_pieri hf hp (special_classD (by omega) hp) hx
    unfold num2spec at e1
    rwa [if_neg (by omega), neg_neg] at e1

example :
    (Space.mk .D 2 3).mult 66 (Poly.sym (.S [2, 0])) (Poly.sym (.S [2, 1])) = .ok [([.S [4, 1]], 1), ([.S [3, 2]], 1)] ∧
    (Space.mk .D 2 3).pieri (-2) (Poly.sym (.S [2, 1])) = .ok [([.S [3, 2]], 1), ([.S [4, 1]], 1)] := by decide +kernel

/-- **C66**. Quantum multiplication by a special class is the quantum Pieri rule. -/
theorem C66_qpieri (ord : List Int → List Int) {m n p : Int} (hm : 0 < m) (hmn : m ≤ n + 1) (hne : m ≠ n) {X : Space}
    (hX : mkOG m (2 * n + 2) = .ok X) {fuel : Nat} (hf : giamBoundD m n ≤ fuel) {x : Poly} (hx : LinComb (DClass m n) x) :
    (1 ≤ p → p ≤ 2 * n + 1 - m → SameResult (X.qmult ord fuel (Poly.sym (.S [p])) x) (X.qpieri ord p x)) ∧
    (1 ≤ n + 1 - m → SameResult (X.qmult ord fuel (Poly.sym (.S [n + 1 - m, 0])) x) (X.qpieri ord (-(n + 1 - m)) x)) := by
  obtain ⟨a, b, h, hb, rfl, rfl, rfl⟩ := ogdCase' hm hmn hne hX
  rw [dClass_eq (by omega)] at hx
  rw [giamBoundD_eq (by omega)] at hf
  rw [show (a : Int) + 1 - (a + 1 - b) = b by ring]
  constructor
  · intro h1 h2
    have hp : spcD a b p := Or.inl ⟨h1, by push_cast; omega⟩
    have e1 := (ringQD ord a b h hb).gmult_pieri hf hp (special_classD (by omega) hp) hx
    rwa [num2spec_pos h1] at e1
  · intro h1
    have hp : spcD a b (-b) := Or.inr ⟨by omega, rfl⟩
    have e1 := (ringQD ord a b h hb).gmult_pieri hf hp (special_classD (by omega) hp) hx
    unfold num2spec at e1
    rwa [if_neg (by omega), neg_neg] at e1

/-- products in `OG(2, 8)`: the types matter, `S[3,2] * S[2,0] = q*S[2,0]` and `S[3,2] * S[2] = S[5,2]`;
and `S[3,1] * S[3,1] = q*S[2]` in `OG(4, 8)` -/
example : (Space.mk .D 2 3).qmult id 66 (Poly.sym (.S [3, 2])) (Poly.sym (.S [2, 0])) = .ok [([.q, .S [2, 0]], 1)] ∧
    (Space.mk .D 2 3).qmult id 66 (Poly.sym (.S [3, 2])) (Poly.sym (.S [2])) = .ok [([.S [5, 2]], 1)] ∧
    (Space.mk .D 2 3).mult 66 (Poly.sym (.S [2, 1, 0])) (Poly.sym (.S [2, 2])) = .ok [([.S [4, 3]], 1)] ∧
    (Space.mk .D 0 3).qmult id 100 (Poly.sym (.S [3, 1])) (Poly.sym (.S [3, 1])) = .ok [([.q, .S [2]], 1)] := by
  refine ⟨?_, ?_, ?_, ?_⟩ <;> decide +kernel

/-- **C66**, refuted for `m = n`. In `OG(2, 6)` the product `S[3,1] * S[2]` contains `q1`, and multiplying it with a third class
raises a `ValueError`, although `S[2] * S[1]` and its product with `S[3,1]` are computed: `qmult` is not associative. -/
theorem C66_refuted_two_parameters :
    mkOG 2 (2 * 2 + 2) = .ok ⟨.D, 1, 2⟩ ∧
    (Space.mk .D 1 2).qmult id 45 (Poly.sym (.S [3, 1])) (Poly.sym (.S [2])) =
      .ok [([.q1, .S [2, 1, 0]], 1), ([.q1, .q2, .S []], 1)] ∧
    (Space.mk .D 1 2).qmult id 45 [([.q1, .S [2, 1, 0]], 1), ([.q1, .q2, .S []], 1)] (Poly.sym (.S [1])) = .error .valueError ∧
    (∃ w v, (Space.mk .D 1 2).qmult id 45 (Poly.sym (.S [2])) (Poly.sym (.S [1])) = .ok w ∧
      (Space.mk .D 1 2).qmult id 45 (Poly.sym (.S [3, 1])) w = .ok v) := by
  refine ⟨by decide, by decide +kernel, by decide +kernel, [([.S [3]], 1), ([.S [2, 1]], 1)],
    [([.q1, .q2, .S [1]], 1), ([.q1, .S [3, 1, 0]], 1)], ?_, ?_⟩ <;> decide +kernel

/-! ### C67 -/

/-- **C67**. The terms without `q` of the quantum product of expressions without `q` are the classical product. -/
theorem C67_limit (ord : List Int → List Int) {m n : Int} (hm : 0 < m) (hmn : m ≤ n + 1) (hne : m ≠ n) {X : Space}
    (hX : mkOG m (2 * n + 2) = .ok X) {fuel : Nat} (hf : giamBoundD m n ≤ fuel) :
    ClassicalLimit (DClass m n) (X.qmult ord fuel) (X.mult fuel) := by
  obtain ⟨a, b, h, hb, rfl, rfl, rfl⟩ := ogdCase' hm hmn hne hX
  rw [dClass_eq (by omega)]
  rw [giamBoundD_eq (by omega)] at hf
  intro x y hx hy hx0 hy0
  obtain ⟨w, h1, w1, w2, h2, h3, h4⟩ := (ringQD ord a b h hb).gmult_q0 (ringD a b (by omega))
    (fun p l _ => q0_QD (by omega) hb p l) hf hx hy hx0 hy0
  cases h3
  exact ⟨w, w1, h1, h2, h4.symm⟩

example :
    (Space.mk .D 2 3).qmult id 66 (Poly.sym (.S [3, 1])) (Poly.sym (.S [2, 1])) =
      .ok [([.S [5, 2]], 1), ([.q, .S [1, 1]], 1), ([.q, .S [2, 0]], 1), ([.S [4, 3]], 1), ([.S [5, 2, 0]], 1), ([.q, .S [2]], 1)] ∧
    (Space.mk .D 2 3).mult 66 (Poly.sym (.S [3, 1])) (Poly.sym (.S [2, 1])) =
      .ok [([.S [5, 2]], 1), ([.S [5, 2, 0]], 1), ([.S [4, 3]], 1)] := by decide +kernel

/-- **C67**. The product of the classes `l` and `mu` is homogeneous of degree `|l| + |mu|` and contains no `q`. -/
theorem C67_graded {m n : Int} (hn : 0 ≤ n) (hmn : m ≤ n + 1) {X : Space} (hX : mkOG m (2 * n + 2) = .ok X) {fuel : Nat}
    (hf : giamBoundD m n ≤ fuel) : GradedClassical (DClass m n) (X.mult fuel) := by
  obtain ⟨a, b, h, rfl, rfl, rfl⟩ := ogdCase hn hmn hX
  rw [dClass_eq h]
  rw [giamBoundD_eq h] at hf
  intro l mu hl hmu
  exact (ringD a b h).gmult_hom_classical
    (fun N => homT_D (fun p hp l => homD h N (fun _ => spcD_nz p hp) l)) hf hl hmu

example :
    (Space.mk .D 2 3).mult 66 (Poly.sym (.S [2, 1])) (Poly.sym (.S [2, 0])) = .ok [([.S [4, 1]], 1), ([.S [3, 2]], 1)] := by
  decide +kernel

/-- **C67**. The quantum product is homogeneous, with `q` of degree `degree_q`. -/
theorem C67_qgraded (ord : List Int → List Int) {m n : Int} (hm : 0 < m) (hmn : m ≤ n + 1) (hne : m ≠ n) {X : Space}
    (hX : mkOG m (2 * n + 2) = .ok X) {fuel : Nat} (hf : giamBoundD m n ≤ fuel) :
    Graded (DClass m n) X.degreeQ (X.qmult ord fuel) := by
  obtain ⟨a, b, h, hb, rfl, rfl, rfl⟩ := ogdCase' hm hmn hne hX
  rw [dClass_eq (by omega)]
  rw [giamBoundD_eq (by omega)] at hf
  intro l mu hl hmu
  exact (ringQD ord a b h hb).gmult_hom (homT_D (fun p hp l => homQD (by omega) hb (fun _ => spcD_nz p hp) l)) hf hl hmu

example : (Space.mk .D 2 3).qmult id 66 (Poly.sym (.S [5])) (Poly.sym (.S [4, 3])) = .ok [([.q, .S [4, 3]], 1)] := by
  decide +kernel

/-- **C67**. The structure constants of the product are integers. -/
theorem C67_integral {m n : Int} (hn : 0 ≤ n) (hmn : m ≤ n + 1) {X : Space} (hX : mkOG m (2 * n + 2) = .ok X) {fuel : Nat}
    (hf : giamBoundD m n ≤ fuel) : Integral (DClass m n) (X.mult fuel) := by
  obtain ⟨a, b, h, rfl, rfl, rfl⟩ := ogdCase hn hmn hX
  rw [dClass_eq h]
  rw [giamBoundD_eq h] at hf
  intro l mu hl hmu
  exact (ringD a b h).gmult_int (fun p l hp => intD h (fun _ => spcD_nz p hp) l) hf hl hmu

example :
    (Space.mk .D 2 3).mult 66 (Poly.sym (.S [1, 1])) (Poly.sym (.S [3, 1])) =
      .ok [([.S [5, 1]], 1), ([.S [4, 2]], 1), ([.S [4, 2, 0]], 1)] := by decide +kernel

/-- **C67**. The structure constants of the quantum product are integers. -/
theorem C67_qintegral (ord : List Int → List Int) {m n : Int} (hm : 0 < m) (hmn : m ≤ n + 1) (hne : m ≠ n) {X : Space}
    (hX : mkOG m (2 * n + 2) = .ok X) {fuel : Nat} (hf : giamBoundD m n ≤ fuel) :
    Integral (DClass m n) (X.qmult ord fuel) := by
  obtain ⟨a, b, h, hb, rfl, rfl, rfl⟩ := ogdCase' hm hmn hne hX
  rw [dClass_eq (by omega)]
  rw [giamBoundD_eq (by omega)] at hf
  intro l mu hl hmu
  exact (ringQD ord a b h hb).gmult_int (fun p l hp => intQD (by omega) hb (fun _ => spcD_nz p hp) l) hf hl hmu

/-- `S[4,2] * S[2,1] = S[5,4] + q*S[3,1]` in the quantum ring of `OG(2, 8)`, of degree `9 = 4 + 5`, and `S[5,4]` in the
classical one; a structure constant `2` -/
example : (Space.mk .D 2 3).degreeQ = 5 ∧
    (Space.mk .D 2 3).qmult id 66 (Poly.sym (.S [4, 2])) (Poly.sym (.S [2, 1])) =
      .ok [([.S [5, 4]], 1), ([.q, .S [3, 1]], 1)] ∧
    (Space.mk .D 2 3).mult 66 (Poly.sym (.S [4, 2])) (Poly.sym (.S [2, 1])) = .ok [([.S [5, 4]], 1)] ∧
    (Space.mk .D 2 3).qmult id 66 (Poly.sym (.S [4, 1])) (Poly.sym (.S [4])) = .ok [([.q, .S [3, 1]], 2)] := by
  refine ⟨by decide, ?_, ?_, ?_⟩ <;> decide +kernel

end Verif
