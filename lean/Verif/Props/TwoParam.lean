import Verif.Proofs.WordD2Act
import Verif.Props.RingD
/-!
# C100: the quantum ring of `OG(n, 2n+2)` with its two parameters

On `OG(n, 2n+2)` the quantum Pieri rule has two parameters `q1` and `q2`, one for each of the two families of maximal
isotropic subspaces. `qmult` raises an error when its first factor contains them (`C66_refuted_two_parameters`, `C112_error`); `qpieri` and
`qact` are always defined. Products are in C112.
-/

namespace Verif
open Spec

/-- what the proofs below need from `mkOG n (2n+2)` -/
theorem og2Case {n : Int} (hn : 1 ≤ n) {X : Space} (hX : mkOG n (2 * n + 2) = .ok X) :
    ∃ a : Nat, 1 ≤ a ∧ n = a ∧ X = ⟨.D, ((1 : Nat) : Int), a⟩ := by
  obtain ⟨_, _, rfl⟩ := mkOG_even hX
  refine ⟨n.toNat, by omega, by omega, ?_⟩
  congr 1 <;> omega

theorem dClass_one {a : Nat} : DClass (a : Int) a = clsD a 1 := by
  have := dClass_eq (n := a) (k := 1) (by omega)
  rwa [show (a : Int) + 1 - ((1 : Nat) : Int) = a by push_cast; ring] at this

theorem dSpecIn_one (a : Nat) (e : Poly) : SpecIn (spcD a 1) e ↔ DSpecialPoly (a : Int) a e := by
  have := dSpecIn_iff a 1 e
  rwa [show (a : Int) + 1 - ((1 : Nat) : Int) = a by push_cast; ring] at this

/-- **C100**. On `OG(n, 2n+2)`, for `p ≥ -1`, `qpieri` maps linear combinations with coefficients in `q`, `q1`, `q2` to such linear
combinations. -/
theorem C100_qpieri_closed {ord : List Int → List Int} (ho : Ascending ord) {n p : Int} (hn : 1 ≤ n) (hp : -1 ≤ p) {X : Space}
    (hX : mkOG n (2 * n + 2) = .ok X) {x : Poly} (hx : LinComb2 (DClass n n) x) :
    ∃ w, X.qpieri ord p x = .ok w ∧ LinComb2 (DClass n n) w := by
  obtain ⟨a, h1, rfl, rfl⟩ := og2Case hn hX
  rw [dClass_one] at hx ⊢
  obtain ⟨f, hf, hd⟩ := linComb2_ev hx.2 h1
  obtain ⟨w, e1, e2, e3⟩ := apply_pieri2 ho h1 hp hx.1 hf hd
  exact ⟨w, e1, linComb2_of_ev h1 e2 (T2_par h1 p hf) e3⟩

/-- **C100**. The quantum Pieri operators of `OG(n, 2n+2)` commute: multiplying by `S[b]` and then by `S[a]` is the same as multiplying by
`S[a]` and then by `S[b]`, up to the order of the terms (`-1` stands for the second class of degree one, `S[1,0]`). -/
theorem C100_qpieri_comm {ord : List Int → List Int} (ho : Ascending ord) {n a b : Int} (hn : 1 ≤ n) (ha : -1 ≤ a) (hb : -1 ≤ b) {X : Space}
    (hX : mkOG n (2 * n + 2) = .ok X) {x : Poly} (hx : LinComb2 (DClass n n) x) :
    SameResult (andThen (X.qpieri ord b x) (X.qpieri ord a)) (andThen (X.qpieri ord a x) (X.qpieri ord b)) := by
  obtain ⟨m, h1, rfl, rfl⟩ := og2Case hn hX
  rw [dClass_one] at hx
  obtain ⟨f, hf, hd⟩ := linComb2_ev hx.2 h1
  have key : ∀ a b : Int, -1 ≤ a → -1 ≤ b → Returns (andThen ((Space.mk .D ((1 : Nat) : Int) m).qpieri ord b x) ((Space.mk .D ((1 : Nat) : Int) m).qpieri ord a))
      (ev2 m ((T2 m a * T2 m b) f)) := by
    intro a b ha hb
    obtain ⟨w, e1, e2, e3⟩ := apply_pieri2 ho h1 hb hx.1 hf hd
    have e1 : (Space.mk .D ((1 : Nat) : Int) m).qpieri ord b x = .ok w := e1
    rw [e1]
    exact apply_pieri2 ho h1 ha e2 (T2_par h1 b hf) e3
  refine same_of_returns (key a b ha hb) ?_
  rw [T2_comm h1]
  exact key b a hb ha

/-- **C100**. `qact` on `OG(n, 2n+2)` is a ring action of the polynomials in `q` and the special classes on the linear combinations of classes
with coefficients in `q`, `q1` and `q2`. -/
theorem C100_qact {ord : List Int → List Int} (ho : Ascending ord) {n : Int} (hn : 1 ≤ n) {X : Space} (hX : mkOG n (2 * n + 2) = .ok X) :
    RingAction2 (DSpecialPoly n n) (DClass n n) (X.qact ord) := by
  obtain ⟨m, h1, rfl, rfl⟩ := og2Case hn hX
  rw [dClass_one]
  simp only [← funext fun e => propext (dSpecIn_one m e)]
  constructor
  · intro e x he hx
    obtain ⟨f, hf, hd⟩ := linComb2_ev hx.2 h1
    obtain ⟨w, e1, e2, e3⟩ := qact2 ho h1 he hx.1 hd hf
    exact ⟨w, e1, linComb2_of_ev h1 e2 (act2_par h1 _ hf) e3⟩
  · intro e g x he hg hx
    obtain ⟨f, hf, hd⟩ := linComb2_ev hx.2 h1
    have heg : SpecIn (spcD m 1) (Poly.mul e g) := by
      apply specIn_of_supported (wf_mul hg.1)
      rw [den_mul]
      exact Subalgebra.mul_mem _ (specIn_supported he) (specIn_supported hg)
    have e0 := qact2 ho h1 heg hx.1 hd hf
    obtain ⟨w, e1, e2, e3⟩ := qact2 ho h1 hg hx.1 hd hf
    rw [den_mul, map_mul, Module.End.mul_apply] at e0
    refine same_of_returns e0 ?_
    rw [e1]
    exact qact2 ho h1 he e2 e3 (act2_par h1 _ hf)
  · intro e g x he hg hx
    obtain ⟨f, hf, hd⟩ := linComb2_ev hx.2 h1
    have heg : SpecIn (spcD m 1) (Poly.add e g) := by
      apply specIn_of_supported (wf_add he.1.sorted hg.1)
      rw [den_add]
      exact Subalgebra.add_mem _ (specIn_supported he) (specIn_supported hg)
    obtain ⟨u, e1, e2, e3⟩ := qact2 ho h1 he hx.1 hd hf
    obtain ⟨v, f1, f2, f3⟩ := qact2 ho h1 hg hx.1 hd hf
    refine ⟨u, v, e1, f1, same_of_returns (qact2 ho h1 heg hx.1 hd hf) ⟨_, rfl, wf_add e2.sorted f2, ?_⟩⟩
    rw [den_add, den_add, e3, f3, map_add, LinearMap.add_apply, ev2_add]
  · intro e x y he hx hy
    obtain ⟨f, hf, hd⟩ := linComb2_ev hx.2 h1
    obtain ⟨g, hg, hd'⟩ := linComb2_ev hy.2 h1
    obtain ⟨u, e1, e2, e3⟩ := qact2 ho h1 he hx.1 hd hf
    obtain ⟨v, f1, f2, f3⟩ := qact2 ho h1 he hy.1 hd' hg
    refine ⟨u, v, e1, f1, same_of_returns (qact2 ho h1 he (wf_add hx.1.sorted hy.1) (f := f + g) (by rw [den_add, hd, hd', ev2_add])
      (fun W hW => Subalgebra.add_mem _ (hf W hW) (hg W hW))) ⟨_, rfl, wf_add e2.sorted f2, ?_⟩⟩
    rw [den_add, e3, f3, map_add, ev2_add]
  · intro e x c he hx hc
    obtain ⟨f, hf, hd⟩ := linComb2_ev hx.2 h1
    obtain ⟨u, e1, e2, e3⟩ := qact2 ho h1 he hx.1 hd hf
    refine ⟨u, e1, same_of_returns (qact2 ho h1 he (wf_mul hx.1) (f := (MvPolynomial.X c : P) • f) (by rw [den_mul, hd, ev2_smul, den_sym])
      (fun W hW => Subalgebra.mul_mem _ (MvPolynomial.X_mem_supported.2 hc) (hf W hW))) ⟨_, rfl, wf_mul e2, ?_⟩⟩
    rw [den_mul, e3, map_smul, ev2_smul, den_sym]
  · intro x hx
    obtain ⟨f, hf, hd⟩ := linComb2_ev hx.2 h1
    have he : SpecIn (spcD m 1) (Poly.const 1) := ⟨wf_const 1, by simp [Poly.const]⟩
    refine same_of_returns (qact2 ho h1 he hx.1 hd hf) ⟨x, rfl, hx.1, ?_⟩
    rw [hd, den_const]; simp

/-- **C100**. The special class `S[p]` acts by the quantum Pieri rule for `p`, and `S[1,0]` by the one for `-1`. -/
theorem C100_special {ord : List Int → List Int} (ho : Ascending ord) {n p : Int} (hn : 1 ≤ n) {X : Space}
    (hX : mkOG n (2 * n + 2) = .ok X) {x : Poly} (hx : LinComb2 (DClass n n) x) :
    (1 ≤ p → p ≤ n + 1 → SameResult (X.qact ord (Poly.sym (.S [p])) x) (X.qpieri ord p x)) ∧
    SameResult (X.qact ord (Poly.sym (.S [1, 0])) x) (X.qpieri ord (-1) x) := by
  obtain ⟨m, h1, rfl, rfl⟩ := og2Case hn hX
  rw [dClass_one] at hx
  obtain ⟨f, hf, hd⟩ := linComb2_ev hx.2 h1
  have key : ∀ p, spcD m 1 p → SameResult ((Space.mk .D ((1 : Nat) : Int) m).qact ord (Poly.sym (.S (num2spec p))) x)
      ((Space.mk .D ((1 : Nat) : Int) m).qpieri ord p x) := by
    intro p hp
    have hs : SpecIn (spcD m 1) (Poly.sym (.S (num2spec p))) := ⟨wf_sym _, by
      intro t ht s hs
      simp [Poly.sym] at ht
      subst ht
      simp at hs
      exact Or.inr ⟨p, hp, hs⟩⟩
    refine same_of_returns (qact2 ho h1 hs hx.1 hd hf) ?_
    rw [den_sym, act2_special h1 hp]
    exact apply_pieri2 ho h1 (spcD_ge hp) hx.1 hf hd
  constructor
  · intro hp hp'
    have := key p (Or.inl ⟨hp, by push_cast; omega⟩)
    rwa [num2spec_pos hp] at this
  · exact key (-1) (Or.inr ⟨by decide, rfl⟩)

/-- `S[1]*S[1,0] + 2*q*S[3]` acting on `q1*S[4,3,1]` in `OG(3, 8)`, and `S[1,0]*(S[4]*S[4,2,1,0]) = S[4]*(S[1,0]*S[4,2,1,0]) = q1*q2*S[2,1,1,0]` -/
example : Ascending id ∧ mkOG 3 (2 * 3 + 2) = .ok ⟨.D, 1, 3⟩ ∧ DSpecialPoly 3 3 [([.S [1], .S [1, 0]], 1), ([.q, .S [3]], 2)] ∧
    LinComb2 (DClass 3 3) [([.q1, .S [4, 3, 1]], 1)] ∧
    (Space.mk .D 1 3).qact id [([.S [1], .S [1, 0]], 1), ([.q, .S [3]], 2)] [([.q1, .S [4, 3, 1]], 1)] =
      .ok [([.q, .q1, .q1, .q2, .S [2, 1]], 4), ([.q, .q1, .q1, .q2, .S [3]], 2), ([.q1, .q1, .S [3, 2, 1, 0]], 1),
        ([.q1, .q1, .q2, .S [2]], 1), ([.q1, .q1, .q2, .S [1, 1]], 1)] ∧
    andThen ((Space.mk .D 1 3).qpieri id 4 (Poly.sym (.S [4, 2, 1, 0]))) ((Space.mk .D 1 3).qpieri id (-1)) =
      .ok [([.q1, .q2, .S [2, 1, 1, 0]], 1)] ∧
    andThen ((Space.mk .D 1 3).qpieri id (-1) (Poly.sym (.S [4, 2, 1, 0]))) ((Space.mk .D 1 3).qpieri id 4) =
      .ok [([.q1, .q2, .S [2, 1, 1, 0]], 1)] := by
  refine ⟨fun _ _ => rfl, by decide, ⟨⟨by decide, by decide⟩, ?_⟩, ⟨⟨by decide, by decide⟩, ?_⟩, by decide +kernel, by decide +kernel,
    by decide +kernel⟩
  · intro t ht
    simp at ht
    rcases ht with rfl | rfl
    · intro s hs; simp at hs
      rcases hs with rfl | rfl
      · exact Or.inr ⟨_, Or.inl ⟨1, by decide, by decide, rfl⟩, rfl⟩
      · exact Or.inr ⟨_, Or.inr ⟨by decide, rfl⟩, rfl⟩
    · intro s hs; simp at hs
      rcases hs with rfl | rfl
      · exact Or.inl rfl
      · exact Or.inr ⟨_, Or.inl ⟨3, by decide, by decide, rfl⟩, rfl⟩
  · intro t ht
    rw [List.mem_singleton.1 ht]
    exact ⟨[.q1], [4, 3, 1], rfl, by simp, [4, 3, 1], ⟨by decide, by decide⟩, by unfold KStrict; decide, ⟨by decide, by decide⟩, Or.inl rfl⟩

end Verif
