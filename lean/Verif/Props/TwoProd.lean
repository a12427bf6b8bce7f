import Verif.Proofs.TwoProd
import Verif.Props.TwoParam
/-!
# C112: quantum products on `OG(n, 2n+2)` with its two parameters

`qmult(x, y)` raises a `ValueError` when `q1` or `q2` occurs in `x`, and otherwise is the product of an associative and commutative ring;
`y` may contain `q1` and `q2`.
-/

namespace Verif
open Spec TwoProd

theorem giamBoundD_one {n : Nat} : giamBoundD (n : Int) n = boundD n 1 := by
  have := giamBoundD_eq (n := n) (k := 1) (by omega)
  rwa [show (n : Int) + 1 - ((1 : Nat) : Int) = n by push_cast; ring] at this

/-- **C112**. The quantum Giambelli polynomials of `OG(n, 2n+2)` are the classical ones. -/
theorem C112_qgiambelli (ord : List Int → List Int) {n : Int} (hn : 1 ≤ n) {X : Space} (hX : mkOG n (2 * n + 2) = .ok X) {fuel : Nat}
    (hf : giamBoundD n n ≤ fuel) {x : Poly} (hx : LinComb2 (DClass n n) x) :
    SameResult (X.qgiambelli ord fuel x) (X.giambelli fuel x) := by
  obtain ⟨m, h1, rfl, rfl⟩ := og2Case hn hX
  rw [dClass_one] at hx
  rw [giamBoundD_one] at hf
  exact same_of_returns (qgiambelli_returns ord h1 hf hx) (giambelli_returns hf hx)

/-- **C112**. The product of a linear combination with coefficients in `q` and one with coefficients in `q`, `q1`, `q2` is a linear
combination with coefficients in `q`, `q1`, `q2`. -/
theorem C112_closed {ord : List Int → List Int} (ho : Ascending ord) {n : Int} (hn : 1 ≤ n) {X : Space} (hX : mkOG n (2 * n + 2) = .ok X)
    {fuel : Nat} (hf : giamBoundD n n ≤ fuel) {x y : Poly} (hx : LinComb (DClass n n) x) (hy : LinComb2 (DClass n n) y) :
    ∃ w, X.qmult ord fuel x y = .ok w ∧ LinComb2 (DClass n n) w := by
  obtain ⟨m, h1, rfl, rfl⟩ := og2Case hn hX
  rw [dClass_one] at hx hy ⊢
  rw [giamBoundD_one] at hf
  obtain ⟨u, hu, hc⟩ := linComb_ev hx.2
  obtain ⟨f, pf, nf, hd⟩ := norm_ev hy h1
  obtain ⟨w, e1, e2, e3⟩ := qmult_returns ho h1 hf (linComb_two hx) hu hc hy.1 hd pf
  exact ⟨w, e1, linComb2_of_ev h1 e2 (act2_par h1 _ pf) e3⟩

/-- **C112**. A first factor with `q1` or `q2` raises a `ValueError`. -/
theorem C112_error {ord : List Int → List Int} (ho : Ascending ord) {n : Int} (hn : 1 ≤ n) {X : Space} (hX : mkOG n (2 * n + 2) = .ok X)
    {fuel : Nat} (hf : giamBoundD n n ≤ fuel) {x y : Poly} (hx : LinComb2 (DClass n n) x) (hy : LinComb2 (DClass n n) y)
    (hq : ∃ t ∈ x, Sym.q1 ∈ t.1 ∨ Sym.q2 ∈ t.1) : X.qmult ord fuel x y = .error .valueError := by
  obtain ⟨m, h1, rfl, rfl⟩ := og2Case hn hX
  rw [dClass_one] at hx hy
  rw [giamBoundD_one] at hf
  exact qmult_error ho h1 hf hx hy hq

/-- **C112**. `x * y = y * x`. -/
theorem C112_comm {ord : List Int → List Int} (ho : Ascending ord) {n : Int} (hn : 1 ≤ n) {X : Space} (hX : mkOG n (2 * n + 2) = .ok X)
    {fuel : Nat} (hf : giamBoundD n n ≤ fuel) : Commutative (DClass n n) (X.qmult ord fuel) := by
  obtain ⟨m, h1, rfl, rfl⟩ := og2Case hn hX
  rw [giamBoundD_one] at hf
  rw [dClass_one]
  intro x y hx hy
  obtain ⟨u, hu, hc⟩ := linComb_ev hx.2
  obtain ⟨v, hv, hc'⟩ := linComb_ev hy.2
  have r1 := qmult_returns ho h1 hf (linComb_two hx) hu hc hy.1 (hv.trans (ev2_vecL h1 hc').symm) (vecL_par _)
  have r2 := qmult_returns ho h1 hf (linComb_two hy) hv hc' hx.1 (hu.trans (ev2_vecL h1 hc).symm) (vecL_par _)
  refine same_of_returns r1 ?_
  rwa [← act_GL h1 hc', act2_comm, act_GL h1 hc]

/-- **C112**. `x * (y * z) = y * (x * z)`, where `q1` and `q2` may occur in `z`. -/
theorem C112_left_comm {ord : List Int → List Int} (ho : Ascending ord) {n : Int} (hn : 1 ≤ n) {X : Space} (hX : mkOG n (2 * n + 2) = .ok X)
    {fuel : Nat} (hf : giamBoundD n n ≤ fuel) {x y z : Poly} (hx : LinComb (DClass n n) x) (hy : LinComb (DClass n n) y)
    (hz : LinComb2 (DClass n n) z) :
    SameResult (andThen (X.qmult ord fuel y z) (X.qmult ord fuel x)) (andThen (X.qmult ord fuel x z) (X.qmult ord fuel y)) := by
  obtain ⟨m, h1, rfl, rfl⟩ := og2Case hn hX
  rw [giamBoundD_one] at hf
  rw [dClass_one] at hx hy hz
  obtain ⟨u, hu, hc⟩ := linComb_ev hx.2
  obtain ⟨v, hv, hc'⟩ := linComb_ev hy.2
  obtain ⟨f, pf, nf, hd⟩ := norm_ev hz h1
  obtain ⟨w, e1, e2, e3⟩ := qmult_returns ho h1 hf (linComb_two hy) hv hc' hz.1 hd pf
  obtain ⟨w', e1', e2', e3'⟩ := qmult_returns ho h1 hf (linComb_two hx) hu hc hz.1 hd pf
  have r1 := qmult_returns ho h1 hf (linComb_two hx) hu hc e2 e3 (act2_par h1 _ pf)
  have r2 := qmult_returns ho h1 hf (linComb_two hy) hv hc' e2' e3' (act2_par h1 _ pf)
  rw [e1, e1']
  refine same_of_returns r1 ?_
  rwa [act2_comm]

/-- **C112**. `z * (x * y) = x * (y * z)`: the products of three linear combinations with coefficients in `q` agree. -/
theorem C112_assoc {ord : List Int → List Int} (ho : Ascending ord) {n : Int} (hn : 1 ≤ n) {X : Space} (hX : mkOG n (2 * n + 2) = .ok X)
    {fuel : Nat} (hf : giamBoundD n n ≤ fuel) {x y z : Poly} (hx : LinComb (DClass n n) x) (hy : LinComb (DClass n n) y)
    (hz : LinComb (DClass n n) z) :
    SameResult (andThen (X.qmult ord fuel x y) (X.qmult ord fuel z)) (andThen (X.qmult ord fuel y z) (X.qmult ord fuel x)) := by
  obtain ⟨m, h1, rfl, rfl⟩ := og2Case hn hX
  rw [giamBoundD_one] at hf
  rw [dClass_one] at hx hy hz
  obtain ⟨u, hu, hc⟩ := linComb_ev hx.2
  obtain ⟨v, hv, hc'⟩ := linComb_ev hy.2
  obtain ⟨r, hr, hc''⟩ := linComb_ev hz.2
  obtain ⟨w, e1, e2, e3⟩ := qmult_returns ho h1 hf (linComb_two hx) hu hc hy.1 (hv.trans (ev2_vecL h1 hc').symm) (vecL_par _)
  obtain ⟨w', e1', e2', e3'⟩ := qmult_returns ho h1 hf (linComb_two hy) hv hc' hz.1 (hr.trans (ev2_vecL h1 hc'').symm) (vecL_par _)
  have r1 := qmult_returns ho h1 hf (linComb_two hz) hr hc'' e2 e3 (act2_par h1 _ (vecL_par _))
  have r2 := qmult_returns ho h1 hf (linComb_two hx) hu hc e2' e3' (act2_par h1 _ (vecL_par _))
  rw [e1, e1']
  refine same_of_returns r1 ?_
  rw [act2_comm, ← act_GL h1 hc', act2_comm h1 (GL m r), act_GL h1 hc'']
  exact r2

/-- **C112**. `(x * y) * z = x * (y * z)` when `q1` and `q2` do not occur in `x * y` (otherwise `C112_error` applies). -/
theorem C112_assoc_free {ord : List Int → List Int} (ho : Ascending ord) {n : Int} (hn : 1 ≤ n) {X : Space} (hX : mkOG n (2 * n + 2) = .ok X)
    {fuel : Nat} (hf : giamBoundD n n ≤ fuel) {x y z w : Poly} (hx : LinComb (DClass n n) x) (hy : LinComb (DClass n n) y)
    (hz : LinComb2 (DClass n n) z) (hw : X.qmult ord fuel x y = .ok w) (hwc : LinComb (DClass n n) w) :
    SameResult (X.qmult ord fuel w z) (andThen (X.qmult ord fuel y z) (X.qmult ord fuel x)) := by
  obtain ⟨m, h1, rfl, rfl⟩ := og2Case hn hX
  rw [giamBoundD_one] at hf
  rw [dClass_one] at hx hy hz hwc
  obtain ⟨u, hu, hc⟩ := linComb_ev hx.2
  obtain ⟨v, hv, hc'⟩ := linComb_ev hy.2
  obtain ⟨s, hs, hc''⟩ := linComb_ev hwc.2
  obtain ⟨f, pf, nf, hd⟩ := norm_ev hz h1
  obtain ⟨w', e1, e2, e3⟩ := qmult_returns ho h1 hf (linComb_two hx) hu hc hy.1 (hv.trans (ev2_vecL h1 hc').symm) (vecL_par _)
  obtain ⟨w2, e1', e2', e3'⟩ := qmult_returns ho h1 hf (linComb_two hy) hv hc' hz.1 hd pf
  rw [hw] at e1
  cases e1
  have key : vecL m s = act2 h1 (GL m u) (vecL m v) := by
    refine ev2_inj (vec_nrm _ : Nrm m (vecL m s)) (act2_nrm h1 _ (vec_nrm _ : Nrm m (vecL m v))) (vecL_par _) (act2_par h1 _ (vecL_par _)) ?_
    rw [ev2_vecL h1 hc'', ← hs, e3]
  have r1 := qmult_returns ho h1 hf (linComb_two hwc) hs hc'' hz.1 hd pf
  have r2 := qmult_returns ho h1 hf (linComb_two hx) hu hc e2' e3' (act2_par h1 _ pf)
  rw [e1']
  refine same_of_returns r1 ?_
  rw [act2_det h1 (g := GL m s) (g' := GL m u * GL m v) (by
    rw [act_GL h1 hc'', key, map_mul, Module.End.mul_apply, act_GL h1 hc']) nf, map_mul, Module.End.mul_apply]
  exact r2

/-- **C112**. Multiplication by a special class is the quantum Pieri rule, also for linear combinations with `q1` and `q2`, and `S[]` is the
unit. -/
theorem C112_special {ord : List Int → List Int} (ho : Ascending ord) {n p : Int} (hn : 1 ≤ n) {X : Space}
    (hX : mkOG n (2 * n + 2) = .ok X) {fuel : Nat} (hf : giamBoundD n n ≤ fuel) {x : Poly} (hx : LinComb2 (DClass n n) x) :
    (1 ≤ p → p ≤ n + 1 → SameResult (X.qmult ord fuel (Poly.sym (.S [p])) x) (X.qpieri ord p x)) ∧
    SameResult (X.qmult ord fuel (Poly.sym (.S [1, 0])) x) (X.qpieri ord (-1) x) ∧
    SameResult (X.qmult ord fuel (Poly.sym (.S [])) x) (.ok x) := by
  obtain ⟨m, h1, rfl, rfl⟩ := og2Case hn hX
  rw [giamBoundD_one] at hf
  rw [dClass_one] at hx
  obtain ⟨f, pf, nf, hd⟩ := norm_ev hx h1
  have hl : ∀ l, clsD m 1 l → LinComb2 (clsD m 1) (Poly.sym (.S l)) := by
    intro l hl
    refine ⟨wf_sym _, fun t ht => ⟨[], l, ?_, by simp, hl⟩⟩
    rw [List.mem_singleton.1 ht]; rfl
  have hs : ∀ l, clsD m 1 l → ∀ mu ∈ (Finsupp.single l (1 : Polynomial ℚ)).support, clsD m 1 mu := by
    intro l hl mu hmu
    rw [Finset.mem_singleton.1 (Finsupp.support_single_subset hmu)]; exact hl
  have hr : ∀ l, clsD m 1 l → Returns ((Space.mk .D ((1 : Nat) : Int) m).qmult ord fuel (Poly.sym (.S l)) x)
      (ev2 m (act2 h1 (GL m (Finsupp.single l 1)) f)) := by
    intro l hc
    exact qmult_returns ho h1 hf (hl l hc) (by rw [den_sym, ev_single]; simp [inq]) (hs l hc) hx.1 hd pf
  have key : ∀ p, spcD m 1 p → SameResult ((Space.mk .D ((1 : Nat) : Int) m).qmult ord fuel (Poly.sym (.S (num2spec p))) x)
      ((Space.mk .D ((1 : Nat) : Int) m).qpieri ord p x) := by
    intro p hp
    have hc := special_classD (by omega) hp
    refine same_of_returns (hr _ hc) ?_
    have e : T2 m p (bas m []) = bas m (num2spec p) := by
      have h0 : num2spec p ≠ [] := by
        unfold num2spec; split <;> simp
      have := T2_lead h1 hc h0
      have a1 : hdK (1 : Nat) (num2spec p) = p := by
        rcases hp with ⟨h, _⟩ | ⟨_, rfl⟩
        · rw [num2spec_pos h]
          unfold hdK
          rw [if_neg]
          · rfl
          · rintro ⟨_, h2⟩
            simp [last'] at h2; omega
        · rfl
      have a2 : tlK (1 : Nat) (num2spec p) = [] := by
        rcases hp with ⟨h, _⟩ | ⟨_, rfl⟩
        · rw [num2spec_pos h]
          unfold tlK
          split <;> rfl
        · rfl
      rw [a1, a2] at this
      rw [this, ← vecL_single]
      exact congrArg _ ((ringD m 1 (by omega)).unit p hp hc)
    rw [act2_det h1 (g' := MvPolynomial.X (.S (num2spec p))) (by rw [act_GL h1 (hs _ hc), act2_special h1 hp, e, vecL_single]) nf,
      act2_special h1 hp]
    exact apply_pieri2 ho h1 (spcD_ge hp) hx.1 pf hd
  refine ⟨?_, key (-1) (Or.inr ⟨by decide, rfl⟩), ?_⟩
  · intro hp hp'
    have := key p (Or.inl ⟨hp, by push_cast; omega⟩)
    rwa [num2spec_pos hp] at this
  · have hc : clsD m 1 [] := clsD_nil (by omega)
    refine same_of_returns (hr _ hc) ⟨x, rfl, hx.1, ?_⟩
    rw [act2_det h1 (g' := 1) (by rw [act_GL h1 (hs _ hc), vecL_single]; simp) nf, hd]
    simp

/-- **C112**. The terms without `q1` and `q2` of the quantum product are the classical product. -/
theorem C112_classical {ord : List Int → List Int} (ho : Ascending ord) {n : Int} (hn : 1 ≤ n) {X : Space} (hX : mkOG n (2 * n + 2) = .ok X)
    {fuel : Nat} (hf : giamBoundD n n ≤ fuel) {x y : Poly} (hx : LinComb (DClass n n) x) (hy : LinComb (DClass n n) y) :
    ∃ w w', X.qmult ord fuel x y = .ok w ∧ X.mult fuel x y = .ok w' ∧
      (w.filter (fun t => decide (Sym.q1 ∉ t.1 ∧ Sym.q2 ∉ t.1))).Perm w' := by
  obtain ⟨m, h1, rfl, rfl⟩ := og2Case hn hX
  rw [giamBoundD_one] at hf
  rw [dClass_one] at hx hy
  obtain ⟨u, hu, hc⟩ := linComb_ev hx.2
  obtain ⟨v, hv, hc'⟩ := linComb_ev hy.2
  obtain ⟨w, e1, e2, e3⟩ := qmult_returns ho h1 hf (linComb_two hx) hu hc hy.1 (hv.trans (ev2_vecL h1 hc').symm) (vecL_par _)
  obtain ⟨w', f1, f2, f3⟩ := (ringD m 1 (by omega)).mult hf hx.1 hu hc hy.1 hv hc'
  refine ⟨w, w', e1, f1, perm_of_den_eq (wf_filter e2 _) f2 ?_⟩
  rw [den_filter, e3, f3]
  have hs := spz_act h1 ((sysD m 1 (by omega)).GL_supported hc) hc' (f := vecL m v) (by
    funext W
    unfold vecL TwoProd.vec
    split
    · exact spz_inq _
    · rw [map_zero])
  rw [show (ringD m 1 (by omega)).Y.prod u v = (sysD m 1 (by omega)).act ((sysD m 1 (by omega)).GL u) v from rfl,
    ← ev2_vecL h1 ((sysD m 1 (by omega)).act_support _ hc'), ← hs]
  unfold ev2
  rw [map_sum]
  refine Finset.sum_congr rfl (fun W _ => ?_)
  rw [map_mul]
  congr 1
  simp [spz]

/-- in `OG(3, 8)`: classes and an expression with `q1`; `S[2,1]*S[2,1] = q1*S[1,1,0]`, classically `0`; `S[2]*S[3,1]` has no `q1`, `q2`, and
`(S[2]*S[3,1])*(2*q1*S[2,1]) = S[2]*(S[3,1]*2*q1*S[2,1])`; `S[2,1,0]*(S[2,1]*S[4,1]) = S[2,1]*(S[4,1]*S[2,1,0])`; and `q1*S[1,1,0]` as first
factor raises an error -/
example : Ascending id ∧ mkOG 3 (2 * 3 + 2) = .ok ⟨.D, 1, 3⟩ ∧ giamBoundD 3 3 = 65 ∧
    LinComb (DClass 3 3) [([.S [4, 1, 1]], 1), ([.S [4, 2]], 1), ([.S [3, 2, 1]], 1)] ∧
    LinComb2 (DClass 3 3) [([.q1, .S [2, 1]], 2)] ∧
    (Space.mk .D 1 3).qgiambelli id 65 (Poly.sym (.S [3, 1])) = .ok [([.S [4]], -1), ([.S [1], .S [3]], 1)] ∧
    (Space.mk .D 1 3).qmult id 65 (Poly.sym (.S [2, 1])) (Poly.sym (.S [2, 1])) = .ok [([.q1, .S [1, 1, 0]], 1)] ∧
    (Space.mk .D 1 3).mult 65 (Poly.sym (.S [2, 1])) (Poly.sym (.S [2, 1])) = .ok [] ∧
    (Space.mk .D 1 3).qmult id 65 (Poly.sym (.S [2])) (Poly.sym (.S [3, 1])) =
      .ok [([.S [4, 1, 1]], 1), ([.S [4, 2]], 1), ([.S [3, 2, 1]], 1)] ∧
    (Space.mk .D 1 3).qmult id 65 [([.S [4, 1, 1]], 1), ([.S [4, 2]], 1), ([.S [3, 2, 1]], 1)] [([.q1, .S [2, 1]], 2)] =
      .ok [([.q1, .q1, .q2, .S [1]], 2), ([.q1, .q1, .S [3, 1, 1, 0]], 4), ([.q1, .q1, .S [4, 1, 0]], 4)] ∧
    andThen ((Space.mk .D 1 3).qmult id 65 (Poly.sym (.S [3, 1])) [([.q1, .S [2, 1]], 2)]) ((Space.mk .D 1 3).qmult id 65 (Poly.sym (.S [2]))) =
      .ok [([.q1, .q1, .q2, .S [1]], 2), ([.q1, .q1, .S [4, 1, 0]], 4), ([.q1, .q1, .S [3, 1, 1, 0]], 4)] ∧
    andThen ((Space.mk .D 1 3).qmult id 65 (Poly.sym (.S [2, 1])) (Poly.sym (.S [4, 1]))) ((Space.mk .D 1 3).qmult id 65 (Poly.sym (.S [2, 1, 0]))) =
      .ok [([.q1, .q2, .S [2, 1]], 1), ([.q1, .q2, .S [3]], 1)] ∧
    andThen ((Space.mk .D 1 3).qmult id 65 (Poly.sym (.S [4, 1])) (Poly.sym (.S [2, 1, 0]))) ((Space.mk .D 1 3).qmult id 65 (Poly.sym (.S [2, 1]))) =
      .ok [([.q1, .q2, .S [3]], 1), ([.q1, .q2, .S [2, 1]], 1)] ∧
    (Space.mk .D 1 3).qmult id 65 [([.q1, .S [1, 1, 0]], 1)] (Poly.sym (.S [1])) = .error .valueError := by
  refine ⟨fun _ _ => rfl, by decide, by decide, ⟨⟨by decide, by decide⟩, ?_⟩, ⟨⟨by decide, by decide⟩, ?_⟩, by decide +kernel, by decide +kernel,
    by decide +kernel, by decide +kernel, by decide +kernel, by decide +kernel, by decide +kernel, by decide +kernel, by decide +kernel⟩
  · intro t ht
    simp at ht
    rcases ht with rfl | rfl | rfl
    · exact ⟨0, [4, 1, 1], rfl, [4, 1, 1], ⟨by decide, by decide⟩, by unfold KStrict; decide, ⟨by decide, by decide⟩, Or.inl rfl⟩
    · exact ⟨0, [4, 2], rfl, [4, 2], ⟨by decide, by decide⟩, by unfold KStrict; decide, ⟨by decide, by decide⟩, Or.inl rfl⟩
    · exact ⟨0, [3, 2, 1], rfl, [3, 2, 1], ⟨by decide, by decide⟩, by unfold KStrict; decide, ⟨by decide, by decide⟩, Or.inl rfl⟩
  · intro t ht
    rw [List.mem_singleton.1 ht]
    exact ⟨[.q1], [2, 1], rfl, by simp, [2, 1], ⟨by decide, by decide⟩, by unfold KStrict; decide, ⟨by decide, by decide⟩, Or.inl rfl⟩

end Verif
