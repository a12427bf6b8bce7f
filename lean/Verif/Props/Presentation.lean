import Verif.Proofs.PresA
import Verif.Props.JacobiTrudi
/-!
# C102: presentations of the rings of `Gr(m, n)`

Two polynomials in the special classes act in the same way exactly if their difference is a combination of the
relations.
-/

namespace Verif
open Spec MvPolynomial

section
variable {m : Nat} {n : Int} {X : Space} {pieri : Int → List Int → Except PyErr Poly}

/-- Results of `act` on `S[]`, through the ring homomorphism. -/
theorem same_act_iff (R : RingSys m n X pieri) {e f : Poly} (he : SpecialPoly (n - m).toNat e) (hf : SpecialPoly (n - m).toNat f) :
    SameResult (X.actLc pieri e (Poly.sym (.S []))) (X.actLc pieri f (Poly.sym (.S []))) ↔
      R.Y.act (den e - den f) (Finsupp.single [] 1) = 0 := by
  have h1 : ∀ {g : Poly}, SpecialPoly (n - m).toNat g → Returns (X.actLc pieri g (Poly.sym (.S []))) (ev (R.Y.act (den g) e1)) :=
    fun hg => R.act hg (wf_sym _) (y := e1) (by simp [e1, inq]) (GSys.one_cls grClass_nil)
  obtain ⟨u, u1, u2, u3⟩ := h1 he
  obtain ⟨v, v1, v2, v3⟩ := h1 hf
  rw [map_sub, LinearMap.sub_apply, sub_eq_zero]
  constructor
  · rintro ⟨w, w', h2, h3, h4⟩
    rw [u1] at h2
    rw [v1] at h3
    cases h2
    cases h3
    apply ev_injective
    show ev (R.Y.act (den e) e1) = ev (R.Y.act (den f) e1)
    rw [← u3, ← v3]
    unfold den
    exact (h4.map _).sum_eq
  · intro h
    refine same_of_returns ⟨u, u1, u2, u3⟩ ⟨v, v1, v2, ?_⟩
    rw [v3]
    congr 1
    exact h.symm

/-- The relations act as zero on everything. -/
theorem same_act_all (R : RingSys m n X pieri) {e f x : Poly} (he : SpecialPoly (n - m).toNat e) (hf : SpecialPoly (n - m).toNat f)
    (hx : LinComb (GrClass m n) x) (h : R.Y.act (den e - den f) (Finsupp.single [] 1) = 0) :
    SameResult (X.actLc pieri e x) (X.actLc pieri f x) := by
  obtain ⟨v, hv, hvc⟩ := linComb_ev hx.2
  refine same_of_returns (R.act he hx.1 hv hvc) ?_
  obtain ⟨w, w1, w2, w3⟩ := R.act hf hx.1 hv hvc
  refine ⟨w, w1, w2, ?_⟩
  rw [w3]
  congr 1
  have h2 : R.Y.act (den e - den f) v = 0 := by
    conv_lhs => rw [← R.Y.act_GL hvc]
    rw [R.Y.act_comm, h, map_zero]
  rw [map_sub, LinearMap.sub_apply, sub_eq_zero] at h2
  exact h2.symm

end

section
variable {m : Nat} {n : Int} {X : Space} (hm : 1 ≤ m) (hX : mkGr m n = .ok X)
include hm hX

theorem ringC_zero {e : P} (he : e ∈ supported ℚ (special (n - m).toNat)) :
    (ringC hm hX).Y.act e (Finsupp.single [] 1) = 0 ↔ e ∈ Ideal.span (relGr m n) := by
  cases m with
  | zero => omega
  | succ m =>
    obtain ⟨rfl, _, h⟩ := mkGr_ok hX
    obtain ⟨K, hK⟩ : ∃ K : ℕ, n - ((m + 1 : ℕ) : ℤ) = K := ⟨(n - ((m + 1 : ℕ) : ℤ)).toNat, by push_cast at *; omega⟩
    obtain rfl : n = m + 1 + K := by push_cast at hK; omega
    have hset : relGr (m + 1) (m + 1 + K) = {r : P | ∃ j : ℕ, m + 1 < j ∧ j ≤ m + 1 + K ∧ r = ee (hvar K) j} := by
      ext r
      simp only [relGr, hK, ee_col, Set.mem_ofPred_eq]
      constructor
      · rintro ⟨j, h1, h2, h3⟩; exact ⟨j, h1, by omega, h3⟩
      · rintro ⟨j, h1, h2, h3⟩; exact ⟨j, h1, by omega, h3⟩
    rw [hset]
    rw [hK] at he
    have key := fun hk hn => act_zero_iff_C (m := m) (K := K) (n := m + 1 + K) hk hn he
    have gen : ∀ (k : ℤ) (hkk : k = K) (hk : 0 ≤ k) (hn : (m : ℤ) + 1 + K = m + 1 + k),
        (sysC m hk hn).act e (Finsupp.single [] 1) = 0 ↔
          e ∈ Ideal.span {r : P | ∃ j : ℕ, m + 1 < j ∧ j ≤ m + 1 + K ∧ r = ee (hvar K) j} := by
      intro k hkk hk hn
      subst hkk
      exact key hk hn
    exact gen _ hK (by rw [hK]; omega) (by rw [hK])

theorem ringQ_zero {e : P} (he : e ∈ supported ℚ (special (n - m).toNat)) :
    (ringQ hm hX).Y.act e (Finsupp.single [] 1) = 0 ↔ e ∈ Ideal.span (relQGr m n) := by
  cases m with
  | zero => omega
  | succ m =>
    obtain ⟨rfl, _, h⟩ := mkGr_ok hX
    obtain ⟨K, hK⟩ : ∃ K : ℕ, n - ((m + 1 : ℕ) : ℤ) = K := ⟨(n - ((m + 1 : ℕ) : ℤ)).toNat, by push_cast at *; omega⟩
    obtain rfl : n = m + 1 + K := by push_cast at hK; omega
    have hset : relQGr (m + 1) (m + 1 + K) = {r : P | ∃ j : ℕ, m + 1 < j ∧ j ≤ m + 1 + K ∧
        r = ee (hvar K) j + if j = m + 1 + K then (-1) ^ K * MvPolynomial.X .q else 0} := by
      ext r
      simp only [relQGr, hK, ee_col, Set.mem_ofPred_eq, Int.toNat_natCast]
      have hj : ∀ j : ℕ, ((j : ℤ) = m + 1 + K) = (j = m + 1 + K) := fun j => propext ⟨fun h => by omega, fun h => by omega⟩
      simp only [hj]
      constructor
      · rintro ⟨j, h1, h2, h3⟩; exact ⟨j, h1, by omega, h3⟩
      · rintro ⟨j, h1, h2, h3⟩; exact ⟨j, h1, by omega, h3⟩
    rw [hset]
    rw [hK] at he
    have key := fun hk hn => act_zero_iff_Q (m := m) (K := K) (n := m + 1 + K) hk hn he
    have gen : ∀ (k : ℤ) (hkk : k = K) (hk : 0 ≤ k) (hn : (m : ℤ) + 1 + K = m + 1 + k),
        (sysQ m hk hn).act e (Finsupp.single [] 1) = 0 ↔
          e ∈ Ideal.span {r : P | ∃ j : ℕ, m + 1 < j ∧ j ≤ m + 1 + K ∧
            r = ee (hvar K) j + if j = m + 1 + K then (-1) ^ K * MvPolynomial.X .q else 0} := by
      intro k hkk hk hn
      subst hkk
      exact key hk hn
    exact gen _ hK (by rw [hK]; omega) (by rw [hK])

/-- **C102.** `act(e, S[]) = act(f, S[])` on `Gr(m, n)` if and only if `e - f` lies in the ideal of the relations. -/
theorem C102_act {e f : Poly} (he : SpecialPoly (n - m).toNat e) (hf : SpecialPoly (n - m).toNat f) :
    SameResult (Gr.act X e (Poly.sym (.S []))) (Gr.act X f (Poly.sym (.S []))) ↔ den e - den f ∈ Ideal.span (relGr m n) :=
  (same_act_iff (ringC hm hX) he hf).trans
    (ringC_zero hm hX (Subalgebra.sub_mem _ (special_supported he) (special_supported hf)))

/-- **C102.** The same for `qact` and the quantum relations. -/
theorem C102_qact {e f : Poly} (he : SpecialPoly (n - m).toNat e) (hf : SpecialPoly (n - m).toNat f) :
    SameResult (Gr.qact X e (Poly.sym (.S []))) (Gr.qact X f (Poly.sym (.S []))) ↔ den e - den f ∈ Ideal.span (relQGr m n) :=
  (same_act_iff (ringQ hm hX) he hf).trans
    (ringQ_zero hm hX (Subalgebra.sub_mem _ (special_supported he) (special_supported hf)))

/-- **C102.** Then `e` and `f` act in the same way on all linear combinations. -/
theorem C102_everywhere {e f x : Poly} (he : SpecialPoly (n - m).toNat e) (hf : SpecialPoly (n - m).toNat f)
    (hx : LinComb (GrClass m n) x) :
    (den e - den f ∈ Ideal.span (relGr m n) → SameResult (Gr.act X e x) (Gr.act X f x)) ∧
    (den e - den f ∈ Ideal.span (relQGr m n) → SameResult (Gr.qact X e x) (Gr.qact X f x)) := by
  have hs := Subalgebra.sub_mem _ (special_supported he) (special_supported hf)
  exact ⟨fun h => same_act_all (ringC hm hX) he hf hx ((ringC_zero hm hX hs).2 h),
    fun h => same_act_all (ringQ hm hX) he hf hx ((ringQ_zero hm hX hs).2 h)⟩

end

/-- On `Gr(2, 4)`: `S[1]^3 - 2*S[1]*S[2]` is the relation for `j = 3`, and `S[1]^4 - 3*S[1]^2*S[2] + S[2]^2 + q` the quantum
relation for `j = 4`. -/
example : mkGr 2 4 = .ok ⟨.A, 2, 4⟩ ∧
    SpecialPoly (4 - 2 : Int).toNat [([.S [1], .S [1], .S [1]], 1), ([.S [1], .S [2]], -2)] ∧
    den [([.S [1], .S [1], .S [1]], 1), ([.S [1], .S [2]], -2)] ∈ relGr 2 4 ∧
    Gr.act ⟨.A, 2, 4⟩ [([.S [1], .S [1], .S [1]], 1), ([.S [1], .S [2]], -2)] (Poly.sym (.S [])) = .ok [] ∧
    Gr.qact ⟨.A, 2, 4⟩ [([.q], 1), ([.S [1], .S [1], .S [1], .S [1]], 1), ([.S [1], .S [1], .S [2]], -3), ([.S [2], .S [2]], 1)]
      (Poly.sym (.S [])) = .ok [] ∧
    Gr.act ⟨.A, 2, 4⟩ [([.S [1], .S [1]], 1), ([.S [2]], -1)] (Poly.sym (.S [])) = .ok [([.S [1, 1]], 1)] := by
  refine ⟨by decide, ⟨⟨by decide, by decide⟩, ?_⟩, ?_, by decide +kernel, by decide +kernel, by decide +kernel⟩
  · intro t ht s hs
    right
    simp at ht
    rcases ht with rfl | rfl
    · simp at hs; exact ⟨1, by decide, by decide, hs⟩
    · simp at hs
      rcases hs with rfl | rfl
      · exact ⟨1, by decide, by decide, rfl⟩
      · exact ⟨2, by decide, by decide, rfl⟩
  · refine ⟨3, by decide, by decide, ?_⟩
    have h : ∀ p : ℤ, hvar 2 p = if p = 0 then 1 else if 0 < p ∧ p ≤ 2 then MvPolynomial.X (.S [p]) else 0 := fun _ => rfl
    have hr : List.replicate 3 (1 : ℤ) = [1, 1, 1] := rfl
    have hn : (4 : ℤ) - ((2 : ℕ) : ℤ) = 2 := rfl
    have h2 : (C 2 : P) = 2 := rfl
    rw [hr, hn, jacobiTrudi, Matrix.det_fin_three]
    simp [h, den, monoDen, h2]
    ring

end Verif
