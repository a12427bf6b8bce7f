import Verif.Proofs.PresD
import Verif.Proofs.ColOneD
/-!
# C135: presentations of the rings of `OG(m, 2m+2k)`, `k ≥ 1`; the quantum rings for `k ≥ 2`

C136: multiplication by the columns on these spaces.
-/

namespace Verif
open Spec MvPolynomial

/-! ### The relations in the two forms -/

theorem castKD (m k : ℕ) : (((m + 1 : ℕ) : ℤ) + 2 * (k : ℤ) - 1) = ((m + k + k : ℕ) : ℤ) := by push_cast; ring

theorem qd_large (k K : ℕ) {r : ℕ} (hr : k < r) : C (1 / 4) * qd (cvarD k K) r =
    hvar K r ^ 2 + ∑ i ∈ Finset.Icc 1 r, (-1) ^ i * (hvar K (r + i) * cvarD k K (r - i)) := by
  have h : ∀ p : ℤ, (r : ℤ) ≤ p → cvarD k K p = 2 * hvar K p := fun p hp => by
    unfold cvarD
    rw [if_neg (by omega), if_neg (by omega)]
  have h1 : 2 * ∑ i ∈ Finset.Icc 1 r, (-1) ^ i * (cvarD k K ((r + i : ℕ) : ℤ) * cvarD k K ((r - i : ℕ) : ℤ)) =
      4 * ∑ i ∈ Finset.Icc 1 r, (-1) ^ i * (hvar K (r + i) * cvarD k K (r - i)) := by
    rw [Finset.mul_sum, Finset.mul_sum]
    refine Finset.sum_congr rfl fun i hi => ?_
    rw [Finset.mem_Icc] at hi
    have h2 : cvarD k K ((r + i : ℕ) : ℤ) = 2 * hvar K (r + i) := by
      rw [h ((r + i : ℕ) : ℤ) (by omega), Nat.cast_add]
    rw [h2, Nat.cast_sub hi.2]
    ring
  have e : qd (cvarD k K) r = 4 * (hvar K r ^ 2 + ∑ i ∈ Finset.Icc 1 r, (-1) ^ i * (hvar K (r + i) * cvarD k K (r - i))) := by
    rw [qd, h1, h r le_rfl, mul_add]
    ring
  rw [e, ← mul_assoc, P4, one_mul]

theorem qd_mid (k K : ℕ) : C (1 / 4) * (qd (cvarD k K) k - dl k K ^ 2) =
    hvar K k * MvPolynomial.X (.S [(k : ℤ), 0]) + ∑ i ∈ Finset.Icc 1 k, (-1) ^ i * (hvar K (k + i) * hvar K (k - i)) := by
  have e : qd (cvarD k K) k - dl k K ^ 2 =
      4 * (hvar K k * MvPolynomial.X (.S [(k : ℤ), 0]) + ∑ i ∈ Finset.Icc 1 k, (-1) ^ i * (hvar K (k + i) * hvar K (k - i))) := by
    have h1 : 2 * ∑ i ∈ Finset.Icc 1 k, (-1) ^ i * (cvarD k K ((k + i : ℕ) : ℤ) * cvarD k K ((k - i : ℕ) : ℤ)) =
        4 * ∑ i ∈ Finset.Icc 1 k, (-1) ^ i * (hvar K (k + i) * hvar K (k - i)) := by
      rw [Finset.mul_sum, Finset.mul_sum]
      refine Finset.sum_congr rfl fun i hi => ?_
      rw [Finset.mem_Icc] at hi
      have h2 : cvarD k K ((k + i : ℕ) : ℤ) = 2 * hvar K (k + i) := by
        unfold cvarD
        rw [if_neg (by omega), if_neg (by omega), Nat.cast_add]
      have h3 : cvarD k K ((k - i : ℕ) : ℤ) = hvar K (k - i) := by
        unfold cvarD
        rw [if_pos (by omega), Nat.cast_sub hi.2]
      rw [h2, h3]
      ring
    have h4 : cvarD k K k = hvar K k + MvPolynomial.X (.S [(k : ℤ), 0]) := by
      unfold cvarD
      rw [if_neg (by omega), if_pos rfl]
    rw [qd, h1, h4, dl]
    ring
  rw [e, ← mul_assoc, P4, one_mul]

open Classical in
/-- the coefficients of `q` -/
noncomputable def tD (m k : ℕ) : RelIxD m k → P
  | .inl j => if (j : ℕ) = m + k + k then -2 else 0
  | .inr _ => 0

theorem range_D (m k : ℕ) : Set.range (relD' m k) = presD (m + 1) k := by
  ext x
  unfold presD
  rw [castKD, Set.mem_union, Set.mem_union, Set.mem_union, Set.mem_range]
  constructor
  · rintro ⟨j | r | b, rfl⟩
    · exact Or.inl (Or.inl (Or.inl ⟨j, j.2.1, by have := j.2.2; omega, rfl⟩))
    · exact Or.inl (Or.inl (Or.inr ⟨r, r.2.1, r.2.2, qd_large _ _ r.2.1⟩))
    · cases b
      · exact Or.inr rfl
      · exact Or.inl (Or.inr (qd_mid _ _))
  · rintro (((⟨j, h1, h2, rfl⟩ | ⟨r, h1, h2, rfl⟩) | h) | h)
    · exact ⟨.inl ⟨j, h1, by omega⟩, rfl⟩
    · exact ⟨.inr (.inl ⟨r, h1, h2⟩), qd_large _ _ h1⟩
    · rw [Set.mem_singleton_iff] at h
      exact ⟨.inr (.inr true), (qd_mid _ _).trans h.symm⟩
    · rw [Set.mem_singleton_iff] at h
      exact ⟨.inr (.inr false), h.symm⟩

theorem range_QD (m k : ℕ) : Set.range (fun i => relD' m k i + MvPolynomial.X .q * tD m k i) = presQD (m + 1) k := by
  ext x
  unfold presQD
  rw [castKD, Set.mem_union, Set.mem_union, Set.mem_union, Set.mem_range]
  have hX : ∀ j : ℕ, (MvPolynomial.X .q : P) * (if j = m + k + k then -2 else 0) = -if j + 1 = m + 1 + 2 * k then 2 * MvPolynomial.X .q else 0 := by
    intro j
    by_cases h : j = m + k + k
    · rw [if_pos h, if_pos (by omega)]; ring
    · rw [if_neg h, if_neg (by omega), mul_zero, neg_zero]
  constructor
  · rintro ⟨j | r | b, rfl⟩
    · exact Or.inl (Or.inl (Or.inl ⟨j, j.2.1, by have := j.2.2; omega, by beta_reduce; rw [relD', tD, hX, sub_eq_add_neg]; rfl⟩))
    · exact Or.inl (Or.inl (Or.inr ⟨r, r.2.1, r.2.2, by beta_reduce; rw [tD, mul_zero, add_zero]; exact qd_large _ _ r.2.1⟩))
    · cases b
      · exact Or.inr (by beta_reduce; rw [tD, mul_zero, add_zero]; rfl)
      · exact Or.inl (Or.inr (by beta_reduce; rw [tD, mul_zero, add_zero]; exact qd_mid _ _))
  · rintro (((⟨j, h1, h2, rfl⟩ | ⟨r, h1, h2, rfl⟩) | h) | h)
    · exact ⟨.inl ⟨j, h1, by omega⟩, by beta_reduce; rw [relD', tD, hX, sub_eq_add_neg]; rfl⟩
    · exact ⟨.inr (.inl ⟨r, h1, h2⟩), by beta_reduce; rw [tD, mul_zero, add_zero]; exact qd_large _ _ h1⟩
    · rw [Set.mem_singleton_iff] at h
      exact ⟨.inr (.inr true), by beta_reduce; rw [tD, mul_zero, add_zero]; exact (qd_mid _ _).trans h.symm⟩
    · rw [Set.mem_singleton_iff] at h
      exact ⟨.inr (.inr false), by beta_reduce; rw [tD, mul_zero, add_zero]; exact h.symm⟩

/-! ### The ideals -/

section
variable {m k' : ℕ} {e : P}

section
variable {X : Space} {pieri : Int → List Int → Except PyErr Poly} {n B : ℕ} {h h' : Polynomial ℚ}

theorem col_Dn (hn : n = m + 1 + (k' + 1)) (Z : RingOn X pieri (spcD n (k' + 2)) (clsD n (k' + 2)) B) (ht : Z.Y.t = tDD h h' n (k' + 2)) :
    (∀ j ≤ m + 1, Z.Y.act (ee (cvarD (k' + 2 : ℕ) (n + (k' + 2) : ℕ)) j) (Finsupp.single [] 1) = Finsupp.single (List.replicate j 1) 1) ∧
    (∀ j, m + 1 < j → j < n + (k' + 2) → Z.Y.act (ee (cvarD (k' + 2 : ℕ) (n + (k' + 2) : ℕ)) j) (Finsupp.single [] 1) = 0) ∧
    Z.Y.act (ee (cvarD (k' + 2 : ℕ) (n + (k' + 2) : ℕ)) (n + (k' + 2))) (Finsupp.single [] 1) = Finsupp.single [] (2 * h) ∧
    Z.Y.act (dl (k' + 2 : ℕ) (n + (k' + 2) : ℕ) * ee (cvarD (k' + 2 : ℕ) (n + (k' + 2) : ℕ)) (m + 1)) (Finsupp.single [] 1) = 0 := by
  subst hn
  exact col_D Z ht

theorem leD (m k' : ℕ) : k' + 2 ≤ m + (k' + 2) := by omega

theorem leD' (m k' : ℕ) : k' + 2 ≤ m + (k' + 2) + 1 := by omega

theorem neD (k' : ℕ) : k' + 2 ≠ 1 := by omega

theorem zero_D (Z : RingOn X pieri (spcD (m + (k' + 2)) (k' + 2)) (clsD (m + (k' + 2)) (k' + 2)) B)
    (ht : Z.Y.t = tDD h h' (m + (k' + 2)) (k' + 2)) (hh : h' = h ^ 2) (u : P) (hu : Z.Y.act u (Finsupp.single [] 1) = Finsupp.single [] (-(2 * h)))
    (i : RelIxD m (k' + 2)) :
    Z.Y.act (relD' m (k' + 2) i + (match i with | .inl j => if (j : ℕ) = m + (k' + 2) + (k' + 2) then u else 0 | .inr _ => 0))
      (Finsupp.single [] 1) = 0 := by
  obtain ⟨-, h2, h3, h4⟩ := col_Dn (m := m) (by omega) Z ht
  rcases i with ⟨j, h5, h6⟩ | ⟨r, h5, h6⟩ | b
  · by_cases h7 : j = m + (k' + 2) + (k' + 2)
    · subst h7
      rw [relD', map_add, LinearMap.add_apply]
      simp only [if_true]
      rw [hu, h3, ← Finsupp.single_add, add_neg_cancel, Finsupp.single_zero]
    · simp only [if_neg h7, add_zero]
      exact h2 j h5 (by omega)
  · simp only [add_zero]
    rw [relD', map_mul, Module.End.mul_apply, act_qd (leD m k') (by omega) Z ht hh h5 (by omega), map_zero]
  · simp only [add_zero]
    cases b
    · exact h4
    · rw [relD', map_mul, Module.End.mul_apply, act_qdk (leD m k') (by omega) Z ht hh, map_zero]

end

theorem zero_cD (i : RelIxD m (k' + 2)) : (ringD _ _ (leD' m k')).Y.act (relD' m (k' + 2) i) (Finsupp.single [] 1) = 0 := by
  have := zero_D (ringD _ _ (leD' m k')) (h := 0) (h' := 0) rfl (by simp) 0 (by simp) i
  refine Eq.trans ?_ this
  congr 2
  rcases i with j | r
  · simp
  · simp

theorem zero_QD (ord : List Int → List Int) (i : RelIxD m (k' + 2)) :
    (ringQD ord _ _ (leD m k') (neD k')).Y.act (relD' m (k' + 2) i + MvPolynomial.X .q * tD m (k' + 2) i) (Finsupp.single [] 1) = 0 := by
  have hQ1 : hQ (k' + 2) = Polynomial.X := if_neg (by omega)
  have := zero_D (ringQD ord _ _ (leD m k') (neD k')) (h := hQ (k' + 2)) (h' := hQ' (k' + 2)) rfl (hQ_sq (by omega))
    (MvPolynomial.X .q * -2) (by
      rw [map_mul, Module.End.mul_apply, show (-2 : P) = C (-2) by rw [C_neg, show (C 2 : P) = 2 from map_ofNat C 2], PieriSys.act_C, PieriSys.act_q,
        Finsupp.smul_single, Finsupp.smul_single, hQ1, Polynomial.C_neg, show (Polynomial.C 2 : Polynomial ℚ) = 2 from map_ofNat _ 2]
      congr 1
      simp only [smul_eq_mul]
      ring) i
  refine Eq.trans ?_ this
  congr 3
  rcases i with j | r
  · simp only [tD]
    split <;> simp
  · simp [tD]

theorem iff_D (he : e ∈ supported ℚ (specialSet (spcD (m + (k' + 2)) (k' + 2)))) :
    (ringD _ _ (leD' m k')).Y.act e (Finsupp.single [] 1) = 0 ↔ e ∈ Ideal.span (presD (m + 1) (k' + 2)) := by
  rw [← range_D]
  exact ⟨pres_clD (k := k' + 1) _ zero_cD he, ideal_zero _ (by rintro _ ⟨i, rfl⟩; exact zero_cD i) e⟩

theorem leOne (m : ℕ) : 1 ≤ m + 1 + 1 := by omega

theorem zero_cOne (i : RelIxD m 1) : (ringD _ _ (leOne m)).Y.act (relD' m 1 i) (Finsupp.single [] 1) = 0 := by
  obtain ⟨h1, h2⟩ := col_D1 (ringD _ _ (leOne m)) rfl
  rcases i with ⟨j, h5, h6⟩ | ⟨r, h5, h6⟩ | b
  · refine (h1 j (by omega)).trans ?_
    rw [colV, if_neg (by omega), if_neg (by omega)]
  · rw [relD', map_mul, Module.End.mul_apply,
      act_qd (by omega) one_pos (ringD _ _ (leOne m)) (h := 0) (h' := 0) rfl (by simp) h5 (by omega), map_zero]
  · cases b
    · exact h2
    · rw [relD', map_mul, Module.End.mul_apply, act_qdk (by omega) one_pos (ringD _ _ (leOne m)) (h := 0) (h' := 0) rfl (by simp), map_zero]

theorem iff_One (he : e ∈ supported ℚ (specialSet (spcD (m + 1) 1))) :
    (ringD _ _ (leOne m)).Y.act e (Finsupp.single [] 1) = 0 ↔ e ∈ Ideal.span (presD (m + 1) 1) := by
  rw [← range_D]
  exact ⟨pres_clD (k := 0) _ zero_cOne he, ideal_zero _ (by rintro _ ⟨i, rfl⟩; exact zero_cOne i) e⟩

theorem iff_QD (ord : List Int → List Int) (he : e ∈ supported ℚ (specialSet (spcD (m + (k' + 2)) (k' + 2)))) :
    (ringQD ord _ _ (leD m k') (neD k')).Y.act e (Finsupp.single [] 1) = 0 ↔ e ∈ Ideal.span (presQD (m + 1) (k' + 2)) := by
  rw [← range_QD]
  refine ⟨fun h => ?_, ideal_zero _ (by rintro _ ⟨i, rfl⟩; exact zero_QD ord i) e⟩
  refine pres_lift (ringQD ord _ _ (leD m k') (neD k')) (ringD _ _ (leD' m k')) (fun p l _ => q0_QD (leD' m k') (neD k') p l)
    (δ := m + (k' + 2) + (k' + 2)) (by omega) (relD_hom (by omega) _) ?_ (relD_supp (by omega)) ?_
    (fun x hx hz => pres_clD (k := k' + 1) _ zero_cD hx hz) (zero_QD ord)
    (e.support.sup (Finsupp.weight (wSym (m + (k' + 2) + (k' + 2))))) e he (fun d hd => Finset.le_sup hd) h
  · rintro (⟨j, h1, h2⟩ | r) d hd
    · rw [tD] at hd
      split at hd
      · rename_i h3
        have h5 := (isWeightedHomogeneous_C (wSym (m + (k' + 2) + (k' + 2))) (-2 : ℚ))
        rw [show (-2 : P) = C (-2) by rw [C_neg, show (C 2 : P) = 2 from map_ofNat C 2]] at hd
        rw [h5 (mem_support_iff.1 hd), zero_add]
        exact h3.symm
      · simp at hd
    · simp [tD] at hd
  · rintro (j | r)
    · rw [tD]
      split
      · exact Subalgebra.neg_mem _ (ofNat_mem _ 2)
      · exact Subalgebra.zero_mem _
    · exact Subalgebra.zero_mem _

end

/-! ### C135, C136 -/

section
variable {m k : ℕ} {X : Space} {e f : Poly}

/-- **C135**. For `OG(m, 2m+2k)`, `k ≥ 1`, and polynomials in `q` and the special classes `S[1]`, ..., `S[m+2k-1]`, `S[k,0]`:
`act(e, S[]) = act(f, S[])` if and only if `e - f` lies in the ideal of the relations, and then `e` and `f` act in the same way on
all linear combinations. -/
theorem C135_classical (hm : 0 < m) (hk : 1 ≤ k) (hX : mkOG m (2 * ((m : Int) + k - 1) + 2) = .ok X)
    (he : DSpecialPoly m (m + k - 1) e) (hf : DSpecialPoly m (m + k - 1) f) :
    (SameResult (X.act e (Poly.sym (.S []))) (X.act f (Poly.sym (.S []))) ↔ den e - den f ∈ Ideal.span (presD m k)) ∧
    (den e - den f ∈ Ideal.span (presD m k) → ∀ x, LinComb (DClass m (m + k - 1)) x → SameResult (X.act e x) (X.act f x)) := by
  obtain ⟨m, rfl⟩ : ∃ m', m = m' + 1 := ⟨m - 1, by omega⟩
  rcases eq_or_lt_of_le hk with rfl | hk
  · rw [show ((m + 1 : ℕ) : ℤ) + ((1 : ℕ) : ℤ) - 1 = ((m + 1 : ℕ) : ℤ) by push_cast; ring] at hX he hf ⊢
    obtain ⟨a, b, h, h1, h2, rfl⟩ := ogdCase (by omega) (by omega) hX
    obtain rfl : a = m + 1 := by omega
    obtain rfl : b = 1 := by omega
    rw [show DSpecialPoly ((m + 1 : ℕ) : ℤ) ((m + 1 : ℕ) : ℤ) = DSpecialPoly (((m + 1 : ℕ) : ℤ) + 1 - (1 : ℕ)) ((m + 1 : ℕ) : ℤ) by
      rw [Nat.cast_one, add_sub_cancel_right]] at he hf
    rw [show DClass ((m + 1 : ℕ) : ℤ) ((m + 1 : ℕ) : ℤ) = DClass (((m + 1 : ℕ) : ℤ) + 1 - (1 : ℕ)) ((m + 1 : ℕ) : ℤ) by
      rw [Nat.cast_one, add_sub_cancel_right]]
    have he' := (dSpecIn_iff _ _ _).2 he
    have hf' := (dSpecIn_iff _ _ _).2 hf
    have hs := iff_One (Subalgebra.sub_mem _ (specIn_supported he') (specIn_supported hf'))
    rw [dClass_eq (leOne m)]
    exact ⟨(same_act_iffR (ringD _ _ (leOne m)) he' hf').trans hs,
      fun h x hx => same_act_allR (ringD _ _ (leOne m)) he' hf' hx (hs.2 h)⟩
  obtain ⟨k, rfl⟩ : ∃ k', k = k' + 2 := ⟨k - 2, by omega⟩
  rw [show ((m + 1 : ℕ) : ℤ) + ((k + 2 : ℕ) : ℤ) - 1 = ((m + (k + 2) : ℕ) : ℤ) by push_cast; ring] at hX he hf ⊢
  obtain ⟨a, b, h, h1, h2, rfl⟩ := ogdCase (by omega) (by omega) hX
  obtain rfl : a = m + (k + 2) := by omega
  obtain rfl : b = k + 2 := by omega
  rw [h2] at he hf ⊢
  have he' := (dSpecIn_iff _ _ _).2 he
  have hf' := (dSpecIn_iff _ _ _).2 hf
  have hs := iff_D (Subalgebra.sub_mem _ (specIn_supported he') (specIn_supported hf'))
  rw [dClass_eq (leD' m k)]
  exact ⟨(same_act_iffR (ringD _ _ (leD' m k)) he' hf').trans hs,
    fun h x hx => same_act_allR (ringD _ _ (leD' m k)) he' hf' hx (hs.2 h)⟩

/-- **C135**, quantum. -/
theorem C135_quantum (ord : List Int → List Int) (hm : 0 < m) (hk : 2 ≤ k) (hX : mkOG m (2 * ((m : Int) + k - 1) + 2) = .ok X)
    (he : DSpecialPoly m (m + k - 1) e) (hf : DSpecialPoly m (m + k - 1) f) :
    (SameResult (X.qact ord e (Poly.sym (.S []))) (X.qact ord f (Poly.sym (.S []))) ↔ den e - den f ∈ Ideal.span (presQD m k)) ∧
    (den e - den f ∈ Ideal.span (presQD m k) → ∀ x, LinComb (DClass m (m + k - 1)) x → SameResult (X.qact ord e x) (X.qact ord f x)) := by
  obtain ⟨m, rfl⟩ : ∃ m', m = m' + 1 := ⟨m - 1, by omega⟩
  obtain ⟨k, rfl⟩ : ∃ k', k = k' + 2 := ⟨k - 2, by omega⟩
  rw [show ((m + 1 : ℕ) : ℤ) + ((k + 2 : ℕ) : ℤ) - 1 = ((m + (k + 2) : ℕ) : ℤ) by push_cast; ring] at hX he hf ⊢
  obtain ⟨a, b, h, h1, h2, rfl⟩ := ogdCase (by omega) (by omega) hX
  obtain rfl : a = m + (k + 2) := by omega
  obtain rfl : b = k + 2 := by omega
  rw [h2] at he hf ⊢
  have he' := (dSpecIn_iff _ _ _).2 he
  have hf' := (dSpecIn_iff _ _ _).2 hf
  have hs := iff_QD ord (Subalgebra.sub_mem _ (specIn_supported he') (specIn_supported hf'))
  rw [dClass_eq (leD' m k)]
  exact ⟨(same_act_iffR (ringQD ord _ _ (leD m k) (neD k)) he' hf').trans hs,
    fun h x hx => same_act_allR (ringQD ord _ _ (leD m k) (neD k)) he' hf' hx (hs.2 h)⟩

theorem col_clsD {m k j n : ℕ} (hn : n = m + 1 + (k + 1)) (hj : j ≤ m + 1) : clsD n (k + 2) (List.replicate j 1) := by
  subst hn
  exact (WdD_cls (by omega) _).2 ⟨colD (m + 1) k j, colD_mem hj, labD_col _ _ _⟩

/-- **C136**. On `OG(m, 2m+2k)`, `k ≥ 2`, with `c(p) = S[p]` for `p < k`, `S[k] + S[k,0]` for `p = k` and `2*S[p]` for `p > k`, the determinant
`det(c(1-a+b))` of size `j ≤ m` acts as the product with `S[1, ..., 1]` (`j` ones). -/
theorem C136_classical (hm : 0 < m) (hk : 2 ≤ k) (hX : mkOG m (2 * ((m : Int) + k - 1) + 2) = .ok X)
    {fuel : ℕ} (hfu : giamBoundD m (m + k - 1) ≤ fuel) (he : DSpecialPoly m (m + k - 1) e) {j : ℕ} (hj : j ≤ m)
    (hd : den e = detOnes (cvarD k (m + 2 * k - 1)) j) {x : Poly} (hx : LinComb (DClass m (m + k - 1)) x) :
    SameResult (X.act e x) (X.mult fuel (Poly.sym (.S (List.replicate j 1))) x) := by
  obtain ⟨m, rfl⟩ : ∃ m', m = m' + 1 := ⟨m - 1, by omega⟩
  obtain ⟨k, rfl⟩ : ∃ k', k = k' + 2 := ⟨k - 2, by omega⟩
  rw [castKD] at hd
  rw [show ((m + 1 : ℕ) : ℤ) + ((k + 2 : ℕ) : ℤ) - 1 = ((m + (k + 2) : ℕ) : ℤ) by push_cast; ring] at hX he hx hfu
  obtain ⟨a, b, h, h1, h2, rfl⟩ := ogdCase (by omega) (by omega) hX
  obtain rfl : a = m + (k + 2) := by omega
  obtain rfl : b = k + 2 := by omega
  rw [h2] at he hx hfu
  rw [dClass_eq (leD' m k)] at hx
  rw [giamBoundD_eq (leD' m k)] at hfu
  refine col_same (ringD _ _ (leD' m k)) hfu ((dSpecIn_iff _ _ _).2 he) ?_ (col_clsD (by omega) hj) hx
  rw [hd]
  exact (col_Dn (by omega) (ringD _ _ (leD' m k)) (h := 0) (h' := 0) rfl).1 j hj

/-- **C136**, quantum: without correction. -/
theorem C136_quantum (ord : List Int → List Int) (hm : 0 < m) (hk : 2 ≤ k) (hX : mkOG m (2 * ((m : Int) + k - 1) + 2) = .ok X)
    {fuel : ℕ} (hfu : giamBoundD m (m + k - 1) ≤ fuel) (he : DSpecialPoly m (m + k - 1) e) {j : ℕ} (hj : j ≤ m)
    (hd : den e = detOnes (cvarD k (m + 2 * k - 1)) j) {x : Poly} (hx : LinComb (DClass m (m + k - 1)) x) :
    SameResult (X.qact ord e x) (X.qmult ord fuel (Poly.sym (.S (List.replicate j 1))) x) := by
  obtain ⟨m, rfl⟩ : ∃ m', m = m' + 1 := ⟨m - 1, by omega⟩
  obtain ⟨k, rfl⟩ : ∃ k', k = k' + 2 := ⟨k - 2, by omega⟩
  rw [castKD] at hd
  rw [show ((m + 1 : ℕ) : ℤ) + ((k + 2 : ℕ) : ℤ) - 1 = ((m + (k + 2) : ℕ) : ℤ) by push_cast; ring] at hX he hx hfu
  obtain ⟨a, b, h, h1, h2, rfl⟩ := ogdCase (by omega) (by omega) hX
  obtain rfl : a = m + (k + 2) := by omega
  obtain rfl : b = k + 2 := by omega
  rw [h2] at he hx hfu
  rw [dClass_eq (leD' m k)] at hx
  rw [giamBoundD_eq (leD' m k)] at hfu
  refine col_same (ringQD ord _ _ (leD m k) (neD k)) hfu ((dSpecIn_iff _ _ _).2 he) ?_ (col_clsD (by omega) hj) hx
  rw [hd]
  exact (col_Dn (by omega) (ringQD ord _ _ (leD m k) (neD k)) (h := hQ (k + 2)) (h' := hQ' (k + 2)) rfl).1 j hj

theorem colV_same {pieri : Int → List Int → Except PyErr Poly} {spc : Int → Prop} {cls : List Int → Prop} {B fuel : ℕ}
    (R : RingOn X pieri spc cls B) (hfu : B ≤ fuel) (he : SpecIn spc e) {y : Poly} {v : LMod} (hy : WF y) (hyv : den y = ev v)
    (h : R.Y.act (den e) (Finsupp.single [] 1) = v) (hv : ∀ l ∈ v.support, cls l) {x : Poly} (hx : LinComb cls x) :
    SameResult (X.actLc pieri e x) (gmult X pieri fuel y x) := by
  obtain ⟨w, hw, hwc⟩ := linComb_ev hx.2
  refine same_of_returns (R.act he hx.1 hw hwc) ?_
  have h1 := R.mult hfu hy hyv hv hx.1 hw hwc
  have h2 : R.Y.prod v w = R.Y.act (den e) w := by
    rw [R.Y.prod_comm hv hwc, GiamSys.prod, ← h, R.Y.act_comm, R.Y.act_GL hwc]
  rwa [h2] at h1

/-- **C136**, `k = 1`. On `OG(m, 2m+2)` the determinant of size `1 ≤ j ≤ m` acts as the product with the sum of `S[1, ..., 1]` and
`S[1, ..., 1, 0]` (`j` ones). -/
theorem C136_one (hm : 0 < m) (hX : mkOG m (2 * (m : Int) + 2) = .ok X)
    {fuel : ℕ} (hfu : giamBoundD m m ≤ fuel) (he : DSpecialPoly m m e) {j : ℕ} (hj0 : 0 < j) (hj : j ≤ m)
    (hd : den e = detOnes (cvarD 1 (m + 1)) j) {y : Poly} (hy : WF y)
    (hyd : den y = MvPolynomial.X (.S (List.replicate j 1)) + MvPolynomial.X (.S (List.replicate j 1 ++ [0])))
    {x : Poly} (hx : LinComb (DClass m m) x) :
    SameResult (X.act e x) (X.mult fuel y x) := by
  obtain ⟨m, rfl⟩ : ∃ m', m = m' + 1 := ⟨m - 1, by omega⟩
  obtain ⟨a, b, h, h1, h2, rfl⟩ := ogdCase (by omega) (by omega) hX
  obtain rfl : a = m + 1 := by omega
  obtain rfl : b = 1 := by omega
  have c : ((m + 1 : ℕ) : ℤ) = ((m + 1 : ℕ) : ℤ) + 1 - (1 : ℕ) := by rw [Nat.cast_one, add_sub_cancel_right]
  replace he : DSpecialPoly (((m + 1 : ℕ) : ℤ) + 1 - (1 : ℕ)) ((m + 1 : ℕ) : ℤ) e := by rwa [← c]
  replace hx : LinComb (DClass (((m + 1 : ℕ) : ℤ) + 1 - (1 : ℕ)) ((m + 1 : ℕ) : ℤ)) x := by rwa [← c]
  replace hfu : giamBoundD (((m + 1 : ℕ) : ℤ) + 1 - (1 : ℕ)) ((m + 1 : ℕ) : ℤ) ≤ fuel := by rwa [← c]
  rw [dClass_eq (leOne m)] at hx
  rw [giamBoundD_eq (leOne m)] at hfu
  refine colV_same (ringD _ _ (leOne m)) hfu ((dSpecIn_iff _ _ _).2 he) hy (v := colV (m + 1) j) ?_ ?_ ?_ hx
  · rw [hyd, colV, if_neg (by omega), if_pos hj, map_add]
    simp
  · rw [hd]
    exact (col_D1 (ringD _ _ (leOne m)) rfl).1 j (by omega)
  · rw [colV, if_neg (by omega), if_pos hj]
    intro l hl
    rcases Finset.mem_union.1 (Finsupp.support_add hl) with h | h
    · rw [Finset.mem_singleton.1 (Finsupp.support_single_subset h)]
      exact (WdD_cls (leOne m) _).2 ⟨_, colO_mem hj0 hj (i := .a) (by decide), labD_colA hj0⟩
    · rw [Finset.mem_singleton.1 (Finsupp.support_single_subset h)]
      exact (WdD_cls (leOne m) _).2 ⟨_, colO_mem hj0 hj (i := .b) (by decide), labD_colB hj0⟩

end

/-- `OG(2, 8)`: the relations `S[2]*S[2,0] - S[1]*S[3] + S[4]`, `S[3]^2 - S[2]*S[4] - S[4]*S[2,0] + S[1]*S[5]` and the determinant
of three ones, `S[1]^3 - 2*S[1]*S[2] - 2*S[1]*S[2,0] + 2*S[3]`; the results of the code. -/
example : mkOG 2 (2 * ((2 : ℕ) + (2 : ℕ) - 1) + 2) = .ok ⟨.D, 2, 3⟩ ∧ DSpecialPoly 2 (2 + 2 - 1) [([.S [2], .S [2, 0]], 1)] ∧
    DSpecialPoly 2 (2 + 2 - 1) [([.S [1], .S [3]], 1), ([.S [4]], -1)] ∧
    den [([.S [2], .S [2, 0]], 1)] - den [([.S [1], .S [3]], 1), ([.S [4]], -1)] ∈ presQD 2 2 ∧
    (Space.mk .D 2 3).qact id [([.S [2], .S [2, 0]], 1)] (Poly.sym (.S [])) = .ok [([.S [3, 1]], 1)] ∧
    (Space.mk .D 2 3).qact id [([.S [1], .S [3]], 1), ([.S [4]], -1)] (Poly.sym (.S [])) = .ok [([.S [3, 1]], 1)] ∧
    den [([.S [3], .S [3]], 1)] - den [([.S [2], .S [4]], 1), ([.S [4], .S [2, 0]], 1), ([.S [1], .S [5]], -1)] ∈ presQD 2 2 ∧
    (Space.mk .D 2 3).qact id [([.S [3], .S [3]], 1)] (Poly.sym (.S [])) =
      .ok [([.S [5, 1]], 1), ([.S [4, 2]], 1), ([.S [4, 2, 0]], 1)] ∧
    (Space.mk .D 2 3).qact id [([.S [2], .S [4]], 1), ([.S [4], .S [2, 0]], 1), ([.S [1], .S [5]], -1)] (Poly.sym (.S [])) =
      .ok [([.S [5, 1]], 1), ([.S [4, 2, 0]], 1), ([.S [4, 2]], 1)] ∧
    den [([.S [1], .S [1], .S [1]], 1), ([.S [1], .S [2]], -2), ([.S [1], .S [2, 0]], -2), ([.S [3]], 2)] ∈ presQD 2 2 ∧
    (Space.mk .D 2 3).qact id [([.S [1], .S [1], .S [1]], 1), ([.S [1], .S [2]], -2), ([.S [1], .S [2, 0]], -2), ([.S [3]], 2)]
      (Poly.sym (.S [2, 1])) = .ok [] := by
  have h : ∀ p : ℤ, hvar 5 p = if p = 0 then 1 else if 0 < p ∧ p ≤ 5 then MvPolynomial.X (.S [p]) else 0 := fun _ => rfl
  have h2 : (C 2 : P) = 2 := rfl
  refine ⟨by decide, by decide, by decide, Or.inl (Or.inr ?_), by decide +kernel, by decide +kernel, Or.inl (Or.inl (Or.inr ⟨3, by decide, by decide, ?_⟩)),
    by decide +kernel, by decide +kernel, Or.inl (Or.inl (Or.inl ⟨3, by decide, by decide, ?_⟩)), by decide +kernel⟩
  · norm_num only [Nat.cast_ofNat, Nat.cast_one, Set.mem_singleton_iff]
    rw [show Finset.Icc 1 2 = {1, 2} from rfl, Finset.sum_pair (by decide)]
    simp [h, den, monoDen]
    ring
  · norm_num only [Nat.cast_ofNat, Nat.cast_one]
    rw [show Finset.Icc 1 3 = {1, 2, 3} from rfl, Finset.sum_insert (by decide), Finset.sum_pair (by decide)]
    simp [h, den, monoDen, cvarD]
    ring
  · norm_num only [Nat.cast_ofNat, Nat.cast_one]
    rw [detOnes, Matrix.det_fin_three]
    simp [h, den, monoDen, h2, cvarD]
    ring

/-- `OG(2, 8)`: `S[1,1]` acts as `S[1]^2 - S[2] - S[2,0]`, also in the quantum ring. -/
example : den [([.S [1], .S [1]], 1), ([.S [2]], -1), ([.S [2, 0]], -1)] = detOnes (cvarD (2 : ℕ) ((2 : ℕ) + 2 * (2 : ℕ) - 1)) 2 ∧
    DSpecialPoly 2 (2 + 2 - 1) [([.S [1], .S [1]], 1), ([.S [2]], -1), ([.S [2, 0]], -1)] ∧
    (Space.mk .D 2 3).qact id [([.S [1], .S [1]], 1), ([.S [2]], -1), ([.S [2, 0]], -1)] (Poly.sym (.S [5, 2])) =
      .ok [([.q, .S [3, 1]], 1)] ∧
    (Space.mk .D 2 3).qmult id 100 (Poly.sym (.S [1, 1])) (Poly.sym (.S [5, 2])) = .ok [([.q, .S [3, 1]], 1)] := by
  have h : ∀ p : ℤ, hvar 5 p = if p = 0 then 1 else if 0 < p ∧ p ≤ 5 then MvPolynomial.X (.S [p]) else 0 := fun _ => rfl
  refine ⟨?_, by decide, by decide +kernel, by decide +kernel⟩
  norm_num only [Nat.cast_ofNat, Nat.cast_one]
  rw [detOnes, Matrix.det_fin_two]
  simp [h, den, monoDen, cvarD]
  ring

/-- `OG(2, 6)`, `k = 1`: the relations `S[1]*S[1,0] - S[2]` and `S[2]^2 - S[1]*S[3] - S[3]*S[1,0]`; the determinant of two ones is
`(S[1] + S[1,0])^2 - 2*S[2]` and acts as `S[1,1] + S[1,1,0]`. -/
example : mkOG 2 (2 * 2 + 2) = .ok ⟨.D, 1, 2⟩ ∧ DSpecialPoly 2 2 [([.S [1], .S [1, 0]], 1)] ∧
    den [([.S [1], .S [1, 0]], 1)] - den [([.S [2]], 1)] ∈ presD 2 1 ∧
    (Space.mk .D 1 2).act [([.S [1], .S [1, 0]], 1)] (Poly.sym (.S [])) = .ok [([.S [2]], 1)] ∧
    den [([.S [2], .S [2]], 1)] - den [([.S [1], .S [3]], 1), ([.S [3], .S [1, 0]], 1)] ∈ presD 2 1 ∧
    (Space.mk .D 1 2).act [([.S [2], .S [2]], 1)] (Poly.sym (.S [])) = .ok [([.S [3, 1]], 1), ([.S [3, 1, 0]], 1)] ∧
    (Space.mk .D 1 2).act [([.S [1], .S [3]], 1), ([.S [3], .S [1, 0]], 1)] (Poly.sym (.S [])) =
      .ok [([.S [3, 1, 0]], 1), ([.S [3, 1]], 1)] ∧
    den [([.S [1], .S [1]], 1), ([.S [1], .S [1, 0]], 2), ([.S [1, 0], .S [1, 0]], 1), ([.S [2]], -2)] =
      detOnes (cvarD 1 ((2 : ℕ) + 1)) 2 ∧
    den [([.S [1, 1]], 1), ([.S [1, 1, 0]], 1)] =
      MvPolynomial.X (.S (List.replicate 2 1)) + MvPolynomial.X (.S (List.replicate 2 1 ++ [0])) ∧
    (Space.mk .D 1 2).act [([.S [1], .S [1]], 1), ([.S [1], .S [1, 0]], 2), ([.S [1, 0], .S [1, 0]], 1), ([.S [2]], -2)]
      (Poly.sym (.S [1])) = .ok [([.S [3]], 1), ([.S [2, 1]], 1), ([.S [2, 1, 0]], 1)] ∧
    (Space.mk .D 1 2).mult 100 [([.S [1, 1]], 1), ([.S [1, 1, 0]], 1)] (Poly.sym (.S [1])) =
      .ok [([.S [3]], 1), ([.S [2, 1, 0]], 1), ([.S [2, 1]], 1)] := by
  have h : ∀ p : ℤ, hvar 3 p = if p = 0 then 1 else if 0 < p ∧ p ≤ 3 then MvPolynomial.X (.S [p]) else 0 := fun _ => rfl
  have h2 : (C 2 : P) = 2 := rfl
  refine ⟨by decide, by decide, Or.inl (Or.inr ?_), by decide +kernel, Or.inl (Or.inl (Or.inr ⟨2, by decide, by decide, ?_⟩)),
    by decide +kernel, by decide +kernel, ?_, ?_, by decide +kernel, by decide +kernel⟩
  · norm_num only [Nat.cast_ofNat, Nat.cast_one, Set.mem_singleton_iff]
    rw [show Finset.Icc 1 1 = {1} from rfl, Finset.sum_singleton]
    simp [h, den, monoDen]
    ring
  · norm_num only [Nat.cast_ofNat, Nat.cast_one]
    rw [show Finset.Icc 1 2 = {1, 2} from rfl, Finset.sum_pair (by decide)]
    simp [h, den, monoDen, cvarD]
    ring
  · norm_num only [Nat.cast_ofNat, Nat.cast_one]
    rw [detOnes, Matrix.det_fin_two]
    simp [h, den, monoDen, cvarD, h2]
    ring
  · simp [den, monoDen]

end Verif
