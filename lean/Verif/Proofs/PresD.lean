import Verif.Proofs.ColRingD
import Verif.Proofs.PresSpanD
import Verif.Props.DualD
/-!
# Presentations of the rings of `OG(m, 2m+2k)`, `k ≥ 2`
-/

namespace Verif
open Spec MvPolynomial

section
variable {X : Space} {pieri : Int → List Int → Except PyErr Poly} {n k B : ℕ} {h h' : Polynomial ℚ}
  (hk : k ≤ n) (hk0 : 0 < k) (Z : RingOn X pieri (spcD n k) (clsD n k) B) (ht : Z.Y.t = tDD h h' n k) (hh : h' = h ^ 2)
include hk hk0 ht hh

theorem act_qd {r : ℕ} (h1 : k < r) (h2 : r < n + k) : Z.Y.act (qd (cvarD k (n + k : ℕ)) r) (Finsupp.single [] 1) = 0 := by
  have key := relation_D hk Z ht (fun h => absurd h (by omega)) (fun _ => hh) h1 h2.le
  rw [if_neg (by omega), Finsupp.single_zero] at key
  rw [← key, qd, map_add, LinearMap.add_apply, pow_two, act_cvarD2 hk hk0 Z h2.le h2.le]
  congr 1
  rw [two_mul, map_add, LinearMap.add_apply, two_zsmul]
  have : Z.Y.act (∑ i ∈ Finset.Icc 1 r, (-1) ^ i * (cvarD k (n + k : ℕ) ((r + i : ℕ) : ℤ) * cvarD k (n + k : ℕ) ((r - i : ℕ) : ℤ))) (Finsupp.single [] 1) =
      ∑ i ∈ (Finset.Icc 1 r).filter (fun i => r + i ≤ n + k), ((-1) ^ i : ℤ) • Z.Y.prod (cE k (r + i)) (cE k (r - i)) := by
    rw [map_sum, LinearMap.sum_apply, Finset.sum_filter]
    refine Finset.sum_congr rfl fun i hi => ?_
    rw [Finset.mem_Icc] at hi
    split
    · rename_i h3
      rw [map_mul, Module.End.mul_apply, map_pow, map_neg, map_one, negpow_apply, act_cvarD2 hk hk0 Z h3 (by omega)]
    · rw [cvarD_big (by omega) (by omega) (by omega), zero_mul, mul_zero, map_zero, LinearMap.zero_apply]
  rw [this]

theorem act_qdk : Z.Y.act (qd (cvarD k (n + k : ℕ)) k - dl k (n + k : ℕ) ^ 2) (Finsupp.single [] 1) = 0 := by
  have key := relation_D' hk Z ht hk0 hh
  have h0 : Z.Y.act (dl k (n + k : ℕ) ^ 2) (Finsupp.single [] 1) = Z.Y.prod (dE k) (dE k) := by
    rw [pow_two, map_mul, Module.End.mul_apply, act_dl hk hk0 Z, act_prod Z _ (dE_supp hk hk0), act_dl hk hk0 Z]
  rw [map_sub, LinearMap.sub_apply, sub_eq_zero, h0, ← key, qd, map_add, LinearMap.add_apply, pow_two,
    act_cvarD2 hk hk0 Z (by omega) (by omega)]
  congr 1
  rw [two_mul, map_add, LinearMap.add_apply, two_zsmul]
  have : Z.Y.act (∑ i ∈ Finset.Icc 1 k, (-1) ^ i * (cvarD k (n + k : ℕ) ((k + i : ℕ) : ℤ) * cvarD k (n + k : ℕ) ((k - i : ℕ) : ℤ))) (Finsupp.single [] 1) =
      ∑ i ∈ Finset.Icc 1 k, ((-1) ^ i : ℤ) • Z.Y.prod (cE k (k + i)) (cE k (k - i)) := by
    rw [map_sum, LinearMap.sum_apply]
    refine Finset.sum_congr rfl fun i hi => ?_
    rw [Finset.mem_Icc] at hi
    rw [map_mul, Module.End.mul_apply, map_pow, map_neg, map_one, negpow_apply, act_cvarD2 hk hk0 Z (by omega) (by omega)]
  rw [this]

end

/-! ### Supports and degrees -/

section
variable {n k : ℕ}

theorem hvar_suppD (p : ℤ) : hvar (n + k : ℕ) p ∈ supported ℚ (specialSet (spcD n k)) := by
  unfold hvar
  split
  · exact Subalgebra.one_mem _
  · split
    · rename_i h
      rw [X_mem_supported]
      exact Or.inr ⟨p, Or.inl ⟨by omega, by push_cast at h; omega⟩, by rw [num2spec_pos (by omega)]⟩
    · exact Subalgebra.zero_mem _

theorem Sk0_supp (hk : 0 < k) : (MvPolynomial.X (.S [(k : ℤ), 0]) : P) ∈ supported ℚ (specialSet (spcD n k)) := by
  rw [X_mem_supported]
  refine Or.inr ⟨-k, Or.inr ⟨hk, rfl⟩, ?_⟩
  unfold num2spec
  rw [if_neg (by omega), neg_neg]

theorem cvarD_supp (hk : 0 < k) (p : ℤ) : cvarD k (n + k : ℕ) p ∈ supported ℚ (specialSet (spcD n k)) := by
  unfold cvarD
  split
  · exact hvar_suppD p
  · split
    · exact Subalgebra.add_mem _ (hvar_suppD p) (Sk0_supp hk)
    · exact Subalgebra.mul_mem _ (ofNat_mem _ 2) (hvar_suppD p)

theorem dl_supp (hk : 0 < k) : dl k (n + k : ℕ) ∈ supported ℚ (specialSet (spcD n k)) :=
  Subalgebra.sub_mem _ (hvar_suppD _) (Sk0_supp hk)

theorem eeD_supp (hk : 0 < k) (j : ℕ) : ee (cvarD k (n + k : ℕ)) j ∈ supported ℚ (specialSet (spcD n k)) := by
  unfold ee
  rw [Matrix.det_apply]
  exact Subalgebra.sum_mem _ fun σ _ => zsmul_mem (Subalgebra.prod_mem _ fun i _ => cvarD_supp hk _) _

theorem qdD_supp (hk : 0 < k) (r : ℕ) : qd (cvarD k (n + k : ℕ)) r ∈ supported ℚ (specialSet (spcD n k)) := by
  unfold qd
  refine Subalgebra.add_mem _ (Subalgebra.pow_mem _ (cvarD_supp hk _) _) (Subalgebra.mul_mem _ ?_ (Subalgebra.sum_mem _ fun i _ =>
    Subalgebra.mul_mem _ (Subalgebra.pow_mem _ (Subalgebra.neg_mem _ (Subalgebra.one_mem _)) _) (Subalgebra.mul_mem _ (cvarD_supp hk _) (cvarD_supp hk _))))
  exact ofNat_mem _ 2

theorem hvar_homD (K : ℤ) (δ p : ℕ) : IsWeightedHomogeneous (wSym δ) (hvar K p) p := by
  unfold hvar
  split
  · obtain rfl : p = 0 := by omega
    exact isWeightedHomogeneous_one ℚ _
  · split
    · have := isWeightedHomogeneous_X ℚ (wSym δ) (.S [(p : ℤ)])
      simpa [wSym] using this
    · exact isWeightedHomogeneous_zero ℚ _ _

theorem Sk0_hom (k δ : ℕ) : IsWeightedHomogeneous (wSym δ) (MvPolynomial.X (.S [(k : ℤ), 0]) : P) k := by
  have := isWeightedHomogeneous_X ℚ (wSym δ) (.S [(k : ℤ), 0])
  simpa [wSym] using this

theorem cvarD_hom (K : ℤ) (δ p : ℕ) : IsWeightedHomogeneous (wSym δ) (cvarD k K p) p := by
  unfold cvarD
  split
  · exact hvar_homD K δ p
  · split
    · rename_i h
      obtain rfl : p = k := by omega
      exact (hvar_homD K δ p).add (Sk0_hom p δ)
    · have := (isWeightedHomogeneous_C (wSym δ) (2 : ℚ)).mul (hvar_homD K δ p)
      rwa [zero_add, show (C 2 : P) = 2 from map_ofNat C 2] at this

theorem dl_hom (K : ℤ) (δ : ℕ) : IsWeightedHomogeneous (wSym δ) (dl k K) k := by
  have h1 := (isWeightedHomogeneous_C (wSym δ) (-1 : ℚ)).mul (Sk0_hom k δ)
  rw [zero_add] at h1
  have h2 := (hvar_homD K δ k).add h1
  rwa [C_neg, C_1, neg_one_mul, ← sub_eq_add_neg] at h2

theorem eeG_hom {c : ℤ → P} (c0 : c 0 = 1) (cneg : ∀ p < 0, c p = 0) (δ : ℕ) (hc : ∀ p : ℕ, IsWeightedHomogeneous (wSym δ) (c p) p) (j : ℕ) :
    IsWeightedHomogeneous (wSym δ) (ee c j) j := by
  induction j using Nat.strong_induction_on with
  | _ j ih =>
    by_cases h : j = 0
    · subst h
      rw [ee_zero]
      exact isWeightedHomogeneous_one ℚ _
    · have h1 := newton c0 cneg (p := j) (by omega)
      rw [Finset.sum_range_succ, sub_self, c0, mul_one] at h1
      have h2 : ee c j = (-1) ^ (j + 1) * ∑ i ∈ Finset.range j, (-1) ^ i * ee c i * c ((j : ℤ) - i) := by
        have h3 := neg_pow_mul_self (R := P) j
        rw [pow_succ]
        linear_combination (-1) ^ j * h1 - ee c j * h3
      rw [h2]
      refine neg_hom (IsWeightedHomogeneous.sum _ _ _ fun i hi => ?_) _
      rw [Finset.mem_range] at hi
      have h4 := (ih i hi).mul (hc (j - i))
      rw [Nat.add_sub_cancel' hi.le, Nat.cast_sub hi.le] at h4
      rw [mul_assoc]
      exact neg_hom h4 _

theorem qd_hom {c : ℤ → P} (δ : ℕ) (hc : ∀ p : ℕ, IsWeightedHomogeneous (wSym δ) (c p) p) (r : ℕ) :
    IsWeightedHomogeneous (wSym δ) (qd c r) (2 * r) := by
  unfold qd
  refine IsWeightedHomogeneous.add ?_ ?_
  · have := (hc r).pow 2
    rwa [smul_eq_mul] at this
  · have h2 : (2 : P) = C 2 := (map_ofNat C 2).symm
    rw [h2]
    have := (isWeightedHomogeneous_C (wSym δ) (2 : ℚ)).mul (IsWeightedHomogeneous.sum (Finset.Icc 1 r)
      (fun i : ℕ => (-1) ^ i * (c ((r + i : ℕ) : ℤ) * c ((r - i : ℕ) : ℤ))) (2 * r) fun i hi => by
        rw [Finset.mem_Icc] at hi
        have h4 := (hc (r + i)).mul (hc (r - i))
        rw [show r + i + (r - i) = 2 * r by omega] at h4
        exact neg_hom h4 i)
    rwa [zero_add] at this

end

/-! ### The relations -/

/-- indices of the relations -/
abbrev RelIxD (m k : ℕ) : Type := {j : ℕ // m + 1 < j ∧ j ≤ m + k + k} ⊕ {r : ℕ // k < r ∧ r < m + 1 + k} ⊕ Bool

/-- the classical relations -/
noncomputable def relD' (m k : ℕ) : RelIxD m k → P
  | .inl j => ee (cvarD k (m + k + k : ℕ)) j
  | .inr (.inl r) => C (1 / 4) * qd (cvarD k (m + k + k : ℕ)) r
  | .inr (.inr true) => C (1 / 4) * (qd (cvarD k (m + k + k : ℕ)) k - dl k (m + k + k : ℕ) ^ 2)
  | .inr (.inr false) => dl k (m + k + k : ℕ) * ee (cvarD k (m + k + k : ℕ)) (m + 1)

/-- degrees of the relations -/
def dRelD (m k : ℕ) : RelIxD m k → ℕ
  | .inl j => j
  | .inr (.inl r) => 2 * r
  | .inr (.inr true) => 2 * k
  | .inr (.inr false) => k + (m + 1)

theorem relD_hom {m k : ℕ} (hk : 0 < k) (δ : ℕ) (i : RelIxD m k) : IsWeightedHomogeneous (wSym δ) (relD' m k i) (dRelD m k i) := by
  have hc := cvarD_hom (k := k) (m + k + k : ℕ) δ
  have he := eeG_hom (cvarD_zero (K := (m + k + k : ℕ)) (k := k) (by omega)) (cvarD_neg (by omega)) δ hc
  rcases i with j | r | b
  · exact he j
  · have := (isWeightedHomogeneous_C (wSym δ) (1 / 4 : ℚ)).mul (qd_hom δ hc r)
    rwa [zero_add] at this
  · cases b
    · exact (dl_hom _ δ).mul (he _)
    · have h1 := (isWeightedHomogeneous_C (wSym δ) (-1 : ℚ)).mul ((dl_hom (k := k) (m + k + k : ℕ) δ).pow 2)
      rw [zero_add, smul_eq_mul] at h1
      have h2 := (isWeightedHomogeneous_C (wSym δ) (1 / 4 : ℚ)).mul ((qd_hom δ hc k).add h1)
      rw [zero_add, C_neg, C_1, neg_one_mul, ← sub_eq_add_neg] at h2
      exact h2

theorem relD_supp {m k : ℕ} (hk : 0 < k) (i : RelIxD m k) : relD' m k i ∈ supported ℚ (specialSet (spcD (m + k) k)) := by
  rcases i with j | r | b
  · exact eeD_supp hk j
  · exact Subalgebra.mul_mem _ (Subalgebra.algebraMap_mem _ _) (qdD_supp hk r)
  · cases b
    · exact Subalgebra.mul_mem _ (dl_supp hk) (eeD_supp hk _)
    · exact Subalgebra.mul_mem _ (Subalgebra.algebraMap_mem _ _) (Subalgebra.sub_mem _ (qdD_supp hk k) (Subalgebra.pow_mem _ (dl_supp hk) _))

/-! ### Spanning -/

section
variable {A : Type*} [CommRing A] [Algebra ℚ A] [Algebra (Polynomial ℚ) A] {n k : ℕ}

theorem map_suppD (φ : P →+* A) (hθ : ∀ a, algebraMap (Polynomial ℚ) A a = φ (inq a)) (hk : 0 < k) {x : P}
    (hx : x ∈ supported ℚ (specialSet (spcD n k))) :
    φ x ∈ Algebra.adjoin (Polynomial ℚ) (Set.range (fun p => φ (cvarD k (n + k : ℕ) p)) ∪ {φ (dl k (n + k : ℕ))}) := by
  have hq : ∀ a : ℚ, φ (C a) = algebraMap (Polynomial ℚ) A (Polynomial.C a) := by
    intro a
    rw [hθ]
    simp [inq]
  have hc : ∀ p, φ (cvarD k (n + k : ℕ) p) ∈ Algebra.adjoin (Polynomial ℚ) (Set.range (fun p => φ (cvarD k (n + k : ℕ) p)) ∪ {φ (dl k (n + k : ℕ))}) :=
    fun p => Algebra.subset_adjoin (Or.inl ⟨p, rfl⟩)
  have hd : φ (dl k (n + k : ℕ)) ∈ Algebra.adjoin (Polynomial ℚ) (Set.range (fun p => φ (cvarD k (n + k : ℕ) p)) ∪ {φ (dl k (n + k : ℕ))}) :=
    Algebra.subset_adjoin (Or.inr rfl)
  have h2 : (C (1 / 2) : P) * 2 = 1 := by
    rw [show (2 : P) = C 2 from (map_ofNat C 2).symm, ← C_mul]
    norm_num
  have hv : ∀ p : ℤ, 1 ≤ p → p ≤ (n + k : ℕ) → hvar (n + k : ℕ) p = MvPolynomial.X (.S [p]) := fun p h1 h2 => by
    rw [hvar, if_neg (by omega), if_pos (by omega)]
  have hck : cvarD k (n + k : ℕ) k = hvar (n + k : ℕ) k + MvPolynomial.X (.S [(k : ℤ), 0]) := by
    unfold cvarD
    rw [if_neg (by omega), if_pos rfl]
  replace hx : x ∈ Algebra.adjoin ℚ ((MvPolynomial.X : Sym → P) '' specialSet (spcD n k)) := hx
  induction hx using Algebra.adjoin_induction with
  | mem s hs =>
    obtain ⟨t, ht, rfl⟩ := hs
    rcases ht with rfl | ⟨p, ⟨h1, h3⟩ | ⟨h1, rfl⟩, rfl⟩
    · have : φ (MvPolynomial.X Sym.q) = algebraMap (Polynomial ℚ) A Polynomial.X := by rw [hθ]; simp [inq]
      rw [this]
      exact Subalgebra.algebraMap_mem _ _
    · rw [num2spec_pos h1, ← hv p h1 (by push_cast; omega)]
      rcases lt_trichotomy p k with h4 | h4 | h4
      · have := hc p
        unfold cvarD at this
        rwa [if_pos h4] at this
      · have e : hvar (n + k : ℕ) p = C (1 / 2) * (cvarD k (n + k : ℕ) k + dl k (n + k : ℕ)) := by
          rw [hck, dl, h4]
          linear_combination (-hvar (n + k : ℕ) k) * h2
        rw [e, map_mul, map_add, hq]
        exact Subalgebra.mul_mem _ (Subalgebra.algebraMap_mem _ _) (Subalgebra.add_mem _ (hc _) hd)
      · have e : hvar (n + k : ℕ) p = C (1 / 2) * cvarD k (n + k : ℕ) p := by
          unfold cvarD
          rw [if_neg (by omega), if_neg (by omega), ← mul_assoc, h2, one_mul]
        rw [e, map_mul, hq]
        exact Subalgebra.mul_mem _ (Subalgebra.algebraMap_mem _ _) (hc _)
    · have e : (MvPolynomial.X (.S (num2spec (-(k : ℤ)))) : P) = C (1 / 2) * (cvarD k (n + k : ℕ) k - dl k (n + k : ℕ)) := by
        unfold num2spec
        rw [if_neg (by omega), neg_neg, hck, dl]
        linear_combination (-MvPolynomial.X (.S [(k : ℤ), 0])) * h2
      rw [e, map_mul, map_sub, hq]
      exact Subalgebra.mul_mem _ (Subalgebra.algebraMap_mem _ _) (Subalgebra.sub_mem _ (hc _) hd)
  | algebraMap a =>
    have : φ (algebraMap ℚ P a) = algebraMap (Polynomial ℚ) A (Polynomial.C a) := hq a
    rw [this]
    exact Subalgebra.algebraMap_mem _ _
  | add a b _ _ ha hb => rw [map_add]; exact Subalgebra.add_mem _ ha hb
  | mul a b _ _ ha hb => rw [map_mul]; exact Subalgebra.mul_mem _ ha hb

end

section
variable {X : Space} {pieri pieri' : Int → List Int → Except PyErr Poly} {m k B : ℕ}

theorem span_quotD {I : Ideal P} (h : ∀ i : RelIxD m (k + 1), relD' m (k + 1) i ∈ I) :
    ∃ g : Fin (2 ^ (m + 1) * (m + 1 + (k + 1)).choose (k + 1)) → P, ∀ x ∈ supported ℚ (specialSet (spcD (m + (k + 1)) (k + 1))),
      ∃ a : Fin (2 ^ (m + 1) * (m + 1 + (k + 1)).choose (k + 1)) → Polynomial ℚ, x - ∑ t, inq (a t) * g t ∈ I := by
  letI : Algebra (Polynomial ℚ) (P ⧸ I) :=
    ((Ideal.Quotient.mk I).comp (Polynomial.aeval (MvPolynomial.X Sym.q : P) : Polynomial ℚ →ₐ[ℚ] P).toRingHom).toAlgebra
  have hθ : ∀ a, algebraMap (Polynomial ℚ) (P ⧸ I) a = Ideal.Quotient.mk I (inq a) := fun a => rfl
  have h4 : ∀ x : P, C (1 / 4) * x ∈ I → x ∈ I := by
    intro x hx
    have := Ideal.mul_mem_left I 4 hx
    rwa [← mul_assoc, mul_comm 4, P4, one_mul] at this
  have hz : ∀ {x : P}, x ∈ I → Ideal.Quotient.mk I x = 0 := fun h => Ideal.Quotient.eq_zero_iff_mem.2 h
  have hqd : ∀ r, qd (fun p => Ideal.Quotient.mk I (cvarD (k + 1 : ℕ) (m + (k + 1) + (k + 1) : ℕ) p)) r =
      Ideal.Quotient.mk I (qd (cvarD (k + 1 : ℕ) (m + (k + 1) + (k + 1) : ℕ)) r) := by
    intro r
    rw [qd, qd]
    simp only [map_add, map_mul, map_pow, map_sum, map_neg, map_one, map_ofNat]
  obtain ⟨g, hg⟩ := span_D (c := fun p => Ideal.Quotient.mk I (cvarD (k + 1 : ℕ) (m + (k + 1) + (k + 1) : ℕ) p))
    (δ := Ideal.Quotient.mk I (dl (k + 1 : ℕ) (m + (k + 1) + (k + 1) : ℕ))) (m := m) (k := k)
    (by beta_reduce; rw [cvarD_zero (by omega), map_one]) (fun p hp => by beta_reduce; rw [cvarD_neg (by omega) p hp, map_zero])
    (fun p hp => by beta_reduce; rw [cvarD_big (by omega) (by omega) (by push_cast at hp ⊢; omega), map_zero])
    (fun j h1 h2 => (map_ee (Ideal.Quotient.mk I) _ j).symm.trans (hz (h (.inl ⟨j, h1, by omega⟩))))
    (fun r h1 h2 => (hqd r).trans (hz (h4 _ (h (.inr (.inl ⟨r, h1, by omega⟩))))))
    (by
      rw [hqd, ← map_pow, eq_comm, ← sub_eq_zero, ← map_sub]
      exact hz (h4 _ (h (.inr (.inr true)))))
    (by
      have := hz (h (.inr (.inr false)))
      rw [relD', map_mul, map_ee] at this
      exact this)
  choose g' hg' using fun t => Ideal.Quotient.mk_surjective (I := I) (g t)
  refine ⟨g', fun x hx => ?_⟩
  obtain ⟨a, ha⟩ := hg _ (map_suppD (Ideal.Quotient.mk I) hθ (by omega) hx)
  refine ⟨a, Ideal.Quotient.eq_zero_iff_mem.1 ?_⟩
  rw [map_sub, sub_eq_zero, map_sum]
  refine Eq.trans ha (Finset.sum_congr rfl fun t _ => ?_)
  rw [map_mul, hθ, hg']

/-- **The presentation of the classical rings.** -/
theorem pres_clD (Z : RingOn X pieri (spcD (m + (k + 1)) (k + 1)) (clsD (m + (k + 1)) (k + 1)) B)
    (hz : ∀ i, Z.Y.act (relD' m (k + 1) i) (Finsupp.single [] 1) = 0) {e : P}
    (he : e ∈ supported ℚ (specialSet (spcD (m + (k + 1)) (k + 1)))) (h : Z.Y.act e (Finsupp.single [] 1) = 0) :
    e ∈ Ideal.span (Set.range (relD' m (k + 1))) := by
  obtain ⟨g, hg⟩ := span_quotD (m := m) (k := k) (I := Ideal.span (Set.range (relD' m (k + 1)))) (fun i => Ideal.subset_span ⟨i, rfl⟩)
  refine zero_of_span Z (fun u : WdD (m + (k + 1)) (k + 1) => labD u)
    (fun l => ?_) (fun u w hu => Subtype.ext (WdD_inj _ u.2 _ w.2 hu)) ?_ (g := g) hg (ideal_zero Z (by rintro _ ⟨i, rfl⟩; exact hz i)) he h
  · rw [WdD_cls (by omega)]
    exact ⟨fun ⟨u, hu, h⟩ => ⟨⟨u, hu⟩, h⟩, fun ⟨u, h⟩ => ⟨u, u.2, h⟩⟩
  · rw [Fintype.card_fin, Fintype.card_coe, card_WdD_succ (by omega), show m + (k + 1) - k = m + 1 by omega,
      show m + (k + 1) + 1 = m + 1 + (k + 1) by omega]

end

end Verif
