import Verif.Proofs.PresLift
import Verif.Proofs.ColRing
import Verif.Props.PresentationBC
/-!
# Presentations of the rings of `IG(n-k, 2n)` and `OG(n-k, 2n+1)`
-/

namespace Verif
open Spec MvPolynomial

/-- the quadratic relation -/
noncomputable def Qd (K : ℕ) (κ : ℕ → ℚ) (r : ℕ) : P :=
  cv K κ r ^ 2 + 2 * ∑ i ∈ Finset.Icc 1 r, (-1) ^ i * (cv K κ ((r + i : ℕ) : ℤ) * cv K κ ((r - i : ℕ) : ℤ))

/-- indices of the relations -/
abbrev RelIx (m k : ℕ) : Type := {j : ℕ // m + 1 < j ∧ j ≤ m + 1 + k + k} ⊕ {r : ℕ // k < r ∧ r ≤ m + 1 + k}

/-- the classical relations -/
noncomputable def relBC (m k : ℕ) (κ : ℕ → ℚ) (u : ℚ) : RelIx m k → P
  | .inl j => ee (cv (m + 1 + k + k) κ) j
  | .inr r => C u * Qd (m + 1 + k + k) κ r

section
variable {K : ℕ} {κ : ℕ → ℚ}

theorem cv_supp (p : ℤ) : cv K κ p ∈ supported ℚ (specialSet (stdSpc K)) := by
  unfold cv hvar
  refine Subalgebra.mul_mem _ (Subalgebra.algebraMap_mem _ _) ?_
  split
  · exact Subalgebra.one_mem _
  · split
    · rename_i h
      rw [X_mem_supported]
      exact Or.inr ⟨p, ⟨by omega, by omega⟩, by rw [num2spec_pos (by omega)]⟩
    · exact Subalgebra.zero_mem _

theorem ee_supp (j : ℕ) : ee (cv K κ) j ∈ supported ℚ (specialSet (stdSpc K)) := by
  unfold ee
  rw [Matrix.det_apply]
  exact Subalgebra.sum_mem _ fun σ _ => zsmul_mem (Subalgebra.prod_mem _ fun i _ => cv_supp _) _

theorem Qd_supp (r : ℕ) : Qd K κ r ∈ supported ℚ (specialSet (stdSpc K)) := by
  unfold Qd
  refine Subalgebra.add_mem _ (Subalgebra.pow_mem _ (cv_supp _) _) (Subalgebra.mul_mem _ ?_ (Subalgebra.sum_mem _ fun i _ =>
    Subalgebra.mul_mem _ (Subalgebra.pow_mem _ (Subalgebra.neg_mem _ (Subalgebra.one_mem _)) _) (Subalgebra.mul_mem _ (cv_supp _) (cv_supp _))))
  exact ofNat_mem _ 2

theorem cv_hom (δ p : ℕ) : IsWeightedHomogeneous (wSym δ) (cv K κ p) p := by
  unfold cv hvar
  have h : IsWeightedHomogeneous (wSym δ) (if (p : ℤ) = 0 then (1 : P) else if 0 < (p : ℤ) ∧ (p : ℤ) ≤ K then X (.S [(p : ℤ)]) else 0) p := by
    split
    · obtain rfl : p = 0 := by omega
      exact isWeightedHomogeneous_one ℚ _
    · split
      · have := isWeightedHomogeneous_X ℚ (wSym δ) (.S [(p : ℤ)])
        simpa [wSym] using this
      · exact isWeightedHomogeneous_zero ℚ _ _
  have := (isWeightedHomogeneous_C (wSym δ) (κ (p : ℤ).toNat)).mul h
  rwa [zero_add] at this

theorem neg_hom {δ n : ℕ} {x : P} (h : IsWeightedHomogeneous (wSym δ) x n) (i : ℕ) : IsWeightedHomogeneous (wSym δ) ((-1) ^ i * x) n := by
  have := (isWeightedHomogeneous_C (wSym δ) ((-1) ^ i : ℚ)).mul h
  rwa [zero_add, neg_one_C] at this

theorem ee_hom (h0 : κ 0 = 1) (δ j : ℕ) : IsWeightedHomogeneous (wSym δ) (ee (cv K κ) j) j := by
  induction j using Nat.strong_induction_on with
  | _ j ih =>
    by_cases h : j = 0
    · subst h
      rw [ee_zero]
      exact isWeightedHomogeneous_one ℚ _
    · have h1 := newton (cv_zero (K := K) h0) (cv_neg κ) (p := j) (by omega)
      rw [Finset.sum_range_succ, sub_self, cv_zero h0, mul_one] at h1
      have h2 : ee (cv K κ) j = (-1) ^ (j + 1) * ∑ i ∈ Finset.range j, (-1) ^ i * ee (cv K κ) i * cv K κ ((j : ℤ) - i) := by
        have h3 := neg_pow_mul_self (R := P) j
        rw [pow_succ]
        linear_combination (-1) ^ j * h1 - ee (cv K κ) j * h3
      rw [h2]
      refine neg_hom (IsWeightedHomogeneous.sum _ _ _ fun i hi => ?_) _
      rw [Finset.mem_range] at hi
      have h4 := (ih i hi).mul (cv_hom (K := K) (κ := κ) δ (j - i))
      rw [Nat.add_sub_cancel' hi.le, Nat.cast_sub hi.le] at h4
      rw [mul_assoc]
      exact neg_hom h4 _

theorem Qd_hom (δ r : ℕ) : IsWeightedHomogeneous (wSym δ) (Qd K κ r) (2 * r) := by
  unfold Qd
  refine IsWeightedHomogeneous.add ?_ ?_
  · have := (cv_hom (K := K) (κ := κ) δ r).pow 2
    rwa [smul_eq_mul] at this
  · have h2 : (2 : P) = C 2 := (map_ofNat C 2).symm
    rw [h2]
    have := (isWeightedHomogeneous_C (wSym δ) (2 : ℚ)).mul (IsWeightedHomogeneous.sum (Finset.Icc 1 r)
      (fun i : ℕ => (-1) ^ i * (cv K κ ((r + i : ℕ) : ℤ) * cv K κ ((r - i : ℕ) : ℤ))) (2 * r) fun i hi => by
        rw [Finset.mem_Icc] at hi
        have h4 := (cv_hom (K := K) (κ := κ) δ (r + i)).mul (cv_hom (K := K) (κ := κ) δ (r - i))
        rw [show r + i + (r - i) = 2 * r by omega] at h4
        exact neg_hom h4 i)
    rwa [zero_add] at this

end

section
variable {X : Space} {pieri pieri' : Int → List Int → Except PyErr Poly} {n k m B : ℕ} {κ : ℕ → ℚ}

/-- products of special classes -/
theorem act_cv2 (hk : k < n) (Z : RingOn X pieri (stdSpc (n + k)) (clsBC n k) B) {a b : ℕ} (ha : a ≤ n + k) (hb : b ≤ n + k) :
    Z.Y.act (cv (n + k) κ a * cv (n + k) κ b) (Finsupp.single [] 1) =
      (Polynomial.C (κ a) * Polynomial.C (κ b)) • Z.Y.prod (Finsupp.single (rowS a) 1) (Finsupp.single (rowS b) 1) := by
  have hc : ∀ p ≤ n + k, clsBC n k (rowS p) := by
    intro p hp
    unfold Spec.rowS
    split
    · exact clsBC_nil hk.le
    · exact clsBC_row hk (by omega) (by omega)
  have h1 : ∀ x : LMod, (∀ l ∈ x.support, clsBC n k l) → Z.Y.prod x (Finsupp.single [] 1) = x := fun x hx => Z.Y.prod_one Z.nil hx
  have hv : ∀ p ≤ n + k, Z.Y.act (hvar (n + k : ℕ) (p : ℕ)) (Finsupp.single [] 1) = Finsupp.single (rowS p) 1 := by
    intro p hp
    unfold hvar rowS
    by_cases h : p = 0
    · subst h
      simp
    · have hs : stdSpc (n + k) (p : ℤ) := ⟨by omega, by push_cast; omega⟩
      have h1 := Z.Y.act_special hs (Finsupp.single [] 1)
      rw [num2spec_pos (by omega)] at h1
      have h2 := Z.unit _ hs (by rw [num2spec_pos (by omega)]; exact clsBC_row hk (by omega) (by omega))
      rw [num2spec_pos (by omega)] at h2
      rw [if_neg (by omega), if_pos (by omega), if_neg (by omega), h1]
      simp [lin, h2]
  have h2 : Z.Y.act (hvar (n + k : ℕ) (a : ℕ) * hvar (n + k : ℕ) (b : ℕ)) (Finsupp.single [] 1) =
      Z.Y.prod (Finsupp.single (rowS a) 1) (Finsupp.single (rowS b) 1) := by
    rw [map_mul, Module.End.mul_apply, hv b hb]
    conv_lhs => rw [← h1 _ (supp_single (hc b hb) 1)]
    unfold GiamSys.prod
    rw [Z.Y.act_comm, hv a ha]
    exact Z.Y.prod_comm (supp_single (hc b hb) 1) (supp_single (hc a ha) 1)
  have h3 : cv (n + k) κ a * cv (n + k) κ b = C (κ a) * (C (κ b) * (hvar (n + k : ℕ) (a : ℕ) * hvar (n + k : ℕ) (b : ℕ))) := by
    unfold cv
    simp only [Int.toNat_natCast]
    ring
  rw [h3, map_mul, Module.End.mul_apply, Z.Y.act_C, map_mul, Module.End.mul_apply, Z.Y.act_C, h2, smul_smul]

/-- the quadratic relations as operators -/
theorem act_Qd (hk : k < n) (Z : RingOn X pieri (stdSpc (n + k)) (clsBC n k) B) {r : ℕ} (hr : r ≤ n + k) {y : LMod}
    (h : (Polynomial.C (κ r) * Polynomial.C (κ r)) • Z.Y.prod (Finsupp.single (rowS r) 1) (Finsupp.single (rowS r) 1) + (2 : ℤ) •
      ∑ i ∈ (Finset.Icc 1 r).filter (fun i => r + i ≤ n + k), ((-1) ^ i : ℤ) • (Polynomial.C (κ (r + i)) * Polynomial.C (κ (r - i))) •
        Z.Y.prod (Finsupp.single (rowS (r + i)) 1) (Finsupp.single (rowS (r - i)) 1) = y) :
    Z.Y.act (Qd (n + k) κ r) (Finsupp.single [] 1) = y := by
  rw [← h, Qd, map_add, LinearMap.add_apply, pow_two, act_cv2 hk Z hr hr]
  congr 1
  rw [two_mul, map_add, LinearMap.add_apply, two_zsmul]
  have : Z.Y.act (∑ i ∈ Finset.Icc 1 r, (-1) ^ i * (cv (n + k) κ ((r + i : ℕ) : ℤ) * cv (n + k) κ ((r - i : ℕ) : ℤ))) (Finsupp.single [] 1) =
      ∑ i ∈ (Finset.Icc 1 r).filter (fun i => r + i ≤ n + k), ((-1) ^ i : ℤ) • (Polynomial.C (κ (r + i)) * Polynomial.C (κ (r - i))) •
        Z.Y.prod (Finsupp.single (rowS (r + i)) 1) (Finsupp.single (rowS (r - i)) 1) := by
    rw [map_sum, LinearMap.sum_apply, Finset.sum_filter]
    refine Finset.sum_congr rfl fun i hi => ?_
    rw [Finset.mem_Icc] at hi
    split
    · rename_i h2
      rw [map_mul, Module.End.mul_apply, map_pow, map_neg, map_one, negpow_apply, act_cv2 hk Z h2 (by omega)]
    · rename_i h2
      rw [cv_big κ (by push_cast; omega), zero_mul, mul_zero, map_zero, LinearMap.zero_apply]
  rw [this]

end

section
variable {A : Type*} [CommRing A] [Algebra ℚ A] [Algebra (Polynomial ℚ) A] {κ : ℕ → ℚ} {m k : ℕ}

theorem map_supp (φ : P →+* A) (hθ : ∀ a, algebraMap (Polynomial ℚ) A a = φ (inq a)) {K : ℕ} (hκ : ∀ p, κ p ≠ 0) {x : P}
    (hx : x ∈ supported ℚ (specialSet (stdSpc K))) : φ x ∈ Algebra.adjoin (Polynomial ℚ) (Set.range fun p => φ (cv K κ p)) := by
  replace hx : x ∈ Algebra.adjoin ℚ ((MvPolynomial.X : Sym → P) '' specialSet (stdSpc K)) := hx
  induction hx using Algebra.adjoin_induction with
  | mem s hs =>
    obtain ⟨t, ht, rfl⟩ := hs
    rcases ht with rfl | ⟨p, ⟨h1, h2⟩, rfl⟩
    · have : φ (MvPolynomial.X Sym.q) = algebraMap (Polynomial ℚ) A Polynomial.X := by rw [hθ]; simp [inq]
      rw [this]
      exact Subalgebra.algebraMap_mem _ _
    · rw [num2spec_pos h1]
      have : φ (MvPolynomial.X (Sym.S [p])) = algebraMap (Polynomial ℚ) A (Polynomial.C (κ p.toNat)⁻¹) * φ (cv K κ p) := by
        rw [hθ, ← map_mul, show inq (Polynomial.C (κ p.toNat)⁻¹) = C (κ p.toNat)⁻¹ by simp [inq], cv, ← mul_assoc, ← C_mul,
          inv_mul_cancel₀ (hκ _), C_1, one_mul, hvar, if_neg (by omega), if_pos (by omega)]
      rw [this]
      exact Subalgebra.mul_mem _ (Subalgebra.algebraMap_mem _ _) (Algebra.subset_adjoin ⟨p, rfl⟩)
  | algebraMap a =>
    have : φ (algebraMap ℚ P a) = algebraMap (Polynomial ℚ) A (Polynomial.C a) := by rw [hθ]; simp [inq]
    rw [this]
    exact Subalgebra.algebraMap_mem _ _
  | add a b _ _ ha hb => rw [map_add]; exact Subalgebra.add_mem _ ha hb
  | mul a b _ _ ha hb => rw [map_mul]; exact Subalgebra.mul_mem _ ha hb

theorem span_map (φ : P →+* A) (hθ : ∀ a, algebraMap (Polynomial ℚ) A a = φ (inq a)) (hs : Function.Surjective φ) (h0 : κ 0 = 1)
    (hκ : ∀ p, κ p ≠ 0) (hdet : ∀ j, m + 1 < j → j ≤ m + 1 + k + k → φ (ee (cv (m + 1 + k + k) κ) j) = 0)
    (hquad : ∀ r, k < r → r ≤ m + 1 + k → φ (Qd (m + 1 + k + k) κ r) = 0) :
    ∃ g : Fin ((m + 1 + k).choose (m + 1)) × (Finset.Icc 1 (m + 1)).powerset → P,
      ∀ x ∈ supported ℚ (specialSet (stdSpc (m + 1 + k + k))), ∃ a : Fin ((m + 1 + k).choose (m + 1)) × (Finset.Icc 1 (m + 1)).powerset → Polynomial ℚ,
        φ (x - ∑ t, inq (a t) * g t) = 0 := by
  obtain ⟨g, hg⟩ := span_BC (c := fun p => φ (cv (m + 1 + k + k) κ p)) (m := m) (k := k) (by beta_reduce; rw [cv_zero h0, map_one])
    (fun p hp => by beta_reduce; rw [cv_neg κ p hp, map_zero])
    (fun p hp => by beta_reduce; rw [cv_big κ (by push_cast; omega), map_zero]) (by
      intro j h1 h2
      exact Eq.trans (map_ee φ (cv (m + 1 + k + k) κ) j).symm (hdet j h1 (by omega))) (by
      intro r h1 h2
      rw [← hquad r h1 h2, Qd]
      simp only [map_add, map_mul, map_pow, map_sum, map_neg, map_one, map_ofNat])
  choose g' hg' using fun t => hs (g t)
  refine ⟨g', fun x hx => ?_⟩
  obtain ⟨a, ha⟩ := hg _ (map_supp φ hθ hκ hx)
  refine ⟨a, ?_⟩
  rw [map_sub, sub_eq_zero, map_sum]
  refine Eq.trans ha (Finset.sum_congr rfl fun t _ => ?_)
  rw [map_mul, hθ, hg']

end

section
variable {X : Space} {pieri pieri' : Int → List Int → Except PyErr Poly} {k m B : ℕ} {κ : ℕ → ℚ}

theorem span_quot (h0 : κ 0 = 1) (hκ : ∀ p, κ p ≠ 0) {I : Ideal P} (hdet : ∀ j, m + 1 < j → j ≤ m + 1 + k + k → ee (cv (m + 1 + k + k) κ) j ∈ I)
    (hquad : ∀ r, k < r → r ≤ m + 1 + k → Qd (m + 1 + k + k) κ r ∈ I) :
    ∃ g : Fin ((m + 1 + k).choose (m + 1)) × (Finset.Icc 1 (m + 1)).powerset → P,
      ∀ x ∈ supported ℚ (specialSet (stdSpc (m + 1 + k + k))), ∃ a : Fin ((m + 1 + k).choose (m + 1)) × (Finset.Icc 1 (m + 1)).powerset → Polynomial ℚ,
        x - ∑ t, inq (a t) * g t ∈ I := by
  letI : Algebra (Polynomial ℚ) (P ⧸ I) :=
    ((Ideal.Quotient.mk I).comp (Polynomial.aeval (MvPolynomial.X Sym.q : P) : Polynomial ℚ →ₐ[ℚ] P).toRingHom).toAlgebra
  obtain ⟨g, hg⟩ := span_map (m := m) (k := k) (Ideal.Quotient.mk I) (fun a => rfl) Ideal.Quotient.mk_surjective h0 hκ
    (fun j h1 h2 => Ideal.Quotient.eq_zero_iff_mem.2 (hdet j h1 h2)) (fun r h1 h2 => Ideal.Quotient.eq_zero_iff_mem.2 (hquad r h1 h2))
  refine ⟨g, fun x hx => ?_⟩
  obtain ⟨a, ha⟩ := hg x hx
  exact ⟨a, Ideal.Quotient.eq_zero_iff_mem.1 ha⟩

/-- **The presentation of the classical rings.** -/
theorem pres_cl (Z : RingOn X pieri (stdSpc (m + 1 + k + k)) (clsBC (m + 1 + k) k) B) (h0 : κ 0 = 1) (hκ : ∀ p, κ p ≠ 0) {u : ℚ}
    (hu : u ≠ 0) (hz : ∀ i, Z.Y.act (relBC m k κ u i) (Finsupp.single [] 1) = 0) {e : P}
    (he : e ∈ supported ℚ (specialSet (stdSpc (m + 1 + k + k)))) (h : Z.Y.act e (Finsupp.single [] 1) = 0) :
    e ∈ Ideal.span (Set.range (relBC m k κ u)) := by
  obtain ⟨g, hg⟩ := span_quot (m := m) (k := k) h0 hκ (I := Ideal.span (Set.range (relBC m k κ u)))
    (fun j h1 h2 => Ideal.subset_span ⟨.inl ⟨j, h1, h2⟩, rfl⟩) (by
      intro r h1 h2
      have : relBC m k κ u (.inr ⟨r, h1, h2⟩) ∈ Ideal.span (Set.range (relBC m k κ u)) := Ideal.subset_span ⟨_, rfl⟩
      have h3 := Ideal.mul_mem_left _ (C u⁻¹) this
      rwa [relBC, ← mul_assoc, ← C_mul, inv_mul_cancel₀ hu, C_1, one_mul] at h3)
  refine zero_of_span Z (τ := Fin ((m + 1 + k).choose (m + 1)) × (Finset.Icc 1 (m + 1)).powerset) (fun u : Wd (m + 1 + k) k => labW u)
    (fun l => ?_) (fun u w hu => Subtype.ext (Wd_inj _ u.2 _ w.2 hu)) ?_ (g := g) hg (fun x hx => ?_) he h
  · rw [Wd_cls (by omega)]
    exact ⟨fun ⟨u, hu, h⟩ => ⟨⟨u, hu⟩, h⟩, fun ⟨u, h⟩ => ⟨u, u.2, h⟩⟩
  · rw [Fintype.card_prod, Fintype.card_fin, Fintype.card_coe, Fintype.card_coe, card_Wd (by omega), Finset.card_powerset, Nat.card_Icc,
      Nat.choose_symm_add, Nat.add_sub_cancel, Nat.add_sub_cancel, mul_comm]
  · clear he h
    induction hx using Submodule.span_induction with
    | mem x hx =>
      obtain ⟨i, rfl⟩ := hx
      exact hz i
    | zero => simp
    | add x y _ _ hx hy => rw [map_add, LinearMap.add_apply, hx, hy, add_zero]
    | smul a x _ hx => rw [smul_eq_mul, map_mul, Module.End.mul_apply, hx, map_zero]

end

end Verif
