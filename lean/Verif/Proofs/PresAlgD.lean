import Verif.Props.PresentationBC2
/-!
# Algebra for the presentations of the rings of `OG(m, 2m+2k)`
-/

namespace Verif
open Spec

section
open Polynomial
variable {A : Type*} [CommRing A] [Algebra ℚ A]

/-- If the degree of `f` is smaller by one, one more condition replaces the last equations. -/
theorem dual_squareD {f D : A[X]} {m k : ℕ} (hf : f.natDegree + 1 ≤ m + 2 * k) (hD : D.natDegree ≤ m) (f0 : f.coeff 0 = 1)
    (h1 : X ^ (m + 2 * k) ∣ f * D - 1) (h2 : ∀ r, k < r → r < m + k → (f * f.comp (-X)).coeff (2 * r) = 0)
    (h3 : D.coeff m * (f * f.comp (-X)).coeff (2 * k) = 0) :
    f * D = 1 ∧ ∀ r, k < r → (f * f.comp (-X)).coeff (2 * r) = 0 := by
  set g := f * f.comp (-X) with hg
  set Q := cut (2 * k) g with hQ
  have hgg : g.comp (-X) = g := by rw [hg, mul_comp, ng_ng, mul_comm]
  have hQQ : Q.comp (-X) = Q := by
    ext i
    rw [ng_coeff, hQ, coeff_cut]
    split
    · have := congrArg (fun p => p.coeff i) hgg
      simpa only [ng_coeff] using this
    · rw [mul_zero]
  have hdvd : X ^ (2 * (m + k)) ∣ g - Q := by
    rw [X_pow_dvd_iff]
    intro d hd
    rw [coeff_sub, hQ, coeff_cut]
    split
    · rw [sub_self]
    · rename_i h
      rw [sub_zero]
      rcases Nat.mod_two_eq_zero_or_one d with h3 | h3
      · obtain ⟨r, rfl⟩ : ∃ r, d = 2 * r := ⟨d / 2, by omega⟩
        exact h2 r (by omega) (by omega)
      · exact odd_coeff hgg h3
  have a3 := ng_deg f
  have a4 := cut_deg (2 * k) g
  rw [← hQ] at a4
  have h4 : f.comp (-X) = D * Q := by
    have e : f.comp (-X) - D * Q = D * (g - Q) - (f * D - 1) * f.comp (-X) := by rw [hg]; ring
    have e2 : X ^ (m + 2 * k) ∣ f.comp (-X) - D * Q := by
      rw [e]
      exact dvd_sub (((pow_dvd_pow X (by omega)).trans hdvd).mul_left _) (h1.mul_right _)
    rw [← sub_eq_zero]
    ext d
    rw [coeff_zero]
    by_cases c : d < m + 2 * k
    · exact X_pow_dvd_iff.1 e2 d c
    · rw [coeff_sub, coeff_eq_zero_of_natDegree_lt (show (f.comp (-X)).natDegree < d by omega), zero_sub, neg_eq_zero]
      by_cases c2 : d = m + 2 * k
      · rw [c2, coeff_mul_add_eq_of_natDegree_le hD a4, hQ, coeff_cut, if_pos le_rfl, h3]
      · have a2 := natDegree_mul_le (p := D) (q := Q)
        exact coeff_eq_zero_of_natDegree_lt (by omega)
  have h5 : f = D.comp (-X) * Q := by
    conv_lhs => rw [← ng_ng f, h4, mul_comp, hQQ]
  have h6 : f * D = 1 := by
    rw [← sub_eq_zero]
    refine zero_of_dvd (N := 2 * (m + k)) (dvd_of_unit (Q := Q) ?_ ?_) ?_
    · rw [hQ, coeff_cut, if_pos (Nat.zero_le _), hg, mul_coeff_zero, ng_coeff, f0]
      simp
    · have e : Q * (f * D - 1) = g - Q := by
        rw [hg, h4]
        ring
      rw [e]
      exact hdvd
    · have a1 := natDegree_sub_le (f * D) 1
      have a2 := natDegree_mul_le (p := f) (q := D)
      rw [natDegree_one] at a1
      omega
  refine ⟨h6, fun r hr => ?_⟩
  have h7 : g = Q := by
    rw [hg, h4]
    linear_combination Q * h6
  rw [h7, hQ, coeff_cut, if_neg (by omega)]

end

section
variable {A : Type*} [CommRing A]

/-- the quadratic expression -/
def qd (c : ℤ → A) (r : ℕ) : A := c r ^ 2 + 2 * ∑ i ∈ Finset.Icc 1 r, (-1) ^ i * (c ((r + i : ℕ) : ℤ) * c ((r - i : ℕ) : ℤ))

/-- All determinants of more than `m` ones and all quadratic expressions vanish. -/
theorem strongD [Algebra ℚ A] {c : ℤ → A} {m k : ℕ} (hmk : 0 < m + 2 * k) (c0 : c 0 = 1) (cneg : ∀ p < 0, c p = 0)
    (cbig : ∀ p, (m + 2 * k : ℤ) ≤ p → c p = 0)
    (hdet : ∀ j, m < j → j < m + 2 * k → ee c j = 0) (hquad : ∀ r : ℕ, k < r → r < m + k → qd c r = 0) (hm : ee c m * qd c k = 0) :
    (∀ j, m < j → ee c j = 0) ∧ ∀ r : ℕ, k < r → qd c r = 0 := by
  let f : Polynomial A := ∑ p ∈ Finset.range (m + 2 * k), Polynomial.monomial p (c p)
  have hf : ∀ p : ℕ, f.coeff p = c p := by
    intro p
    simp only [f, Polynomial.finsetSum_coeff, Polynomial.coeff_monomial, Finset.sum_ite_eq', Finset.mem_range]
    split
    · rfl
    · exact (cbig p (by omega)).symm
  let D : Polynomial A := ∑ j ∈ Finset.range (m + 1), Polynomial.monomial j ((-1) ^ j * ee c j)
  have hD : ∀ j : ℕ, D.coeff j = if j ≤ m then (-1) ^ j * ee c j else 0 := by
    intro j
    simp only [D, Polynomial.finsetSum_coeff, Polynomial.coeff_monomial, Finset.sum_ite_eq', Finset.mem_range]
    simp only [show j < m + 1 ↔ j ≤ m by omega]
  have hD' : ∀ j : ℕ, j < m + 2 * k → D.coeff j = (-1) ^ j * ee c j := by
    intro j hj
    rw [hD]
    split
    · rfl
    · rw [hdet j (by omega) hj, mul_zero]
  have hfdeg : f.natDegree ≤ m + 2 * k - 1 := by
    rw [Polynomial.natDegree_le_iff_coeff_eq_zero]
    intro N hN
    rw [hf, cbig N (by omega)]
  have hDdeg : D.natDegree ≤ m := by
    rw [Polynomial.natDegree_le_iff_coeff_eq_zero]
    intro N hN
    rw [hD, if_neg (by omega)]
  have hsq : ∀ r, (f * f.comp (-Polynomial.X)).coeff (2 * r) = (-1) ^ r * qd c r := by
    intro r
    rw [coeff_sq]
    simp only [hf]
    rfl
  obtain ⟨h1, h2⟩ := dual_squareD (f := f) (D := D) (m := m) (k := k) (by omega) hDdeg (by rw [hf]; exact c0) (by
      rw [Polynomial.X_pow_dvd_iff]
      intro d hd
      rw [Polynomial.coeff_sub, mul_comm, Polynomial.coeff_mul,
        Finset.Nat.sum_antidiagonal_eq_sum_range_succ (f := fun a b => D.coeff a * f.coeff b), Polynomial.coeff_one, sub_eq_zero]
      by_cases h : d = 0
      · subst h
        simp [hD, hf, ee_zero, c0]
      · rw [if_neg h, ← newton c0 cneg (p := d) (by omega)]
        refine Finset.sum_congr rfl fun i hi => ?_
        rw [Finset.mem_range] at hi
        rw [hD' i (by omega), hf, Nat.cast_sub (by omega)]) (by
      intro r hr1 hr2
      rw [hsq, hquad r hr1 hr2, mul_zero]) (by
      rw [hsq, hD, if_pos le_rfl]
      linear_combination ((-1) ^ m * (-1) ^ k) * hm)
  constructor
  · intro j hj
    have hz := ee_unique c0 cneg (z := fun r => D.coeff r) (by
        rw [hD, if_pos (Nat.zero_le _), ee_zero]
        simp) (by
        intro r hr
        have := congrArg (fun p => p.coeff r) h1
        beta_reduce at this
        rw [mul_comm, Polynomial.coeff_mul, Finset.Nat.sum_antidiagonal_eq_sum_range_succ (f := fun a b => D.coeff a * f.coeff b),
          Polynomial.coeff_one, if_neg (by omega)] at this
        rw [← this]
        refine Finset.sum_congr rfl fun i hi => ?_
        rw [Finset.mem_range] at hi
        rw [hf, Nat.cast_sub (by omega)]) j
    rw [hD, if_neg (by omega)] at hz
    have h3 := congrArg (fun x => (-1) ^ j * x) hz
    simp only [← mul_assoc, neg_pow_mul_self, one_mul, mul_zero] at h3
    exact h3
  · intro r hr
    have h3 := h2 r hr
    rw [hsq] at h3
    have h4 := congrArg (fun x => (-1) ^ r * x) h3
    simp only [← mul_assoc, neg_pow_mul_self, one_mul, mul_zero] at h4
    exact h4

end

/-! ### Spanning sets -/

/-- every element of `s` is a combination of `N` elements -/
def SpanN {A : Type*} [CommRing A] [Algebra (Polynomial ℚ) A] (s : Set A) (N : ℕ) : Prop :=
  ∃ g : Fin N → A, ∀ x ∈ s, ∃ a : Fin N → Polynomial ℚ, x = ∑ t, algebraMap (Polynomial ℚ) A (a t) * g t

section
variable {A : Type*} [CommRing A] [Algebra (Polynomial ℚ) A]

theorem SpanN.of {s : Set A} {N : ℕ} {τ : Type*} [Fintype τ] (hτ : Fintype.card τ = N) (g : τ → A)
    (h : ∀ x ∈ s, ∃ a : τ → Polynomial ℚ, x = ∑ t, algebraMap (Polynomial ℚ) A (a t) * g t) : SpanN s N := by
  let e := Fintype.equivFinOfCardEq hτ
  refine ⟨fun i => g (e.symm i), fun x hx => ?_⟩
  obtain ⟨a, ha⟩ := h x hx
  exact ⟨fun i => a (e.symm i), ha.trans (Equiv.sum_comp e.symm fun t => algebraMap (Polynomial ℚ) A (a t) * g t).symm⟩

theorem SpanN.of_span {s : Set A} {N : ℕ} {τ : Type*} [Fintype τ] (hτ : Fintype.card τ = N) (g : τ → A)
    (h : ∀ x ∈ s, x ∈ Submodule.span (Polynomial ℚ) (Set.range g)) : SpanN s N := by
  refine SpanN.of hτ g fun x hx => ?_
  obtain ⟨a, ha⟩ := (Submodule.mem_span_range_iff_exists_fun (Polynomial ℚ)).1 (h x hx)
  refine ⟨a, ha.symm.trans (Finset.sum_congr rfl fun t _ => by rw [Algebra.smul_def])⟩

theorem SpanN.add {s t u : Set A} {M N : ℕ} (hs : SpanN s M) (ht : SpanN t N) (h : ∀ x ∈ u, ∃ y ∈ s, ∃ z ∈ t, x = y + z) :
    SpanN u (M + N) := by
  obtain ⟨g, hg⟩ := hs
  obtain ⟨g', hg'⟩ := ht
  refine SpanN.of (τ := Fin M ⊕ Fin N) (by simp) (Sum.elim g g') fun x hx => ?_
  obtain ⟨y, hy, z, hz, rfl⟩ := h x hx
  obtain ⟨a, ha⟩ := hg y hy
  obtain ⟨b, hb⟩ := hg' z hz
  refine ⟨Sum.elim a b, ?_⟩
  rw [Fintype.sum_sum_type]
  simp only [Sum.elim_inl, Sum.elim_inr]
  rw [← ha, ← hb]

end

/-! ### The classes of `IG(m, 2m+2k)` without the longest row -/

/-- words that do not begin with `a` -/
def noA (n k : ℕ) : Finset (List L3) := (Wd n k).filter fun u => u.head? ≠ some .a

theorem card_noA (n k : ℕ) : (noA (n + 1) k).card + (Wd n k).card = (Wd (n + 1) k).card := by
  have h1 : ((Wd (n + 1) k).filter fun u => ¬ u.head? ≠ some .a) = (Wd n k).image (.a :: ·) := by
    ext u
    rw [Finset.mem_filter, Finset.mem_image, mem_Wd]
    constructor
    · rintro ⟨⟨h1, h2⟩, h3⟩
      rcases u with _ | ⟨p, u⟩
      · simp at h1
      · obtain rfl : p = .a := by simpa using h3
        exact ⟨u, mem_Wd.2 ⟨by simpa using h1, by simpa [colsW] using h2⟩, rfl⟩
    · rintro ⟨u, hu, rfl⟩
      rw [mem_Wd] at hu
      exact ⟨⟨by simp [hu.1], by simpa [colsW] using hu.2⟩, by simp⟩
  have h2 := Finset.card_filter_add_card_filter_not (s := Wd (n + 1) k) (fun u : List L3 => u.head? ≠ some .a)
  rw [h1, Finset.card_image_of_injective _ (fun u w h => by simpa using h)] at h2
  exact h2

open MvPolynomial

section
variable {A : Type*} [CommRing A] [Algebra ℚ A] [Algebra (Polynomial ℚ) A]

theorem special_std (K : ℕ) : special K = specialSet (stdSpc K) := by
  ext s
  constructor
  · rintro (rfl | ⟨i, h1, h2, rfl⟩)
    · exact Or.inl rfl
    · exact Or.inr ⟨i, ⟨by omega, by omega⟩, by rw [num2spec_pos (by omega)]⟩
  · rintro (rfl | ⟨p, ⟨h1, h2⟩, rfl⟩)
    · exact Or.inl rfl
    · exact Or.inr ⟨p.toNat, by omega, by omega, by rw [num2spec_pos h1, Int.toNat_of_nonneg (by omega)]⟩

theorem span_noA {c : ℤ → A} {m k : ℕ} (c0 : c 0 = 1) (cneg : ∀ p < 0, c p = 0)
    (cbig : ∀ p, (m + 1 + 2 * (k + 1 : ℕ) : ℤ) ≤ p → c p = 0) (hdet : ∀ j, m + 1 < j → ee c j = 0) (hquad : ∀ r : ℕ, k + 1 < r → qd c r = 0) :
    SpanN (subH c : Set A) (noA (m + 1 + (k + 1)) (k + 1)).card := by
  set Z := ringIG _ _ (leCol m k) with hZ
  have hbig : ∀ p, ((m + 1 + (k + 1) + (k + 1) : ℕ) : ℤ) < p → c p = 0 := fun p hp => cbig p (by push_cast at hp ⊢; omega)
  have hhv : (fun p => (psi c : P →+* A) (hvar (m + 1 + (k + 1) + (k + 1) : ℕ) p)) = c := funext (psi_hvar c0 cneg hbig)
  have hrel : ∀ x ∈ Ideal.span (relIG (m + 1) (k + 1)), psi c x = 0 := by
    have : Ideal.span (relIG (m + 1) (k + 1)) ≤ RingHom.ker (psi c : P →+* A) := by
      rw [Ideal.span_le, ← range_IG]
      rintro _ ⟨j | r, rfl⟩
      · show psi c (ee (cv _ _) j) = 0
        have := map_ee (psi c : P →+* A) (hvar (m + 1 + (k + 1) + (k + 1) : ℕ)) j
        rw [hhv, hdet j j.2.1] at this
        rw [cv_one]
        exact this
      · show psi c (C 1 * Qd _ _ r) = 0
        rw [C_1, one_mul, Qd, cv_one]
        have h := hquad r r.2.1
        rw [qd] at h
        simp only [map_add, map_mul, map_pow, map_sum, map_neg, map_one, map_ofNat]
        have hp : ∀ p, psi c (hvar (m + 1 + (k + 1) + (k + 1) : ℕ) p) = c p := psi_hvar c0 cneg hbig
        simp only [hp]
        exact h
    exact fun x hx => this hx
  -- the classes
  have hG : ∀ l, clsBC (m + 1 + (k + 1)) (k + 1) l → psi c (Z.Y.G l) ∈
      Submodule.span (Polynomial ℚ) (Set.range fun u : noA (m + 1 + (k + 1)) (k + 1) => psi c (Z.Y.G (labW u))) := by
    have key : ∀ l, clsBC (m + 1 + (k + 1)) (k + 1) l → ((l ≠ [] → hdK ((k + 1 : ℕ) : ℤ) l = (m + 1 + (k + 1) + (k + 1) : ℕ) →
        psi c (Z.Y.G l) ∈ Submodule.span (Polynomial ℚ) (Set.range fun u : noA (m + 1 + (k + 1)) (k + 1) => psi c (Z.Y.G (labW u))))) →
        psi c (Z.Y.G l) ∈ Submodule.span (Polynomial ℚ) (Set.range fun u : noA (m + 1 + (k + 1)) (k + 1) => psi c (Z.Y.G (labW u))) := by
      intro l hl h
      obtain ⟨u, hu, rfl⟩ := (Wd_cls (leCol m k) l).1 hl
      by_cases hh : u.head? = some .a
      · rcases u with _ | ⟨p, u⟩
        · simp at hh
        · obtain rfl : p = .a := by simpa using hh
          have hred := (sysIG _ _ (leCol m k)).red _ hl
          rw [mem_Wd] at hu
          have e1 : u.length = m + (k + 1) := by have := hu.1; simp at this; omega
          have e2 : colsW 0 u = k + 1 := by simpa [colsW] using hu.2
          refine h (by rw [labW_a]; simp) ?_
          rw [labW_a] at hred ⊢
          rw [(hdK_red hred).1, e1, e2]
          push_cast
          ring
      · exact Submodule.subset_span ⟨⟨u, Finset.mem_filter.2 ⟨hu, hh⟩⟩, rfl⟩
    refine Z.Y.G_induction (fun hl => key [] hl fun h => absurd rfl h) ?_
    intro l hl hne hsp htl ih ihr
    refine key l hl fun _ hd => ?_
    have h1 : ((m + 1 + (k + 1) + (k + 1) : ℕ) : ℤ) = hdK (Space.k ⟨.C, (k + 1 : ℕ), (m + 1 + (k + 1) : ℕ)⟩) l := hd.symm
    rw [Z.Y.G_cons hl hne, ← h1, num2spec_pos (by omega), map_sub, map_mul]
    have h2 : psi c (MvPolynomial.X (.S [((m + 1 + (k + 1) + (k + 1) : ℕ) : ℤ)])) = 0 := by
      have : psi c (MvPolynomial.X (.S [((m + 1 + (k + 1) + (k + 1) : ℕ) : ℤ)])) = c ((m + 1 + (k + 1) + (k + 1) : ℕ) : ℤ) := by simp [psi]
      rw [this, cbig _ (by push_cast; omega)]
    rw [h2, zero_mul, zero_sub, subst_ev_eq, map_sum]
    refine Submodule.neg_mem _ (Submodule.sum_mem _ fun mu hmu => ?_)
    rw [map_mul, psi_inq, ← Algebra.smul_def]
    exact Submodule.smul_mem _ _ (ihr mu hmu).2
  refine SpanN.of_span (τ := noA (m + 1 + (k + 1)) (k + 1)) (by simp) (fun u => psi c (Z.Y.G (labW u))) fun x hx => ?_
  · obtain ⟨y, hy, rfl⟩ := psi_surj c0 cneg hbig hx
    rw [special_std] at hy
    have hc : ∀ l ∈ (Z.Y.act y (Finsupp.single [] 1)).support, clsBC (m + 1 + (k + 1)) (k + 1) l := Z.Y.act_support y (by
      intro l hl
      rw [Finset.mem_singleton.1 (Finsupp.support_single_subset hl)]
      exact Z.nil)
    set v := Z.Y.act y (Finsupp.single [] 1) with hv
    have h1 : y - Z.Y.GL v ∈ Ideal.span (relIG (m + 1) (k + 1)) := by
      rw [← iff_IG (Subalgebra.sub_mem _ hy (Z.Y.GL_supported hc)), ← hZ, map_sub, LinearMap.sub_apply, Z.Y.act_GL hc, ← hv, sub_self]
    have h2 := hrel _ h1
    rw [map_sub, sub_eq_zero] at h2
    rw [h2, GiamSys.GL, subst_ev_eq, map_sum]
    refine Submodule.sum_mem _ fun l hl => ?_
    rw [map_mul, psi_inq, ← Algebra.smul_def]
    exact Submodule.smul_mem _ _ (hG l (hc l hl))

end

end Verif
