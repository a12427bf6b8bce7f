import Verif.Proofs.PresAlg
import Verif.Props.Classes
/-!
# Spanning sets modulo the relations of `IG(n-k, 2n)` and `OG(n-k, 2n+1)`
-/

namespace Verif
open Spec MvPolynomial

section
variable {A : Type*} [CommRing A]

/-- the recursion determines the determinants -/
theorem ee_unique {H : ℤ → A} (h0 : H 0 = 1) (hneg : ∀ p < 0, H p = 0) {z : ℕ → A} (z0 : z 0 = 1)
    (hz : ∀ r : ℕ, 1 ≤ r → ∑ i ∈ Finset.range (r + 1), z i * H ((r : ℤ) - i) = 0) (r : ℕ) : (-1) ^ r * ee H r = z r := by
  induction r using Nat.strong_induction_on with
  | _ r ih =>
    by_cases h : r = 0
    · subst h
      rw [ee_zero, z0]
      simp
    · have h1 := newton h0 hneg (p := r) (by omega)
      have h2 := hz r (by omega)
      rw [Finset.sum_range_succ] at h1 h2
      rw [Finset.sum_congr rfl (fun i hi => by rw [ih i (Finset.mem_range.1 hi)])] at h1
      rw [sub_self, h0, mul_one] at h1 h2
      linear_combination h1 - h2

theorem coeff_even {F Q : Polynomial A} (hF : ∀ i, i % 2 = 1 → F.coeff i = 0) (r : ℕ) :
    (F * Q).coeff (2 * r) = ∑ i ∈ Finset.range (r + 1), F.coeff (2 * i) * Q.coeff (2 * (r - i)) := by
  rw [Polynomial.coeff_mul, Finset.Nat.sum_antidiagonal_eq_sum_range_succ (f := fun a b => F.coeff a * Q.coeff b)]
  have h1 : ∑ i ∈ Finset.range (r + 1), F.coeff (2 * i) * Q.coeff (2 * (r - i)) =
      ∑ a ∈ (Finset.range (r + 1)).image (2 * ·), F.coeff a * Q.coeff (2 * r - a) := by
    rw [Finset.sum_image (fun a _ b _ (h : 2 * a = 2 * b) => by omega)]
    exact Finset.sum_congr rfl fun i _ => by rw [Nat.mul_sub]
  rw [h1]
  symm
  refine Finset.sum_subset ?_ ?_
  · intro a ha
    obtain ⟨i, hi, rfl⟩ := Finset.mem_image.1 ha
    rw [Finset.mem_range] at hi ⊢
    show 2 * i < _
    omega
  · intro a ha h
    rw [Finset.mem_range] at ha
    rcases Nat.mod_two_eq_zero_or_one a with h2 | h2
    · exact absurd (Finset.mem_image.2 ⟨a / 2, Finset.mem_range.2 (by omega), by show 2 * (a / 2) = a; omega⟩) h
    · rw [hF a h2, zero_mul]

end

section
variable {A : Type*} [CommRing A] [Algebra ℚ A] [Algebra (Polynomial ℚ) A]

/-- sends `S[p]` to `H p` -/
noncomputable def psi (H : ℤ → A) : P →ₐ[ℚ] A := aeval fun s => match s with
  | .q => algebraMap (Polynomial ℚ) A Polynomial.X
  | .S [p] => H p
  | _ => 0

theorem psi_inq (H : ℤ → A) (a : Polynomial ℚ) : psi H (inq a) = algebraMap (Polynomial ℚ) A a := by
  induction a using Polynomial.induction_on with
  | C c =>
    rw [show inq (Polynomial.C c) = algebraMap ℚ P c by simp [inq], AlgHom.commutes]
    exact RingHom.congr_fun (Subsingleton.elim (algebraMap ℚ A) ((algebraMap (Polynomial ℚ) A).comp Polynomial.C)) c
  | add a b ha hb => unfold inq at *; rw [map_add, map_add (psi H), ha, hb, map_add]
  | monomial n c h =>
    unfold inq at *
    rw [pow_succ, ← mul_assoc, map_mul (Polynomial.aeval _) (_ * _), map_mul (psi H), h, map_mul (algebraMap (Polynomial ℚ) A) (_ * _)]
    congr 1
    simp [inq, psi]

theorem psi_hvar {H : ℤ → A} {k : ℕ} (h0 : H 0 = 1) (hneg : ∀ p < 0, H p = 0) (hbig : ∀ p, (k : ℤ) < p → H p = 0) (p : ℤ) :
    psi H (hvar k p) = H p := by
  unfold hvar
  split
  · rename_i h
    rw [h, h0, map_one]
  · split
    · simp [psi]
    · rw [map_zero]
      rcases lt_trichotomy p 0 with h | h | h
      · exact (hneg p h).symm
      · contradiction
      · exact (hbig p (by omega)).symm

/-- the subring generated by the `H p` -/
noncomputable def subH (H : ℤ → A) : Subalgebra (Polynomial ℚ) A := Algebra.adjoin _ (Set.range H)

theorem psi_mem {H : ℤ → A} {k : ℕ} {y : P} (hy : y ∈ supported ℚ (special k)) : psi H y ∈ subH H := by
  replace hy : y ∈ Algebra.adjoin ℚ ((MvPolynomial.X : Sym → P) '' special k) := hy
  induction hy using Algebra.adjoin_induction with
  | mem s hs =>
    obtain ⟨t, ht, rfl⟩ := hs
    rcases ht with rfl | ⟨p, h1, h2, rfl⟩
    · have : psi H (X Sym.q) = algebraMap (Polynomial ℚ) A Polynomial.X := by simp [psi]
      rw [this]
      exact Subalgebra.algebraMap_mem _ _
    · have : psi H (X (Sym.S [(p : ℤ)])) = H p := by simp [psi]
      rw [this]
      exact Algebra.subset_adjoin ⟨_, rfl⟩
  | algebraMap c =>
    have := psi_inq H (Polynomial.C c)
    rw [show inq (Polynomial.C c) = algebraMap ℚ P c by simp [inq]] at this
    rw [this]
    exact Subalgebra.algebraMap_mem _ _
  | add a b _ _ ha hb => rw [map_add]; exact Subalgebra.add_mem _ ha hb
  | mul a b _ _ ha hb => rw [map_mul]; exact Subalgebra.mul_mem _ ha hb

theorem hvar_mem (k : ℕ) (p : ℤ) : hvar k p ∈ supported ℚ (special k) := by
  unfold hvar
  split
  · exact Subalgebra.one_mem _
  · split
    · rename_i h
      rw [X_mem_supported]
      exact Or.inr ⟨p.toNat, by omega, by omega, by rw [Int.toNat_of_nonneg (by omega)]⟩
    · exact Subalgebra.zero_mem _

theorem psi_surj {H : ℤ → A} {k : ℕ} (h0 : H 0 = 1) (hneg : ∀ p < 0, H p = 0) (hbig : ∀ p, (k : ℤ) < p → H p = 0) {x : A}
    (hx : x ∈ subH H) : ∃ y ∈ supported ℚ (special k), psi H y = x := by
  unfold subH at hx
  induction hx using Algebra.adjoin_induction with
  | mem s hs =>
    obtain ⟨p, rfl⟩ := hs
    exact ⟨hvar k p, hvar_mem k p, psi_hvar h0 hneg hbig p⟩
  | algebraMap c => exact ⟨inq c, inq_mem _ (Or.inl rfl) _, psi_inq H c⟩
  | add a b _ _ ha hb =>
    obtain ⟨y, hy, rfl⟩ := ha
    obtain ⟨z, hz, rfl⟩ := hb
    exact ⟨y + z, Subalgebra.add_mem _ hy hz, map_add _ _ _⟩
  | mul a b _ _ ha hb =>
    obtain ⟨y, hy, rfl⟩ := ha
    obtain ⟨z, hz, rfl⟩ := hb
    exact ⟨y * z, Subalgebra.mul_mem _ hy hz, map_mul _ _ _⟩

/-- the list of the classes of `Gr(m+1, m+1+k)` -/
theorem listA (m k : ℕ) : ∃ L : List (List Int), L.Nodup ∧ (∀ l, l ∈ L ↔ clsA (m + 1) k l) ∧ L.length = (m + 1 + k).choose (m + 1) := by
  obtain ⟨L, -, h1, h2, h3⟩ := C05_classes_partial (m + 1) (m + 1 + k) (by omega) ⟨.A, m + 1 + k - (m + 1), m + 1 + k⟩ (by
    unfold mkGr
    rw [if_neg (by omega), if_neg (by omega)])
  refine ⟨L, h1.imp (by rintro a b hab rfl; rw [listLt_irrefl] at hab; cases hab), fun l => ?_, ?_⟩
  · rw [h2, clsA, show ((m : ℤ) + 1).toNat = m + 1 by omega, show (m : ℤ) + 1 + k - (m + 1) = k by omega]
  · rw [h3, show ((m : ℤ) + 1).toNat = m + 1 by omega, show ((m : ℤ) + 1 + k).toNat = m + 1 + k by omega]

/-- The subring is spanned by `choose (m+1+k) (m+1)` elements, if the determinants of more than `m+1` ones vanish. -/
theorem subH_span {H : ℤ → A} {m k : ℕ} (h0 : H 0 = 1) (hneg : ∀ p < 0, H p = 0) (hbig : ∀ p, (k : ℤ) < p → H p = 0)
    (he : ∀ j, m + 1 < j → ee H j = 0) : ∃ g : Fin ((m + 1 + k).choose (m + 1)) → A, (∀ s, g s ∈ subH H) ∧
      ∀ x ∈ subH H, ∃ a : Fin ((m + 1 + k).choose (m + 1)) → Polynomial ℚ, x = ∑ s, algebraMap (Polynomial ℚ) A (a s) * g s := by
  obtain ⟨L, hn, hL, hlen⟩ := listA m k
  have hk : (0 : ℤ) ≤ k := by omega
  set Y := sysC m hk (n := m + 1 + k) rfl with hY
  rw [← hlen]
  refine ⟨fun s => psi H (Y.G (L.get s)), fun s => psi_mem (Y.G_supported _ ((hL _).1 (L.get_mem s))), fun x hx => ?_⟩
  obtain ⟨y, hy, rfl⟩ := psi_surj h0 hneg hbig hx
  have hnil : clsA (m + 1) k [] := ⟨⟨by simp, by simp⟩, by simp, by simp⟩
  have hc : ∀ l ∈ (Y.act y (Finsupp.single [] 1)).support, clsA (m + 1) k l := Y.act_support y (by
    intro l hl
    rw [Finset.mem_singleton.1 (Finsupp.support_single_subset hl)]
    exact hnil)
  set v := Y.act y (Finsupp.single [] 1) with hv
  have h1 : y - Y.GL v ∈ Ideal.span {r : P | ∃ j : ℕ, m + 1 < j ∧ j ≤ m + 1 + k ∧ r = ee (hvar k) j} := by
    rw [← act_zero_iff_C hk rfl (Subalgebra.sub_mem _ hy (Y.GL_supported hc)), ← hY, map_sub, LinearMap.sub_apply, Y.act_GL hc, ← hv,
      sub_self]
  have h2 : psi H (y - Y.GL v) = 0 := by
    have : Ideal.span {r : P | ∃ j : ℕ, m + 1 < j ∧ j ≤ m + 1 + k ∧ r = ee (hvar k) j} ≤ RingHom.ker (psi H : P →+* A) := by
      rw [Ideal.span_le]
      rintro r ⟨j, h3, -, rfl⟩
      show psi H (ee (hvar k) j) = 0
      have := map_ee (psi H : P →+* A) (hvar k) j
      rw [show (fun p => (psi H : P →+* A) (hvar k p)) = H from funext (psi_hvar h0 hneg hbig), he j h3] at this
      exact this
    exact this h1
  rw [map_sub, sub_eq_zero] at h2
  refine ⟨fun s => v (L.get s), ?_⟩
  rw [h2, GSys.GL, subst_ev_eq, map_sum]
  have h3 : ∑ s : Fin L.length, algebraMap (Polynomial ℚ) A (v (L.get s)) * psi H (Y.G (L.get s)) =
      ∑ l ∈ L.toFinset, algebraMap (Polynomial ℚ) A (v l) * psi H (Y.G l) := by
    rw [List.sum_toFinset _ hn]
    conv_rhs => rw [← List.ofFn_get L]
    rw [List.map_ofFn, List.sum_ofFn]
    rfl
  rw [h3]
  refine Eq.trans (Finset.sum_congr rfl fun l _ => by rw [map_mul, psi_inq]) (Finset.sum_subset ?_ ?_)
  · intro l hl
    rw [List.mem_toFinset]
    exact (hL l).2 (hc l hl)
  · intro l _ hl
    rw [Finsupp.notMem_support_iff.1 hl, map_zero, zero_mul]

/-- **The spanning set.** `2^(m+1) * choose (m+1+k) (m+1)` elements span everything generated by the `c p`. -/
theorem span_BC {c : ℤ → A} {m k : ℕ} (c0 : c 0 = 1) (cneg : ∀ p < 0, c p = 0) (cbig : ∀ p, (m + 1 + 2 * k : ℤ) < p → c p = 0)
    (hdet : ∀ j, m + 1 < j → j ≤ m + 1 + 2 * k → ee c j = 0)
    (hquad : ∀ r : ℕ, k < r → r ≤ m + 1 + k →
      c r ^ 2 + 2 * ∑ i ∈ Finset.Icc 1 r, (-1) ^ i * (c ((r + i : ℕ) : ℤ) * c ((r - i : ℕ) : ℤ)) = 0) :
    ∃ g : Fin ((m + 1 + k).choose (m + 1)) × (Finset.Icc 1 (m + 1)).powerset → A,
      ∀ x ∈ Algebra.adjoin (Polynomial ℚ) (Set.range c), ∃ a : Fin ((m + 1 + k).choose (m + 1)) × (Finset.Icc 1 (m + 1)).powerset → Polynomial ℚ,
        x = ∑ t, algebraMap (Polynomial ℚ) A (a t) * g t := by
  -- the generating polynomials
  let f : Polynomial A := ∑ p ∈ Finset.range (m + 1 + 2 * k + 1), Polynomial.monomial p (c p)
  have hf : ∀ p : ℕ, f.coeff p = c p := by
    intro p
    simp only [f, Polynomial.finsetSum_coeff, Polynomial.coeff_monomial, Finset.sum_ite_eq', Finset.mem_range]
    split
    · rfl
    · exact (cbig p (by omega)).symm
  let D : Polynomial A := ∑ j ∈ Finset.range (m + 2), Polynomial.monomial j ((-1) ^ j * ee c j)
  have hD : ∀ j : ℕ, D.coeff j = if j ≤ m + 1 then (-1) ^ j * ee c j else 0 := by
    intro j
    simp only [D, Polynomial.finsetSum_coeff, Polynomial.coeff_monomial, Finset.sum_ite_eq', Finset.mem_range]
    simp only [show j < m + 2 ↔ j ≤ m + 1 by omega]
  have hD' : ∀ j : ℕ, j ≤ m + 1 + 2 * k → D.coeff j = (-1) ^ j * ee c j := by
    intro j hj
    rw [hD]
    split
    · rfl
    · rw [hdet j (by omega) hj, mul_zero]
  have hfdeg : f.natDegree ≤ m + 1 + 2 * k := by
    rw [Polynomial.natDegree_le_iff_coeff_eq_zero]
    intro N hN
    rw [hf, cbig N (by omega)]
  have hDdeg : D.natDegree ≤ m + 1 := by
    rw [Polynomial.natDegree_le_iff_coeff_eq_zero]
    intro N hN
    rw [hD, if_neg (by omega)]
  obtain ⟨h1, h2⟩ := dual_square (m := m + 1) (k := k) hfdeg hDdeg (by rw [hf]; exact c0) (by
      rw [Polynomial.X_pow_dvd_iff]
      intro d hd
      rw [Polynomial.coeff_sub, mul_comm, Polynomial.coeff_mul,
        Finset.Nat.sum_antidiagonal_eq_sum_range_succ (f := fun a b => D.coeff a * f.coeff b), Polynomial.coeff_one, sub_eq_zero]
      by_cases h : d = 0
      · subst h
        simp [hD, hf, ee_zero, c0]
      · rw [if_neg h, ← newton c0 cneg (p := d) (by omega)]
        refine Finset.sum_congr rfl fun i hi => ?_
        rw [Finset.mem_range] at hi
        rw [hD' i (by omega), hf, Nat.cast_sub (by omega)]) (by
      intro r hr1 hr2
      rw [coeff_sq]
      simp only [hf]
      rw [hquad r hr1 hr2, mul_zero])
  set Q := cut (2 * k) (f * f.comp (-Polynomial.X)) with hQ
  set F := D * D.comp (-Polynomial.X) with hF
  have hFdeg : F.natDegree ≤ 2 * (m + 1) := by
    have a3 := Polynomial.natDegree_mul_le (p := D) (q := D.comp (-Polynomial.X))
    have a5 := ng_deg D
    rw [← hF] at a3
    omega
  have hFodd : ∀ i, i % 2 = 1 → F.coeff i = 0 := fun i hi => odd_coeff (by rw [hF, Polynomial.mul_comp, ng_ng, mul_comm]) hi
  have hQodd : ∀ i, i % 2 = 1 → Q.coeff i = 0 := by
    intro i hi
    rw [hQ, coeff_cut]
    split
    · exact odd_coeff (by rw [Polynomial.mul_comp, ng_ng, mul_comm]) hi
    · rfl
  let H : ℤ → A := fun p => if p < 0 then 0 else Q.coeff (2 * p.toNat)
  have H0 : H 0 = 1 := by
    show (if (0 : ℤ) < 0 then 0 else Q.coeff (2 * (0 : ℤ).toNat)) = 1
    rw [if_neg (by omega), hQ, coeff_cut, if_pos (by simp), show 2 * (0 : ℤ).toNat = 0 from rfl, Polynomial.mul_coeff_zero, ng_coeff, hf]
    simp [c0]
  have Hneg : ∀ p < 0, H p = 0 := fun p hp => if_pos hp
  have Hbig : ∀ p, (k : ℤ) < p → H p = 0 := by
    intro p hp
    show (if p < 0 then 0 else Q.coeff (2 * p.toNat)) = 0
    rw [if_neg (by omega), hQ, coeff_cut, if_neg (by omega)]
  have hz := ee_unique H0 Hneg (z := fun r => F.coeff (2 * r)) (by
      have := congrArg (fun p => p.coeff 0) h2
      simp only [Polynomial.mul_coeff_zero, Polynomial.coeff_one_zero] at this
      have hQ0 : Q.coeff 0 = 1 := H0
      rw [hQ0, mul_one] at this
      exact this) (by
      intro r hr
      have := congrArg (fun p => p.coeff (2 * r)) h2
      beta_reduce at this
      rw [coeff_even hFodd, Polynomial.coeff_one, if_neg (by omega)] at this
      rw [← this]
      refine Finset.sum_congr rfl fun i hi => ?_
      rw [Finset.mem_range] at hi
      show F.coeff (2 * i) * (if (r : ℤ) - i < 0 then 0 else Q.coeff (2 * ((r : ℤ) - i).toNat)) = _
      rw [if_neg (by omega), show ((r : ℤ) - i).toNat = r - i by omega])
  have heH : ∀ r, ee H r = (-1) ^ r * F.coeff (2 * r) := by
    intro r
    rw [← hz r, ← mul_assoc, neg_pow_mul_self, one_mul]
  obtain ⟨g, hg1, hg2⟩ := subH_span (m := m) (k := k) H0 Hneg Hbig (by
    intro j hj
    rw [heH, Polynomial.coeff_eq_zero_of_natDegree_lt (by omega), mul_zero])
  let e : ℕ → A := fun j => if j ≤ m + 1 then ee c j else 0
  have he : ∀ j, e j = (-1) ^ j * D.coeff j := by
    intro j
    show (if j ≤ m + 1 then ee c j else 0) = _
    rw [hD]
    split
    · rw [← mul_assoc, neg_pow_mul_self, one_mul]
    · rw [mul_zero]
  have e0 : e 0 = 1 := by
    show (if 0 ≤ m + 1 then ee c 0 else 0) = 1
    rw [if_pos (by omega), ee_zero]
  have ebig : ∀ j, m + 1 < j → e j = 0 := fun j hj => if_neg (by omega)
  have hsq : ∀ j, 1 ≤ j → j ≤ m + 1 → e j ^ 2 + 2 * ∑ i ∈ Finset.Icc 1 j, (-1) ^ i * (e (j + i) * e (j - i)) ∈ subH H := by
    intro j h3 h4
    have h5 : e j ^ 2 + 2 * ∑ i ∈ Finset.Icc 1 j, (-1) ^ i * (e (j + i) * e (j - i)) = ee H j := by
      rw [heH, hF, coeff_sq, ← mul_assoc, neg_pow_mul_self, one_mul]
      simp only [he]
      congr 1
      · rw [mul_pow, pow_two ((-1 : A) ^ j), neg_pow_mul_self, one_mul]
      · congr 1
        refine Finset.sum_congr rfl fun i hi => ?_
        rw [Finset.mem_Icc] at hi
        have : (-1 : A) ^ (j + i) * (-1) ^ (j - i) = 1 := by
          rw [← pow_add, show j + i + (j - i) = j + j by omega, pow_add, neg_pow_mul_self]
        linear_combination ((-1) ^ i * (D.coeff (j + i) * D.coeff (j - i))) * this
    rw [h5]
    have h6 := psi_mem (H := H) (k := k) (y := ee (hvar k) j) (by
      unfold ee
      rw [Matrix.det_apply]
      exact Subalgebra.sum_mem _ fun σ _ => zsmul_mem (Subalgebra.prod_mem _ fun i _ => hvar_mem k _) _)
    have := map_ee (psi H : P →+* A) (hvar k) j
    rw [show (fun p => (psi H : P →+* A) (hvar k p)) = H from funext (psi_hvar H0 Hneg Hbig)] at this
    rw [← this]
    exact h6
  refine ⟨fun t => g t.1 * ∏ j ∈ t.2.1, e j, fun x hx => sqF_span hg1 hg2 (sqF_adjoin e0 ebig hsq ?_)⟩
  -- the `c p` are generated by the `e j` and the subring
  refine Algebra.adjoin_le ?_ hx
  rintro _ ⟨p, rfl⟩
  show c p ∈ Algebra.adjoin (Polynomial ℚ) ((subH H : Set A) ∪ Set.range e)
  rcases lt_or_ge p 0 with hp | hp
  · rw [cneg p hp]
    exact Subalgebra.zero_mem _
  · obtain ⟨p, rfl⟩ := Int.eq_ofNat_of_zero_le hp
    have h3 : c p = (D.comp (-Polynomial.X) * Q).coeff p := by rw [← h1, hf]
    rw [h3, Polynomial.coeff_mul]
    refine Subalgebra.sum_mem _ fun ab _ => Subalgebra.mul_mem _ ?_ ?_
    · rw [ng_coeff, ← he]
      exact Algebra.subset_adjoin (Or.inr ⟨_, rfl⟩)
    · refine Algebra.subset_adjoin (Or.inl ?_)
      rcases Nat.mod_two_eq_zero_or_one ab.2 with h4 | h4
      · refine Algebra.subset_adjoin ⟨((ab.2 / 2 : ℕ) : ℤ), ?_⟩
        show (if ((ab.2 / 2 : ℕ) : ℤ) < 0 then 0 else Q.coeff (2 * ((ab.2 / 2 : ℕ) : ℤ).toNat)) = _
        rw [if_neg (by omega), show 2 * ((ab.2 / 2 : ℕ) : ℤ).toNat = ab.2 by omega]
      · rw [hQodd _ h4]
        exact Subalgebra.zero_mem _

end

end Verif
