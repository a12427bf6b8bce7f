import Verif.Spec.PresBC
import Verif.Proofs.PresBC
import Verif.Props.PresentationBC
/-!
# C133: presentations of the rings of `IG(m, 2m+2k)` and `OG(m, 2m+2k+1)`, `k ≥ 1`

C134: multiplication by the columns on these spaces.
-/

namespace Verif
open Spec MvPolynomial

/-! ### The relations in the two forms -/

/-- factors of type B -/
def kB (k p : ℕ) : ℚ := if p ≤ k then 1 else 2

theorem kB_zero (k : ℕ) : kB k 0 = 1 := if_pos (Nat.zero_le _)

theorem kB_ne (k p : ℕ) : kB k p ≠ 0 := by
  unfold kB
  split <;> norm_num

theorem cv_one (K : ℕ) : cv K (fun _ => 1) = hvar K := by
  funext p
  rw [cv, C_1, one_mul]

theorem cv_B (k K : ℕ) : cv K (kB k) = cvar k K := by
  funext p
  unfold cv cvar kB
  have e2 : (C 2 : P) = 2 := map_ofNat C 2
  rcases lt_or_ge p 0 with h | h
  · rw [hvar_neg _ p h]
    simp
  · by_cases hp : p ≤ k
    · rw [if_pos hp, if_pos (by omega), C_1, one_mul]
    · rw [if_neg hp, if_neg (by omega), e2]

theorem Qd_one (K r : ℕ) : C 1 * Qd K (fun _ => 1) r =
    hvar K r ^ 2 + 2 * ∑ i ∈ Finset.Icc 1 r, (-1) ^ i * (hvar K (r + i) * hvar K (r - i)) := by
  rw [C_1, one_mul, Qd, cv_one]
  congr 2
  refine Finset.sum_congr rfl fun i hi => ?_
  rw [Finset.mem_Icc] at hi
  rw [Nat.cast_sub hi.2, Nat.cast_add]

theorem Qd_B (k K : ℕ) {r : ℕ} (hr : k < r) : C (1 / 4) * Qd K (kB k) r =
    hvar K r ^ 2 + ∑ i ∈ Finset.Icc 1 r, (-1) ^ i * (hvar K (r + i) * cvar k K (r - i)) := by
  have e4 : (C (1 / 4) : P) * 4 = 1 := by
    rw [show (4 : P) = C 4 from (map_ofNat C 4).symm, ← C_mul]
    norm_num
  have h : ∀ p : ℤ, (r : ℤ) ≤ p → cvar k K p = 2 * hvar K p := fun p hp => if_neg (by omega)
  have e : Qd K (kB k) r = 4 * (hvar K r ^ 2 + ∑ i ∈ Finset.Icc 1 r, (-1) ^ i * (hvar K (r + i) * cvar k K (r - i))) := by
    rw [Qd, cv_B, h r le_rfl, mul_add, Finset.mul_sum, Finset.mul_sum]
    congr 1
    · ring
    · refine Finset.sum_congr rfl fun i hi => ?_
      rw [Finset.mem_Icc] at hi
      rw [Nat.cast_sub hi.2, Nat.cast_add, h _ (by omega)]
      ring
  rw [e, ← mul_assoc, e4, one_mul]

theorem castK (m k : ℕ) : (((m + 1 : ℕ) : ℤ) + 2 * (k : ℤ)) = ((m + 1 + k + k : ℕ) : ℤ) := by push_cast; ring

theorem range_IG (m k : ℕ) : Set.range (relBC m k (fun _ => 1) 1) = relIG (m + 1) k := by
  ext x
  unfold relIG
  rw [castK, Set.mem_union, Set.mem_range]
  constructor
  · rintro ⟨j | r, rfl⟩
    · exact Or.inl ⟨j, j.2.1, by have := j.2.2; omega, by rw [relBC, cv_one]; rfl⟩
    · exact Or.inr ⟨r, r.2.1, r.2.2, Qd_one _ _⟩
  · rintro (⟨j, h1, h2, rfl⟩ | ⟨r, h1, h2, rfl⟩)
    · exact ⟨.inl ⟨j, h1, by omega⟩, by rw [relBC, cv_one]; rfl⟩
    · exact ⟨.inr ⟨r, h1, h2⟩, Qd_one _ _⟩

theorem range_OG (m k : ℕ) : Set.range (relBC m k (kB k) (1 / 4)) = relOG (m + 1) k := by
  ext x
  unfold relOG
  rw [castK, Set.mem_union, Set.mem_range]
  constructor
  · rintro ⟨j | r, rfl⟩
    · exact Or.inl ⟨j, j.2.1, by have := j.2.2; omega, by rw [relBC, cv_B]; rfl⟩
    · exact Or.inr ⟨r, r.2.1, r.2.2, Qd_B _ _ r.2.1⟩
  · rintro (⟨j, h1, h2, rfl⟩ | ⟨r, h1, h2, rfl⟩)
    · exact ⟨.inl ⟨j, h1, by omega⟩, by rw [relBC, cv_B]; rfl⟩
    · exact ⟨.inr ⟨r, h1, h2⟩, Qd_B _ _ h1⟩

/-- the coefficients of `q` -/
noncomputable def tIG (m k : ℕ) : RelIx m k → P
  | .inl _ => 0
  | .inr r => -((-1) ^ (m + 1 + k + k - r) * hvar (m + 1 + k + k : ℕ) (2 * r - (m + 1 + k + k : ℕ) - 1))

open Classical in
/-- the coefficients of `q` -/
noncomputable def tOG (m k : ℕ) : RelIx m k → P
  | .inl j => if (j : ℕ) = m + 1 + k + k then 2 else 0
  | .inr _ => 0

theorem range_QIG (m k : ℕ) : Set.range (fun i => relBC m k (fun _ => 1) 1 i + MvPolynomial.X .q * tIG m k i) = relQIG (m + 1) k := by
  ext x
  unfold relQIG
  rw [castK, Set.mem_union, Set.mem_range]
  constructor
  · rintro ⟨j | r, rfl⟩
    · exact Or.inl ⟨j, j.2.1, by have := j.2.2; omega, by rw [relBC, cv_one, tIG, mul_zero, add_zero]; rfl⟩
    · refine Or.inr ⟨r, r.2.1, r.2.2, ?_⟩
      rw [relBC, Qd_one, tIG, show m + 1 + 2 * k = m + 1 + k + k by omega]
      ring
  · rintro (⟨j, h1, h2, rfl⟩ | ⟨r, h1, h2, rfl⟩)
    · exact ⟨.inl ⟨j, h1, by omega⟩, by beta_reduce; rw [relBC, cv_one, tIG, mul_zero, add_zero]; rfl⟩
    · refine ⟨.inr ⟨r, h1, h2⟩, ?_⟩
      beta_reduce
      rw [relBC, Qd_one, tIG, show m + 1 + 2 * k = m + 1 + k + k by omega]
      ring

theorem range_QOG (m k : ℕ) : Set.range (fun i => relBC m k (kB k) (1 / 4) i + MvPolynomial.X .q * tOG m k i) = relQOG (m + 1) k := by
  ext x
  unfold relQOG
  rw [castK, Set.mem_union, Set.mem_range]
  have hX : ∀ j : ℕ, (MvPolynomial.X .q : P) * (if j = m + 1 + k + k then 2 else 0) = if j = m + 1 + 2 * k then 2 * MvPolynomial.X .q else 0 := by
    intro j
    by_cases h : j = m + 1 + k + k
    · rw [if_pos h, if_pos (by omega), mul_comm]
    · rw [if_neg h, if_neg (by omega), mul_zero]
  constructor
  · rintro ⟨j | r, rfl⟩
    · exact Or.inl ⟨j, j.2.1, by have := j.2.2; omega, by rw [relBC, cv_B, tOG, hX]; rfl⟩
    · exact Or.inr ⟨r, r.2.1, r.2.2, by rw [relBC, Qd_B _ _ r.2.1, tOG, mul_zero, add_zero]⟩
  · rintro (⟨j, h1, h2, rfl⟩ | ⟨r, h1, h2, rfl⟩)
    · exact ⟨.inl ⟨j, h1, by omega⟩, by beta_reduce; rw [relBC, cv_B, tOG, hX]; rfl⟩
    · exact ⟨.inr ⟨r, h1, h2⟩, by beta_reduce; rw [relBC, Qd_B _ _ h1, tOG, mul_zero, add_zero]⟩

/-! ### The rings -/

section
variable {m k' : ℕ}

theorem leCol (m k' : ℕ) : k' + 1 ≤ m + 1 + (k' + 1) := by omega

theorem ltCol (m k' : ℕ) : k' + 1 < m + 1 + (k' + 1) := by omega

/-- the determinants of ones on `IG`, with the columns -/
theorem col_IG : 
    (∀ j ≤ m + 1, (ringIG _ _ (leCol m k')).Y.act (ee (cv (m + 1 + (k' + 1) + (k' + 1)) fun _ => 1) j) (Finsupp.single [] 1) =
      Finsupp.single (List.replicate j 1) 1) ∧
    (∀ j, m + 1 < j → j ≤ m + 1 + (k' + 1) + (k' + 1) →
      (ringIG _ _ (leCol m k')).Y.act (ee (cv (m + 1 + (k' + 1) + (k' + 1)) fun _ => 1) j) (Finsupp.single [] 1) = 0) := by
  obtain ⟨h1, h2, h3⟩ := act_ee (ringIG _ _ (leCol m k')) (fun _ => 1) rfl (Wd_cls (leCol m k')) Wd_inj (N := MC 0)
    (fun u hu w hw => opW_zero 1 _ (by rw [mem_Wd] at hu hw; omega)) (fun p l _ _ => by rw [map_one, one_smul]; rfl)
    (m := m + 1) (k' := k') (fun s hs => colW_mem hs) (fun r => if r = 0 then 1 else 0)
    (fun r hr w _ => col_opW 1 0 hr w) (by omega) (fun r hr _ => if_neg (by omega))
  refine ⟨h1, fun j h4 h5 => ?_⟩
  by_cases h : j = m + 1 + (k' + 1) + (k' + 1)
  · rw [h, h3, if_neg (by omega), mul_zero, Finsupp.single_zero]
  · exact h2 j h4 (by omega)

theorem col_QIG (ord : List Int → List Int) : 
    (∀ j ≤ m + 1, (ringQIG ord _ _ (leCol m k')).Y.act (ee (cv (m + 1 + (k' + 1) + (k' + 1)) fun _ => 1) j) (Finsupp.single [] 1) =
      Finsupp.single (List.replicate j 1) 1) ∧
    (∀ j, m + 1 < j → j ≤ m + 1 + (k' + 1) + (k' + 1) →
      (ringQIG ord _ _ (leCol m k')).Y.act (ee (cv (m + 1 + (k' + 1) + (k' + 1)) fun _ => 1) j) (Finsupp.single [] 1) = 0) := by
  obtain ⟨h1, h2, h3⟩ := act_ee (ringQIG ord _ _ (leCol m k')) (fun _ => 1) rfl (Wd_cls (leCol m k')) Wd_inj
    (N := MC (Polynomial.C (1 / 2) * Polynomial.X))
    (fun u hu w hw => opW_zero 1 _ (by rw [mem_Wd] at hu hw; omega)) (fun p l _ _ => by rw [map_one, one_smul]; rfl)
    (m := m + 1) (k' := k') (fun s hs => colW_mem hs) (fun r => if r = 0 then 1 else 0)
    (fun r hr w _ => col_opW 1 _ hr w) (by omega) (fun r hr _ => if_neg (by omega))
  refine ⟨h1, fun j h4 h5 => ?_⟩
  by_cases h : j = m + 1 + (k' + 1) + (k' + 1)
  · rw [h, h3, if_neg (by omega), mul_zero, Finsupp.single_zero]
  · exact h2 j h4 (by omega)

theorem kB_cfB (k p : ℕ) : Polynomial.C (kB k p) = cfB k p := rfl

theorem col_OG : 
    (∀ j ≤ m + 1, (ringOG _ _ (leCol m k')).Y.act (ee (cv (m + 1 + (k' + 1) + (k' + 1)) (kB (k' + 1))) j) (Finsupp.single [] 1) =
      Finsupp.single (List.replicate j 1) 1) ∧
    (∀ j, m + 1 < j → j ≤ m + 1 + (k' + 1) + (k' + 1) →
      (ringOG _ _ (leCol m k')).Y.act (ee (cv (m + 1 + (k' + 1) + (k' + 1)) (kB (k' + 1))) j) (Finsupp.single [] 1) = 0) := by
  obtain ⟨h1, h2, h3⟩ := act_ee (ringOG _ _ (leCol m k')) (kB (k' + 1)) (kB_zero _) (Wd_cls (leCol m k')) Wd_inj
    (N := fun p u w => (opW (Polynomial.C (2 : Polynomial ℚ)) (Polynomial.C 0) Polynomial.X u w).coeff p)
    (fun u hu w hw => opW_zero _ _ (by rw [mem_Wd] at hu hw; omega))
    (fun p l _ _ => tM_scale (M := MB (k' + 1)) (fun u w => by
      unfold MB
      rw [← mul_assoc, show (Polynomial.C (if p ≤ k' + 1 then 1 else 1 / 2 : ℚ)) = Polynomial.C (scB (k' + 1) p) from rfl, kB_cfB,
        cfB_scB, one_mul]) l)
    (m := m + 1) (k' := k') (fun s hs => colW_mem hs) (fun r => if r = 0 then 1 else 0)
    (fun r hr w _ => col_opW _ _ hr w) (by omega) (fun r hr _ => if_neg (by omega))
  refine ⟨h1, fun j h4 h5 => ?_⟩
  by_cases h : j = m + 1 + (k' + 1) + (k' + 1)
  · rw [h, h3, if_neg (by omega), mul_zero, Finsupp.single_zero]
  · exact h2 j h4 (by omega)

theorem col_QOG (ord : List Int → List Int) : 
    (∀ j ≤ m + 1, (ringQOG ord _ _ (ltCol m k')).Y.act (ee (cv (m + 1 + (k' + 1) + (k' + 1)) (kB (k' + 1))) j) (Finsupp.single [] 1) =
      Finsupp.single (List.replicate j 1) 1) ∧
    (∀ j, m + 1 < j → j < m + 1 + (k' + 1) + (k' + 1) →
      (ringQOG ord _ _ (ltCol m k')).Y.act (ee (cv (m + 1 + (k' + 1) + (k' + 1)) (kB (k' + 1))) j) (Finsupp.single [] 1) = 0) ∧
    (ringQOG ord _ _ (ltCol m k')).Y.act (ee (cv (m + 1 + (k' + 1) + (k' + 1)) (kB (k' + 1))) (m + 1 + (k' + 1) + (k' + 1)))
      (Finsupp.single [] 1) = Finsupp.single [] (-(2 * Polynomial.X)) := by
  obtain ⟨h1, h2, h3⟩ := act_ee (ringQOG ord _ _ (ltCol m k')) (kB (k' + 1)) (kB_zero _) (Wd_cls (leCol m k')) Wd_inj
    (N := fun p u w => (opQ (Polynomial.C (2 : Polynomial ℚ)) (Polynomial.C Polynomial.X)
      (Polynomial.C (if k' + 1 = 0 then Polynomial.X else Polynomial.X ^ 2)) Polynomial.X u w).coeff p)
    (fun u hu w hw => opQ_zero _ _ _ (by rw [mem_Wd] at hu hw; omega))
    (fun p l _ _ => tM_scale (M := MQB (k' + 1)) (fun u w => by
      unfold MQB
      rw [← mul_assoc, kB_cfB, cfB_scB, one_mul]) l)
    (m := m + 1) (k' := k') (fun s hs => colW_mem hs)
    (fun r => (if r = 0 then 1 else 0) + if r = m + 1 + (k' + 1) + (k' + 1) then (-1) ^ (m + 1) * (Polynomial.X * 2) else 0)
    (fun r hr w _ => col_opQ (2 : Polynomial ℚ) Polynomial.X (if k' + 1 = 0 then Polynomial.X else Polynomial.X ^ 2) hr w) (by omega) (fun r hr hr' => by rw [if_neg (by omega), if_neg (by omega), add_zero])
  refine ⟨h1, h2, ?_⟩
  rw [h3]
  congr 1
  rw [if_neg (by omega), if_pos rfl, zero_add]
  have : (-1 : Polynomial ℚ) ^ (m + 1 + (k' + 1) + (k' + 1)) = (-1) ^ (m + 1) := by
    apply neg_one_pow_congr
    rw [Nat.even_iff, Nat.even_iff]
    omega
  rw [this]
  have h4 := neg_pow_mul_self (R := Polynomial ℚ) (m + 1)
  linear_combination (-(2 * Polynomial.X)) * h4

/-! ### The quadratic relations -/

theorem quad_IG {r : ℕ} (h1 : k' + 1 < r) (h2 : r ≤ m + 1 + (k' + 1)) :
    (ringIG _ _ (leCol m k')).Y.act (Qd (m + 1 + (k' + 1) + (k' + 1)) (fun _ => 1) r) (Finsupp.single [] 1) = 0 := by
  refine act_Qd (ltCol m k') _ (by omega) ?_
  have key := relation_BC (ltCol m k') (ringIG _ _ (leCol m k')) (MC 0) (fun _ => Polynomial.C 1) (map_one _)
    (fun u hu w hw => opW_zero 1 _ (by rw [mem_Wd] at hu hw; omega)) (fun p l _ _ => by rw [map_one, one_smul]; rfl)
    (fun c d => MC_comm _ _ _ c d) (g := 0)
    (fun u hu w hw => by unfold MC; rw [opW_top _ _ hu hw, mul_one]) (fun p hp u hu w hw => opW_high _ _ hu hw hp)
    (r := r) (by omega) (e := 0) (fun u hu v hv => by
      have := opW_rel (1 : Polynomial ℚ) 0 (Or.inl rfl) hu hv (d := 2 * r) (by omega) (by omega)
      rw [mul_zero, ite_self]
      exact this)
  rw [key]
  simp

theorem quad_QIG (ord : List Int → List Int) {r : ℕ} (h1 : k' + 1 < r) (h2 : r ≤ m + 1 + (k' + 1)) :
    (ringQIG ord _ _ (leCol m k')).Y.act (Qd (m + 1 + (k' + 1) + (k' + 1)) (fun _ => 1) r) (Finsupp.single [] 1) =
      if m + 1 + (k' + 1) + (k' + 1) + 1 ≤ 2 * r then Finsupp.single (rowS (2 * r - (m + 1 + (k' + 1) + (k' + 1) + 1)))
        ((-1) ^ (m + 1 + (k' + 1) + (k' + 1) - r) * Polynomial.X) else 0 := by
  refine act_Qd (ltCol m k') _ (by omega) ?_
  have key := relation_BC (ltCol m k') (ringQIG ord _ _ (leCol m k')) (MC (Polynomial.C (1 / 2) * Polynomial.X)) (fun _ => Polynomial.C 1)
    (map_one _)
    (fun u hu w hw => opW_zero 1 _ (by rw [mem_Wd] at hu hw; omega)) (fun p l _ _ => by rw [map_one, one_smul]; rfl)
    (fun c d => MC_comm _ _ _ c d) (g := Polynomial.C (1 / 2) * Polynomial.X)
    (fun u hu w hw => by unfold MC; rw [opW_top _ _ hu hw, mul_one]) (fun p hp u hu w hw => opW_high _ _ hu hw hp)
    (r := r) (by omega) (e := 0) (fun u hu v hv => by
      have := opW_rel (1 : Polynomial ℚ) (Polynomial.C (1 / 2) * Polynomial.X) (Or.inl rfl) hu hv (d := 2 * r) (by omega) (by omega)
      rw [mul_zero, ite_self]
      exact this)
  rw [key, Finsupp.single_zero, zero_sub]
  split
  · rw [Finsupp.smul_single, Finsupp.smul_single, ← Finsupp.single_neg]
    congr 1
    rw [show m + 1 + (k' + 1) + (k' + 1) + 1 - r = m + 1 + (k' + 1) + (k' + 1) - r + 1 by omega, pow_succ, zsmul_eq_mul, zsmul_eq_mul,
      map_one, mul_one]
    have e2 : (2 : Polynomial ℚ) * Polynomial.C (1 / 2) = 1 := by
      rw [show (2 : Polynomial ℚ) = Polynomial.C 2 from (map_ofNat Polynomial.C 2).symm, ← Polynomial.C_mul]
      norm_num
    push_cast
    linear_combination ((-1) ^ (m + 1 + (k' + 1) + (k' + 1) - r) * Polynomial.X) * e2
  · simp

theorem quad_OG {r : ℕ} (h1 : k' + 1 < r) (h2 : r ≤ m + 1 + (k' + 1)) :
    (ringOG _ _ (leCol m k')).Y.act (Qd (m + 1 + (k' + 1) + (k' + 1)) (kB (k' + 1)) r) (Finsupp.single [] 1) = 0 := by
  refine act_Qd (ltCol m k') _ (by omega) ?_
  have key := relation_BC (ltCol m k') (ringOG _ _ (leCol m k'))
    (fun p u w => (opW (Polynomial.C (2 : Polynomial ℚ)) (Polynomial.C 0) Polynomial.X u w).coeff p) (fun p => Polynomial.C (kB (k' + 1) p))
    (by rw [kB_zero, map_one]) (fun u hu w hw => opW_zero _ _ (by rw [mem_Wd] at hu hw; omega))
    (fun p l _ _ => tM_scale (M := MB (k' + 1)) (fun u w => by
      unfold MB
      rw [← mul_assoc, show (Polynomial.C (if p ≤ k' + 1 then 1 else 1 / 2 : ℚ)) = Polynomial.C (scB (k' + 1) p) from rfl, kB_cfB,
        cfB_scB, one_mul]) l)
    (fun c d u hu v hv => coeffW_comm (2 : Polynomial ℚ) 0 c d hu hv) (g := 0)
    (fun u hu w hw => by rw [opW_top _ _ hu hw, zero_mul]) (fun p hp u hu w hw => opW_high _ _ hu hw hp)
    (r := r) (by omega) (e := 0) (fun u hu v hv => by
      have := opW_rel (2 : Polynomial ℚ) 0 (Or.inr rfl) hu hv (d := 2 * r) (by omega) (by omega)
      rw [mul_zero, ite_self]
      exact this)
  rw [key]
  simp

theorem quad_QOG (ord : List Int → List Int) {r : ℕ} (h1 : k' + 1 < r) (h2 : r ≤ m + 1 + (k' + 1)) :
    (ringQOG ord _ _ (ltCol m k')).Y.act (Qd (m + 1 + (k' + 1) + (k' + 1)) (kB (k' + 1)) r) (Finsupp.single [] 1) = 0 := by
  refine act_Qd (ltCol m k') _ (by omega) ?_
  have hh : (if k' + 1 = 0 then Polynomial.X else Polynomial.X ^ 2 : Polynomial ℚ) = Polynomial.X ^ 2 ∨ k' + 1 = 0 := Or.inl (if_neg (by omega))
  have key := relation_BC (ltCol m k') (ringQOG ord _ _ (ltCol m k'))
    (fun p u w => (opQ (Polynomial.C (2 : Polynomial ℚ)) (Polynomial.C Polynomial.X)
      (Polynomial.C (if k' + 1 = 0 then Polynomial.X else Polynomial.X ^ 2)) Polynomial.X u w).coeff p) (fun p => Polynomial.C (kB (k' + 1) p))
    (by rw [kB_zero, map_one]) (fun u hu w hw => opQ_zero _ _ _ (by rw [mem_Wd] at hu hw; omega))
    (fun p l _ _ => tM_scale (M := MQB (k' + 1)) (fun u w => by
      unfold MQB
      rw [← mul_assoc, kB_cfB, cfB_scB, one_mul]) l)
    (fun c d u hu v hv => coeffQ_comm _ _ _ c d hh hu hv) (g := 0)
    (fun u hu w hw => by rw [opQ_high _ _ _ hu hw (by omega), ite_self]) (fun p hp u hu w hw => opQ_high _ _ _ hu hw (by omega))
    (r := r) (by omega) (e := 0)
    (fun u hu v hv => by
      have := opQ_rel (2 : Polynomial ℚ) Polynomial.X (if k' + 1 = 0 then Polynomial.X else Polynomial.X ^ 2) (Or.inr rfl) hh (by omega) hu hv
        (d := 2 * r) (by omega)
      rw [this, mul_zero, ite_self, if_neg]
      rintro ⟨h4, -⟩
      omega)
  rw [key]
  simp

end

/-! ### The ideals -/

theorem ideal_zero {X : Space} {pieri : Int → List Int → Except PyErr Poly} {spc : Int → Prop} {cls : List Int → Prop} {B : ℕ}
    (Z : RingOn X pieri spc cls B) {S : Set P} (h : ∀ x ∈ S, Z.Y.act x (Finsupp.single [] 1) = 0) :
    ∀ x ∈ Ideal.span S, Z.Y.act x (Finsupp.single [] 1) = 0 := by
  intro x hx
  induction hx using Submodule.span_induction with
  | mem x hx => exact h x hx
  | zero => simp
  | add x y _ _ hx hy => rw [map_add, LinearMap.add_apply, hx, hy, add_zero]
  | smul a x _ hx => rw [smul_eq_mul, map_mul, Module.End.mul_apply, hx, map_zero]

section
variable {m k' : ℕ} {e : P}

theorem zero_IG (i : RelIx m (k' + 1)) : (ringIG _ _ (leCol m k')).Y.act (relBC m (k' + 1) (fun _ => 1) 1 i) (Finsupp.single [] 1) = 0 := by
  rcases i with ⟨j, h1, h2⟩ | ⟨r, h1, h2⟩
  · exact col_IG.2 j h1 h2
  · rw [relBC, map_mul, Module.End.mul_apply, quad_IG h1 h2, map_zero]

theorem zero_OG (i : RelIx m (k' + 1)) :
    (ringOG _ _ (leCol m k')).Y.act (relBC m (k' + 1) (kB (k' + 1)) (1 / 4) i) (Finsupp.single [] 1) = 0 := by
  rcases i with ⟨j, h1, h2⟩ | ⟨r, h1, h2⟩
  · exact col_OG.2 j h1 h2
  · rw [relBC, map_mul, Module.End.mul_apply, quad_OG h1 h2, map_zero]

theorem row_hvar {n k B : ℕ} {X : Space} {pieri : Int → List Int → Except PyErr Poly} (hk : k < n)
    (Z : RingOn X pieri (stdSpc (n + k)) (clsBC n k) B) {a : ℕ} (ha : a ≤ n + k) :
    Z.Y.act (hvar (n + k : ℕ) (a : ℕ)) (Finsupp.single [] 1) = Finsupp.single (rowS a) 1 := by
  have := act_cv2 (κ := fun _ => 1) hk Z ha (Nat.zero_le _)
  rw [cv_one, Nat.cast_zero, show hvar (n + k : ℕ) 0 = 1 by simp [hvar], mul_one, map_one, mul_one, one_smul] at this
  rw [this]
  have hc : clsBC n k (rowS a) := by
    unfold Spec.rowS
    split
    · exact clsBC_nil hk.le
    · exact clsBC_row hk (by omega) (by omega)
  exact Z.Y.prod_one Z.nil (supp_single hc 1)

theorem zero_QIG (ord : List Int → List Int) (i : RelIx m (k' + 1)) :
    (ringQIG ord _ _ (leCol m k')).Y.act (relBC m (k' + 1) (fun _ => 1) 1 i + MvPolynomial.X .q * tIG m (k' + 1) i) (Finsupp.single [] 1) = 0 := by
  rcases i with ⟨j, h1, h2⟩ | ⟨r, h1, h2⟩
  · rw [tIG, mul_zero, add_zero]
    exact (col_QIG ord).2 j h1 h2
  · rw [relBC, C_1, one_mul, map_add, LinearMap.add_apply, quad_QIG ord h1 h2, tIG, map_mul, Module.End.mul_apply, PieriSys.act_q, map_neg,
      LinearMap.neg_apply, map_mul, Module.End.mul_apply, map_pow, map_neg, map_one, negpow_apply]
    split
    · rename_i h3
      have : (2 * (r : ℤ) - ((m + 1 + (k' + 1) + (k' + 1) : ℕ) : ℤ) - 1) = ((2 * r - (m + 1 + (k' + 1) + (k' + 1) + 1) : ℕ) : ℤ) := by omega
      rw [this, row_hvar (ltCol m k') _ (by omega), Finsupp.smul_single, smul_neg, Finsupp.smul_single, ← sub_eq_add_neg, ← Finsupp.single_sub,
        zsmul_eq_mul, smul_eq_mul]
      push_cast
      rw [show ((-1) ^ (m + 1 + (k' + 1) + (k' + 1) - r) * Polynomial.X - Polynomial.X * ((-1) ^ (m + 1 + (k' + 1) + (k' + 1) - r) * 1) :
        Polynomial ℚ) = 0 by ring, Finsupp.single_zero]
    · rename_i h3
      rw [hvar_neg _ _ (show 2 * (r : ℤ) - ((m + 1 + (k' + 1) + (k' + 1) : ℕ) : ℤ) - 1 < 0 by omega)]
      simp

theorem zero_QOG (ord : List Int → List Int) (i : RelIx m (k' + 1)) :
    (ringQOG ord _ _ (ltCol m k')).Y.act (relBC m (k' + 1) (kB (k' + 1)) (1 / 4) i + MvPolynomial.X .q * tOG m (k' + 1) i)
      (Finsupp.single [] 1) = 0 := by
  rcases i with ⟨j, h1, h2⟩ | ⟨r, h1, h2⟩
  · rw [relBC, tOG, map_add, LinearMap.add_apply, map_mul, Module.End.mul_apply, PieriSys.act_q]
    by_cases h : j = m + 1 + (k' + 1) + (k' + 1)
    · subst h
      rw [if_pos rfl, (col_QOG ord).2.2, show (2 : P) = C 2 from (map_ofNat C 2).symm, PieriSys.act_C, Finsupp.smul_single, Finsupp.smul_single,
        ← Finsupp.single_add, show (Polynomial.C 2 : Polynomial ℚ) = 2 from map_ofNat _ 2]
      simp only [smul_eq_mul, mul_one]
      rw [mul_comm, neg_add_cancel, Finsupp.single_zero]
    · rw [if_neg h, map_zero, LinearMap.zero_apply, smul_zero, add_zero]
      exact (col_QOG ord).2.1 j h1 (lt_of_le_of_ne h2 h)
  · rw [relBC, tOG, mul_zero, add_zero, map_mul, Module.End.mul_apply, quad_QOG ord h1 h2, map_zero]

theorem iff_IG (he : e ∈ supported ℚ (specialSet (stdSpc (m + 1 + (k' + 1) + (k' + 1))))) :
    (ringIG _ _ (leCol m k')).Y.act e (Finsupp.single [] 1) = 0 ↔ e ∈ Ideal.span (relIG (m + 1) (k' + 1)) := by
  rw [← range_IG]
  exact ⟨pres_cl _ rfl (fun _ => one_ne_zero) one_ne_zero zero_IG he, ideal_zero _ (by rintro _ ⟨i, rfl⟩; exact zero_IG i) e⟩

theorem iff_OG (he : e ∈ supported ℚ (specialSet (stdSpc (m + 1 + (k' + 1) + (k' + 1))))) :
    (ringOG _ _ (leCol m k')).Y.act e (Finsupp.single [] 1) = 0 ↔ e ∈ Ideal.span (relOG (m + 1) (k' + 1)) := by
  rw [← range_OG]
  exact ⟨pres_cl _ (kB_zero _) (kB_ne _) (by norm_num) zero_OG he, ideal_zero _ (by rintro _ ⟨i, rfl⟩; exact zero_OG i) e⟩

/-- degrees of the relations -/
def dRel (m k : ℕ) : RelIx m k → ℕ
  | .inl j => j
  | .inr r => 2 * r

theorem relBC_hom {m k : ℕ} {κ : ℕ → ℚ} (h0 : κ 0 = 1) (u : ℚ) (δ : ℕ) (i : RelIx m k) :
    IsWeightedHomogeneous (wSym δ) (relBC m k κ u i) (dRel m k i) := by
  rcases i with j | r
  · exact ee_hom h0 δ j
  · have := (isWeightedHomogeneous_C (wSym δ) u).mul (Qd_hom (K := m + 1 + k + k) (κ := κ) δ r)
    rwa [zero_add] at this

theorem relBC_supp {m k : ℕ} {κ : ℕ → ℚ} (u : ℚ) (i : RelIx m k) :
    relBC m k κ u i ∈ supported ℚ (specialSet (stdSpc (m + 1 + k + k))) := by
  rcases i with j | r
  · exact ee_supp j
  · exact Subalgebra.mul_mem _ (Subalgebra.algebraMap_mem _ u) (Qd_supp r)

theorem iff_QIG (ord : List Int → List Int) (he : e ∈ supported ℚ (specialSet (stdSpc (m + 1 + (k' + 1) + (k' + 1))))) :
    (ringQIG ord _ _ (leCol m k')).Y.act e (Finsupp.single [] 1) = 0 ↔ e ∈ Ideal.span (relQIG (m + 1) (k' + 1)) := by
  rw [← range_QIG]
  refine ⟨fun h => ?_, ideal_zero _ (by rintro _ ⟨i, rfl⟩; exact zero_QIG ord i) e⟩
  refine pres_lift (ringQIG ord _ _ (leCol m k')) (ringIG _ _ (leCol m k')) (fun p l _ => q0_QIG _ _ (leCol m k') p.toNat l)
    (δ := m + 1 + (k' + 1) + (k' + 1) + 1) (by omega) (relBC_hom rfl 1 _) ?_ (relBC_supp 1) ?_
    (fun x hx hz => pres_cl _ rfl (fun _ => one_ne_zero) one_ne_zero zero_IG hx hz) (zero_QIG ord)
    (e.support.sup (Finsupp.weight (wSym (m + 1 + (k' + 1) + (k' + 1) + 1)))) e he (fun d hd => Finset.le_sup hd) h
  · rintro (j | ⟨r, h1, h2⟩) d hd
    · simp [tIG] at hd
    · by_cases h3 : m + 1 + (k' + 1) + (k' + 1) + 1 ≤ 2 * r
      · have h4 : (2 * (r : ℤ) - ((m + 1 + (k' + 1) + (k' + 1) : ℕ) : ℤ) - 1) = ((2 * r - (m + 1 + (k' + 1) + (k' + 1) + 1) : ℕ) : ℤ) := by omega
        have h5 := neg_hom (cv_hom (K := m + 1 + (k' + 1) + (k' + 1)) (κ := fun _ => 1) (m + 1 + (k' + 1) + (k' + 1) + 1)
          (2 * r - (m + 1 + (k' + 1) + (k' + 1) + 1))) (m + 1 + (k' + 1) + (k' + 1) - r)
        rw [cv_one] at h5
        rw [tIG, h4, support_neg] at hd
        have h6 := h5 (mem_support_iff.1 hd)
        rw [h6]
        show _ = 2 * r
        omega
      · rw [tIG, hvar_neg _ _ (show 2 * (r : ℤ) - ((m + 1 + (k' + 1) + (k' + 1) : ℕ) : ℤ) - 1 < 0 by omega)] at hd
        simp at hd
  · rintro (j | r)
    · exact Subalgebra.zero_mem _
    · have h5 := cv_supp (K := m + 1 + (k' + 1) + (k' + 1)) (κ := fun _ => 1) (2 * r - (m + 1 + (k' + 1) + (k' + 1) : ℕ) - 1)
      rw [cv_one] at h5
      exact Subalgebra.neg_mem _ (Subalgebra.mul_mem _ (Subalgebra.pow_mem _ (Subalgebra.neg_mem _ (Subalgebra.one_mem _)) _) h5)

theorem iff_QOG (ord : List Int → List Int) (he : e ∈ supported ℚ (specialSet (stdSpc (m + 1 + (k' + 1) + (k' + 1))))) :
    (ringQOG ord _ _ (ltCol m k')).Y.act e (Finsupp.single [] 1) = 0 ↔ e ∈ Ideal.span (relQOG (m + 1) (k' + 1)) := by
  rw [← range_QOG]
  refine ⟨fun h => ?_, ideal_zero _ (by rintro _ ⟨i, rfl⟩; exact zero_QOG ord i) e⟩
  refine pres_lift (ringQOG ord _ _ (ltCol m k')) (ringOG _ _ (leCol m k')) (fun p l _ => q0_QOG _ _ (ltCol m k') p.toNat l)
    (δ := m + 1 + (k' + 1) + (k' + 1)) (by omega) (relBC_hom (kB_zero _) (1 / 4) _) ?_ (relBC_supp _) ?_
    (fun x hx hz => pres_cl _ (kB_zero _) (kB_ne _) (by norm_num) zero_OG hx hz) (zero_QOG ord)
    (e.support.sup (Finsupp.weight (wSym (m + 1 + (k' + 1) + (k' + 1))))) e he (fun d hd => Finset.le_sup hd) h
  · rintro (⟨j, h1, h2⟩ | r) d hd
    · rw [tOG] at hd
      split at hd
      · rename_i h3
        have h5 := (isWeightedHomogeneous_C (wSym (m + 1 + (k' + 1) + (k' + 1))) (2 : ℚ))
        rw [show (2 : P) = C 2 from (map_ofNat C 2).symm] at hd
        rw [h5 (mem_support_iff.1 hd), zero_add]
        exact h3.symm
      · simp at hd
    · simp [tOG] at hd
  · rintro (j | r)
    · rw [tOG]
      split
      · exact ofNat_mem _ 2
      · exact Subalgebra.zero_mem _
    · exact Subalgebra.zero_mem _

end

section
variable {m k : ℕ} {X : Space} {e f : Poly}

/-- **C133**, type C. For `IG(m, 2m+2k)`, `k ≥ 1`, and polynomials in `q` and the special classes `S[1]`, ..., `S[m+2k]`:
`act(e, S[]) = act(f, S[])` if and only if `e - f` lies in the ideal of the relations, and then `e` and `f` act in the same way on
all linear combinations. -/
theorem C133_IG_classical (hm : 0 < m) (hk : 0 < k) (hX : mkIG m (2 * ((m : Int) + k)) = .ok X)
    (he : SpecialPoly (m + 2 * k) e) (hf : SpecialPoly (m + 2 * k) f) :
    (SameResult (X.act e (Poly.sym (.S []))) (X.act f (Poly.sym (.S []))) ↔ den e - den f ∈ Ideal.span (relIG m k)) ∧
    (den e - den f ∈ Ideal.span (relIG m k) → ∀ x, LinComb (BCClass m (m + k)) x → SameResult (X.act e x) (X.act f x)) := by
  obtain ⟨m, rfl⟩ : ∃ m', m = m' + 1 := ⟨m - 1, by omega⟩
  obtain ⟨k, rfl⟩ : ∃ k', k = k' + 1 := ⟨k - 1, by omega⟩
  rw [show ((m + 1 : ℕ) : ℤ) + ((k + 1 : ℕ) : ℤ) = ((m + 1 + (k + 1) : ℕ) : ℤ) by push_cast; ring] at hX ⊢
  obtain ⟨a, b, h, h1, h2, rfl⟩ := igCase hX
  obtain rfl : a = m + 1 + (k + 1) := by omega
  obtain rfl : b = k + 1 := by omega
  rw [show m + 1 + 2 * (k + 1) = m + 1 + (k + 1) + (k + 1) by ring] at he hf
  have he' := (specIn_iff _ _).2 he
  have hf' := (specIn_iff _ _).2 hf
  have hs := iff_IG (Subalgebra.sub_mem _ (specIn_supported he') (specIn_supported hf'))
  rw [h2, bcClass_eq (leCol m k)]
  exact ⟨(same_act_iffR (ringIG _ _ (leCol m k)) he' hf').trans hs,
    fun h x hx => same_act_allR (ringIG _ _ (leCol m k)) he' hf' hx (hs.2 h)⟩

/-- **C133**, type C, quantum. -/
theorem C133_IG_quantum (ord : List Int → List Int) (hm : 0 < m) (hk : 0 < k) (hX : mkIG m (2 * ((m : Int) + k)) = .ok X)
    (he : SpecialPoly (m + 2 * k) e) (hf : SpecialPoly (m + 2 * k) f) :
    (SameResult (X.qact ord e (Poly.sym (.S []))) (X.qact ord f (Poly.sym (.S []))) ↔ den e - den f ∈ Ideal.span (relQIG m k)) ∧
    (den e - den f ∈ Ideal.span (relQIG m k) → ∀ x, LinComb (BCClass m (m + k)) x → SameResult (X.qact ord e x) (X.qact ord f x)) := by
  obtain ⟨m, rfl⟩ : ∃ m', m = m' + 1 := ⟨m - 1, by omega⟩
  obtain ⟨k, rfl⟩ : ∃ k', k = k' + 1 := ⟨k - 1, by omega⟩
  rw [show ((m + 1 : ℕ) : ℤ) + ((k + 1 : ℕ) : ℤ) = ((m + 1 + (k + 1) : ℕ) : ℤ) by push_cast; ring] at hX ⊢
  obtain ⟨a, b, h, h1, h2, rfl⟩ := igCase hX
  obtain rfl : a = m + 1 + (k + 1) := by omega
  obtain rfl : b = k + 1 := by omega
  rw [show m + 1 + 2 * (k + 1) = m + 1 + (k + 1) + (k + 1) by ring] at he hf
  have he' := (specIn_iff _ _).2 he
  have hf' := (specIn_iff _ _).2 hf
  have hs := iff_QIG ord (Subalgebra.sub_mem _ (specIn_supported he') (specIn_supported hf'))
  rw [h2, bcClass_eq (leCol m k)]
  exact ⟨(same_act_iffR (ringQIG ord _ _ (leCol m k)) he' hf').trans hs,
    fun h x hx => same_act_allR (ringQIG ord _ _ (leCol m k)) he' hf' hx (hs.2 h)⟩

/-- **C133**, type B. -/
theorem C133_OG_classical (hm : 0 < m) (hk : 0 < k) (hX : mkOG m (2 * ((m : Int) + k) + 1) = .ok X)
    (he : SpecialPoly (m + 2 * k) e) (hf : SpecialPoly (m + 2 * k) f) :
    (SameResult (X.act e (Poly.sym (.S []))) (X.act f (Poly.sym (.S []))) ↔ den e - den f ∈ Ideal.span (relOG m k)) ∧
    (den e - den f ∈ Ideal.span (relOG m k) → ∀ x, LinComb (BCClass m (m + k)) x → SameResult (X.act e x) (X.act f x)) := by
  obtain ⟨m, rfl⟩ : ∃ m', m = m' + 1 := ⟨m - 1, by omega⟩
  obtain ⟨k, rfl⟩ : ∃ k', k = k' + 1 := ⟨k - 1, by omega⟩
  rw [show ((m + 1 : ℕ) : ℤ) + ((k + 1 : ℕ) : ℤ) = ((m + 1 + (k + 1) : ℕ) : ℤ) by push_cast; ring] at hX ⊢
  obtain ⟨a, b, h, h1, h2, rfl⟩ := ogCase' (by omega) (by omega) hX
  obtain rfl : a = m + 1 + (k + 1) := by omega
  obtain rfl : b = k + 1 := by omega
  rw [show m + 1 + 2 * (k + 1) = m + 1 + (k + 1) + (k + 1) by ring] at he hf
  have he' := (specIn_iff _ _).2 he
  have hf' := (specIn_iff _ _).2 hf
  have hs := iff_OG (Subalgebra.sub_mem _ (specIn_supported he') (specIn_supported hf'))
  rw [h2, bcClass_eq (leCol m k)]
  exact ⟨(same_act_iffR (ringOG _ _ (leCol m k)) he' hf').trans hs,
    fun h x hx => same_act_allR (ringOG _ _ (leCol m k)) he' hf' hx (hs.2 h)⟩

/-- **C133**, type B, quantum. -/
theorem C133_OG_quantum (ord : List Int → List Int) (hm : 0 < m) (hk : 0 < k) (hX : mkOG m (2 * ((m : Int) + k) + 1) = .ok X)
    (he : SpecialPoly (m + 2 * k) e) (hf : SpecialPoly (m + 2 * k) f) :
    (SameResult (X.qact ord e (Poly.sym (.S []))) (X.qact ord f (Poly.sym (.S []))) ↔ den e - den f ∈ Ideal.span (relQOG m k)) ∧
    (den e - den f ∈ Ideal.span (relQOG m k) → ∀ x, LinComb (BCClass m (m + k)) x → SameResult (X.qact ord e x) (X.qact ord f x)) := by
  obtain ⟨m, rfl⟩ : ∃ m', m = m' + 1 := ⟨m - 1, by omega⟩
  obtain ⟨k, rfl⟩ : ∃ k', k = k' + 1 := ⟨k - 1, by omega⟩
  rw [show ((m + 1 : ℕ) : ℤ) + ((k + 1 : ℕ) : ℤ) = ((m + 1 + (k + 1) : ℕ) : ℤ) by push_cast; ring] at hX ⊢
  obtain ⟨a, b, h, h1, h2, rfl⟩ := ogCase' (by omega) (by omega) hX
  obtain rfl : a = m + 1 + (k + 1) := by omega
  obtain rfl : b = k + 1 := by omega
  rw [show m + 1 + 2 * (k + 1) = m + 1 + (k + 1) + (k + 1) by ring] at he hf
  have he' := (specIn_iff _ _).2 he
  have hf' := (specIn_iff _ _).2 hf
  have hs := iff_QOG ord (Subalgebra.sub_mem _ (specIn_supported he') (specIn_supported hf'))
  rw [h2, bcClass_eq (leCol m k)]
  exact ⟨(same_act_iffR (ringQOG ord _ _ (ltCol m k)) he' hf').trans hs,
    fun h x hx => same_act_allR (ringQOG ord _ _ (ltCol m k)) he' hf' hx (hs.2 h)⟩

/-! ### Columns -/

theorem col_clsBC {m k j : ℕ} (hj : j ≤ m + 1) : clsBC (m + 1 + (k + 1)) (k + 1) (List.replicate j 1) :=
  (Wd_cls (leCol m k) _).2 ⟨colW (m + 1) k j, colW_mem hj, labW_col _ _ _⟩

/-- An expression that acts on `S[]` as a class acts as the product with this class. -/
theorem col_same {pieri : Int → List Int → Except PyErr Poly} {spc : Int → Prop} {cls : List Int → Prop} {B fuel : ℕ}
    (R : RingOn X pieri spc cls B) (hfu : B ≤ fuel) (he : SpecIn spc e) {l : List Int}
    (h : R.Y.act (den e) (Finsupp.single [] 1) = Finsupp.single l 1) (hl : cls l) {x : Poly} (hx : LinComb cls x) :
    SameResult (X.actLc pieri e x) (gmult X pieri fuel (Poly.sym (.S l)) x) := by
  obtain ⟨v, hv, hvc⟩ := linComb_ev hx.2
  refine same_of_returns (R.act he hx.1 hv hvc) ?_
  have h1 := R.mult hfu (wf_sym (.S l)) (x := Finsupp.single l 1) (by simp [inq]) (supp_single hl 1) hx.1 hv hvc
  have h2 : R.Y.prod (Finsupp.single l 1) v = R.Y.act (den e) v := by
    rw [R.Y.prod_comm (supp_single hl 1) hvc, GiamSys.prod, ← h, R.Y.act_comm, R.Y.act_GL hvc]
  rwa [h2] at h1

/-- **C134**, type C. On `IG(m, 2m+2k)`, `k ≥ 1`, the determinant `det(S[1-a+b])` of size `j ≤ m` acts as the product with `S[1, ..., 1]`
(`j` ones). -/
theorem C134_IG_classical (hm : 0 < m) (hk : 0 < k) (hX : mkIG m (2 * ((m : Int) + k)) = .ok X)
    {fuel : ℕ} (hfu : giamBoundBC m (m + k) ≤ fuel) (he : SpecialPoly (m + 2 * k) e) {j : ℕ} (hj : j ≤ m)
    (hd : den e = detOnes (hvar (m + 2 * k)) j) {x : Poly} (hx : LinComb (BCClass m (m + k)) x) :
    SameResult (X.act e x) (X.mult fuel (Poly.sym (.S (List.replicate j 1))) x) := by
  obtain ⟨m, rfl⟩ : ∃ m', m = m' + 1 := ⟨m - 1, by omega⟩
  obtain ⟨k, rfl⟩ : ∃ k', k = k' + 1 := ⟨k - 1, by omega⟩
  rw [show ((m + 1 : ℕ) : ℤ) + ((k + 1 : ℕ) : ℤ) = ((m + 1 + (k + 1) : ℕ) : ℤ) by push_cast; ring] at hX hx hfu
  obtain ⟨a, b, h, h1, h2, rfl⟩ := igCase hX
  obtain rfl : a = m + 1 + (k + 1) := by omega
  obtain rfl : b = k + 1 := by omega
  rw [castK] at hd
  rw [show m + 1 + 2 * (k + 1) = m + 1 + (k + 1) + (k + 1) by ring] at he
  rw [h2, bcClass_eq (leCol m k)] at hx
  rw [h2, giamBoundBC_eq (leCol m k)] at hfu
  refine col_same (ringIG _ _ (leCol m k)) hfu ((specIn_iff _ _).2 he) ?_ (col_clsBC hj) hx
  rw [hd]
  have := (col_IG (k' := k)).1 j hj
  rw [cv_one] at this
  exact this

/-- **C134**, type C, quantum: without correction. -/
theorem C134_IG_quantum (ord : List Int → List Int) (hm : 0 < m) (hk : 0 < k) (hX : mkIG m (2 * ((m : Int) + k)) = .ok X)
    {fuel : ℕ} (hfu : giamBoundBC m (m + k) ≤ fuel) (he : SpecialPoly (m + 2 * k) e) {j : ℕ} (hj : j ≤ m)
    (hd : den e = detOnes (hvar (m + 2 * k)) j) {x : Poly} (hx : LinComb (BCClass m (m + k)) x) :
    SameResult (X.qact ord e x) (X.qmult ord fuel (Poly.sym (.S (List.replicate j 1))) x) := by
  obtain ⟨m, rfl⟩ : ∃ m', m = m' + 1 := ⟨m - 1, by omega⟩
  obtain ⟨k, rfl⟩ : ∃ k', k = k' + 1 := ⟨k - 1, by omega⟩
  rw [show ((m + 1 : ℕ) : ℤ) + ((k + 1 : ℕ) : ℤ) = ((m + 1 + (k + 1) : ℕ) : ℤ) by push_cast; ring] at hX hx hfu
  obtain ⟨a, b, h, h1, h2, rfl⟩ := igCase hX
  obtain rfl : a = m + 1 + (k + 1) := by omega
  obtain rfl : b = k + 1 := by omega
  rw [castK] at hd
  rw [show m + 1 + 2 * (k + 1) = m + 1 + (k + 1) + (k + 1) by ring] at he
  rw [h2, bcClass_eq (leCol m k)] at hx
  rw [h2, giamBoundBC_eq (leCol m k)] at hfu
  refine col_same (ringQIG ord _ _ (leCol m k)) hfu ((specIn_iff _ _).2 he) ?_ (col_clsBC hj) hx
  rw [hd]
  have := (col_QIG ord (k' := k)).1 j hj
  rw [cv_one] at this
  exact this

/-- **C134**, type B: with `c(p) = S[p]` for `p ≤ k` and `2*S[p]` for `p > k`. -/
theorem C134_OG_classical (hm : 0 < m) (hk : 0 < k) (hX : mkOG m (2 * ((m : Int) + k) + 1) = .ok X)
    {fuel : ℕ} (hfu : giamBoundBC m (m + k) ≤ fuel) (he : SpecialPoly (m + 2 * k) e) {j : ℕ} (hj : j ≤ m)
    (hd : den e = detOnes (cvar k (m + 2 * k)) j) {x : Poly} (hx : LinComb (BCClass m (m + k)) x) :
    SameResult (X.act e x) (X.mult fuel (Poly.sym (.S (List.replicate j 1))) x) := by
  obtain ⟨m, rfl⟩ : ∃ m', m = m' + 1 := ⟨m - 1, by omega⟩
  obtain ⟨k, rfl⟩ : ∃ k', k = k' + 1 := ⟨k - 1, by omega⟩
  rw [show ((m + 1 : ℕ) : ℤ) + ((k + 1 : ℕ) : ℤ) = ((m + 1 + (k + 1) : ℕ) : ℤ) by push_cast; ring] at hX hx hfu
  obtain ⟨a, b, h, h1, h2, rfl⟩ := ogCase' (by omega) (by omega) hX
  obtain rfl : a = m + 1 + (k + 1) := by omega
  obtain rfl : b = k + 1 := by omega
  rw [castK] at hd
  rw [show m + 1 + 2 * (k + 1) = m + 1 + (k + 1) + (k + 1) by ring] at he
  rw [h2, bcClass_eq (leCol m k)] at hx
  rw [h2, giamBoundBC_eq (leCol m k)] at hfu
  refine col_same (ringOG _ _ (leCol m k)) hfu ((specIn_iff _ _).2 he) ?_ (col_clsBC hj) hx
  rw [hd]
  have := (col_OG (k' := k)).1 j hj
  rw [cv_B] at this
  exact this

/-- **C134**, type B, quantum. -/
theorem C134_OG_quantum (ord : List Int → List Int) (hm : 0 < m) (hk : 0 < k) (hX : mkOG m (2 * ((m : Int) + k) + 1) = .ok X)
    {fuel : ℕ} (hfu : giamBoundBC m (m + k) ≤ fuel) (he : SpecialPoly (m + 2 * k) e) {j : ℕ} (hj : j ≤ m)
    (hd : den e = detOnes (cvar k (m + 2 * k)) j) {x : Poly} (hx : LinComb (BCClass m (m + k)) x) :
    SameResult (X.qact ord e x) (X.qmult ord fuel (Poly.sym (.S (List.replicate j 1))) x) := by
  obtain ⟨m, rfl⟩ : ∃ m', m = m' + 1 := ⟨m - 1, by omega⟩
  obtain ⟨k, rfl⟩ : ∃ k', k = k' + 1 := ⟨k - 1, by omega⟩
  rw [show ((m + 1 : ℕ) : ℤ) + ((k + 1 : ℕ) : ℤ) = ((m + 1 + (k + 1) : ℕ) : ℤ) by push_cast; ring] at hX hx hfu
  obtain ⟨a, b, h, h1, h2, rfl⟩ := ogCase' (by omega) (by omega) hX
  obtain rfl : a = m + 1 + (k + 1) := by omega
  obtain rfl : b = k + 1 := by omega
  rw [castK] at hd
  rw [show m + 1 + 2 * (k + 1) = m + 1 + (k + 1) + (k + 1) by ring] at he
  rw [h2, bcClass_eq (leCol m k)] at hx
  rw [h2, giamBoundBC_eq (leCol m k)] at hfu
  refine col_same (ringQOG ord _ _ (ltCol m k)) hfu ((specIn_iff _ _).2 he) ?_ (col_clsBC hj) hx
  rw [hd]
  have := (col_QOG ord (k' := k)).1 j hj
  rw [cv_B] at this
  exact this

end

/-- `IG(2, 6)`: `S[2]^2 = 2*S[3]*S[1] - 2*S[4]` and in the quantum ring `S[3]^2 = 2*S[4]*S[2] - q*S[1]`; the determinant of three
ones is a relation, and the one of two ones multiplies by `S[1,1]`. -/
example : mkIG 2 (2 * (2 + 1)) = .ok ⟨.C, 1, 3⟩ ∧ SpecialPoly (2 + 2 * 1) [([.S [3], .S [3]], 1)] ∧
    SpecialPoly (2 + 2 * 1) [([.q, .S [1]], -1), ([.S [2], .S [4]], 2)] ∧
    den [([.S [3], .S [3]], 1)] - den [([.q, .S [1]], -1), ([.S [2], .S [4]], 2)] ∈ relQIG 2 1 ∧
    (Space.mk .C 1 3).qact id [([.S [3], .S [3]], 1)] (Poly.sym (.S [])) = .ok [([.S [4, 2]], 2), ([.q, .S [1]], 1)] ∧
    (Space.mk .C 1 3).qact id [([.q, .S [1]], -1), ([.S [2], .S [4]], 2)] (Poly.sym (.S [])) =
      .ok [([.S [4, 2]], 2), ([.q, .S [1]], 1)] ∧
    (Space.mk .C 1 3).act [([.S [1], .S [1], .S [1]], 1), ([.S [1], .S [2]], -2), ([.S [3]], 1)] (Poly.sym (.S [1, 1])) = .ok [] ∧
    den [([.S [1], .S [1]], 1), ([.S [2]], -1)] = detOnes (hvar ((2 : ℕ) + 2 * (1 : ℕ))) 2 ∧
    (Space.mk .C 1 3).act [([.S [1], .S [1]], 1), ([.S [2]], -1)] (Poly.sym (.S [2])) =
      (Space.mk .C 1 3).mult 100 (Poly.sym (.S [1, 1])) (Poly.sym (.S [2])) := by
  have h : ∀ p : ℤ, hvar 4 p = if p = 0 then 1 else if 0 < p ∧ p ≤ 4 then MvPolynomial.X (.S [p]) else 0 := fun _ => rfl
  have h2 : (C 2 : P) = 2 := rfl
  refine ⟨by decide, by decide, by decide, Or.inr ⟨3, by decide, by decide, ?_⟩, by decide +kernel, by decide +kernel, by decide +kernel,
    ?_, by decide +kernel⟩
  · norm_num only [Nat.cast_ofNat, Nat.cast_one]
    rw [show Finset.Icc 1 3 = {1, 2, 3} from rfl, Finset.sum_insert (by decide), Finset.sum_pair (by decide)]
    simp [h, den, monoDen, h2]
    ring
  · norm_num only [Nat.cast_ofNat, Nat.cast_one]
    rw [detOnes, Matrix.det_fin_two]
    simp [h, den, monoDen]
    ring

/-- `OG(2, 7)`: the determinant of three ones is `S[1]^3 - 4*S[1]*S[2] + 2*S[3]`, the one of four ones is `-2*q` in the quantum ring. -/
example : mkOG 2 (2 * (2 + 1) + 1) = .ok ⟨.B, 1, 3⟩ ∧
    den [([.S [1], .S [1], .S [1]], 1), ([.S [1], .S [2]], -4), ([.S [3]], 2)] ∈ relQOG 2 1 ∧
    (Space.mk .B 1 3).qact id [([.S [1], .S [1], .S [1]], 1), ([.S [1], .S [2]], -4), ([.S [3]], 2)] (Poly.sym (.S [])) = .ok [] ∧
    (Space.mk .B 1 3).qact id [([.S [1], .S [1], .S [1], .S [1]], 1), ([.S [1], .S [1], .S [2]], -6), ([.S [1], .S [3]], 4),
      ([.S [2], .S [2]], 4), ([.S [4]], -2)] (Poly.sym (.S [])) = .ok [([.q, .S []], -2)] ∧
    den [([.S [1], .S [1]], 1), ([.S [2]], -2)] = detOnes (cvar (1 : ℕ) ((2 : ℕ) + 2 * (1 : ℕ))) 2 ∧
    (Space.mk .B 1 3).qact id [([.S [1], .S [1]], 1), ([.S [2]], -2)] (Poly.sym (.S [3, 2])) =
      (Space.mk .B 1 3).qmult id 100 (Poly.sym (.S [1, 1])) (Poly.sym (.S [3, 2])) := by
  have h : ∀ p : ℤ, hvar 4 p = if p = 0 then 1 else if 0 < p ∧ p ≤ 4 then MvPolynomial.X (.S [p]) else 0 := fun _ => rfl
  have h2 : (C 2 : P) = 2 := rfl
  have h4 : (C 4 : P) = 4 := rfl
  refine ⟨by decide, Or.inl ⟨3, by decide, by decide, ?_⟩, by decide +kernel, by decide +kernel, ?_, by decide +kernel⟩
  · norm_num only [Nat.cast_ofNat, Nat.cast_one]
    rw [detOnes, Matrix.det_fin_three]
    simp [h, den, monoDen, h2, h4, cvar]
    ring
  · norm_num only [Nat.cast_ofNat, Nat.cast_one]
    rw [detOnes, Matrix.det_fin_two]
    simp [h, den, monoDen, cvar, h2]
    ring

end Verif
