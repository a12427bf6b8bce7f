import Verif.Proofs.RelationsD
import Verif.Proofs.RelRing
import Verif.Props.RingD
/-!
# From relations between the matrices of type D to relations in the rings
-/

namespace Verif
open Spec

section
open Polynomial
variable {S : Type*} [CommRing S]

/-! ### Coefficients of small and of large degree -/

theorem gD_zero : ∀ (u w : List L3) (i j : L3) (s : St), u.length = w.length →
    (gD (X : S[X]) s (u, i) (w, j)).coeff 0 = if s = .z ∧ (u, i) = (w, j) then 1 else 0 := by
  intro u
  induction u with
  | nil =>
    intro w i j s hw
    obtain rfl : w = [] := List.length_eq_zero_iff.1 (by simpa using hw.symm)
    cases s <;> cases i <;> cases j <;> simp [gD, wtE, endG]
  | cons p u ih =>
    intro w i j s hw
    cases w with
    | nil => simp at hw
    | cons q w =>
      have hl : u.length = w.length := by simpa using hw
      have ih := fun t => ih w i j t hl
      simp only [gD] at ih ⊢
      simp only [wtE]
      rcases h : step s p q with _ | ⟨t, e, f⟩
      · cases s <;> cases p <;> cases q <;> simp [step] at h ⊢
      · simp only
        rw [coeff_step, Nat.zero_sub, ih t]
        cases s <;> cases p <;> cases q <;> simp [step] at h <;> obtain ⟨rfl, rfl, rfl⟩ := h <;> simp

theorem gD_deg : ∀ (u w : List L3) (i j : L3) (s : St) (d : ℕ), u.length = w.length →
    2 * u.length + colsD (u, i) + colsD (w, j) + stE s < 2 * d → (gD (X : S[X]) s (u, i) (w, j)).coeff d = 0 := by
  intro u
  induction u with
  | nil =>
    intro w i j s d hw hd
    obtain rfl : w = [] := List.length_eq_zero_iff.1 (by simpa using hw.symm)
    have e1 : (2 * X ^ 2 : S[X]) = C 2 * X ^ 2 := by rw [map_ofNat]
    have e2 : (2 * X : S[X]) = C 2 * X := by rw [map_ofNat]
    cases s <;> cases i <;> cases j <;>
      simp only [gD, wtE, endG, colsD, colsW, L3.k0, List.length_nil, stE, coeff_zero, e1, e2, coeff_C_mul, coeff_X_pow, coeff_X, coeff_one] at hd ⊢ <;>
      first | (rw [if_neg (by omega)]; try rw [mul_zero])
  | cons p u ih =>
    intro w i j s d hw hd
    cases w with
    | nil => simp at hw
    | cons q w =>
      have hl : u.length = w.length := by simpa using hw
      have ih := fun t d => ih w i j t d hl
      simp only [gD] at ih ⊢
      simp only [wtE]
      rcases h : step s p q with _ | ⟨t, e, f⟩
      · simp
      · simp only
        rw [coeff_step]
        split
        · rw [ih t, mul_zero]
          rw [colsD_o1, colsD_o1, List.length_cons] at hd
          cases s <;> cases p <;> cases q <;> simp [step] at h <;> obtain ⟨rfl, rfl, rfl⟩ := h <;>
            simp [stE, o1] at hd ⊢ <;> omega
        · rfl

theorem opG_zero (h h' : S) {U W : WordD} (hl : U.1.length = W.1.length) :
    (opG (C h) (C h') X U W).coeff 0 = if U = W then 1 else 0 := by
  rcases U with ⟨_ | ⟨p, u⟩, i⟩ <;> rcases W with ⟨_ | ⟨q, w⟩, j⟩
  · rw [opG_nil, gD_zero _ _ _ _ _ rfl]
    simp
  · simp at hl
  · simp at hl
  · have hl' : u.length = w.length := by simpa using hl
    have k1 : ∀ s j, (gD (X : S[X]) s (u, i) (w, j)).coeff 0 = if s = .z ∧ (u, i) = (w, j) then 1 else 0 :=
      fun s j => gD_zero u w i j s hl'
    cases p <;> cases q <;> simp [opG, opGE, opGO, swD, kerE, kerO, k1]

theorem opG_high (h h' : S) {n k d : ℕ} {U W : WordD} (hU : U ∈ WdD n k) (hW : W ∈ WdD n k) (hd : n + k < d) :
    (opG (C h) (C h') X U W).coeff d = 0 := by
  rw [mem_WdD] at hU hW
  obtain ⟨hU1, hU2, -⟩ := hU
  obtain ⟨hW1, hW2, -⟩ := hW
  rcases U with ⟨_ | ⟨p, u⟩, i⟩ <;> rcases W with ⟨_ | ⟨q, w⟩, j⟩
  · rw [opG_nil]
    exact gD_deg _ _ _ _ _ _ rfl (by simp only [stE, List.length_nil, hU2, hW2]; omega)
  · simp at hU1 hW1; omega
  · simp at hU1 hW1; omega
  · have hl' : u.length = w.length := by simp at hU1 hW1; omega
    have hj : colsD (w, j.sw) = colsD (w, j) := colsD_sw (w, j)
    rw [colsD_o1] at hU2 hW2
    simp only [List.length_cons] at hU1 hW1
    obtain ⟨d, rfl⟩ : ∃ e, d = e + 1 := ⟨d - 1, by omega⟩
    have k1 : ∀ s, (gD (X : S[X]) s (u, i) (w, j)).coeff (d + 1) = 0 :=
      fun s => gD_deg u w i j s _ hl' (by cases s <;> simp only [stE] <;> omega)
    have k2 : ∀ s, (gD (X : S[X]) s (u, i) (w, j.sw)).coeff (d + 1) = 0 :=
      fun s => gD_deg u w i j.sw s _ hl' (by rw [hj]; cases s <;> simp only [stE] <;> omega)
    cases p <;> cases q <;>
      simp only [opG, opGE, opGO, swD, kerE, kerO, coeff_add, coeff_C_mul, coeff_X_mul, k1, k2, mul_zero, zero_add, coeff_zero]
    simp [o1] at hU2 hW2
    rw [gD_deg u w i j.sw _ d hl' (by rw [hj]; simp only [stE]; omega), mul_zero]

end

/-! ### Operators and products -/

/-- the coefficients of the first operator -/
noncomputable def NG (h h' : Polynomial ℚ) (p : ℕ) (U W : WordD) : Polynomial ℚ :=
  (opG (Polynomial.C h) (Polynomial.C h') (Polynomial.X : Polynomial (Polynomial ℚ)) U W).coeff p

/-- the class of the first operator of degree `a` -/
noncomputable def cE (k a : ℕ) : LMod :=
  Finsupp.single (rowS a) (if a ≤ k then 1 else 2) + if a = k ∧ 0 < k then Finsupp.single [(k : Int), 0] 1 else 0

/-- the class of the second operator -/
noncomputable def dE (k : ℕ) : LMod := Finsupp.single [(k : Int)] 1 - Finsupp.single [(k : Int), 0] 1

theorem tM_comb {ι : Type*} [DecidableEq ι] {W : Finset ι} {lab : ι → List Int} {N : ℕ → ι → ι → Polynomial ℚ} {M M' : ι → ι → Polynomial ℚ} {p : ℕ}
    (a b : Polynomial ℚ) (h : ∀ u w, N p u w = a * M u w + b * M' u w) (l : List Int) :
    tM W lab N p l = a • tM W lab (fun _ => M) 0 l + b • tM W lab (fun _ => M') 0 l := by
  unfold tM
  simp only [Finset.smul_sum, ← Finset.sum_add_distrib]
  refine Finset.sum_congr rfl (fun u _ => Finset.sum_congr rfl (fun w _ => ?_))
  rw [h, Finsupp.smul_single, Finsupp.smul_single, smul_eq_mul, smul_eq_mul, ← Finsupp.single_add]

theorem tM2_rel' {ι : Type*} [DecidableEq ι] {W : Finset ι} {lab : ι → List Int} {N N' : ℕ → ι → ι → Polynomial ℚ}
    (hinj : ∀ u ∈ W, ∀ w ∈ W, lab u = lab w → u = w) {u : ι} (hu : u ∈ W) (h0 : lab u = [])
    (hcomm : ∀ a b, ∀ u ∈ W, ∀ v ∈ W, ∑ w ∈ W, N a u w * N b w v = ∑ w ∈ W, N b u w * N a w v) {r : ℕ}
    (h : ∀ v ∈ W, ∑ ab ∈ Finset.antidiagonal (2 * r), (-1) ^ ab.2 * ∑ w ∈ W, N ab.1 u w * N ab.2 w v = (-1) ^ r * ∑ w ∈ W, N' 0 u w * N' 0 w v) :
    tM2 W lab N r r + (2 : ℤ) • ∑ i ∈ Finset.Icc 1 r, ((-1) ^ i : ℤ) • tM2 W lab N (r + i) (r - i) = tM2 W lab N' 0 0 := by
  have key := sum_antidiag_symm (fun a b => tM2 W lab N a b) (fun a b => by
    rw [tM2_eq hinj hu h0, tM2_eq hinj hu h0]
    exact Finset.sum_congr rfl (fun v hv => by rw [hcomm a b u hu v hv])) r
  have h1 : ∑ ab ∈ Finset.antidiagonal (2 * r), ((-1) ^ ab.2 : ℤ) • tM2 W lab N ab.1 ab.2 = ((-1) ^ r : ℤ) • tM2 W lab N' 0 0 := by
    have e1 : ∀ ab ∈ Finset.antidiagonal (2 * r), ((-1) ^ ab.2 : ℤ) • tM2 W lab N ab.1 ab.2 =
        ∑ v ∈ W, Finsupp.single (lab v) ((-1) ^ ab.2 * ∑ w ∈ W, N ab.1 u w * N ab.2 w v) := by
      intro ab _
      rw [tM2_eq hinj hu h0, Finset.smul_sum]
      refine Finset.sum_congr rfl (fun v hv => ?_)
      rw [hcomm _ _ u hu v hv, Finsupp.smul_single, zsmul_eq_mul]
      push_cast
      rfl
    rw [Finset.sum_congr rfl e1, Finset.sum_comm, tM2_eq hinj hu h0, Finset.smul_sum]
    refine Finset.sum_congr rfl (fun v hv => ?_)
    rw [← Finsupp.single_finsetSum, h v hv, Finsupp.smul_single, zsmul_eq_mul]
    push_cast
    rfl
  rw [h1] at key
  have h2 := congrArg (fun x => ((-1) ^ r : ℤ) • x) key
  simp only [smul_smul, ← pow_add, Even.neg_one_pow ⟨r, rfl⟩, one_smul] at h2
  exact h2.symm

theorem NG_small {h h' : Polynomial ℚ} {k p : ℕ} (hp : p < k) (U W : WordD) : NG h h' p U W = 1 * MDg h h' k p U W + 0 * MDg h h' k p U W := by
  unfold MDg NG alD beD
  rw [if_pos (by simpa using hp), if_neg (by simp; omega)]
  simp

theorem NG_large {h h' : Polynomial ℚ} {k p : ℕ} (hp : k < p) (U W : WordD) : NG h h' p U W = 1 * MDg h h' k p U W + 1 * MDg h h' k p U W := by
  unfold MDg NG alD beD
  rw [if_neg (by simp; omega), if_neg (by simp; omega)]
  have e2 : (Polynomial.C (1 / 2) : Polynomial ℚ) + Polynomial.C (1 / 2) = 1 := by rw [← Polynomial.C_add]; norm_num
  simp only [Polynomial.C_0, zero_mul, add_zero, one_mul, Int.natAbs_natCast, ← add_mul, e2]

theorem NG_mid {h h' : Polynomial ℚ} {k : ℕ} (hk : 0 < k) (U W : WordD) :
    NG h h' k U W = 1 * MDg h h' k k U W + 1 * MDg h h' k (-k) U W := by
  unfold MDg NG alD beD sgD
  rw [if_neg (by simp), if_pos (by simp), if_pos (by simp), if_neg (by simp), if_pos (by simp), if_neg (by omega)]
  have e2 : (Polynomial.C (1 / 2) : Polynomial ℚ) + Polynomial.C (1 / 2) = 1 := by rw [← Polynomial.C_add]; norm_num
  simp only [Int.natAbs_natCast, Int.natAbs_neg, Polynomial.C_neg, Polynomial.C_1]
  linear_combination (-((opG (Polynomial.C h) (Polynomial.C h') (Polynomial.X : Polynomial (Polynomial ℚ)) U W).coeff k)) * e2

theorem NS_mid {h h' : Polynomial ℚ} {k : ℕ} (hk : 0 < k) (U W : WordD) :
    opS h U W = 1 * MDg h h' k k U W + (-1) * MDg h h' k (-k) U W := by
  unfold MDg alD beD sgD
  rw [if_neg (by simp), if_pos (by simp), if_pos (by simp), if_neg (by simp), if_pos (by simp), if_neg (by omega)]
  have e2 : (Polynomial.C (1 / 2) : Polynomial ℚ) + Polynomial.C (1 / 2) = 1 := by rw [← Polynomial.C_add]; norm_num
  simp only [Int.natAbs_natCast, Int.natAbs_neg, Polynomial.C_neg, Polynomial.C_1]
  linear_combination (-opS h U W) * e2

section
variable {X : Space} {pieri : Int → List Int → Except PyErr Poly} {n k B : ℕ} {h h' : Polynomial ℚ}
  (hk : k ≤ n) (Z : RingOn X pieri (spcD n k) (clsD n k) B) (ht : Z.Y.t = tDD h h' n k)
include hk ht

theorem tDD_prod {p : Int} (hp : spcD n k p) {l : List Int} (hl : clsD n k l) :
    tDD h h' n k p l = Z.Y.prod (Finsupp.single (num2spec p) 1) (Finsupp.single l 1) := by
  have hc := special_classD hk hp
  rw [Z.Y.prod_special hp hc Z.nil (Z.unit p hp hc) (supp_single hl 1), ht]
  simp [lin]

theorem NG_prod {a : ℕ} (ha : a ≤ n + k) {l : List Int} (hl : clsD n k l) :
    tM (WdD n k) labD (NG h h') a l = Z.Y.prod (cE k a) (Finsupp.single l 1) := by
  unfold cE
  rcases Nat.eq_zero_or_pos a with h0 | h0
  · subst h0
    obtain ⟨U, hU, rfl⟩ := (WdD_cls (by omega) l).1 hl
    rw [if_pos (by omega), if_neg (by omega), add_zero, show rowS 0 = [] from rfl, Z.Y.one_prod, tM_lab _ WdD_inj 0 hU,
      Finset.sum_eq_single U]
    · unfold NG
      rw [opG_zero _ _ rfl, if_pos rfl]
    · intro W hW hne
      unfold NG
      rw [opG_zero _ _ (by rw [mem_WdD] at hU hW; omega), if_neg hne.symm, Finsupp.single_zero]
    · intro hc; exact absurd hU hc
  · have hr : rowS a = num2spec (a : Int) := by
      unfold Spec.rowS
      rw [if_neg (by omega), num2spec_pos (by omega)]
    have hs : spcD n k (a : Int) := Or.inl ⟨by omega, by omega⟩
    have e1 := tDD_prod hk Z ht hs hl
    unfold tDD at e1
    rcases Nat.lt_trichotomy a k with h1 | h1 | h1
    · rw [tM_comb 1 0 (fun u w => NG_small h1 u w), if_pos (by omega), if_neg (by omega), add_zero, one_smul, zero_smul, add_zero, hr]
      exact e1
    · subst h1
      have hs' : spcD n a (-(a : Int)) := Or.inr ⟨h0, rfl⟩
      have e2 := tDD_prod hk Z ht hs' hl
      unfold tDD at e2
      have hr' : num2spec (-(a : Int)) = [(a : Int), 0] := by
        unfold num2spec
        rw [if_neg (by omega), neg_neg]
      rw [tM_comb 1 1 (fun u w => NG_mid h0 u w), if_pos (by omega), if_pos ⟨rfl, h0⟩, one_smul, one_smul, Z.Y.prod_add_left, hr, e1, e2, hr']
    · rw [tM_comb 1 1 (fun u w => NG_large h1 u w), if_neg (by omega), if_neg (by omega), add_zero, one_smul, hr,
        show (2 : Polynomial ℚ) = 1 + 1 by norm_num, Finsupp.single_add, Z.Y.prod_add_left, e1]

theorem NS_prod (h0 : 0 < k) {l : List Int} (hl : clsD n k l) :
    tM (WdD n k) labD (fun _ => opS h) 0 l = Z.Y.prod (dE k) (Finsupp.single l 1) := by
  have hs : spcD n k (k : Int) := Or.inl ⟨by omega, by push_cast; omega⟩
  have hs' : spcD n k (-(k : Int)) := Or.inr ⟨h0, rfl⟩
  have e1 := tDD_prod hk Z ht hs hl
  have e2 := tDD_prod hk Z ht hs' hl
  unfold tDD at e1 e2
  have hr' : num2spec (-(k : Int)) = [(k : Int), 0] := by
    unfold num2spec
    rw [if_neg (by omega), neg_neg]
  rw [tM_comb (N := fun _ => opS h) 1 (-1) (fun u w => NS_mid (h' := h') h0 u w), one_smul]
  unfold dE
  rw [sub_eq_add_neg, ← neg_one_smul (Polynomial ℚ) (Finsupp.single [(k : Int), 0] (1 : Polynomial ℚ)), Z.Y.prod_add_left, Z.Y.prod_smul_left, ← hr', ← num2spec_pos (show (1 : Int) ≤ k by omega), ← e1, ← e2]

omit hk ht in
/-- an operator that is a product on the classes is a product -/
theorem lin_prod {f : List Int → LMod} {x y : LMod} (hf : ∀ l, clsD n k l → f l = Z.Y.prod x (Finsupp.single l 1))
    (hy : ∀ l ∈ y.support, clsD n k l) : lin f y = Z.Y.prod x y := by
  have e : y = ∑ l ∈ y.support, y l • Finsupp.single l (1 : Polynomial ℚ) := by
    conv_lhs => rw [← Finsupp.sum_single y]
    unfold Finsupp.sum
    refine Finset.sum_congr rfl (fun l _ => ?_)
    rw [Finsupp.smul_single, smul_eq_mul, mul_one]
  have e2 : ∀ s : Finset (List Int), (∀ l ∈ s, clsD n k l) →
      lin f (∑ l ∈ s, y l • Finsupp.single l (1 : Polynomial ℚ)) = Z.Y.prod x (∑ l ∈ s, y l • Finsupp.single l (1 : Polynomial ℚ)) := by
    intro s hs
    rw [map_sum]
    unfold GiamSys.prod
    rw [map_sum]
    refine Finset.sum_congr rfl (fun l hl => ?_)
    rw [map_smul, map_smul]
    congr 1
    rw [lin_single_one]
    exact hf l (hs l hl)
  rw [e]
  exact e2 _ hy

omit hk ht Z in
theorem clsD_row (hk : k ≤ n) {p : ℕ} (hp : p ≤ n + k) : clsD n k (rowS p) := by
  unfold Spec.rowS
  split
  · exact clsD_nil (by omega)
  · have h1 := special_classD hk (p := p) (Or.inl ⟨by omega, by omega⟩)
    rwa [num2spec_pos (by omega)] at h1

omit hk ht Z in
theorem clsD_row' (hk : k ≤ n) (h0 : 0 < k) : clsD n k [(k : Int), 0] := by
  have h1 := special_classD hk (p := -k) (Or.inr ⟨h0, rfl⟩)
  unfold num2spec at h1
  rwa [if_neg (by omega), neg_neg] at h1

omit hk ht Z in
theorem cE_supp (hk : k ≤ n) {a : ℕ} (ha : a ≤ n + k) : ∀ l ∈ (cE k a).support, clsD n k l := by
  intro l hl
  unfold cE at hl
  have h1 := Finsupp.support_add hl
  rw [Finset.mem_union] at h1
  rcases h1 with h1 | h1
  · exact supp_single (clsD_row hk ha) _ l h1
  · split at h1
    · rename_i h2
      exact supp_single (clsD_row' hk h2.2) _ l h1
    · simp at h1

omit hk ht Z in
theorem dE_supp (hk : k ≤ n) (h0 : 0 < k) : ∀ l ∈ (dE k).support, clsD n k l := by
  intro l hl
  unfold dE at hl
  have h1 := Finsupp.support_sub hl
  rw [Finset.mem_union] at h1
  rcases h1 with h1 | h1
  · have h2 := clsD_row (n := n) hk (p := k) (by omega)
    unfold Spec.rowS at h2
    rw [if_neg (by omega)] at h2
    exact supp_single h2 _ l h1
  · exact supp_single (clsD_row' hk h0) _ l h1

theorem NG2_prod {a b : ℕ} (ha : a ≤ n + k) (hb : b ≤ n + k) :
    tM2 (WdD n k) labD (NG h h') a b = Z.Y.prod (cE k a) (cE k b) := by
  unfold tM2
  rw [NG_prod hk Z ht hb (clsD_nil (by omega))]
  have e : Z.Y.prod (cE k b) (Finsupp.single [] 1) = cE k b := Z.Y.prod_one Z.nil (cE_supp hk hb)
  rw [e]
  exact lin_prod Z (fun l hl => NG_prod hk Z ht ha hl) (cE_supp hk hb)

omit hk ht Z in
theorem NG2_high {a : ℕ} (ha : n + k < a) (b : ℕ) : tM2 (WdD n k) labD (NG h h') a b = 0 := by
  have e : tM (WdD n k) labD (NG h h') a = fun _ => 0 := by
    funext l
    unfold tM
    refine Finset.sum_eq_zero (fun u hu => Finset.sum_eq_zero (fun w hw => ?_))
    unfold NG
    rw [opG_high h h' (Finset.mem_filter.1 hu).1 hw ha, Finsupp.single_zero]
  unfold tM2
  rw [e]
  unfold lin
  rw [Finsupp.linearCombination_apply]
  simp

theorem NS2_prod (h0 : 0 < k) : tM2 (WdD n k) labD (fun _ => opS h) 0 0 = Z.Y.prod (dE k) (dE k) := by
  unfold tM2
  rw [NS_prod hk Z ht h0 (clsD_nil (by omega))]
  have e : Z.Y.prod (dE k) (Finsupp.single [] 1) = dE k := Z.Y.prod_one Z.nil (dE_supp hk h0)
  rw [e]
  exact lin_prod Z (fun l hl => NS_prod hk Z ht h0 hl) (dE_supp hk h0)

omit hk ht Z in
theorem NG_comm (hk0 : k = 0 → h = 0) (hh : k ≠ 0 → h' = h ^ 2) (a b : ℕ) : ∀ U ∈ WdD n k, ∀ V ∈ WdD n k,
    ∑ W ∈ WdD n k, NG h h' a U W * NG h h' b W V = ∑ W ∈ WdD n k, NG h h' b U W * NG h h' a W V :=
  fun _ hU _ hV => coeffG_comm a b hk0 hh hU hV

/-- the relations of degree `2r` for `r > k` -/
theorem relation_D (hk0 : k = 0 → h = 0) (hh : k ≠ 0 → h' = h ^ 2) {r : ℕ} (h1 : k < r) (h2 : r ≤ n + k) :
    Z.Y.prod (cE k r) (cE k r) + (2 : ℤ) • ∑ i ∈ (Finset.Icc 1 r).filter (fun i => r + i ≤ n + k), ((-1) ^ i : ℤ) • Z.Y.prod (cE k (r + i)) (cE k (r - i)) =
      Finsupp.single [] (if r = n + k then 4 * h' else 0) := by
  obtain ⟨u, hu, h0⟩ := (WdD_cls (by omega) []).1 (clsD_nil (n := n) (k := k) (by omega))
  have key := tM2_rel (N := NG h h') (r := r) (e := if r = n + k then 4 * h' else 0) WdD_inj hu h0
    (NG_comm hk0 hh) (fun v hv => by
      refine (opG_rel (d := 2 * r) hk0 hh hu hv (by omega)).trans ?_
      by_cases c1 : r = n + k
      · subst c1
        simp
      · rw [if_neg (by omega), if_neg c1, mul_zero, ite_self])
  rw [NG2_prod hk Z ht h2 h2] at key
  rw [← key, Finset.sum_filter]
  refine congrArg _ (congrArg _ (Finset.sum_congr rfl (fun i hi => ?_)))
  rw [Finset.mem_Icc] at hi
  split
  · rw [NG2_prod hk Z ht (by omega) (by omega)]
  · rw [NG2_high (by omega), smul_zero]

/-- the relation of degree `2k` -/
theorem relation_D' (hk0 : 0 < k) (hh : h' = h ^ 2) :
    Z.Y.prod (cE k k) (cE k k) + (2 : ℤ) • ∑ i ∈ Finset.Icc 1 k, ((-1) ^ i : ℤ) • Z.Y.prod (cE k (k + i)) (cE k (k - i)) =
      Z.Y.prod (dE k) (dE k) := by
  obtain ⟨u, hu, h0⟩ := (WdD_cls (by omega) []).1 (clsD_nil (n := n) (k := k) (by omega))
  have key := tM2_rel' (N := NG h h') (N' := fun _ => opS h) (r := k) WdD_inj hu h0
    (NG_comm (fun h => absurd h (by omega)) (fun _ => hh)) (fun v hv => by
      subst hh
      exact opG_lead h (by omega) (by omega) hu hv)
  rw [NG2_prod hk Z ht (by omega) (by omega), NS2_prod hk Z ht hk0] at key
  rw [← key]
  refine congrArg _ ?_
  have e3 : ∀ i ∈ Finset.Icc 1 k, ((-1) ^ i : ℤ) • tM2 (WdD n k) labD (NG h h') (k + i) (k - i) = ((-1) ^ i : ℤ) • Z.Y.prod (cE k (k + i)) (cE k (k - i)) := by
    intro i hi
    rw [Finset.mem_Icc] at hi
    rw [NG2_prod hk Z ht (by omega) (by omega)]
  rw [Finset.sum_congr rfl e3]

end

end Verif
