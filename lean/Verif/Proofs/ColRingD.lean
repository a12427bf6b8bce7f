import Verif.Proofs.ColWordD
import Verif.Proofs.ColRing
import Verif.Spec.PresD
/-!
# The classes of one column on `OG(m, 2m+2k)`, `k ≥ 2`
-/

namespace Verif
open Spec MvPolynomial

section
variable {X : Space} {pieri : Int → List Int → Except PyErr Poly} {spc : Int → Prop} {cls : List Int → Prop} {B K : ℕ}

/-- The determinants of ones act as the columns, if the alternating sums of products of rows and columns are known. -/
theorem act_eeG (Z : RingOn X pieri spc cls B) {c : ℤ → P} (c0 : c 0 = 1) (cneg : ∀ p < 0, c p = 0) {ι : Type*} [DecidableEq ι]
    {W : Finset ι} {lab : ι → List Int} {N : ℕ → ι → ι → Polynomial ℚ} {col : ℕ → ι} {m : ℕ}
    (hact : ∀ p : ℕ, p ≤ K → ∀ u ∈ W, Z.Y.act (c p) (Finsupp.single (lab u) 1) = ∑ w ∈ W, Finsupp.single (lab w) (N p u w))
    (hlab : ∀ s ≤ m, lab (col s) = List.replicate s 1)
    (hW : ∀ s ≤ m, col s ∈ W) (ε : ℕ → Polynomial ℚ)
    (hcol : ∀ r ≤ K, ∀ w ∈ W, ∑ s ∈ Finset.range (m + 1), (if s ≤ r then (-1) ^ s * N (r - s) (col s) w else 0) =
      if w = col 0 then ε r else 0) (hmK : m < K) (hε : ∀ r, 1 ≤ r → r < K → ε r = 0) :
    (∀ j ≤ m, Z.Y.act (ee c j) (Finsupp.single [] 1) = Finsupp.single (List.replicate j 1) 1) ∧
    (∀ j, m < j → j < K → Z.Y.act (ee c j) (Finsupp.single [] 1) = 0) ∧
    Z.Y.act (ee c K) (Finsupp.single [] 1) = Finsupp.single [] (-(-1) ^ K * ε K) := by
  let v : ℕ → LMod := fun s => if s ≤ m then Finsupp.single (List.replicate s 1) 1 else 0
  have hv : ∀ s ≤ m, v s = Finsupp.single (lab (col s)) 1 := fun s hs => by
    show (if _ then _ else _) = _
    rw [if_pos hs, hlab s hs]
  -- alternating sums of rows times columns
  have hsum : ∀ r ≤ K, ∑ s ∈ Finset.range (r + 1), ((-1) ^ s : ℤ) • Z.Y.act (c ((r : ℤ) - s)) (v s) = Finsupp.single [] (ε r) := by
    intro r hr
    have h1 : ∑ s ∈ Finset.range (r + 1), ((-1) ^ s : ℤ) • Z.Y.act (c ((r : ℤ) - s)) (v s) =
        ∑ s ∈ Finset.range (m + 1), if s ≤ r then ((-1) ^ s : ℤ) • Z.Y.act (c ((r : ℤ) - s)) (v s) else 0 := by
      have e1 : ∑ s ∈ Finset.range (r + 1), ((-1) ^ s : ℤ) • Z.Y.act (c ((r : ℤ) - s)) (v s) =
          ∑ s ∈ Finset.range (r + m + 1), if s ≤ r ∧ s ≤ m then ((-1) ^ s : ℤ) • Z.Y.act (c ((r : ℤ) - s)) (v s) else 0 := by
        rw [← Finset.sum_subset (Finset.range_subset_range.2 (show r + 1 ≤ r + m + 1 by omega)) (fun s _ hs => by
          rw [Finset.mem_range] at hs
          rw [if_neg (by omega)])]
        refine Finset.sum_congr rfl fun s hs => ?_
        rw [Finset.mem_range] at hs
        split
        · rfl
        · have : v s = 0 := if_neg (by omega)
          rw [this, map_zero, smul_zero]
      rw [e1, ← Finset.sum_subset (Finset.range_subset_range.2 (show m + 1 ≤ r + m + 1 by omega)) (fun s _ hs => by
          rw [Finset.mem_range] at hs
          rw [if_neg (by omega)])]
      refine Finset.sum_congr rfl fun s hs => ?_
      rw [Finset.mem_range] at hs
      by_cases h : s ≤ r
      · rw [if_pos ⟨h, by omega⟩, if_pos h]
      · rw [if_neg (by omega), if_neg h]
    have h2 : ∀ s ∈ Finset.range (m + 1), (if s ≤ r then ((-1) ^ s : ℤ) • Z.Y.act (c ((r : ℤ) - s)) (v s) else 0) =
        ∑ w ∈ W, Finsupp.single (lab w) (if s ≤ r then (-1) ^ s * N (r - s) (col s) w else 0) := by
      intro s hs
      rw [Finset.mem_range] at hs
      split
      · rename_i h
        rw [hv s (by omega), ← Nat.cast_sub h, hact _ (by omega) _ (hW s (by omega)), Finset.smul_sum]
        refine Finset.sum_congr rfl fun w _ => ?_
        rw [Finsupp.smul_single, zsmul_eq_mul]
        push_cast
        rfl
      · simp
    rw [h1, Finset.sum_congr rfl h2, Finset.sum_comm]
    have h3 : ∀ w ∈ W, ∑ s ∈ Finset.range (m + 1), Finsupp.single (lab w) (if s ≤ r then (-1) ^ s * N (r - s) (col s) w else 0) =
        if col 0 = w then Finsupp.single [] (ε r) else (0 : LMod) := by
      intro w hw
      rw [← Finsupp.single_finsetSum, hcol r hr w hw]
      by_cases h : w = col 0
      · rw [if_pos h, if_pos h.symm, h, hlab 0 (Nat.zero_le _)]
        rfl
      · rw [if_neg h, if_neg (fun h' => h h'.symm), Finsupp.single_zero]
    rw [Finset.sum_congr rfl h3, Finset.sum_ite_eq, if_pos (hW 0 (by omega))]
  -- Newton's identities
  have hnew : ∀ r, 1 ≤ r → ∑ s ∈ Finset.range (r + 1),
      ((-1) ^ s : ℤ) • Z.Y.act (c ((r : ℤ) - s)) (Z.Y.act (ee c s) (Finsupp.single [] 1)) = 0 := by
    intro r hr
    have h1 := congrArg (fun x => Z.Y.act x (Finsupp.single [] 1)) (newton c0 cneg hr)
    simp only [map_sum, LinearMap.sum_apply, map_zero, LinearMap.zero_apply] at h1
    refine Eq.trans (Finset.sum_congr rfl fun s _ => ?_) h1
    rw [mul_assoc, mul_comm (ee _ _), map_mul, Module.End.mul_apply, map_pow, map_neg, map_one, negpow_apply, map_mul, Module.End.mul_apply]
  have main : ∀ r < K, Z.Y.act (ee c r) (Finsupp.single [] 1) = v r := by
    intro r
    induction r using Nat.strong_induction_on with
    | _ r ih =>
      intro hr
      by_cases h : r = 0
      · subst h
        rw [ee_zero, map_one, Module.End.one_apply]
        exact (if_pos (Nat.zero_le m)).symm
      · have h1 := hnew r (by omega)
        have h2 := hsum r (by omega)
        rw [hε r (by omega) hr, Finsupp.single_zero] at h2
        rw [Finset.sum_range_succ] at h1 h2
        rw [Finset.sum_congr rfl (fun s hs => by rw [ih s (Finset.mem_range.1 hs) (by have := Finset.mem_range.1 hs; omega)])] at h1
        have h3 := h1.trans h2.symm
        rw [add_right_inj, sub_self, c0, map_one, Module.End.one_apply, Module.End.one_apply] at h3
        have h4 := congrArg (fun x => ((-1) ^ r : ℤ) • x) h3
        simp only [smul_smul, neg_pow_mul_self, one_smul] at h4
        exact h4
  refine ⟨fun j hj => ?_, fun j h1 h2 => ?_, ?_⟩
  · rw [main j (by omega)]
    exact if_pos hj
  · rw [main j h2]
    exact if_neg (by omega)
  · have h1 := hnew K (by omega)
    have h2 := hsum K le_rfl
    rw [Finset.sum_range_succ] at h1 h2
    rw [Finset.sum_congr rfl (fun s hs => by rw [main s (Finset.mem_range.1 hs)])] at h1
    have hvK : v K = 0 := if_neg (by omega)
    rw [hvK, map_zero, smul_zero, add_zero] at h2
    rw [h2, sub_self, c0, map_one, Module.End.one_apply] at h1
    have h4 := congrArg (fun x => ((-1) ^ K : ℤ) • x) h1
    simp only [smul_add, smul_smul, neg_pow_mul_self, one_smul, smul_zero] at h4
    rw [add_comm, ← eq_neg_iff_add_eq_zero] at h4
    rw [h4, Finsupp.smul_single, ← Finsupp.single_neg, zsmul_eq_mul]
    push_cast
    rw [neg_mul]

end

/-! ### Columns -/

theorem shapeW_bsD (u : List L3) (i : ℕ) : shapeW 1 0 (List.replicate i .b ++ u) = shapeW 1 0 u ++ List.replicate i 0 := by
  induction i with
  | zero => simp
  | succ i ih =>
    rw [List.replicate_succ, List.cons_append, shapeW, ih, List.append_assoc, ← List.replicate_succ']

theorem shapeW_nosD (j : ℕ) : shapeW 1 0 (List.replicate j .o) = [] := by
  induction j with
  | zero => rfl
  | succ j ih => rw [List.replicate_succ, shapeW, ih]; rfl

theorem labD_col (m k' s : ℕ) : labD (colD m k' s) = List.replicate s 1 := by
  have h : labD (colD m k' s) = partClip (shapeW 1 0 (colW m k' s)) := by
    unfold labD clD shD colD
    simp [L3.k0, L3.r0]
  rw [h]
  unfold colW
  rw [shapeW_bsD, partClip_append_zeros, shapeW, shapeW_bsD, shapeW_nosD, List.nil_append, List.map_replicate, zero_add]
  cases s with
  | zero => rfl
  | succ s => rw [List.replicate_succ', partClip_concat_ne _ _ (by decide)]

theorem colsW_bbsD (u : List L3) (i : ℕ) : colsW 1 (List.replicate i .b ++ u) = colsW 1 u := by
  induction i with
  | zero => simp
  | succ i ih => rw [List.replicate_succ, List.cons_append, colsW, ih]; simp

theorem colsW_nosD (j : ℕ) : colsW 1 (List.replicate j .o) = j + 1 := by
  induction j with
  | zero => rfl
  | succ j ih => rw [List.replicate_succ, colsW, ih]

theorem colD_mem {m k' s : ℕ} (h : s ≤ m) : colD m k' s ∈ WdD (m + (k' + 1)) (k' + 2) := by
  rw [mem_WdD]
  refine ⟨colW_length h, ?_, fun h => absurd h (by omega)⟩
  unfold colsD colD colW
  show colsW 1 _ = _
  rw [colsW_bbsD, colsW, colsW_bbsD, colsW_nosD]

/-! ### The special classes -/

theorem cvarD_zero {k K : ℤ} (hk : 0 < k) : cvarD k K 0 = 1 := by
  unfold cvarD
  rw [if_pos hk]
  simp [hvar]

theorem cvarD_neg {k K : ℤ} (hk : 0 < k) : ∀ p < 0, cvarD k K p = 0 := by
  intro p hp
  unfold cvarD
  rw [if_pos (by omega), hvar_neg _ p hp]

theorem cvarD_big {k K : ℤ} (hk : 0 < k) (hK : k < K) {p : ℤ} (hp : K < p) : cvarD k K p = 0 := by
  unfold cvarD
  rw [if_neg (by omega), if_neg (by omega), hvar_big (by omega) _ hp, mul_zero]

section
variable {X : Space} {pieri : Int → List Int → Except PyErr Poly} {spc : Int → Prop} {cls : List Int → Prop} {B : ℕ}

/-- an operator as a product -/
theorem act_prod (R : RingOn X pieri spc cls B) (e : P) {v : LMod} (hv : ∀ l ∈ v.support, cls l) :
    R.Y.act e v = R.Y.prod (R.Y.act e (Finsupp.single [] 1)) v := by
  show _ = R.Y.prod (R.Y.act e e1) v
  rw [R.Y.prod_comm (R.Y.act_support e (GSys.one_cls R.nil)) hv, GiamSys.prod]
  show _ = R.Y.act _ (R.Y.act e (Finsupp.single [] 1))
  rw [R.Y.act_comm, R.Y.act_GL hv]

end

section
variable {X : Space} {pieri : Int → List Int → Except PyErr Poly} {n k B : ℕ} {h h' : Polynomial ℚ}
  (hk : k ≤ n) (hk0 : 0 < k) (Z : RingOn X pieri (spcD n k) (clsD n k) B)
include hk hk0

theorem act_specD {p : Int} (hp : spcD n k p) : Z.Y.act (MvPolynomial.X (.S (num2spec p))) (Finsupp.single [] 1) = Finsupp.single (num2spec p) 1 := by
  rw [Z.Y.act_special hp]
  have h2 := Z.unit p hp (special_classD hk hp)
  simp [lin, h2]

theorem act_hvarD {a : ℕ} (ha : a ≤ n + k) : Z.Y.act (hvar (n + k : ℕ) a) (Finsupp.single [] 1) = Finsupp.single (rowS a) 1 := by
  unfold hvar rowS
  by_cases h0 : a = 0
  · subst h0
    simp
  · have := act_specD hk hk0 Z (p := a) (Or.inl ⟨by omega, by omega⟩)
    rw [num2spec_pos (by omega)] at this
    rw [if_neg (by omega), if_pos (by omega), if_neg h0, this]

theorem act_Sk0 : Z.Y.act (MvPolynomial.X (.S [(k : ℤ), 0])) (Finsupp.single [] 1) = Finsupp.single [(k : ℤ), 0] 1 := by
  have := act_specD hk hk0 Z (p := -k) (Or.inr ⟨hk0, rfl⟩)
  unfold num2spec at this
  rwa [if_neg (by omega), neg_neg] at this

theorem act_cvarD {a : ℕ} (ha : a ≤ n + k) : Z.Y.act (cvarD k (n + k : ℕ) a) (Finsupp.single [] 1) = cE k a := by
  unfold cvarD cE
  rcases lt_trichotomy a k with h1 | h1 | h1
  · rw [if_pos (by omega), if_pos h1.le, if_neg (by omega), add_zero, act_hvarD hk hk0 Z ha]
  · subst h1
    rw [if_neg (by omega), if_pos rfl, if_pos le_rfl, if_pos ⟨rfl, hk0⟩, map_add, LinearMap.add_apply, act_hvarD hk hk0 Z ha, act_Sk0 hk hk0 Z]
  · rw [if_neg (by omega), if_neg (by omega), if_neg (by omega), if_neg (by omega), add_zero, two_mul, map_add, LinearMap.add_apply,
      act_hvarD hk hk0 Z ha, ← Finsupp.single_add]
    norm_num

/-- the difference of the two classes of degree `k` -/
noncomputable def dl (k K : ℤ) : P := hvar K k - MvPolynomial.X (.S [k, 0])

theorem act_dl : Z.Y.act (dl k (n + k : ℕ)) (Finsupp.single [] 1) = dE k := by
  unfold dl dE
  rw [map_sub, LinearMap.sub_apply, act_hvarD hk hk0 Z (by omega), act_Sk0 hk hk0 Z, rowS, if_neg (by omega)]

theorem act_cvarD2 {a b : ℕ} (ha : a ≤ n + k) (hb : b ≤ n + k) :
    Z.Y.act (cvarD k (n + k : ℕ) a * cvarD k (n + k : ℕ) b) (Finsupp.single [] 1) = Z.Y.prod (cE k a) (cE k b) := by
  rw [map_mul, Module.End.mul_apply, act_cvarD hk hk0 Z hb, act_prod Z _ (cE_supp hk hb), act_cvarD hk hk0 Z ha]

variable (ht : Z.Y.t = tDD h h' n k)
include ht

theorem act_cvarD_lab {p : ℕ} (hp : p ≤ n + k) {U : WordD} (hU : U ∈ WdD n k) :
    Z.Y.act (cvarD k (n + k : ℕ) p) (Finsupp.single (labD U) 1) = ∑ W ∈ WdD n k, Finsupp.single (labD W) (NG h h' p U W) := by
  have hc : clsD n k (labD U) := (WdD_cls (by omega) _).2 ⟨U, hU, rfl⟩
  rw [act_prod Z _ (supp_single hc 1), act_cvarD hk hk0 Z hp, ← NG_prod hk Z ht hp hc, tM_lab _ WdD_inj p hU]

theorem act_dl_lab {U : WordD} (hU : U ∈ WdD n k) :
    Z.Y.act (dl k (n + k : ℕ)) (Finsupp.single (labD U) 1) = ∑ W ∈ WdD n k, Finsupp.single (labD W) (opS h U W) := by
  have hc : clsD n k (labD U) := (WdD_cls (by omega) _).2 ⟨U, hU, rfl⟩
  rw [act_prod Z _ (supp_single hc 1), act_dl hk hk0 Z, ← NS_prod hk Z ht hk0 hc, tM_lab (M := fun _ => opS h) WdD_inj 0 hU]

end

section
variable {X : Space} {pieri : Int → List Int → Except PyErr Poly} {m k' B : ℕ} {h h' : Polynomial ℚ}

theorem lt_colD (m k' : ℕ) : k' + 2 ≤ m + 1 + (k' + 1) := by omega

/-- the determinants of ones and the columns -/
theorem col_D (Z : RingOn X pieri (spcD (m + 1 + (k' + 1)) (k' + 2)) (clsD (m + 1 + (k' + 1)) (k' + 2)) B)
    (ht : Z.Y.t = tDD h h' (m + 1 + (k' + 1)) (k' + 2)) :
    (∀ j ≤ m + 1, Z.Y.act (ee (cvarD (k' + 2 : ℕ) (m + 1 + (k' + 1) + (k' + 2) : ℕ)) j) (Finsupp.single [] 1) = Finsupp.single (List.replicate j 1) 1) ∧
    (∀ j, m + 1 < j → j < m + 1 + (k' + 1) + (k' + 2) →
      Z.Y.act (ee (cvarD (k' + 2 : ℕ) (m + 1 + (k' + 1) + (k' + 2) : ℕ)) j) (Finsupp.single [] 1) = 0) ∧
    Z.Y.act (ee (cvarD (k' + 2 : ℕ) (m + 1 + (k' + 1) + (k' + 2) : ℕ)) (m + 1 + (k' + 1) + (k' + 2))) (Finsupp.single [] 1) =
      Finsupp.single [] (2 * h) ∧
    Z.Y.act (dl (k' + 2 : ℕ) (m + 1 + (k' + 1) + (k' + 2) : ℕ) * ee (cvarD (k' + 2 : ℕ) (m + 1 + (k' + 1) + (k' + 2) : ℕ)) (m + 1))
      (Finsupp.single [] 1) = 0 := by
  obtain ⟨h1, h2, h3⟩ := act_eeG Z (K := m + 1 + (k' + 1) + (k' + 2)) (c := cvarD (k' + 2 : ℕ) (m + 1 + (k' + 1) + (k' + 2) : ℕ))
    (cvarD_zero (by omega)) (cvarD_neg (by omega)) (m := m + 1) (col := colD (m + 1) k') (N := NG h h')
    (fun p hp U hU => act_cvarD_lab (lt_colD m k') (by omega) Z ht hp hU) (fun s _ => labD_col _ _ s) (fun s hs => colD_mem hs)
    (fun r => (if r = 0 then 1 else 0) + (if r = m + 1 + 2 * k' + 3 then (-1) ^ (m + 1) * (h * 2) else 0))
    (fun r hr W _ => col_opG h h' (by omega) W) (by omega) (fun r hr hr' => by rw [if_neg (by omega), if_neg (by omega), add_zero])
  refine ⟨h1, h2, ?_, ?_⟩
  · rw [h3]
    congr 1
    rw [if_neg (by omega), if_pos (by omega), zero_add]
    have : (-1 : Polynomial ℚ) ^ (m + 1 + (k' + 1) + (k' + 2)) = (-1) ^ (m + 1 + 1) := by
      apply neg_one_pow_congr
      rw [Nat.even_iff, Nat.even_iff]
      omega
    rw [this, pow_succ _ (m + 1)]
    have h4 := neg_pow_mul_self (R := Polynomial ℚ) (m + 1)
    linear_combination (2 * h) * h4
  · have e : List.replicate (m + 1) (1 : ℤ) = labD (colD (m + 1) k' (m + 1)) := (labD_col _ _ _).symm
    rw [map_mul, Module.End.mul_apply, h1 (m + 1) le_rfl, e, act_dl_lab (lt_colD m k') (by omega) Z ht (colD_mem le_rfl)]
    refine Finset.sum_eq_zero fun W _ => ?_
    rw [opS_col, Finsupp.single_zero]

end

end Verif
