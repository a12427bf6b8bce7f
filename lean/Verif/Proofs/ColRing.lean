import Verif.Proofs.ColWord
import Verif.Proofs.PresA
import Verif.Proofs.RelRing
/-!
# The classes of one column are the determinants of ones
-/

namespace Verif
open Spec MvPolynomial

theorem shapeW_bs (u : List L3) (i : ℕ) : shapeW 0 0 (List.replicate i .b ++ u) = shapeW 0 0 u ++ List.replicate i 0 := by
  induction i with
  | zero => simp
  | succ i ih =>
    rw [List.replicate_succ, List.cons_append, shapeW, ih, List.append_assoc, ← List.replicate_succ']

theorem shapeW_nos (j : ℕ) : shapeW 0 0 (List.replicate j .o) = [] := by
  induction j with
  | zero => rfl
  | succ j ih => rw [List.replicate_succ, shapeW, ih]; rfl

theorem labW_col (m k' s : ℕ) : labW (colW m k' s) = List.replicate s 1 := by
  unfold labW colW
  rw [shapeW_bs, partClip_append_zeros, shapeW, shapeW_bs, shapeW_nos, List.nil_append, List.map_replicate, zero_add]
  cases s with
  | zero => rfl
  | succ s => rw [List.replicate_succ', partClip_concat_ne _ _ (by decide)]

theorem colsW_bbs (u : List L3) (i : ℕ) : colsW 0 (List.replicate i .b ++ u) = colsW 0 u := by
  induction i with
  | zero => simp
  | succ i ih => rw [List.replicate_succ, List.cons_append, colsW, ih]; simp

theorem colsW_nos (j : ℕ) : colsW 0 (List.replicate j .o) = j := by
  induction j with
  | zero => rfl
  | succ j ih => rw [List.replicate_succ, colsW, ih]

theorem colW_mem {m k' s : ℕ} (h : s ≤ m) : colW m k' s ∈ Wd (m + (k' + 1)) (k' + 1) := by
  rw [mem_Wd, colW_length h]
  refine ⟨rfl, ?_⟩
  unfold colW
  rw [colsW_bbs, colsW, colsW_bbs, colsW_nos]

section
variable {X : Space} {pieri : Int → List Int → Except PyErr Poly} {cls : List Int → Prop} {B K : ℕ}

/-- the special classes with factors -/
noncomputable def cv (K : ℕ) (κ : ℕ → ℚ) (p : ℤ) : P := C (κ p.toNat) * hvar K p

theorem cv_zero {κ : ℕ → ℚ} (h : κ 0 = 1) : cv K κ 0 = 1 := by simp [cv, hvar, h]

theorem cv_neg (κ : ℕ → ℚ) : ∀ p < 0, cv K κ p = 0 := by
  intro p hp
  unfold cv
  rw [hvar_neg _ p hp, mul_zero]

theorem cv_big (κ : ℕ → ℚ) {p : ℤ} (hp : (K : ℤ) < p) : cv K κ p = 0 := by
  unfold cv
  rw [hvar_big (by omega) _ hp, mul_zero]

variable {N : ℕ → List L3 → List L3 → Polynomial ℚ} {W : Finset (List L3)}

theorem act_cv (Z : RingOn X pieri (stdSpc K) cls B) (κ : ℕ → ℚ) (h0 : κ 0 = 1)
    (hcls : ∀ l, cls l ↔ ∃ u ∈ W, labW u = l) (hinj : ∀ u ∈ W, ∀ w ∈ W, labW u = labW w → u = w)
    (hz : ∀ u ∈ W, ∀ w ∈ W, N 0 u w = if u = w then 1 else 0)
    (ht : ∀ p l, 1 ≤ p → p ≤ K → tM W labW N p l = Polynomial.C (κ p) • Z.Y.t p l) {p : ℕ} (hp : p ≤ K) {u : List L3} (hu : u ∈ W) :
    Z.Y.act (cv K κ p) (Finsupp.single (labW u) 1) = ∑ w ∈ W, Finsupp.single (labW w) (N p u w) := by
  rw [← tM_lab N hinj p hu]
  by_cases h : p = 0
  · subst h
    rw [Nat.cast_zero, cv_zero h0, map_one, Module.End.one_apply, tM_lab N hinj 0 hu, Finset.sum_eq_single u]
    · rw [hz u hu u hu, if_pos rfl]
    · intro w hw hne
      rw [hz u hu w hw, if_neg hne.symm, Finsupp.single_zero]
    · intro h; exact absurd hu h
  · have hs : stdSpc K (p : ℤ) := ⟨by omega, by omega⟩
    have h1 := Z.Y.act_special hs (Finsupp.single (labW u) 1)
    rw [num2spec_pos (by omega)] at h1
    rw [cv, hvar, if_neg (by omega), if_pos (by omega), map_mul, Module.End.mul_apply, h1, Z.Y.act_C, ht p _ (by omega) hp]
    simp [lin]

/-- The determinants of ones act as the columns, if the alternating sums of products of rows and columns are known. -/
theorem act_ee (Z : RingOn X pieri (stdSpc K) cls B) (κ : ℕ → ℚ) (h0 : κ 0 = 1)
    (hcls : ∀ l, cls l ↔ ∃ u ∈ W, labW u = l) (hinj : ∀ u ∈ W, ∀ w ∈ W, labW u = labW w → u = w)
    (hz : ∀ u ∈ W, ∀ w ∈ W, N 0 u w = if u = w then 1 else 0)
    (ht : ∀ p l, 1 ≤ p → p ≤ K → tM W labW N p l = Polynomial.C (κ p) • Z.Y.t p l)
    {m k' : ℕ} (hW : ∀ s ≤ m, colW m k' s ∈ W) (ε : ℕ → Polynomial ℚ)
    (hcol : ∀ r ≤ K, ∀ w ∈ W, ∑ s ∈ Finset.range (m + 1), (if s ≤ r then (-1) ^ s * N (r - s) (colW m k' s) w else 0) =
      if w = colW m k' 0 then ε r else 0) (hmK : m < K) (hε : ∀ r, 1 ≤ r → r < K → ε r = 0) :
    (∀ j ≤ m, Z.Y.act (ee (cv K κ) j) (Finsupp.single [] 1) = Finsupp.single (List.replicate j 1) 1) ∧
    (∀ j, m < j → j < K → Z.Y.act (ee (cv K κ) j) (Finsupp.single [] 1) = 0) ∧
    Z.Y.act (ee (cv K κ) K) (Finsupp.single [] 1) = Finsupp.single [] (-(-1) ^ K * ε K) := by
  let v : ℕ → LMod := fun s => if s ≤ m then Finsupp.single (List.replicate s 1) 1 else 0
  have hv : ∀ s ≤ m, v s = Finsupp.single (labW (colW m k' s)) 1 := fun s hs => by
    show (if _ then _ else _) = _
    rw [if_pos hs, labW_col]
  -- alternating sums of rows times columns
  have hsum : ∀ r ≤ K, ∑ s ∈ Finset.range (r + 1), ((-1) ^ s : ℤ) • Z.Y.act (cv K κ ((r : ℤ) - s)) (v s) = Finsupp.single [] (ε r) := by
    intro r hr
    have h1 : ∑ s ∈ Finset.range (r + 1), ((-1) ^ s : ℤ) • Z.Y.act (cv K κ ((r : ℤ) - s)) (v s) =
        ∑ s ∈ Finset.range (m + 1), if s ≤ r then ((-1) ^ s : ℤ) • Z.Y.act (cv K κ ((r : ℤ) - s)) (v s) else 0 := by
      have e1 : ∑ s ∈ Finset.range (r + 1), ((-1) ^ s : ℤ) • Z.Y.act (cv K κ ((r : ℤ) - s)) (v s) =
          ∑ s ∈ Finset.range (r + m + 1), if s ≤ r ∧ s ≤ m then ((-1) ^ s : ℤ) • Z.Y.act (cv K κ ((r : ℤ) - s)) (v s) else 0 := by
        rw [← Finset.sum_subset (Finset.range_subset_range.2 (show r + 1 ≤ r + m + 1 by omega)) (fun s _ hs => by
          rw [Finset.mem_range] at hs
          rw [if_neg (by omega)])]
        refine Finset.sum_congr rfl fun s hs => ?_
        rw [Finset.mem_range] at hs
        split
        · rfl
        · have : v s = 0 := if_neg (by omega)
          rw [this, map_zero, smul_zero]
      rw [e1, ← Finset.sum_subset (Finset.range_subset_range.2 (show m + 1 ≤ r + m + 1 by omega)) (fun s _ hs => by
          rw [Finset.mem_range] at hs
          rw [if_neg (by omega)])]
      refine Finset.sum_congr rfl fun s hs => ?_
      rw [Finset.mem_range] at hs
      by_cases h : s ≤ r
      · rw [if_pos ⟨h, by omega⟩, if_pos h]
      · rw [if_neg (by omega), if_neg h]
    have h2 : ∀ s ∈ Finset.range (m + 1), (if s ≤ r then ((-1) ^ s : ℤ) • Z.Y.act (cv K κ ((r : ℤ) - s)) (v s) else 0) =
        ∑ w ∈ W, Finsupp.single (labW w) (if s ≤ r then (-1) ^ s * N (r - s) (colW m k' s) w else 0) := by
      intro s hs
      rw [Finset.mem_range] at hs
      split
      · rename_i h
        rw [hv s (by omega), ← Nat.cast_sub h, act_cv Z κ h0 hcls hinj hz ht (by omega) (hW s (by omega)), Finset.smul_sum]
        refine Finset.sum_congr rfl fun w _ => ?_
        rw [Finsupp.smul_single, zsmul_eq_mul]
        push_cast
        rfl
      · simp
    rw [h1, Finset.sum_congr rfl h2, Finset.sum_comm]
    have h3 : ∀ w ∈ W, ∑ s ∈ Finset.range (m + 1), Finsupp.single (labW w) (if s ≤ r then (-1) ^ s * N (r - s) (colW m k' s) w else 0) =
        if colW m k' 0 = w then Finsupp.single [] (ε r) else (0 : LMod) := by
      intro w hw
      rw [← Finsupp.single_finsetSum, hcol r hr w hw]
      by_cases h : w = colW m k' 0
      · rw [if_pos h, if_pos h.symm, h, labW_col]
        rfl
      · rw [if_neg h, if_neg (fun h' => h h'.symm), Finsupp.single_zero]
    rw [Finset.sum_congr rfl h3, Finset.sum_ite_eq, if_pos (hW 0 (by omega))]
  -- Newton's identities
  have hnew : ∀ r, 1 ≤ r → ∑ s ∈ Finset.range (r + 1),
      ((-1) ^ s : ℤ) • Z.Y.act (cv K κ ((r : ℤ) - s)) (Z.Y.act (ee (cv K κ) s) (Finsupp.single [] 1)) = 0 := by
    intro r hr
    have h1 := congrArg (fun x => Z.Y.act x (Finsupp.single [] 1)) (newton (cv_zero (K := K) h0) (cv_neg κ) hr)
    simp only [map_sum, LinearMap.sum_apply, map_zero, LinearMap.zero_apply] at h1
    refine Eq.trans (Finset.sum_congr rfl fun s _ => ?_) h1
    rw [mul_assoc, mul_comm (ee _ _), map_mul, Module.End.mul_apply, map_pow, map_neg, map_one, negpow_apply, map_mul, Module.End.mul_apply]
  have main : ∀ r < K, Z.Y.act (ee (cv K κ) r) (Finsupp.single [] 1) = v r := by
    intro r
    induction r using Nat.strong_induction_on with
    | _ r ih =>
      intro hr
      by_cases h : r = 0
      · subst h
        rw [ee_zero, map_one, Module.End.one_apply]
        exact (if_pos (Nat.zero_le m)).symm
      · have h1 := hnew r (by omega)
        have h2 := hsum r (by omega)
        rw [hε r (by omega) hr, Finsupp.single_zero] at h2
        rw [Finset.sum_range_succ] at h1 h2
        rw [Finset.sum_congr rfl (fun s hs => by rw [ih s (Finset.mem_range.1 hs) (by have := Finset.mem_range.1 hs; omega)])] at h1
        have h3 := h1.trans h2.symm
        rw [add_right_inj, sub_self, cv_zero h0, map_one, Module.End.one_apply, Module.End.one_apply] at h3
        have h4 := congrArg (fun x => ((-1) ^ r : ℤ) • x) h3
        simp only [smul_smul, neg_pow_mul_self, one_smul] at h4
        exact h4
  refine ⟨fun j hj => ?_, fun j h1 h2 => ?_, ?_⟩
  · rw [main j (by omega)]
    exact if_pos hj
  · rw [main j h2]
    exact if_neg (by omega)
  · have h1 := hnew K (by omega)
    have h2 := hsum K le_rfl
    rw [Finset.sum_range_succ] at h1 h2
    rw [Finset.sum_congr rfl (fun s hs => by rw [main s (Finset.mem_range.1 hs)])] at h1
    have hvK : v K = 0 := if_neg (by omega)
    rw [hvK, map_zero, smul_zero, add_zero] at h2
    rw [h2, sub_self, cv_zero h0, map_one, Module.End.one_apply] at h1
    have h4 := congrArg (fun x => ((-1) ^ K : ℤ) • x) h1
    simp only [smul_add, smul_smul, neg_pow_mul_self, one_smul, smul_zero] at h4
    rw [add_comm, ← eq_neg_iff_add_eq_zero] at h4
    rw [h4, Finsupp.smul_single, ← Finsupp.single_neg, zsmul_eq_mul]
    push_cast
    rw [neg_mul]

end

end Verif
