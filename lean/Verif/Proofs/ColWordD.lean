import Verif.Proofs.ColWord
import Verif.Proofs.RelRingD
/-!
# Columns as words of type D

The classes of one column are the words `b..b o b..b o..o` with inner letter `o`, for `k ≥ 2`. The transfer matrices of rows, applied to the
alternating sum of the columns, give the unit.
-/

namespace Verif
open Spec

section
variable {R : Type*} [CommRing R] {e : St → R}

theorem wtE_l_o (he : e .l = 0) (x : R) : ∀ (j : ℕ) (w : List L3), wtE e x .l (List.replicate j .o) w = 0
  | 0, [] => he
  | 0, _ :: _ => rfl
  | j + 1, [] => rfl
  | j + 1, q :: w => by
    rw [List.replicate_succ, wtE]
    cases q <;> simp [step, wtE_l_o he x j w]

/-- alternating sum over the columns, beginning in a state -/
def colSumE (e : St → R) (x : R) (k' : ℕ) (s : St) (m : ℕ) (w : List L3) : R :=
  ∑ i ∈ Finset.range (m + 1), (-x) ^ i * wtE e x s (colW m k' i) w

theorem colSumE_zero (x : R) (k' : ℕ) (s : St) (w : List L3) : colSumE e x k' s 0 w = wtE e x s (.o :: List.replicate k' .o) w := by
  simp [colSumE, colW]

theorem colSumE_nil (x : R) (k' : ℕ) (s : St) (m : ℕ) : colSumE e x k' s m [] = 0 := by
  unfold colSumE
  refine Finset.sum_eq_zero fun i _ => ?_
  unfold colW
  cases h : m - i <;> simp [List.replicate_succ, wtE]

theorem colSumE_succ (x : R) (k' : ℕ) (s : St) (m : ℕ) (q : L3) (w : List L3) :
    colSumE e x k' s (m + 1) (q :: w) = (match step s .b q with
      | some (t, i, j) => 2 ^ i * x ^ j * colSumE e x k' t m w
      | none => 0) + (-x) ^ (m + 1) * wtE e x s (.o :: (List.replicate (m + 1) .b ++ List.replicate k' .o)) (q :: w) := by
  unfold colSumE
  rw [Finset.sum_range_succ, colW_self]
  congr 1
  rcases h : step s .b q with _ | ⟨t, i, j⟩
  · refine Finset.sum_eq_zero fun i hi => ?_
    rw [Finset.mem_range] at hi
    rw [colW_succ (by omega), wtE, h]
    simp
  · show _ = 2 ^ i * x ^ j * _
    rw [Finset.mul_sum]
    refine Finset.sum_congr rfl fun i hi => ?_
    rw [Finset.mem_range] at hi
    rw [colW_succ (by omega), wtE, h]
    ring

theorem colSumE_r (x : R) (k' m : ℕ) (w : List L3) :
    colSumE e x k' .r m w + (-x) ^ (m + 1) * wtE e x .z (List.replicate (m + 1) .b ++ List.replicate k' .o) w = 0 := by
  cases w with
  | nil => rw [colSumE_nil, List.replicate_succ, List.cons_append]; simp [wtE]
  | cons q w =>
    have h : colSumE e x k' .r m (q :: w) = (-x) ^ m * wtE e x .r (.o :: (List.replicate m .b ++ List.replicate k' .o)) (q :: w) := by
      cases m with
      | zero => rw [colSumE_zero]; simp
      | succ m => rw [colSumE_succ]; cases q <;> simp [step]
    rw [h, List.replicate_succ, List.cons_append, wtE, wtE]
    cases q <;> simp [step] <;> ring

theorem colSumE_lr (he : e .l = 0) (x : R) (k' : ℕ) : ∀ (m : ℕ) (w : List L3),
    colSumE e x k' .lr m w + (-x) ^ (m + 1) * wtE e x .l (List.replicate (m + 1) .b ++ List.replicate k' .o) w = 0
  | m, [] => by rw [colSumE_nil, List.replicate_succ, List.cons_append]; simp [wtE]
  | 0, q :: w => by
    rw [colSumE_zero, List.replicate_succ, List.cons_append, wtE, wtE]
    cases q <;> simp [step, wtE_l_o he]
    ring
  | m + 1, q :: w => by
    have ih := colSumE_lr he x k' m w
    rw [colSumE_succ, List.replicate_succ (n := m + 1), List.cons_append, wtE, wtE]
    cases q <;> simp [step]
    · ring
    · linear_combination x * ih

/-- The rows, applied to the alternating sum of the columns. -/
theorem colSumE_z (he : e .l = 0) (x : R) (k' : ℕ) : ∀ (m : ℕ) (w : List L3),
    colSumE e x k' .z m w = if w = List.replicate m .b ++ List.replicate (k' + 1) .o then e .z else 0
  | 0, w => by
    rw [colSumE_zero, List.replicate_zero, List.nil_append, ← List.replicate_succ]
    have : ∀ (j : ℕ) (w : List L3), wtE e x .z (List.replicate j .o) w = if w = List.replicate j .o then e .z else 0 := by
      intro j
      induction j with
      | zero => intro w; cases w <;> simp [wtE]
      | succ j ih =>
        intro w
        cases w with
        | nil => simp [wtE, List.replicate_succ]
        | cons q w =>
          rw [List.replicate_succ, wtE]
          cases q <;> simp [step, ih, wtE_l_o he]
    exact this _ w
  | m + 1, [] => by rw [colSumE_nil, List.replicate_succ]; simp
  | m + 1, q :: w => by
    have ih := colSumE_z he x k' m w
    have h1 := colSumE_r (e := e) x k' m w
    have h2 := colSumE_lr he x k' m w
    rw [colSumE_succ, wtE, List.replicate_succ (n := m)]
    simp only [List.cons_append]
    cases q <;> simp only [step, pow_zero, one_mul, mul_zero, add_zero, List.cons.injEq, reduceCtorEq, false_and, true_and, if_false]
    · rw [List.replicate_succ, List.cons_append] at h1
      exact h1
    · rw [List.replicate_succ, List.cons_append] at h2
      exact h2
    · exact ih

/-- the second operator vanishes on the longest column -/
theorem wtS_l_bo {f : St → R} (hf : f .l = 0) : ∀ (i j : ℕ) (w : List L3), wtS f .l (List.replicate i .b ++ List.replicate j .o) w = 0
  | 0, 0, [] => hf
  | 0, 0, _ :: _ => rfl
  | 0, j + 1, [] => rfl
  | 0, j + 1, q :: w => by
    have ih := wtS_l_bo hf 0 j w
    rw [List.replicate_zero, List.nil_append] at ih ⊢
    rw [List.replicate_succ, wtS]
    cases q <;> simp [stepSg, ih]
  | i + 1, j, [] => by rw [List.replicate_succ, List.cons_append]; rfl
  | i + 1, j, q :: w => by
    have ih := wtS_l_bo hf i j w
    rw [List.replicate_succ, List.cons_append, wtS]
    cases q <;> simp [stepSg, ih]

end

section
open Polynomial
variable {S : Type*} [CommRing S] {e : St → S[X]}

theorem wtE_lr_o (he : e .l = 0) (h0 : ∀ d < 2, (e .lr).coeff d = 0) : ∀ (i j d : ℕ) (w : List L3), d < 2 * j + 2 →
    (wtE e X .lr (List.replicate i .b ++ List.replicate j .o) w).coeff d = 0
  | 0, 0, d, [], h => by simp [wtE, h0 d (by omega)]
  | 0, 0, d, _ :: _, h => by simp [wtE]
  | 0, j + 1, d, [], h => by simp [wtE, List.replicate_succ]
  | 0, j + 1, d, q :: w, h => by
    rw [List.replicate_zero, List.nil_append, List.replicate_succ, wtE]
    have ih := fun h' => wtE_lr_o he h0 0 j (d - 2) w h'
    rw [List.replicate_zero, List.nil_append] at ih
    cases q <;> simp [step, wtE_l_o he]
    rw [coeff_X_pow_mul']
    split
    · exact ih (by omega)
    · rfl
  | i + 1, j, d, [], h => by simp [wtE, List.replicate_succ]
  | i + 1, j, d, q :: w, h => by
    rw [List.replicate_succ, List.cons_append, wtE]
    have ih := fun d h' => wtE_lr_o he h0 i j d w h'
    cases q <;> simp [step]
    cases d with
    | zero => simp
    | succ d => rw [coeff_X_mul]; exact ih _ (by omega)

/-- the lowest coefficient of `lr` on a word `o..o` -/
theorem wtE_lr_oo (he : e .l = 0) : ∀ (j : ℕ) (w : List L3),
    (wtE e X .lr (List.replicate j .o) w).coeff (2 * j + 2) = if w = List.replicate j .o then (e .lr).coeff 2 else 0
  | 0, [] => by simp [wtE]
  | 0, _ :: _ => by simp [wtE]
  | j + 1, [] => by simp [wtE, List.replicate_succ]
  | j + 1, q :: w => by
    rw [List.replicate_succ, wtE]
    have ih := wtE_lr_oo he j w
    cases q <;> simp [step, wtE_l_o he]
    rw [show 2 * (j + 1) = 2 * j + 2 by ring, ih]

theorem wtE_l_b (he : e .l = 0) (h0 : ∀ d < 2, (e .lr).coeff d = 0) : ∀ (i j d : ℕ) (w : List L3), d < 2 * j + 3 →
    (wtE e X .l (List.replicate i .b ++ List.replicate j .o) w).coeff d = 0
  | 0, j, d, w, h => by rw [List.replicate_zero, List.nil_append, wtE_l_o he, coeff_zero]
  | i + 1, j, d, [], h => by simp [wtE, List.replicate_succ]
  | i + 1, j, d, q :: w, h => by
    rw [List.replicate_succ, List.cons_append, wtE]
    have ih := wtE_l_b he h0 i j d w h
    cases q <;> simp [step]
    · cases d with
      | zero => simp
      | succ d => rw [coeff_X_mul]; exact wtE_lr_o he h0 i j _ w (by omega)
    · exact ih

theorem wtE_lr_lead (he : e .l = 0) (h0 : ∀ d < 2, (e .lr).coeff d = 0) (i j : ℕ) (w : List L3) :
    (wtE e X .lr (List.replicate (i + 1) .b ++ List.replicate j .o) w).coeff (2 * j + 2) = 0 := by
  cases w with
  | nil => simp [wtE, List.replicate_succ]
  | cons q w =>
    rw [List.replicate_succ, List.cons_append, wtE]
    cases q <;> simp [step]
    exact wtE_lr_o he h0 i j _ w (by omega)

/-- the lowest coefficient of `l` on a word `b..bo..o` -/
theorem wtE_l_bo (he : e .l = 0) (h0 : ∀ d < 2, (e .lr).coeff d = 0) : ∀ (i j : ℕ) (w : List L3),
    (wtE e X .l (List.replicate (i + 1) .b ++ List.replicate j .o) w).coeff (2 * j + 3) =
      if w = List.replicate i .b ++ List.replicate (j + 1) .o then (e .lr).coeff 2 else 0
  | i, j, [] => by
    cases i <;> simp [wtE, List.replicate_succ]
  | 0, j, q :: w => by
    rw [List.replicate_succ, List.cons_append, wtE, List.replicate_zero, List.nil_append, List.nil_append, List.replicate_succ]
    cases q <;> simp [step, wtE_l_o he]
    rw [wtE_lr_oo he]
  | i + 1, j, q :: w => by
    rw [List.replicate_succ, List.cons_append, wtE, List.replicate_succ (n := i), List.cons_append]
    have ih := wtE_l_bo he h0 i j w
    cases q <;> simp [step]
    · have := wtE_lr_lead he h0 i j w
      rwa [List.replicate_succ, List.cons_append] at this
    · exact ih

/-! ### The alternating sums for the matrices -/

/-- the column with `s` boxes -/
def colD (m k' s : ℕ) : WordD := (colW m k' s, .o)

theorem endG_l (j : L3) : endG (X : S[X]) .l .o j = 0 := by cases j <;> rfl

theorem endG_lr_low (j : L3) (d : ℕ) (hd : d < 2) : (endG (X : S[X]) .lr .o j).coeff d = 0 := by
  have e1 : (2 * X ^ 2 : S[X]) = C 2 * X ^ 2 := by rw [map_ofNat]
  cases j
  · rw [endG, e1, coeff_C_mul, coeff_X_pow, if_neg (by omega), mul_zero]
  · simp [endG]
  · simp [endG]

theorem endG_lr_two (j : L3) : (endG (X : S[X]) .lr .o j).coeff 2 = if j = .o then 2 else 0 := by
  have e1 : (2 * X ^ 2 : S[X]) = C 2 * X ^ 2 := by rw [map_ofNat]
  cases j
  · rw [endG, e1, coeff_C_mul, coeff_X_pow, if_pos rfl, mul_one, if_pos rfl]
  · simp [endG]
  · simp [endG]

theorem endG_z (j : L3) : endG (X : S[X]) .z .o j = if j = .o then 1 else 0 := by cases j <;> rfl

/-- the quantum terms of type D on the word `ob..bo..o` -/
noncomputable def colExtraD (h : S) (m k' : ℕ) (W : WordD) : S[X] :=
  match W.1 with
  | .o :: w => C h * (X * gD X .lr (List.replicate m .b ++ List.replicate k' .o, .o) (w, W.2.sw))
  | .b :: w => C h * gD X .l (List.replicate m .b ++ List.replicate k' .o, .o) (w, W.2.sw)
  | _ => 0

theorem opG_col (h h' : S) {m k' s : ℕ} (hs : s ≤ m) (W : WordD) :
    opG (C h) (C h') X (colD m k' s) W = gD X .z (colD m k' s) W + if s = m then colExtraD h m k' W else 0 := by
  rcases W with ⟨w, j⟩
  by_cases c : s = m
  · subst c
    rw [colD, colW_self, if_pos rfl]
    rcases w with _ | ⟨q, w⟩
    · simp [opG, opGE, opGO, gD, swD, wtE, colExtraD]
    · cases q <;> simp [opG, opGE, opGO, kerE, kerO, gD, swD, wtE, colExtraD, step]
  · obtain ⟨m, rfl⟩ : ∃ m', m = m' + 1 := ⟨m - 1, by omega⟩
    rw [colD, colW_succ (by omega), if_neg c, add_zero]
    rcases w with _ | ⟨q, w⟩
    · simp [opG, opGE, opGO, gD, swD, wtE]
    · cases q <;> simp [opG, opGE, opGO, kerE, kerO, gD, swD, wtE, step]

theorem colW_zero (m k' : ℕ) : colW m k' 0 = List.replicate m .b ++ List.replicate (k' + 1) .o := by simp [colW, List.replicate_succ]

theorem sw_eq_o (j : L3) : j.sw = .o ↔ j = .o := by cases j <;> simp [L3.sw]

theorem coeff_colExtraD (h : S) {m k' d : ℕ} (hd : d ≤ 2 * k' + 3) (W : WordD) :
    (colExtraD h (m + 1) k' W).coeff d = if W = colD (m + 1) k' 0 ∧ d = 2 * k' + 3 then h * 2 else 0 := by
  have h4 : colW (m + 1) k' 0 = .b :: (List.replicate m .b ++ List.replicate (k' + 1) .o) := by rw [colW_zero, List.replicate_succ, List.cons_append]
  rw [colD, h4]
  rcases W with ⟨_ | ⟨q, w⟩, j⟩
  · simp [colExtraD]
  · cases q
    · rw [if_neg (by simp)]
      simp only [colExtraD, coeff_C_mul]
      cases d with
      | zero => simp
      | succ d =>
        rw [coeff_X_mul, gD]
        by_cases c : d = 2 * k' + 2
        · rw [c, wtE_lr_lead (endG_l _) (endG_lr_low _), mul_zero]
        · rw [wtE_lr_o (endG_l _) (endG_lr_low _) _ _ _ _ (by omega), mul_zero]
    · simp [colExtraD]
    · simp only [colExtraD, coeff_C_mul, gD]
      by_cases c : d = 2 * k' + 3
      · rw [c, wtE_l_bo (endG_l _) (endG_lr_low _), endG_lr_two]
        simp only [sw_eq_o, Prod.mk.injEq, List.cons.injEq, true_and, and_true]
        by_cases c1 : w = List.replicate m .b ++ List.replicate (k' + 1) .o <;> by_cases c2 : j = .o <;> simp [c1, c2]
      · rw [wtE_l_b (endG_l _) (endG_lr_low _) _ _ _ _ (by omega), mul_zero, if_neg (fun h' => c h'.2)]

/-- The alternating sums of the products of rows and columns. -/
theorem col_opG (h h' : S) {m k' r : ℕ} (hr : r ≤ m + 1 + 2 * k' + 3) (W : WordD) :
    ∑ s ∈ Finset.range (m + 1 + 1), (if s ≤ r then (-1) ^ s * (opG (C h) (C h') X (colD (m + 1) k' s) W).coeff (r - s) else 0) =
      if W = colD (m + 1) k' 0 then
        (if r = 0 then 1 else 0) + (if r = m + 1 + 2 * k' + 3 then (-1) ^ (m + 1) * (h * 2) else 0) else 0 := by
  rw [← coeff_alt]
  have h1 : ∑ s ∈ Finset.range (m + 1 + 1), (-X) ^ s * opG (C h) (C h') X (colD (m + 1) k' s) W =
      colSumE (fun t => endG X t .o W.2) X k' .z (m + 1) W.1 + (-X) ^ (m + 1) * colExtraD h (m + 1) k' W := by
    have : ∀ s ∈ Finset.range (m + 1 + 1), (-X) ^ s * opG (C h) (C h') X (colD (m + 1) k' s) W =
        (-X) ^ s * gD X .z (colD (m + 1) k' s) W + if s = m + 1 then (-X) ^ s * colExtraD h (m + 1) k' W else 0 := by
      intro s hs
      rw [Finset.mem_range] at hs
      rw [opG_col _ _ (by omega), mul_add]
      split <;> simp
    rw [Finset.sum_congr rfl this, Finset.sum_add_distrib, Finset.sum_ite_eq', if_pos (by simp)]
    rfl
  have h5 : (if W.1 = List.replicate (m + 1) .b ++ List.replicate (k' + 1) .o then endG (X : S[X]) .z .o W.2 else 0) =
      if W = colD (m + 1) k' 0 then 1 else 0 := by
    rcases W with ⟨w, j⟩
    rw [colD, colW_zero, endG_z]
    simp only [Prod.mk.injEq]
    by_cases c1 : w = List.replicate (m + 1) .b ++ List.replicate (k' + 1) .o <;> by_cases c2 : j = .o <;> simp [c1, c2]
  rw [h1, colSumE_z (endG_l _), h5, coeff_add, neg_pow, mul_assoc, show ((-1 : S[X]) ^ (m + 1)) = C ((-1) ^ (m + 1)) by simp, coeff_C_mul,
    coeff_X_pow_mul']
  by_cases hm : m + 1 ≤ r
  · rw [if_pos hm, coeff_colExtraD _ (by omega)]
    by_cases hw : W = colD (m + 1) k' 0
    · rw [if_pos hw, if_pos hw, coeff_one]
      congr 1
      by_cases c : r = m + 1 + 2 * k' + 3
      · rw [if_pos ⟨hw, by omega⟩, if_pos c]
      · rw [if_neg (by omega), if_neg c, mul_zero]
    · rw [if_neg hw, if_neg hw, if_neg (fun h => hw h.1)]
      simp
  · rw [if_neg hm, mul_zero, add_zero, if_neg (c := r = m + 1 + _ + _) (by omega), add_zero]
    split
    · rw [coeff_one]
    · simp

end

/-- the second operator on the longest column -/
theorem opS_col {R : Type*} [CommRing R] (h : R) (m k' : ℕ) (W : WordD) : opS h (colD m k' m) W = 0 := by
  rcases W with ⟨w, j⟩
  have hl : ∀ j : L3, (endSg .l .o j : R) = 0 := fun j => by cases j <;> rfl
  have hw : ∀ (j : L3) (w : List L3), (sD .l (List.replicate m .b ++ List.replicate k' .o, .o) (w, j) : R) = 0 :=
    fun j w => wtS_l_bo (hl j) m k' w
  rw [colD, colW_self]
  rcases w with _ | ⟨q, w⟩
  · simp [opS, opSE, opSO, sD, swD, wtS]
  · cases q <;> simp [opS, opSE, opSO, kerSE, kerSO, swD, hw]

end Verif
