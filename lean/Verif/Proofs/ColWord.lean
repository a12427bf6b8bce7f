import Verif.Proofs.WordQB
/-!
# Columns as words, and the alternating sum of products of rows and columns

The classes of one column are the words `b..b o b..b o..o`. The transfer matrices of rows, applied to the alternating sum of the columns, give
the unit.
-/

namespace Verif
open Spec

section
variable {R : Type*} [CommRing R]

/-- the word of the column with `s` boxes; `k' + 1` letters `o` -/
def colW (m k' s : ℕ) : List L3 := List.replicate (m - s) .b ++ .o :: (List.replicate s .b ++ List.replicate k' .o)

theorem colW_length {m k' s : ℕ} (h : s ≤ m) : (colW m k' s).length = m + (k' + 1) := by
  simp [colW]
  omega

theorem wt_l_o (c x : R) : ∀ (j : ℕ) (w : List L3), wt c x .l (List.replicate j .o) w = 0
  | 0, [] => rfl
  | 0, _ :: _ => rfl
  | j + 1, [] => rfl
  | j + 1, q :: w => by
    rw [List.replicate_succ, wt]
    cases q <;> simp [step, wt_l_o c x j w]

/-- alternating sum over the columns, beginning in a state -/
def colSum (c x : R) (k' : ℕ) (s : St) (m : ℕ) (w : List L3) : R :=
  ∑ i ∈ Finset.range (m + 1), (-x) ^ i * wt c x s (colW m k' i) w

theorem colW_self (m k' : ℕ) : colW m k' m = .o :: (List.replicate m .b ++ List.replicate k' .o) := by simp [colW]

theorem colW_succ {m k' i : ℕ} (h : i ≤ m) : colW (m + 1) k' i = .b :: colW m k' i := by
  unfold colW
  rw [show m + 1 - i = (m - i) + 1 by omega, List.replicate_succ, List.cons_append]

theorem colSum_zero (c x : R) (k' : ℕ) (s : St) (w : List L3) : colSum c x k' s 0 w = wt c x s (.o :: List.replicate k' .o) w := by
  simp [colSum, colW]

theorem colSum_nil (c x : R) (k' : ℕ) (s : St) (m : ℕ) : colSum c x k' s m [] = 0 := by
  unfold colSum
  refine Finset.sum_eq_zero fun i _ => ?_
  unfold colW
  cases h : m - i <;> simp [List.replicate_succ, wt]

theorem colSum_succ (c x : R) (k' : ℕ) (s : St) (m : ℕ) (q : L3) (w : List L3) :
    colSum c x k' s (m + 1) (q :: w) = (match step s .b q with
      | some (t, i, j) => 2 ^ i * x ^ j * colSum c x k' t m w
      | none => 0) + (-x) ^ (m + 1) * wt c x s (.o :: (List.replicate (m + 1) .b ++ List.replicate k' .o)) (q :: w) := by
  unfold colSum
  rw [Finset.sum_range_succ, colW_self]
  congr 1
  rcases h : step s .b q with _ | ⟨t, i, j⟩
  · refine Finset.sum_eq_zero fun i hi => ?_
    rw [Finset.mem_range] at hi
    rw [colW_succ (by omega), wt, h]
    simp
  · show _ = 2 ^ i * x ^ j * _
    rw [Finset.mul_sum]
    refine Finset.sum_congr rfl fun i hi => ?_
    rw [Finset.mem_range] at hi
    rw [colW_succ (by omega), wt, h]
    ring

theorem colSum_r (c x : R) (k' m : ℕ) (w : List L3) :
    colSum c x k' .r m w + (-x) ^ (m + 1) * wt c x .z (List.replicate (m + 1) .b ++ List.replicate k' .o) w = 0 := by
  cases w with
  | nil => rw [colSum_nil, List.replicate_succ, List.cons_append]; simp [wt]
  | cons q w =>
    have h : colSum c x k' .r m (q :: w) = (-x) ^ m * wt c x .r (.o :: (List.replicate m .b ++ List.replicate k' .o)) (q :: w) := by
      cases m with
      | zero => rw [colSum_zero]; simp
      | succ m => rw [colSum_succ]; cases q <;> simp [step]
    rw [h, List.replicate_succ, List.cons_append, wt, wt]
    cases q <;> simp [step] <;> ring

theorem colSum_lr (c x : R) (k' : ℕ) : ∀ (m : ℕ) (w : List L3),
    colSum c x k' .lr m w + (-x) ^ (m + 1) * wt c x .l (List.replicate (m + 1) .b ++ List.replicate k' .o) w = 0
  | m, [] => by rw [colSum_nil, List.replicate_succ, List.cons_append]; simp [wt]
  | 0, q :: w => by
    rw [colSum_zero, List.replicate_succ, List.cons_append, wt, wt]
    cases q <;> simp [step, wt_l_o]
    ring
  | m + 1, q :: w => by
    have ih := colSum_lr c x k' m w
    rw [colSum_succ, List.replicate_succ (n := m + 1), List.cons_append, wt, wt]
    cases q <;> simp [step]
    · ring
    · linear_combination x * ih

/-- The rows, applied to the alternating sum of the columns. -/
theorem colSum_z (c x : R) (k' : ℕ) : ∀ (m : ℕ) (w : List L3),
    colSum c x k' .z m w = if w = List.replicate m .b ++ List.replicate (k' + 1) .o then 1 else 0
  | 0, w => by
    rw [colSum_zero, List.replicate_zero, List.nil_append, ← List.replicate_succ]
    have : ∀ (j : ℕ) (w : List L3), wt c x .z (List.replicate j .o) w = if w = List.replicate j .o then 1 else 0 := by
      intro j
      induction j with
      | zero => intro w; cases w <;> simp [wt, endW]
      | succ j ih =>
        intro w
        cases w with
        | nil => simp [wt, List.replicate_succ]
        | cons q w =>
          rw [List.replicate_succ, wt]
          cases q <;> simp [step, ih, wt_l_o]
    exact this _ w
  | m + 1, [] => by rw [colSum_nil, List.replicate_succ]; simp
  | m + 1, q :: w => by
    have ih := colSum_z c x k' m w
    have h1 := colSum_r c x k' m w
    have h2 := colSum_lr c x k' m w
    rw [colSum_succ, wt, List.replicate_succ (n := m)]
    simp only [List.cons_append]
    cases q <;> simp only [step, pow_zero, one_mul, mul_zero, add_zero, List.cons.injEq, reduceCtorEq, false_and, true_and, if_false]
    · rw [List.replicate_succ, List.cons_append] at h1
      exact h1
    · rw [List.replicate_succ, List.cons_append] at h2
      exact h2
    · exact ih

end

open Polynomial in
section
variable {S : Type*} [CommRing S]

theorem wt_lr_o (c : S) : ∀ (i j d : ℕ) (w : List L3), d < 2 * j + 1 →
    (wt (C c) X .lr (List.replicate i .b ++ List.replicate j .o) w).coeff d = 0
  | 0, 0, d, [], h => by simp [wt, endW, show d = 0 by omega]
  | 0, 0, d, _ :: _, h => by simp [wt]
  | 0, j + 1, d, [], h => by simp [wt, List.replicate_succ]
  | 0, j + 1, d, q :: w, h => by
    rw [List.replicate_zero, List.nil_append, List.replicate_succ, wt]
    have ih := fun h' => wt_lr_o c 0 j (d - 2) w h'
    rw [List.replicate_zero, List.nil_append] at ih
    cases q <;> simp [step, wt_l_o]
    rw [coeff_X_pow_mul']
    split
    · exact ih (by omega)
    · rfl
  | i + 1, j, d, [], h => by simp [wt, List.replicate_succ]
  | i + 1, j, d, q :: w, h => by
    rw [List.replicate_succ, List.cons_append, wt]
    have ih := fun d h' => wt_lr_o c i j d w h'
    cases q <;> simp [step]
    cases d with
    | zero => simp
    | succ d => rw [coeff_X_mul]; exact ih _ (by omega)

/-- the lowest coefficient of `lr` on a word `o..o` -/
theorem wt_lr_oo (c : S) : ∀ (j : ℕ) (w : List L3),
    (wt (C c) X .lr (List.replicate j .o) w).coeff (2 * j + 1) = if w = List.replicate j .o then c else 0
  | 0, [] => by simp [wt, endW]
  | 0, _ :: _ => by simp [wt]
  | j + 1, [] => by simp [wt, List.replicate_succ]
  | j + 1, q :: w => by
    rw [List.replicate_succ, wt]
    have ih := wt_lr_oo c j w
    cases q <;> simp [step, wt_l_o]
    rw [show 2 * (j + 1) + 1 = (2 * j + 1) + 2 by ring, coeff_X_pow_mul, ih]

theorem wt_l_b (c : S) : ∀ (i j d : ℕ) (w : List L3), d < 2 * j + 2 →
    (wt (C c) X .l (List.replicate i .b ++ List.replicate j .o) w).coeff d = 0
  | 0, j, d, w, h => by rw [List.replicate_zero, List.nil_append, wt_l_o, coeff_zero]
  | i + 1, j, d, [], h => by simp [wt, List.replicate_succ]
  | i + 1, j, d, q :: w, h => by
    rw [List.replicate_succ, List.cons_append, wt]
    have ih := wt_l_b c i j d w h
    cases q <;> simp [step]
    · cases d with
      | zero => simp
      | succ d => rw [coeff_X_mul]; exact wt_lr_o c i j _ w (by omega)
    · exact ih

/-- the lowest coefficient of `l` on a word `b..bo..o` -/
theorem wt_l_bo (c : S) : ∀ (i j : ℕ) (w : List L3),
    (wt (C c) X .l (List.replicate (i + 1) .b ++ List.replicate j .o) w).coeff (2 * j + 2) =
      if w = List.replicate i .b ++ List.replicate (j + 1) .o then c else 0
  | i, j, [] => by
    cases i <;> simp [wt, List.replicate_succ]
  | 0, j, q :: w => by
    rw [List.replicate_succ, List.cons_append, wt, List.replicate_zero, List.nil_append, List.nil_append, List.replicate_succ]
    cases q <;> simp [step, wt_l_o]
    rw [wt_lr_oo]
  | i + 1, j, q :: w => by
    rw [List.replicate_succ, List.cons_append, wt, List.replicate_succ (n := i), List.cons_append]
    have ih := wt_l_bo c i j w
    cases q <;> simp [step]
    · have := wt_lr_lead c i j w
      rwa [List.replicate_succ, List.cons_append] at this
    · exact ih
where
  wt_lr_lead (c : S) (i j : ℕ) (w : List L3) : (wt (C c) X .lr (List.replicate (i + 1) .b ++ List.replicate j .o) w).coeff (2 * j + 1) = 0 := by
    cases w with
    | nil => simp [wt, List.replicate_succ]
    | cons q w =>
      rw [List.replicate_succ, List.cons_append, wt]
      cases q <;> simp [step]
      exact wt_lr_o c i j _ w (by omega)

end

/-! ### The alternating sums for the matrices -/

section
open Polynomial
variable {S : Type*} [CommRing S]

theorem coeff_alt (m r : ℕ) (f : ℕ → S[X]) : (∑ s ∈ Finset.range m, (-X) ^ s * f s).coeff r =
    ∑ s ∈ Finset.range m, if s ≤ r then (-1) ^ s * (f s).coeff (r - s) else 0 := by
  rw [finsetSum_coeff]
  refine Finset.sum_congr rfl fun s _ => ?_
  rw [neg_pow, mul_assoc, show ((-1 : S[X]) ^ s) = C ((-1) ^ s) by simp, coeff_C_mul, coeff_X_pow_mul']
  split <;> simp

/-- type C and classical type B -/
theorem col_opW (c h : S) {m k' r : ℕ} (hr : r ≤ m + (k' + 1) + (k' + 1)) (w : List L3) :
    ∑ s ∈ Finset.range (m + 1), (if s ≤ r then (-1) ^ s * (opW (C c) (C h) X (colW m k' s) w).coeff (r - s) else 0) =
      if w = colW m k' 0 then (if r = 0 then 1 else 0) else 0 := by
  rw [← coeff_alt]
  unfold opW
  have h1 : ∑ s ∈ Finset.range (m + 1), (-X) ^ s * (wt (C c) X .z (colW m k' s) w + C h * wt (C c) X .lr (colW m k' s) w) =
      colSum (C c) X k' .z m w + C h * colSum (C c) X k' .lr m w := by
    unfold colSum
    rw [Finset.mul_sum, ← Finset.sum_add_distrib]
    exact Finset.sum_congr rfl fun s _ => by ring
  have h2 : colSum (C c) X k' .lr m w = -((-X) ^ (m + 1) * wt (C c) X .l (List.replicate (m + 1) .b ++ List.replicate k' .o) w) :=
    eq_neg_of_add_eq_zero_left (colSum_lr _ _ _ _ _)
  have h3 : ((-X : S[X]) ^ (m + 1) * wt (C c) X .l (List.replicate (m + 1) .b ++ List.replicate k' .o) w).coeff r = 0 := by
    rw [neg_pow, mul_assoc, show ((-1 : S[X]) ^ (m + 1)) = C ((-1) ^ (m + 1)) by simp, coeff_C_mul, coeff_X_pow_mul']
    by_cases h : m + 1 ≤ r
    · rw [if_pos h, wt_l_b _ _ _ _ _ (by omega), mul_zero]
    · rw [if_neg h, mul_zero]
  have h4 : colW m k' 0 = List.replicate m .b ++ List.replicate (k' + 1) .o := by simp [colW, List.replicate_succ]
  rw [h1, h2, colSum_z, coeff_add, mul_neg, coeff_neg, coeff_C_mul, h3, mul_zero, neg_zero, add_zero, h4]
  split
  · rw [coeff_one]
  · simp

/-- the quantum terms of type B on the word `ob..bo..o` -/
noncomputable def colExtra (c h : S) (m k' : ℕ) : List L3 → S[X]
  | .o :: w => C h * (X * wt (C c) X .lr (List.replicate m .b ++ List.replicate k' .o) w)
  | .b :: w => C h * wt (C c) X .l (List.replicate m .b ++ List.replicate k' .o) w
  | _ => 0

theorem opQ_col (c h h' : S) {m k' s : ℕ} (hs : s ≤ m) (w : List L3) :
    opQ (C c) (C h) (C h') X (colW m k' s) w = wt (C c) X .z (colW m k' s) w + if s = m then colExtra c h m k' w else 0 := by
  by_cases h : s = m
  · subst h
    rw [colW_self, if_pos rfl]
    rcases w with _ | ⟨q, w⟩
    · simp [opQ, wt, colExtra]
    · cases q <;> simp [opQ, wt, colExtra, step]
  · obtain ⟨m, rfl⟩ : ∃ m', m = m' + 1 := ⟨m - 1, by omega⟩
    rw [colW_succ (by omega), if_neg h, add_zero]
    rcases w with _ | ⟨q, w⟩
    · simp [opQ, wt]
    · cases q <;> simp [opQ, wt, step]

theorem coeff_colExtra (c h : S) {m k' d : ℕ} (hd : d ≤ 2 * k' + 2) (w : List L3) :
    (colExtra c h (m + 1) k' w).coeff d = if w = colW (m + 1) k' 0 ∧ d = 2 * k' + 2 then h * c else 0 := by
  have h4 : colW (m + 1) k' 0 = .b :: (List.replicate m .b ++ List.replicate (k' + 1) .o) := by simp [colW, List.replicate_succ]
  rw [h4]
  rcases w with _ | ⟨q, w⟩
  · simp [colExtra]
  · cases q
    · rw [if_neg (by simp), colExtra, coeff_C_mul]
      cases d with
      | zero => simp
      | succ d =>
        rw [coeff_X_mul]
        by_cases h : d = 2 * k' + 1
        · rw [h, wt_l_bo.wt_lr_lead, mul_zero]
        · rw [wt_lr_o _ _ _ _ _ (by omega), mul_zero]
    · simp [colExtra]
    · rw [colExtra, coeff_C_mul]
      by_cases h : d = 2 * k' + 2
      · rw [h, wt_l_bo]
        simp
      · rw [wt_l_b _ _ _ _ _ (by omega), mul_zero, if_neg (fun h' => h h'.2)]

/-- quantum type B -/
theorem col_opQ (c h h' : S) {m k' r : ℕ} (hr : r ≤ m + 1 + (k' + 1) + (k' + 1)) (w : List L3) :
    ∑ s ∈ Finset.range (m + 1 + 1), (if s ≤ r then (-1) ^ s * (opQ (C c) (C h) (C h') X (colW (m + 1) k' s) w).coeff (r - s) else 0) =
      if w = colW (m + 1) k' 0 then
        (if r = 0 then 1 else 0) + (if r = m + 1 + (k' + 1) + (k' + 1) then (-1) ^ (m + 1) * (h * c) else 0) else 0 := by
  rw [← coeff_alt]
  have h1 : ∑ s ∈ Finset.range (m + 1 + 1), (-X) ^ s * opQ (C c) (C h) (C h') X (colW (m + 1) k' s) w =
      colSum (C c) X k' .z (m + 1) w + (-X) ^ (m + 1) * colExtra c h (m + 1) k' w := by
    have : ∀ s ∈ Finset.range (m + 1 + 1), (-X) ^ s * opQ (C c) (C h) (C h') X (colW (m + 1) k' s) w =
        (-X) ^ s * wt (C c) X .z (colW (m + 1) k' s) w + if s = m + 1 then (-X) ^ s * colExtra c h (m + 1) k' w else 0 := by
      intro s hs
      rw [Finset.mem_range] at hs
      rw [opQ_col _ _ _ (by omega), mul_add]
      split <;> simp
    rw [Finset.sum_congr rfl this, Finset.sum_add_distrib, Finset.sum_ite_eq', if_pos (by simp)]
    rfl
  have h4 : colW (m + 1) k' 0 = List.replicate (m + 1) .b ++ List.replicate (k' + 1) .o := by simp [colW, List.replicate_succ]
  rw [h1, colSum_z, coeff_add, neg_pow, mul_assoc, show ((-1 : S[X]) ^ (m + 1)) = C ((-1) ^ (m + 1)) by simp, coeff_C_mul,
    coeff_X_pow_mul', ← h4]
  by_cases hm : m + 1 ≤ r
  · rw [if_pos hm, coeff_colExtra _ _ (by omega)]
    by_cases hw : w = colW (m + 1) k' 0
    · rw [if_pos hw, if_pos hw, coeff_one]
      congr 1
      by_cases h : r = m + 1 + (k' + 1) + (k' + 1)
      · rw [if_pos ⟨hw, by omega⟩, if_pos h]
      · rw [if_neg (by omega), if_neg h, mul_zero]
    · rw [if_neg hw, if_neg hw, if_neg (fun h => hw h.1)]
      simp
  · rw [if_neg hm, mul_zero, add_zero, if_neg (c := r = m + 1 + _ + _) (by omega), add_zero]
    split
    · rw [coeff_one]
    · simp

end

end Verif
