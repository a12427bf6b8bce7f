import Verif.Proofs.RelRing
/-!
# Expansions along a row for the maximal isotropic Grassmannians

For `k = 0` the words have the letters `a` and `b` only, and the parts are the places of the letters `a`.
-/

namespace Verif
open Spec

/-! ### The parts of a word and their removal -/

/-- the parts of a word with the letters `a` and `b` -/
def labN : List L3 → List ℕ
  | [] => []
  | .a :: u => (u.length + 1) :: labN u
  | _ :: u => labN u

/-- the word without its part number `j` -/
def remA : ℕ → List L3 → List L3
  | _, [] => []
  | 0, .a :: u => .b :: u
  | j + 1, .a :: u => .a :: remA j u
  | j, p :: u => p :: remA j u

theorem colsW_tail {p : L3} {u : List L3} (h : colsW 0 (p :: u) = 0) : p ≠ .o ∧ colsW 0 u = 0 := by
  rw [colsW_o1] at h
  refine ⟨?_, by omega⟩
  rintro rfl
  simp [o1] at h

theorem labW_labN : ∀ u : List L3, colsW 0 u = 0 → labW u = (labN u).map (fun p : ℕ => (p : Int))
  | [], _ => by decide
  | p :: u, h => by
    obtain ⟨h1, h2⟩ := colsW_tail h
    have ih := labW_labN u h2
    cases p
    · exact absurd rfl h1
    · rw [labW_a, ih, h2]; simp [labN]
    · rw [labW_b, ih]; simp [labN]

theorem labN_le : ∀ (u : List L3), ∀ p ∈ labN u, 1 ≤ p ∧ p ≤ u.length
  | [], p, h => by simp [labN] at h
  | .a :: u, p, h => by
    simp only [labN, List.mem_cons] at h
    rcases h with rfl | h
    · simp
    · have := labN_le u p h; simp; omega
  | .b :: u, p, h => by have := labN_le u p (by simpa [labN] using h); simp; omega
  | .o :: u, p, h => by have := labN_le u p (by simpa [labN] using h); simp; omega

theorem labN_getD_le (u : List L3) (j : ℕ) : (labN u).getD j 0 ≤ u.length := by
  rcases lt_or_ge j (labN u).length with h | h
  · rw [List.getD_eq_getElem _ _ h]; exact (labN_le u _ (List.getElem_mem h)).2
  · rw [List.getD_eq_default _ _ h]; omega

theorem remA_length : ∀ (j : ℕ) (u : List L3), (remA j u).length = u.length
  | _, [] => by simp [remA]
  | 0, .a :: u => by simp [remA]
  | j + 1, .a :: u => by simp [remA, remA_length j u]
  | j, .b :: u => by simp [remA, remA_length j u]
  | j, .o :: u => by simp [remA, remA_length j u]

theorem remA_cols : ∀ (j : ℕ) (u : List L3), colsW 0 (remA j u) = colsW 0 u
  | _, [] => by simp [remA]
  | 0, .a :: u => by simp [remA, colsW_o1, o1]
  | j + 1, .a :: u => by simp [remA, colsW_o1, remA_cols j u]
  | j, .b :: u => by simp [remA, colsW_o1, remA_cols j u]
  | j, .o :: u => by simp [remA, colsW_o1, remA_cols j u]

theorem remA_lab : ∀ (j : ℕ) (u : List L3), labN (remA j u) = (labN u).eraseIdx j
  | _, [] => by simp [remA, labN]
  | 0, .a :: u => by simp [remA, labN]
  | j + 1, .a :: u => by simp [remA, labN, remA_lab j u, remA_length]
  | j, .b :: u => by simp [remA, labN, remA_lab j u]
  | j, .o :: u => by simp [remA, labN, remA_lab j u]

theorem remA_mem {n j : ℕ} {u : List L3} (h : u ∈ Wd n 0) : remA j u ∈ Wd n 0 := by
  rw [mem_Wd] at h ⊢
  rw [remA_length, remA_cols]
  exact h

/-! ### The alternating sum over the removals -/

section
variable {R : Type*} [CommRing R]

/-- the alternating sum over all removals of a part, with weights -/
def pf (c x : R) : St → List L3 → List L3 → R
  | s, p :: u, q :: w => (if p = .a then wt c x s (.b :: u) (q :: w) else 0) + (if p = .a then -x else x) *
    match step s p q with
    | some (t, i, j) => 2 ^ i * x ^ j * pf c x t u w
    | none => 0
  | _, _, _ => 0

theorem pf_eq (c x : R) : ∀ (u w : List L3) (s : St), u.length = w.length → colsW 0 u = 0 →
    pf c x s u w = ∑ j ∈ Finset.range (labN u).length, (-1) ^ j * (x ^ (u.length - (labN u).getD j 0) * wt c x s (remA j u) w)
  | [], w, s, _, _ => by simp [pf, labN]
  | p :: u, [], s, h, _ => by simp at h
  | p :: u, q :: w, s, hl, hc => by
    obtain ⟨h1, h2⟩ := colsW_tail hc
    have hl' : u.length = w.length := by simpa using hl
    have ih := fun t => pf_eq c x u w t hl' h2
    have e : ∀ j, x ^ (u.length + 1 - (labN u).getD j 0) = x * x ^ (u.length - (labN u).getD j 0) := by
      intro j
      rw [← pow_succ', Nat.sub_add_comm (labN_getD_le u j)]
    have key : ∀ y : R, y * (match step s p q with
        | some (t, i, j) => 2 ^ i * x ^ j * pf c x t u w
        | none => 0) = ∑ j ∈ Finset.range (labN u).length, (-1) ^ j * (y * x ^ (u.length - (labN u).getD j 0) *
          wt c x s (p :: remA j u) (q :: w)) := by
      intro y
      simp only [wt]
      rcases step s p q with _ | ⟨t, i, j⟩
      · simp
      · simp only [ih, Finset.mul_sum]
        exact Finset.sum_congr rfl (fun j _ => by ring)
    cases p
    · exact absurd rfl h1
    · simp only [pf, if_true]
      rw [key]
      simp only [labN, List.length_cons]
      rw [Finset.sum_range_succ']
      rw [add_comm]
      congr 1
      · refine Finset.sum_congr rfl (fun j _ => ?_)
        rw [List.getD_cons_succ, e]
        simp only [remA]
        ring
      · simp [remA]
    · simp only [pf]
      rw [if_neg (by decide), if_neg (by decide), zero_add, key]
      simp only [labN, List.length_cons]
      refine Finset.sum_congr rfl (fun j _ => ?_)
      rw [e]
      cases j <;> simp only [remA] 

end

section
open Polynomial
variable {S : Type*} [CommRing S]

/-- the coefficients of low degree -/
theorem pf_inv (c : S) : ∀ (u w : List L3), u.length = w.length → colsW 0 u = 0 → colsW 0 w = 0 →
    (wt (C c) X .lr u w).coeff 0 = 0 ∧
    (∀ i < u.length, (wt (C c) X .lr u w).coeff (i + 1) = 2 * (pf (C c) X .z u w).coeff i) ∧
    (∀ i ≤ u.length, (pf (C c) X .lr u w).coeff i = 0) ∧
    (pf (C c) X .z u w).coeff u.length = if u = w ∧ (labN u).length % 2 = 1 then c else 0
  | [], [], _, _, _ => by simp [wt, endW, pf, labN]
  | p :: u, [], h, _, _ => by simp at h
  | [], q :: w, h, _, _ => by simp at h
  | p :: u, q :: w, hl, hu, hw => by
    obtain ⟨hp, hu'⟩ := colsW_tail hu
    obtain ⟨hq, hw'⟩ := colsW_tail hw
    have hl' : u.length = w.length := by simpa using hl
    obtain ⟨h0, h1, h2, h3⟩ := pf_inv c u w hl' hu' hw'
    have htop := wt_top c u w (u.length + 1) hl' (by omega)
    have hdeg : (wt (C c) X .z u w).coeff (u.length + 1) = 0 := wt_deg c u w .z _ hl' (by simp [stE]; omega)
    have two : ∀ (f : S[X]) i, (2 * f).coeff i = 2 * f.coeff i := fun f i => by
      rw [show (2 : S[X]) = C 2 from (map_ofNat C 2).symm, coeff_C_mul]
    cases p <;> cases q <;> first | exact absurd rfl hp | exact absurd rfl hq | skip
    · -- a a
      have e1 : wt (C c) X .lr (.a :: u) (.a :: w) = X * wt (C c) X .lr u w := by simp [wt, step]
      have e2 : pf (C c) X .z (.a :: u) (.a :: w) = wt (C c) X .lr u w - X * pf (C c) X .z u w := by
        simp [pf, wt, step]; ring
      have e3 : pf (C c) X .lr (.a :: u) (.a :: w) = - (X * (X * pf (C c) X .lr u w)) := by
        simp [pf, wt, step]
      refine ⟨by simp [e1], ?_, ?_, ?_⟩
      · intro i hi
        rw [e1, e2, coeff_X_mul, coeff_sub]
        cases i with
        | zero => simp [h0]
        | succ i =>
          rw [coeff_X_mul]
          have := h1 i (by simp at hi; omega)
          linear_combination (-1 : S) * this
      · intro i hi
        rw [e3, coeff_neg]
        rcases i with _ | _ | i
        · simp
        · simp
        · rw [coeff_X_mul, coeff_X_mul, h2 i (by simp at hi; omega), neg_zero]
      · rw [e2, List.length_cons, coeff_sub, coeff_X_mul, h3, htop]
        simp only [labN, List.length_cons, List.cons.injEq, true_and]
        by_cases h : u = w
        · simp only [h, true_and, if_true]
          rcases Nat.mod_two_eq_zero_or_one (labN w).length with h' | h'
          · rw [if_neg (by omega), if_pos (by omega)]; ring
          · rw [if_pos (by omega), if_neg (by omega)]; ring
        · simp [h]
    · -- a b
      have e1 : wt (C c) X .lr (.a :: u) (.b :: w) = X * (2 * wt (C c) X .z u w) := by simp [wt, step]; ring
      have e2 : pf (C c) X .z (.a :: u) (.b :: w) = wt (C c) X .z u w := by
        simp [pf, wt, step]
      have e3 : pf (C c) X .lr (.a :: u) (.b :: w) = X * (wt (C c) X .lr u w - 2 * (X * pf (C c) X .z u w)) := by
        simp [pf, wt, step]; ring
      refine ⟨by simp [e1], ?_, ?_, ?_⟩
      · intro i hi
        rw [e1, e2, coeff_X_mul, two]
      · intro i hi
        rw [e3]
        rcases i with _ | _ | i
        · simp
        · rw [coeff_X_mul, coeff_sub, two]; simp [h0]
        · rw [coeff_X_mul, coeff_sub, two, coeff_X_mul, h1 i (by simp at hi; omega), sub_self]
      · rw [e2, List.length_cons, hdeg, if_neg (by simp)]
    · -- b a
      have e1 : wt (C c) X .lr (.b :: u) (.a :: w) = 0 := by simp [wt, step]
      have e2 : pf (C c) X .z (.b :: u) (.a :: w) = X * pf (C c) X .lr u w := by
        simp [pf, step]
      have e3 : pf (C c) X .lr (.b :: u) (.a :: w) = 0 := by
        simp [pf, step]
      refine ⟨by simp [e1], ?_, ?_, ?_⟩
      · intro i hi
        rw [e1, e2]
        rcases i with _ | i
        · simp
        · rw [coeff_X_mul, h2 i (by simp at hi; omega)]; simp
      · intro i hi
        rw [e3, coeff_zero]
      · rw [e2, List.length_cons, coeff_X_mul, h2 _ le_rfl, if_neg (by simp)]
    · -- b b
      have e1 : wt (C c) X .lr (.b :: u) (.b :: w) = X * wt (C c) X .lr u w := by simp [wt, step]
      have e2 : pf (C c) X .z (.b :: u) (.b :: w) = X * pf (C c) X .z u w := by
        simp [pf, step]
      have e3 : pf (C c) X .lr (.b :: u) (.b :: w) = X * (X * pf (C c) X .lr u w) := by
        simp [pf, step]
      refine ⟨by simp [e1], ?_, ?_, ?_⟩
      · intro i hi
        rw [e1, e2, coeff_X_mul]
        rcases i with _ | i
        · simp [h0]
        · rw [coeff_X_mul, h1 i (by simp at hi; omega)]
      · intro i hi
        rw [e3]
        rcases i with _ | _ | i
        · simp
        · simp
        · rw [coeff_X_mul, coeff_X_mul, h2 i (by simp at hi; omega)]
      · rw [e2, List.length_cons, coeff_X_mul, h3]
        simp [labN]

end

/-! ### The insertion of a part -/

theorem labN_inj {u w : List L3} (hl : u.length = w.length) (hu : colsW 0 u = 0) (hw : colsW 0 w = 0) : labN u = labN w ↔ u = w := by
  refine ⟨fun h => labW_inj hl (by omega) ?_, fun h => by rw [h]⟩
  rw [labW_labN u hu, labW_labN w hw, h]

section
variable {R : Type*} [CommRing R]

theorem comp_rl (c x y : R) {u w : List L3} (hl : u.length = w.length) (hu : colsW 0 u = 0) (hw : colsW 0 w = 0) : comp2 c x y .r .l u w = 0 := by
  cases u with
  | nil =>
    obtain rfl : w = [] := List.length_eq_zero_iff.1 (by simpa using hl.symm)
    simp [comp2_nil, endW]
  | cons p u =>
    cases w with
    | nil => simp at hl
    | cons q w =>
      have hq := (colsW_tail hw).1
      have hp := (colsW_tail hu).1
      cases p <;> cases q <;> first | exact absurd rfl hp | exact absurd rfl hq | simp [comp2_cons, via, step]

/-- the compositions of the operators for `-x` and `x` -/
theorem comp_ab (c x : R) : ∀ (u w : List L3), u.length = w.length → colsW 0 u = 0 → colsW 0 w = 0 →
    comp2 c (-x) x .z .z u w = (if u = w then 1 else 0) ∧
    comp2 c (-x) x .z .lr u w = - comp2 c (-x) x .lr .z u w ∧
    comp2 c (-x) x .lr .lr u w = if u = w then (-1) ^ (u.length + 1) * c ^ 2 * x ^ (2 * u.length + 2) else 0
  | [], [], _, _, _ => by
    refine ⟨by simp [comp2_nil, endW], by simp [comp2_nil, endW], ?_⟩
    simp [comp2_nil, endW]; ring
  | p :: u, [], h, _, _ => by simp at h
  | [], q :: w, h, _, _ => by simp at h
  | p :: u, q :: w, hl, hu, hw => by
    obtain ⟨hp, hu'⟩ := colsW_tail hu
    obtain ⟨hq, hw'⟩ := colsW_tail hw
    have hl' : u.length = w.length := by simpa using hl
    obtain ⟨h0, h1, h2⟩ := comp_ab c x u w hl' hu' hw'
    have h3 := comp_rl c (-x) x hl' hu' hw'
    cases p <;> cases q <;> first | exact absurd rfl hp | exact absurd rfl hq | skip
    · refine ⟨?_, ?_, ?_⟩
      · simp [comp2_cons, via, step, h0]
      · simp [comp2_cons, via, step, h1, h3]; ring
      · simp [comp2_cons, via, step, h2]
        split <;> ring
    · refine ⟨?_, ?_, ?_⟩
      · simp [comp2_cons, via, step]
      · simp [comp2_cons, via, step]
      · simp [comp2_cons, via, step, h1, h3]
        ring
    · refine ⟨?_, ?_, ?_⟩
      · simp [comp2_cons, via, step, h1, h3]
      · simp [comp2_cons, via, step]
      · simp [comp2_cons, via, step]
    · refine ⟨?_, ?_, ?_⟩
      · simp [comp2_cons, via, step, h0]
      · simp [comp2_cons, via, step, h1, h3]; ring
      · simp [comp2_cons, via, step, h2]
        split <;> ring

theorem comp_rec (c x : R) {u w : List L3} (hl : u.length = w.length) (hu : colsW 0 u = 0) (hw : colsW 0 w = 0) :
    comp2 c (-x) x .lr .z (.a :: u) (.a :: w) = x * comp2 c (-x) x .lr .z u w ∧
    comp2 c (-x) x .lr .z (.a :: u) (.b :: w) = x * (if u = w then -2 else 0) ∧
    comp2 c (-x) x .lr .z (.b :: u) (.a :: w) = if u = w then (-1) ^ u.length * c ^ 2 * x ^ (2 * u.length + 3) else 0 := by
  obtain ⟨h0, h1, h2⟩ := comp_ab c x u w hl hu hw
  have h3 := comp_rl c (-x) x hl hu hw
  refine ⟨?_, ?_, ?_⟩
  · simp [comp2_cons, via, step, h1, h3]; ring
  · simp [comp2_cons, via, step, h0]; split <;> ring
  · simp [comp2_cons, via, step, h2]; split <;> ring

theorem comp_rec_bb (c x : R) {u w : List L3} : comp2 c (-x) x .lr .z (.b :: u) (.b :: w) = -(x * comp2 c (-x) x .lr .z u w) := by
  simp [comp2_cons, via, step]

end

section
open Polynomial
variable {S : Type*} [CommRing S]

theorem comp_ins (c : S) : ∀ (u w : List L3), u.length = w.length → colsW 0 u = 0 → colsW 0 w = 0 → ∀ b, 1 ≤ b → (∀ p ∈ labN u, p < b) →
    (comp2 (C c) (-X) X .lr .z u w).coeff (u.length + 1 + b) = (-1) ^ (u.length + 1) * if labN w = b :: labN u then c ^ 2 else 0
  | [], [], _, _, _, b, hb, _ => by
    simp [comp2_nil, endW, labN, coeff_X]
    intro h; omega
  | p :: u, [], h, _, _, _, _, _ => by simp at h
  | [], q :: w, h, _, _, _, _, _ => by simp at h
  | p :: u, q :: w, hl, hu, hw, b, hb, hlt => by
    obtain ⟨hp, hu'⟩ := colsW_tail hu
    obtain ⟨hq, hw'⟩ := colsW_tail hw
    have hl' : u.length = w.length := by simpa using hl
    have hlt' : ∀ p ∈ labN u, p < b := by
      intro x hx
      refine hlt x ?_
      cases p <;> simp [labN, hx]
    have ih := comp_ins c u w hl' hu' hw' b hb hlt'
    obtain ⟨r1, r2, r3⟩ := comp_rec (C c) (X : S[X]) hl' hu' hw'
    have hno : w.length < b → ∀ l, labN w ≠ b :: l := by
      intro h l hc
      have := (labN_le w b (by rw [hc]; simp)).2
      omega
    rw [List.length_cons, show u.length + 1 + 1 + b = u.length + 1 + b + 1 by omega]
    cases p <;> cases q <;> first | exact absurd rfl hp | exact absurd rfl hq | skip
    · have hb' : w.length + 1 < b := by have := hlt (u.length + 1) (by simp [labN]); omega
      rw [r1, coeff_X_mul, ih, if_neg (hno (by omega) _), if_neg]
      · simp
      · simp only [labN, List.cons.injEq]
        omega
    · have hb' : w.length + 1 < b := by have := hlt (u.length + 1) (by simp [labN]); omega
      rw [r2, coeff_X_mul]
      have : ((if u = w then -2 else 0 : S[X])).coeff (u.length + 1 + b) = 0 := by
        split
        · rw [show (-2 : S[X]) = C (-2) by rw [map_neg, map_ofNat], coeff_C, if_neg (by omega)]
        · simp
      rw [this, if_neg (by simp only [labN]; exact hno (by omega) _), mul_zero]
    · rw [r3]
      simp only [labN, List.cons.injEq]
      by_cases h : u = w
      · subst h
        have e : ((-1) ^ u.length * C c ^ 2 * X ^ (2 * u.length + 3) : S[X]) = C ((-1) ^ u.length * c ^ 2) * X ^ (2 * u.length + 3) := by
          simp
        rw [if_pos rfl, e, coeff_C_mul, coeff_X_pow]
        by_cases hbn : u.length + 1 = b
        · subst hbn
          simp only [and_true, if_true]
          rw [if_pos (by omega), pow_succ, pow_succ]
          ring
        · rw [if_neg (by omega), if_neg (fun hh => hbn hh.1)]
          simp
      · rw [if_neg h, if_neg, coeff_zero, mul_zero]
        rintro ⟨-, h2⟩
        exact h ((labN_inj hl' hu' hw').1 h2.symm)
    · rw [comp_rec_bb, coeff_neg, coeff_X_mul, ih, pow_succ _ (u.length + 1)]
      have hb' : labN (.b :: w) = b :: labN (.b :: u) ↔ labN w = b :: labN u := Iff.rfl
      by_cases h : labN w = b :: labN u
      · rw [if_pos h, if_pos (hb'.2 h)]; ring
      · rw [if_neg h, if_neg (fun h' => h (hb'.1 h'))]; ring

/-- what the expansions need about the operators -/
structure PfOp (n : ℕ) (c : S) (Op : List L3 → List L3 → S[X]) : Prop where
  low : ∀ u ∈ Wd n 0, ∀ w ∈ Wd n 0, ∀ i ≤ n,
    (∑ j ∈ Finset.range (labN u).length, (-1) ^ j * (X ^ (n - (labN u).getD j 0) * Op (remA j u) w)).coeff i = (pf (C c) X .z u w).coeff i
  ins : ∀ u ∈ Wd n 0, ∀ w ∈ Wd n 0, ∀ b, 1 ≤ b → b ≤ n → (∀ p ∈ labN u, p < b) →
    (∑ v ∈ Wd n 0, wt (C c) (-X) .lr u v * Op v w).coeff (n + 1 + b) = (-1) ^ (n + 1) * if labN w = b :: labN u then c ^ 2 else 0

theorem wt_cols {R : Type*} [CommRing R] (c x : R) {u w : List L3} (hl : u.length = w.length) (hc : colsW 0 u ≠ colsW 0 w) :
    wt c x .z u w = 0 ∧ wt c x .lr u w = 0 := by
  rw [wt_lr]
  exact ⟨(wt_pieri x hl).1 hc c, (wt_pieri x (u := .b :: u) (w := .a :: w) (by simp [hl])).1 (by simpa [colsW] using hc) c⟩

theorem comp2_Wd {R : Type*} [CommRing R] (c x y : R) (t : St) {n : ℕ} {u : List L3} (hu : u ∈ Wd n 0) (w : List L3) :
    ∑ v ∈ Wd n 0, wt c x .lr u v * wt c y t v w = comp2 c x y .lr t u w := by
  rw [mem_Wd] at hu
  unfold comp2
  rw [hu.1, sumW_Wd (k := 0) _ (fun v h1 h2 => by rw [(wt_cols c x (by omega) (by omega)).2, zero_mul])]

theorem comp_lrlr_coeff (c : S) {n d : ℕ} {u w : List L3} (hu : u ∈ Wd n 0) (hw : w ∈ Wd n 0) (hd : d ≠ 2 * n + 2) :
    (comp2 (C c) (-X) X .lr .lr u w).coeff d = 0 := by
  rw [mem_Wd] at hu hw
  rw [(comp_ab (C c) X u w (by omega) hu.2 hw.2).2.2]
  split
  · have e : ((-1) ^ (u.length + 1) * C c ^ 2 * X ^ (2 * u.length + 2) : S[X]) = C ((-1) ^ (u.length + 1) * c ^ 2) * X ^ (2 * u.length + 2) := by
      simp
    rw [e, coeff_C_mul, coeff_X_pow, if_neg (by omega), mul_zero]
  · simp

theorem pfOp_W (n : ℕ) (c h : S) : PfOp n c (opW (C c) (C h) X) where
  low u hu w hw i hi := by
    have hu' := mem_Wd.1 hu
    have hw' := mem_Wd.1 hw
    have e : ∑ j ∈ Finset.range (labN u).length, (-1) ^ j * (X ^ (n - (labN u).getD j 0) * opW (C c) (C h) X (remA j u) w) =
        pf (C c) X .z u w + C h * pf (C c) X .lr u w := by
      rw [pf_eq _ _ _ _ _ (by omega) hu'.2, pf_eq _ _ _ _ _ (by omega) hu'.2, Finset.mul_sum, ← Finset.sum_add_distrib, hu'.1]
      exact Finset.sum_congr rfl (fun j _ => by unfold opW; ring)
    rw [e, coeff_add, coeff_C_mul, (pf_inv c u w (by omega) hu'.2 hw'.2).2.2.1 i (by omega), mul_zero, add_zero]
  ins u hu w hw b hb hbn hlt := by
    have hu' := mem_Wd.1 hu
    have hw' := mem_Wd.1 hw
    have e : ∑ v ∈ Wd n 0, wt (C c) (-X) .lr u v * opW (C c) (C h) X v w =
        comp2 (C c) (-X) X .lr .z u w + C h * comp2 (C c) (-X) X .lr .lr u w := by
      rw [← comp2_Wd (C c) (-X) X .z hu, ← comp2_Wd (C c) (-X) X .lr hu, Finset.mul_sum, ← Finset.sum_add_distrib]
      exact Finset.sum_congr rfl (fun j _ => by unfold opW; ring)
    have := comp_ins c u w (by omega) hu'.2 hw'.2 b hb hlt
    rw [hu'.1] at this
    rw [e, coeff_add, coeff_C_mul, comp_lrlr_coeff c hu hw (by omega), this, mul_zero, add_zero]

/-- a function of the remaining words if the first letters are `a` and `b` -/
def atAB {R : Type*} [CommRing R] (F : List L3 → List L3 → R) : List L3 → List L3 → R
  | .a :: u, .b :: w => F u w
  | _, _ => 0

/-- the quantum terms of type B for words with the letters `a` and `b` -/
theorem opQ_ab {R : Type*} [CommRing R] (c h h' x : R) {u w : List L3} (hl : u.length = w.length) (hu : colsW 0 u = 0) (hw : colsW 0 w = 0) :
    opQ c h h' x u w = wt c x .z u w + h' * atAB (wt c x .lr) u w := by
  cases u with
  | nil =>
    obtain rfl : w = [] := List.length_eq_zero_iff.1 (by simpa using hl.symm)
    simp [opQ, wt, endW, atAB]
  | cons p u =>
    cases w with
    | nil => simp at hl
    | cons q w =>
      have hq := (colsW_tail hw).1
      have hp := (colsW_tail hu).1
      cases p <;> cases q <;> first | exact absurd rfl hp | exact absurd rfl hq | simp [opQ, wt, step, atAB]

theorem pf_atAB {R : Type*} [CommRing R] (c x : R) {u w : List L3} (hl : u.length = w.length) (hu : colsW 0 u = 0) (hw : colsW 0 w = 0) :
    ∑ j ∈ Finset.range (labN u).length, (-1) ^ j * (x ^ (u.length - (labN u).getD j 0) * atAB (wt c x .lr) (remA j u) w) =
      -(x * atAB (pf c x .lr) u w) := by
  rcases u with _ | ⟨p, u⟩
  · simp [labN, atAB]
  · rcases w with _ | ⟨q, w⟩
    · simp at hl
    · have hl' : u.length = w.length := by simpa using hl
      obtain ⟨hp, hu2⟩ := colsW_tail hu
      obtain ⟨hq, hw2⟩ := colsW_tail hw
      cases p <;> cases q <;> first | exact absurd rfl hp | exact absurd rfl hq | skip
      · simp only [atAB, mul_zero, neg_zero]
        refine Finset.sum_eq_zero (fun j _ => ?_)
        cases j <;> simp [remA, atAB]
      · simp only [labN, List.length_cons]
        rw [Finset.sum_range_succ']
        simp only [atAB, remA, List.getD_cons_succ, mul_zero, add_zero]
        rw [pf_eq _ _ u w _ hl' hu2, Finset.mul_sum, ← Finset.sum_neg_distrib]
        refine Finset.sum_congr rfl (fun j _ => ?_)
        rw [Nat.sub_add_comm (labN_getD_le u j), pow_succ, pow_succ]
        ring
      · simp only [atAB, mul_zero, neg_zero]
        refine Finset.sum_eq_zero (fun j _ => ?_)
        cases j <;> simp [remA, atAB]
      · simp only [atAB, mul_zero, neg_zero]
        refine Finset.sum_eq_zero (fun j _ => ?_)
        cases j <;> simp [remA, atAB]

theorem pfOp_Q (n : ℕ) (c h h' : S) : PfOp n c (opQ (C c) (C h) (C h') X) where
  low u hu w hw i hi := by
    have hu' := mem_Wd.1 hu
    have hw' := mem_Wd.1 hw
    have e : ∑ j ∈ Finset.range (labN u).length, (-1) ^ j * (X ^ (n - (labN u).getD j 0) * opQ (C c) (C h) (C h') X (remA j u) w) =
        pf (C c) X .z u w + C h' * -(X * atAB (pf (C c) X .lr) u w) := by
      rw [← pf_atAB _ _ (by omega) hu'.2 hw'.2, pf_eq _ _ u w _ (by omega) hu'.2, hu'.1, Finset.mul_sum, ← Finset.sum_add_distrib]
      refine Finset.sum_congr rfl (fun j _ => ?_)
      rw [opQ_ab _ _ _ _ (by rw [remA_length]; omega) (by rw [remA_cols]; exact hu'.2) hw'.2]
      ring
    rw [e, coeff_add, coeff_C_mul, coeff_neg]
    have : (X * atAB (pf (C c) X .lr) u w : S[X]).coeff i = 0 := by
      rcases i with _ | i
      · simp
      · rw [coeff_X_mul]
        rcases u with _ | ⟨p, u⟩
        · simp [atAB]
        · rcases w with _ | ⟨q, w⟩
          · cases p <;> simp [atAB]
          · have hl : u.length = w.length := by have := hu'.1; have := hw'.1; simp at *; omega
            have h0 := (pf_inv c u w hl (colsW_tail hu'.2).2 (colsW_tail hw'.2).2).2.2.1 i (by have := hu'.1; simp at this; omega)
            cases p <;> cases q <;> simp [atAB, h0]
    rw [this, neg_zero, mul_zero, add_zero]
  ins u hu w hw b hb hbn hlt := by
    have hu' := mem_Wd.1 hu
    have hw' := mem_Wd.1 hw
    have e : ∑ v ∈ Wd n 0, wt (C c) (-X) .lr u v * opQ (C c) (C h) (C h') X v w = comp2 (C c) (-X) X .lr .z u w := by
      rw [← comp2_Wd (C c) (-X) X .z hu]
      refine Finset.sum_congr rfl (fun v hv => ?_)
      have hv' := mem_Wd.1 hv
      have h0 : wt (C c) (-X) .lr u v * atAB (wt (C c) X .lr) v w = 0 := by
        rcases u with _ | ⟨p, u⟩
        · rcases v with _ | ⟨q, v⟩
          · simp [atAB]
          · simp [wt]
        · have hp := (colsW_tail hu'.2).1
          rcases v with _ | ⟨q, v⟩
          · simp [atAB]
          · cases p
            · exact absurd rfl hp
            · exfalso
              have := hlt (u.length + 1) (by simp [labN])
              have := hu'.1
              simp at this
              omega
            · cases q <;> simp [wt, step, atAB]
      rw [opQ_ab _ _ _ _ (by omega) hv'.2 hw'.2]
      linear_combination C h' * h0
    have := comp_ins c u w (by omega) hu'.2 hw'.2 b hb hlt
    rw [hu'.1] at this
    rw [e, this]

end

end Verif
