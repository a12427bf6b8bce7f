import Verif.Proofs.Relations
import Verif.Proofs.RingQB
/-!
# Relations between the quantum Pieri operators of type B
-/

namespace Verif

section
variable {R : Type*} [CommRing R] {x : R} {F : Filt x} {N : ℕ} {f : St → St → R}

/-- the part of the composite at `x` and `-x` that has small degree -/
theorem compQ_small (H : Bd F N f) (h h' : R) (hF : ∀ d a, a ∈ F.D d → h * a ∈ F.D d)
    (hF' : ∀ d a, a ∈ F.D d → h' * a ∈ F.D d) (p q : L3) (hh : h' = h ^ 2 ∨ (p ≠ .o ∧ q ≠ .o)) :
    compQ h h' x (-x) f p q - (if p = q then h' * ((if p = .o then -x ^ 2 else 1) * f .lr .lr) else 0) ∈ F.D (N + o1 p + o1 q) := by
  obtain ⟨zz, zr, rz, zl, lz, rr, rl, ll, lr, h1, h2, h3⟩ := H
  have e2 : x * f .lr .l + f .l .lr = 0 := by linear_combination h2
  have e3 : f .lr .r + -x * f .r .lr = 0 := by linear_combination h3
  cases p <;> cases q <;> simp only [compQ]
  case o.o =>
    obtain rfl : h' = h ^ 2 := by simpa using hh
    refine F.of_eq (add_mem (F.mono (e := N + 2) (by omega) zz) (hF _ _ (sub_mem (F.two lr 1) (F.mono (by omega) (F.two (F.mul rl) 1)))))
      (by simp [o1]) ?_
    simp only [if_true]
    linear_combination (h * x) * h1
  case o.a =>
    rw [e2]
    exact F.of_eq (add_mem (F.mono (Nat.le_succ _) zl) lz) (by simp [o1]) (by simp)
  case o.b =>
    obtain rfl : h' = h ^ 2 := by simpa using hh
    exact F.of_eq (hF _ _ (add_mem lz (F.mono (Nat.le_succ _) zl))) (by simp [o1]) (by simp; linear_combination h ^ 2 * h2)
  case a.o =>
    obtain rfl : h' = h ^ 2 := by simpa using hh
    exact F.of_eq (hF _ _ (add_mem (F.mono (Nat.le_succ _) rz) zr)) (by simp [o1]) (by simp; linear_combination h ^ 2 * h3)
  case a.a => exact F.of_eq (add_mem zz (hF _ _ rl)) (by simp [o1]) (by simp)
  case a.b =>
    exact F.of_eq (sub_mem (hF _ _ (hF _ _ rl)) (F.two (hF' _ _ rl) 1)) (by simp [o1]) (by simp; linear_combination h' * h1)
  case b.o =>
    rw [e3]
    exact F.of_eq (add_mem (F.mono (Nat.le_succ _) rz) zr) (by simp [o1]) (by simp)
  case b.a => exact F.of_eq (neg_mem rl) (by simp [o1]) (by simp; linear_combination h1)
  case b.b => exact F.of_eq (add_mem zz (hF _ _ rl)) (by simp [o1]) (by simp)

theorem wt_zero {S : Type*} [CommRing S] (c : S) : ∀ (u w : List L3) (s : St), u.length = w.length →
    (wt (Polynomial.C c) Polynomial.X s u w).coeff 0 = if s = .z ∧ u = w then 1 else 0 := by
  intro u
  induction u with
  | nil =>
    intro w s hw
    obtain rfl : w = [] := List.length_eq_zero_iff.1 (by simpa using hw.symm)
    cases s <;> simp [wt, endW]
  | cons p u ih =>
    intro w s hw
    cases w with
    | nil => simp at hw
    | cons q w =>
      have hl : u.length = w.length := by simpa using hw
      simp only [wt]
      rcases h : step s p q with _ | ⟨t, i, j⟩
      · cases s <;> cases p <;> cases q <;> simp [step] at h ⊢
      · simp only
        rw [coeff_step, Nat.zero_sub, ih w t hl]
        cases s <;> cases p <;> cases q <;> simp [step] at h <;> obtain ⟨rfl, rfl, rfl⟩ := h <;> simp

end

section
open Polynomial
variable {S : Type*} [CommRing S]

theorem opW_zero (c h : S) {u w : List L3} (hl : u.length = w.length) :
    (opW (C c) (C h) X u w).coeff 0 = if u = w then 1 else 0 := by
  unfold opW
  rw [coeff_add, coeff_C_mul, wt_zero c u w _ hl, wt_zero c u w _ hl]
  simp

theorem opW_top (c h : S) {n k : ℕ} {u w : List L3} (hu : u ∈ Wd n k) (hw : w ∈ Wd n k) :
    (opW (C c) (C h) X u w).coeff (n + k + 1) = if u = w then h * c else 0 := by
  rw [mem_Wd] at hu hw
  unfold opW
  rw [coeff_add, coeff_C_mul, wt_deg c u w _ _ (by omega) (by simp [stE]; omega), wt_top c u w _ (by omega) (by omega)]
  split <;> simp

theorem opW_high (c h : S) {n k d : ℕ} {u w : List L3} (hu : u ∈ Wd n k) (hw : w ∈ Wd n k) (hd : n + k + 1 < d) :
    (opW (C c) (C h) X u w).coeff d = 0 := by
  rw [mem_Wd] at hu hw
  unfold opW
  rw [coeff_add, coeff_C_mul, wt_deg c u w _ _ (by omega) (by simp [stE]; omega),
    wt_deg c u w _ _ (by omega) (by simp [stE]; omega)]
  simp

theorem opQ_zero (c h h' : S) {u w : List L3} (hl : u.length = w.length) :
    (opQ (C c) (C h) (C h') X u w).coeff 0 = if u = w then 1 else 0 := by
  cases u with
  | nil =>
    obtain rfl : w = [] := List.length_eq_zero_iff.1 (by simpa using hl.symm)
    simp [opQ]
  | cons p u =>
    cases w with
    | nil => simp at hl
    | cons q w =>
      have hl' : u.length = w.length := by simpa using hl
      cases p <;> cases q <;> simp [opQ, wt_zero c u w _ hl']

theorem opQ_high (c h h' : S) {n k d : ℕ} {u w : List L3} (hu : u ∈ Wd n k) (hw : w ∈ Wd n k) (hd : n + k < d) :
    (opQ (C c) (C h) (C h') X u w).coeff d = 0 := by
  rw [mem_Wd] at hu hw
  cases u with
  | nil =>
    obtain rfl : w = [] := List.length_eq_zero_iff.1 (by have := hu.1; simp at this; omega)
    simp [opQ, coeff_one]
    omega
  | cons p u =>
    cases w with
    | nil => have := hu.1; have := hw.1; simp at *; omega
    | cons q w =>
      have hl' : u.length = w.length := by have := hu.1; have := hw.1; simp at *; omega
      rw [colsW_o1, List.length_cons] at hu hw
      obtain ⟨d, rfl⟩ : ∃ e, d = e + 1 := ⟨d - 1, by omega⟩
      have k1 : ∀ s, (wt (C c) X s u w).coeff (d + 1) = 0 := fun s => wt_deg c u w s _ hl' (by cases s <;> simp only [stE] <;> omega)
      cases p <;> cases q <;> simp only [opQ, coeff_add, coeff_C_mul, coeff_X_mul, k1, mul_zero, zero_add, coeff_zero]
      simp [o1] at hu hw
      rw [wt_deg c u w _ d hl' (by simp only [stE]; omega), mul_zero]

theorem degF_C (a : S) (d : ℕ) (f : S[X]) (hf : f ∈ (degF S).D d) : C a * f ∈ (degF S).D d := fun e he => by
  rw [coeff_C_mul, hf e he, mul_zero]

/-- **The relation between the coefficients of the quantum Pieri operators of type B.** -/
theorem opQ_rel (c h h' : S) (hc : c = 1 ∨ c = 2) {n k d : ℕ} (hh : h' = h ^ 2 ∨ k = 0) {u v : List L3} (hn : 1 ≤ n)
    (hu : u ∈ Wd n k) (hv : v ∈ Wd n k) (hd : 2 * k < d) :
    ∑ ab ∈ Finset.antidiagonal d, (-1) ^ ab.2 *
      ∑ w ∈ Wd n k, (opQ (C c) (C h) (C h') X u w).coeff ab.1 * (opQ (C c) (C h) (C h') X w v).coeff ab.2 =
    if d = 2 * (n + k) ∧ u = v then (-1) ^ (n + k) * (h' * c ^ 2) else 0 := by
  have hu0 := hu
  have hv0 := hv
  rw [mem_Wd] at hu hv
  have hc' : (C c : S[X]) = 1 ∨ (C c : S[X]) = 2 := by
    rcases hc with rfl | rfl
    · exact Or.inl (map_one _)
    · exact Or.inr (map_ofNat _ 2)
  have hneg : ∀ w v, opQ (C c) (C h) (C h') (-X : S[X]) w v = (opQ (C c) (C h) (C h') X w v).comp (-X) := by
    intro w v
    have := opQ_map (compRingHom (-X : S[X])) (C c) (C h) (C h') X w v
    simpa using this.symm
  have key : (∑ w ∈ Wd n k, opQ (C c) (C h) (C h') X u w * opQ (C c) (C h) (C h') (-X) w v).coeff d =
      if d = 2 * (n + k) ∧ u = v then (-1) ^ (n + k) * (h' * c ^ 2) else 0 := by
    have e0 : (∑ w ∈ Wd n k, opQ (C c) (C h) (C h') X u w * opQ (C c) (C h) (C h') (-X) w v) =
        sumW n (fun w => opQ (C c) (C h) (C h') X u w * opQ (C c) (C h) (C h') (-X) w v) := by
      rw [sumW_Wd (k := k)]
      intro w h1 h2
      rw [opQ_cols _ _ _ _ (by omega) (by omega), zero_mul]
    obtain ⟨n, rfl⟩ : ∃ n', n = n' + 1 := ⟨n - 1, by omega⟩
    cases u with
    | nil => simp at hu
    | cons p u =>
    cases v with
    | nil => simp at hv
    | cons q v =>
    rw [colsW_o1, List.length_cons] at hu hv
    obtain rfl : n = u.length := by omega
    have hl : u.length = v.length := by omega
    rw [e0, compQ_eq]
    have B := bd_comp2 (degF S) (C c) hc' u v hl
    have hh' : (C h' : S[X]) = C h ^ 2 ∨ (p ≠ .o ∧ q ≠ .o) := by
      rcases hh with rfl | h0
      · exact Or.inl (by rw [map_pow])
      · refine Or.inr ⟨?_, ?_⟩
        · rintro rfl; simp [o1] at hu; omega
        · rintro rfl; simp [o1] at hv; omega
    have hs := compQ_small B (C h) (C h') (degF_C h) (degF_C h') p q hh' d (by omega)
    rw [coeff_sub, sub_eq_zero] at hs
    rw [hs, comp2_lrlr (degF S) (C c) hc' u v hl]
    by_cases hpq : p = q
    · subst hpq
      rw [if_pos rfl]
      by_cases huv : u = v
      · subst huv
        rw [if_pos rfl]
        have e1 : (C h' * ((if p = .o then -X ^ 2 else 1) * (-C c ^ 2 * (-1) ^ (u.length + colsW 0 u) *
            X ^ (2 * (u.length + colsW 0 u) + 2))) : S[X]) = C ((-1) ^ (u.length + 1 + k) * (h' * c ^ 2)) * X ^ (2 * (u.length + 1 + k)) := by
          obtain rfl : k = colsW 0 u + o1 p := hu.2.symm
          simp only [map_mul, map_pow, map_neg, map_one]
          cases p <;> simp [o1] <;> ring
        rw [e1, coeff_C_mul, coeff_X_pow]
        simp
      · have h' : ¬ p :: u = p :: v := by simpa using huv
        rw [if_neg huv, mul_zero, mul_zero, coeff_zero, if_neg (fun h => h' h.2)]
    · rw [if_neg hpq, coeff_zero, if_neg]
      rintro ⟨-, h⟩
      exact hpq (List.cons.inj h).1
  rw [← key, finsetSum_coeff]
  simp only [Finset.mul_sum]
  rw [Finset.sum_comm]
  apply Finset.sum_congr rfl
  intro w _
  rw [coeff_mul]
  apply Finset.sum_congr rfl
  intro ab _
  have e5 : (-X : S[X]) = C (-1) * X := by simp
  rw [hneg, e5, comp_C_mul_X_coeff]
  ring

end

end Verif
