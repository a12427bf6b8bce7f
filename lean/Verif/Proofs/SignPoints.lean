import Verif.Spec.SignPoints
import Verif.Spec.QTilde
import Mathlib.Algebra.Polynomial.BigOperators
import Mathlib.Algebra.Polynomial.Roots
import Mathlib.Algebra.Polynomial.Expand
import Mathlib.Data.Int.Order.Units
import Mathlib.Algebra.BigOperators.NatAntidiagonal
import Mathlib.Algebra.BigOperators.Intervals
import Mathlib.FieldTheory.IsAlgClosed.Basic
import Mathlib.FieldTheory.Separable
import Mathlib.Tactic.FieldSimp
import Mathlib.Tactic.LinearCombination
/-!
# The points of the quantum rings of the maximal isotropic Grassmannians at `q = 1`
-/

namespace Verif
open Spec Polynomial

variable {K : Type*} [Field K]

/-- the polynomial `∏ (1 + y_j X)` -/
noncomputable def ePol {N : ℕ} (y : Fin N → K) : K[X] := ∏ j, (1 + C (y j) * X)

theorem ePol_eval {N : ℕ} (y : Fin N → K) (z : K) : (ePol y).eval z = ∏ j, (1 + y j * z) := by
  unfold ePol; rw [eval_prod]; simp

theorem ePol_natDegree {N : ℕ} (y : Fin N → K) : (ePol y).natDegree ≤ N := by
  unfold ePol
  refine (natDegree_prod_le _ _).trans ?_
  refine (Finset.sum_le_card_nsmul _ _ 1 (fun j _ => ?_)).trans (by simp)
  refine (natDegree_add_le _ _).trans ?_
  rw [natDegree_one]
  exact max_le (by omega) ((natDegree_C_mul_le _ _).trans natDegree_X_le)

theorem eSeq_high {N : ℕ} (y : Fin N → K) {p : ℕ} (hp : N < p) : eSeq y p = 0 :=
  coeff_eq_zero_of_natDegree_lt (lt_of_le_of_lt (ePol_natDegree y) hp)

theorem eSeq_zero {N : ℕ} (y : Fin N → K) : eSeq y 0 = 1 := by
  unfold eSeq
  rw [coeff_zero_eq_eval_zero, eval_prod]
  simp

theorem eSeq_top {N : ℕ} (y : Fin N → K) : eSeq y N = ∏ j, y j := by
  unfold eSeq
  have h := coeff_prod_of_natDegree_le (s := Finset.univ) (fun j : Fin N => 1 + C (y j) * X) 1 (fun j _ => by
    refine (natDegree_add_le _ _).trans ?_
    rw [natDegree_one]
    exact max_le (by omega) ((natDegree_C_mul_le _ _).trans natDegree_X_le))
  rw [Finset.card_univ, Fintype.card_fin, mul_one] at h
  rw [h]
  refine Finset.prod_congr rfl (fun j _ => ?_)
  rw [coeff_add, coeff_C_mul, coeff_X_one, mul_one, coeff_one, if_neg (by omega), zero_add]

/-- a sum over `0..2r` that is symmetric -/
theorem sum_symm (r : ℕ) (g : ℕ → K) (hg : ∀ k ≤ 2 * r, g (2 * r - k) = g k) :
    ∑ k ∈ Finset.range (2 * r + 1), g k = g r + 2 * ∑ i ∈ Finset.range r, g (r + 1 + i) := by
  rw [show 2 * r + 1 = r + (1 + r) by ring, Finset.sum_range_add, Finset.sum_range_add, Finset.sum_range_one, add_zero,
    ← Finset.sum_range_reflect, two_mul]
  have : ∑ j ∈ Finset.range r, g (r - 1 - j) = ∑ i ∈ Finset.range r, g (r + 1 + i) := by
    refine Finset.sum_congr rfl (fun j hj => ?_)
    rw [Finset.mem_range] at hj
    rw [← hg (r - 1 - j) (by omega)]
    congr 1
    omega
  rw [this]
  have h2 : ∀ i, r + (1 + i) = r + 1 + i := fun i => by ring
  simp only [h2]
  ring

theorem coeff_comp_neg (p : K[X]) (i : ℕ) : (p.comp (-X)).coeff i = p.coeff i * (-1) ^ i := by
  rw [show (-X : K[X]) = C (-1) * X by simp, comp_C_mul_X_coeff]

theorem rowPair_coeff {N : ℕ} (y : Fin N → K) (r : ℕ) : rowPair (eSeq y) r r = (-1) ^ r * (ePol y * (ePol y).comp (-X)).coeff (2 * r) := by
  rw [coeff_mul, Finset.Nat.sum_antidiagonal_eq_sum_range_succ (fun i j => (ePol y).coeff i * ((ePol y).comp (-X)).coeff j)]
  have hc : ∀ p, (ePol y).coeff p = eSeq y p := fun p => rfl
  simp only [coeff_comp_neg, hc]
  rw [sum_symm r _ (fun k hk => by
    have : 2 * r - (2 * r - k) = k := by omega
    rw [this]
    have h2 : ((-1 : K)) ^ (2 * r - k) = (-1) ^ k := by
      have e1 : ((-1 : K)) ^ (2 * r - k) * (-1) ^ k = 1 := by
        rw [← pow_add, Nat.sub_add_cancel hk, (even_two_mul r).neg_one_pow]
      have e2 : ((-1 : K)) ^ k * (-1) ^ k = 1 := by
        rw [← pow_add, ← two_mul, (even_two_mul k).neg_one_pow]
      exact mul_right_cancel₀ (pow_ne_zero k (neg_ne_zero.2 one_ne_zero)) (e1.trans e2.symm)
    rw [h2]
    ring)]
  unfold rowPair
  rw [Finset.sum_range_succ', add_comm, mul_add, mul_left_comm, Finset.mul_sum, Finset.mul_sum]
  congr 1
  · rw [if_pos rfl, pow_zero, one_mul, one_mul, show 2 * r - r = r by omega, add_zero, Nat.sub_zero]
    have : ((-1 : K) ^ r) * (-1) ^ r = 1 := by rw [← pow_add, ← two_mul, (even_two_mul r).neg_one_pow]
    linear_combination (-(eSeq y r * eSeq y r)) * this
  · refine Finset.sum_congr rfl (fun i hi => ?_)
    rw [Finset.mem_range] at hi
    rw [if_neg (by omega), show 2 * r - (r + 1 + i) = r - (i + 1) by omega, show r + (i + 1) = r + 1 + i by ring]
    have : ((-1 : K) ^ r) * (-1) ^ (r - (i + 1)) = (-1) ^ (i + 1) := by
      rw [← pow_add, show r + (r - (i + 1)) = 2 * (r - (i + 1)) + (i + 1) by omega, pow_add, (even_two_mul _).neg_one_pow, one_mul]
    rw [← this]
    ring

/-- `∏ (1 - u_j X) = 1 - c X^N` when the `u_j` are the `N` different roots of `u^N = c`. -/
theorem prod_roots_pow {N : ℕ} {u : Fin N → K} {c : K} (hc : c ≠ 0) (hN : 0 < N) (hu : ∀ j, u j ^ N = c) (hi : Function.Injective u) :
    ∏ j, (1 - C (u j) * X) = 1 - C c * X ^ N := by
  have hu0 : ∀ j, u j ≠ 0 := fun j h => hc (by rw [← hu j, h, zero_pow (by omega)])
  classical
  rw [← sub_eq_zero]
  refine eq_zero_of_natDegree_lt_card_of_eval_eq_zero' _ (insert 0 (Finset.univ.image (fun j => (u j)⁻¹))) ?_ ?_
  · intro z hz
    rw [Finset.mem_insert, Finset.mem_image] at hz
    rw [eval_sub, eval_prod]
    rcases hz with rfl | ⟨j, -, rfl⟩
    · simp [zero_pow (show N ≠ 0 by omega)]
    · rw [Finset.prod_eq_zero (Finset.mem_univ j)]
      · simp [inv_pow, hu, hc]
      · simp [hu0]
  · rw [Finset.card_insert_of_notMem, Finset.card_image_of_injective _ (fun a b h => hi (inv_injective h)), Finset.card_univ, Fintype.card_fin]
    · refine Nat.lt_succ_of_le ((natDegree_sub_le _ _).trans (max_le ?_ ?_))
      · refine (natDegree_prod_le _ _).trans ?_
        refine (Finset.sum_le_card_nsmul _ _ 1 (fun j _ => ?_)).trans (by simp)
        refine (natDegree_sub_le _ _).trans ?_
        rw [natDegree_one]
        exact max_le (by omega) ((natDegree_C_mul_le _ _).trans natDegree_X_le)
      · refine (natDegree_sub_le _ _).trans ?_
        rw [natDegree_one]
        exact max_le (by omega) (natDegree_C_mul_X_pow_le _ _)
    · simp [hu0]

theorem ePol_sq {N : ℕ} {y : Fin N → K} {c : K} (hc : c ≠ 0) (hN : 0 < N) (hu : ∀ j, (y j ^ 2) ^ N = c) (hi : Function.Injective (fun j => y j ^ 2)) :
    ePol y * (ePol y).comp (-X) = 1 - C c * X ^ (2 * N) := by
  have h := congrArg (fun p => p.comp (X ^ 2)) (prod_roots_pow hc hN hu hi)
  simp only [prod_comp, sub_comp, mul_comp, C_comp, X_comp, one_comp, pow_comp, ← pow_mul] at h
  rw [← h]
  unfold ePol
  rw [prod_comp, ← Finset.prod_mul_distrib]
  refine Finset.prod_congr rfl (fun j _ => ?_)
  simp only [add_comp, one_comp, mul_comp, C_comp, X_comp, C_pow]
  ring

/-- the relations -/
theorem eSeq_rel {N : ℕ} {y : Fin N → K} {c : K} (hc : c ≠ 0) (hN : 0 < N) (hu : ∀ j, (y j ^ 2) ^ N = c) (hi : Function.Injective (fun j => y j ^ 2))
    {r : ℕ} (h1 : 1 ≤ r) : rowPair (eSeq y) r r = if r = N then (-1) ^ N * (-c) else 0 := by
  rw [rowPair_coeff, ePol_sq hc hN hu hi, coeff_sub, coeff_one, if_neg (by omega), coeff_C_mul, coeff_X_pow]
  by_cases h : r = N
  · rw [if_pos (by omega), if_pos h, h]; ring
  · rw [if_neg (by omega), if_neg h]; ring

/-- different signs give different sequences -/
theorem eSeq_inj [CharZero K] {N : ℕ} {y : Fin N → K} (h0 : ∀ j, y j ≠ 0) (hi : Function.Injective (fun j => y j ^ 2)) {s s' : Fin N → ℤˣ}
    (h : ∀ p, eSeq (withSigns s y) p = eSeq (withSigns s' y) p) : s = s' := by
  have hp : ePol (withSigns s y) = ePol (withSigns s' y) := Polynomial.ext h
  have hs : ∀ (s : ℤˣ), ((s : ℤ) : K) ^ 2 = 1 := fun s => by
    rcases Int.units_eq_one_or s with rfl | rfl <;> simp
  funext j
  have hj : withSigns s y j ≠ 0 := by
    unfold withSigns
    refine mul_ne_zero (fun hz => ?_) (h0 j)
    have := hs (s j)
    rw [hz] at this
    simp at this
  have h1 : (ePol (withSigns s y)).eval (-(withSigns s y j)⁻¹) = 0 := by
    rw [ePol_eval]
    exact Finset.prod_eq_zero (Finset.mem_univ j) (by rw [mul_neg, mul_inv_cancel₀ hj]; ring)
  rw [hp, ePol_eval, Finset.prod_eq_zero_iff] at h1
  obtain ⟨k, -, hk⟩ := h1
  have h2 : withSigns s' y k = withSigns s y j := by
    rw [mul_neg, ← sub_eq_add_neg, sub_eq_zero] at hk
    field_simp at hk
    exact hk.symm
  have h3 : y k ^ 2 = y j ^ 2 := by
    have := congrArg (fun x => x ^ 2) h2
    simp only [withSigns, mul_pow, hs, one_mul] at this
    exact this
  obtain rfl := hi h3
  unfold withSigns at h2
  have h4 := mul_right_cancel₀ (h0 k) h2
  have h5 : ((s' k : ℤˣ) : ℤ) = (s k : ℤˣ) := by exact_mod_cast h4
  exact (Units.ext h5).symm

theorem withSigns_sq {N : ℕ} (s : Fin N → ℤˣ) (y : Fin N → K) (j : Fin N) : withSigns s y j ^ 2 = y j ^ 2 := by
  unfold withSigns
  rw [mul_pow]
  rcases Int.units_eq_one_or (s j) with h | h <;> simp [h]

section
variable [CharZero K]

theorem Spec.LGRoots.ne {n : ℕ} {y : Fin (n + 1) → K} (h : LGRoots n y) (j : Fin (n + 1)) : y j ≠ 0 := fun h0 => by
  have := h.pow j
  rw [h0] at this
  simp at this
  exact absurd this.symm (pow_ne_zero _ (by simp))

theorem Spec.LGRoots.point {n : ℕ} {y : Fin (n + 1) → K} (h : LGRoots n y) {s : Fin (n + 1) → ℤˣ} (hs : ∏ j, s j = 1) :
    LGPoint n 1 (eSeq (withSigns s y)) := by
  refine ⟨eSeq_zero _, fun p hp => eSeq_high _ (by omega), ?_, fun r h1 h2 => ?_⟩
  · rw [eSeq_top]
    unfold withSigns
    rw [Finset.prod_mul_distrib]
    have : ∏ j, (((s j : ℤˣ) : ℤ) : K) = 1 := by
      rw [← Int.cast_prod, ← Units.coe_prod, hs]; simp
    rw [this, one_mul, h.prod]
  · have h4 : (4 : K) ≠ 0 := by norm_num
    rw [eSeq_rel (c := (-1) ^ n / 4) (div_ne_zero (pow_ne_zero _ (by simp)) h4) (by omega) (fun j => ?_) (by simpa only [withSigns_sq] using h.inj) h1,
      if_neg (by omega)]
    rw [withSigns_sq, eq_div_iff h4, mul_comm, h.pow]

theorem Spec.OGRoots.ne {n : ℕ} (hn : 0 < n) {y : Fin n → K} (h : OGRoots n y) (j : Fin n) : y j ≠ 0 := fun h0 => by
  have := h.pow j
  rw [h0] at this
  simp [zero_pow (show n ≠ 0 by omega)] at this

theorem Spec.OGRoots.point {n : ℕ} (hn : 0 < n) {y : Fin n → K} (h : OGRoots n y) (s : Fin n → ℤˣ) : OGPoint n 1 (eSeq (withSigns s y)) := by
  have hc : -(4 * (-1 : K) ^ n) ≠ 0 := by simp
  have hrel : ∀ {r}, 1 ≤ r → _ := fun {r} h1 => eSeq_rel (y := withSigns s y) (r := r) hc hn (fun j => by rw [withSigns_sq, h.pow])
    (by simpa only [withSigns_sq] using h.inj) h1
  refine ⟨eSeq_zero _, fun p hp => eSeq_high _ (by omega), ?_, fun r h1 h2 => ?_⟩
  · have := hrel (r := n) hn
    rw [if_pos rfl, neg_neg, mul_left_comm, ← pow_add, ← two_mul, (even_two_mul n).neg_one_pow] at this
    rw [← this]
    unfold rowPair
    rw [Finset.sum_range_succ', Finset.sum_eq_zero]
    · simp [pow_two]
    · intro i _
      rw [eSeq_high _ (by omega)]
      ring
  · rw [hrel h1, if_neg (by omega)]

end

/-- the square roots of the `N` solutions of `u^N = c` -/
theorem exists_roots [IsAlgClosed K] [CharZero K] {N : ℕ} (hN : 0 < N) {c : K} (hc : c ≠ 0) :
    ∃ y : Fin N → K, (∀ j, (y j ^ 2) ^ N = c) ∧ Function.Injective (fun j => y j ^ 2) := by
  classical
  have hsep : (X ^ N - C c : K[X]).Separable := separable_X_pow_sub_C c (by exact_mod_cast hN.ne') hc
  have hcard : (X ^ N - C c : K[X]).roots.toFinset.card = N := by
    rw [Multiset.toFinset_card_of_nodup (nodup_roots hsep), ← (IsAlgClosed.splits (X ^ N - C c : K[X])).natDegree_eq_card_roots, natDegree_X_pow_sub_C]
  have e := Finset.equivFinOfCardEq hcard
  have hs : ∀ j : Fin N, ∃ z : K, (e.symm j : K) = z * z := fun j => IsAlgClosed.exists_eq_mul_self _
  choose y hy using hs
  have hy' : ∀ j, y j ^ 2 = e.symm j := fun j => by rw [hy j, sq]
  refine ⟨y, fun j => ?_, fun i j h => ?_⟩
  · rw [hy']
    have := (e.symm j).2
    rw [Multiset.mem_toFinset, mem_roots (X_pow_sub_C_ne_zero hN c)] at this
    simpa [sub_eq_zero] using this
  · simp only [hy'] at h
    exact e.symm.injective (Subtype.ext h)

theorem lgRoots_exist [IsAlgClosed K] [CharZero K] (n : ℕ) : ∃ y : Fin (n + 1) → K, LGRoots n y := by
  have hc : ((-1) ^ n / 4 : K) ≠ 0 := div_ne_zero (pow_ne_zero _ (by simp)) (by norm_num)
  obtain ⟨y, h1, h2⟩ := exists_roots (Nat.succ_pos n) hc
  have h3 := congrArg (fun P : K[X] => P.coeff (n + 1)) (prod_roots_pow hc (Nat.succ_pos n) h1 h2)
  have h4 := eSeq_top (fun j => -(y j ^ 2))
  unfold eSeq at h4
  have h5 : (∏ j, (1 - C (y j ^ 2) * X) : K[X]) = ∏ j, (1 + C (-(y j ^ 2)) * X) :=
    Finset.prod_congr rfl (fun j _ => by rw [C_neg]; ring)
  rw [h5, h4] at h3
  have h6 : (∏ j, y j) ^ 2 = 1 / 4 := by
    rw [← Finset.prod_pow]
    rw [Finset.prod_neg] at h3
    simp [coeff_one] at h3
    have h7 : ((-1 : K) ^ n) ^ 2 = 1 := by rw [← pow_mul, mul_comm, pow_mul]; simp
    rw [pow_succ] at h3
    linear_combination (-(-1) ^ n) * h3 + (1 / 4 - ∏ j, y j ^ 2) * h7
  have h8 : (2 * ∏ j, y j - 1) * (2 * ∏ j, y j + 1) = 0 := by linear_combination 4 * h6
  have hp : ∀ u : K, u ^ (n + 1) = (-1) ^ n / 4 → 4 * u ^ (n + 1) = (-1) ^ n := fun u h => by rw [h]; field_simp
  rcases mul_eq_zero.1 h8 with h | h
  · exact ⟨y, fun j => hp _ (h1 j), h2, sub_eq_zero.1 h⟩
  · have hz : ∀ j, (Function.update y 0 (-y 0)) j ^ 2 = y j ^ 2 := by
      intro j
      rcases eq_or_ne j 0 with rfl | hj
      · simp
      · rw [Function.update_of_ne hj]
    refine ⟨Function.update y 0 (-y 0), fun j => ?_, fun i j h' => ?_, ?_⟩
    · rw [hz]; exact hp _ (h1 j)
    · simp only [hz] at h'
      exact h2 h'
    · rw [Fin.prod_univ_succ] at h ⊢
      simp only [Function.update_self, Function.update_of_ne (Fin.succ_ne_zero _)]
      linear_combination -h

theorem ogRoots_exist [IsAlgClosed K] [CharZero K] {n : ℕ} (hn : 0 < n) : ∃ y : Fin n → K, OGRoots n y := by
  have hc : (-(4 * (-1) ^ n) : K) ≠ 0 := neg_ne_zero.2 (mul_ne_zero (by norm_num) (pow_ne_zero _ (by simp)))
  obtain ⟨y, h1, h2⟩ := exists_roots hn hc
  exact ⟨y, h1, h2⟩

end Verif
