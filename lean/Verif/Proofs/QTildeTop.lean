import Verif.Spec.QTilde
import Mathlib.Algebra.BigOperators.Ring.Finset
import Mathlib.Algebra.BigOperators.Intervals
import Mathlib.Data.List.GetD
import Mathlib.Tactic.Ring
/-!
# `Q̃` of a list whose first part is the last index with `e ≠ 0`
-/

namespace Verif
open Spec
variable {R : Type*} [CommRing R] {e : ℕ → R} {N : ℕ}

theorem rowPair_high (hN : ∀ p, N < p → e p = 0) (a : ℕ) : rowPair e N a = e N * e a := by
  unfold rowPair
  rw [Finset.sum_range_succ', Finset.sum_eq_zero]
  · simp
  · intro i _
    rw [hN _ (by omega)]
    ring

theorem qtil_odd (r : ℕ) (hr : r % 2 = 0) (l : List Int) : qtil e (r + 1) l =
    ∑ j ∈ Finset.range (r + 1), (-1) ^ j * (e (l.getD j 0).toNat * qtil e r (l.eraseIdx j)) := by
  rcases r with _ | r
  · simp [qtil]
  · rw [qtil, if_neg (by omega)]

theorem getD_eraseIdx_lt (l : List Int) {i j : ℕ} (h : i < j) : (l.eraseIdx j).getD i 0 = l.getD i 0 := by
  simp only [List.getD_eq_getElem?_getD, List.getElem?_eraseIdx_of_lt h]

theorem getD_eraseIdx_ge (l : List Int) {i j : ℕ} (h : j ≤ i) : (l.eraseIdx j).getD i 0 = l.getD (i + 1) 0 := by
  simp only [List.getD_eq_getElem?_getD, List.getElem?_eraseIdx_of_ge h]

theorem eraseIdx_comm (l : List Int) {i j : ℕ} (h : j ≤ i) : (l.eraseIdx j).eraseIdx i = (l.eraseIdx (i + 1)).eraseIdx j := by
  induction l generalizing i j with
  | nil => simp
  | cons x l ih =>
    rcases j with _ | j
    · simp
    · obtain ⟨i, rfl⟩ : ∃ i', i = i' + 1 := ⟨i - 1, by omega⟩
      simp only [List.eraseIdx_cons_succ]
      rw [ih (by omega)]

/-- the alternating sum along an even number of parts vanishes -/
theorem qtil_even_sum (r : ℕ) (hr : r % 2 = 0) (l : List Int) :
    ∑ j ∈ Finset.range (r + 2), (-1) ^ j * (e (l.getD j 0).toNat * qtil e (r + 1) (l.eraseIdx j)) = 0 := by
  have h1 : ∀ j ∈ Finset.range (r + 2), (-1) ^ j * (e (l.getD j 0).toNat * qtil e (r + 1) (l.eraseIdx j)) =
      ∑ i ∈ Finset.range (r + 1), (-1) ^ (j + i) * (e (l.getD j 0).toNat * (e ((l.eraseIdx j).getD i 0).toNat * qtil e r ((l.eraseIdx j).eraseIdx i))) := by
    intro j _
    rw [qtil_odd r hr, Finset.mul_sum, Finset.mul_sum]
    refine Finset.sum_congr rfl (fun i _ => ?_)
    rw [pow_add]; ring
  rw [Finset.sum_congr rfl h1, ← Finset.sum_product']
  refine Finset.sum_involution (fun x _ => if x.1 ≤ x.2 then (x.2 + 1, x.1) else (x.2, x.1 - 1)) ?_ ?_ ?_ ?_
  · rintro ⟨j, i⟩ _
    simp only
    split
    · rename_i h
      rw [getD_eraseIdx_ge l h, getD_eraseIdx_lt l (show j < i + 1 by omega), eraseIdx_comm l h]
      ring
    · rename_i h
      obtain ⟨j, rfl⟩ : ∃ j', j = j' + 1 := ⟨j - 1, by omega⟩
      rw [Nat.add_sub_cancel, getD_eraseIdx_ge l (show i ≤ j by omega), getD_eraseIdx_lt l (show i < j + 1 by omega), eraseIdx_comm l (show i ≤ j by omega)]
      ring
  · rintro ⟨j, i⟩ _ _ h
    simp only at h
    split at h <;> simp only [Prod.mk.injEq] at h <;> omega
  · rintro ⟨j, i⟩ h
    simp only [Finset.mem_product, Finset.mem_range] at h ⊢
    split
    · simp only; omega
    · simp only; omega
  · rintro ⟨j, i⟩ h
    simp only
    by_cases h' : j ≤ i
    · rw [if_pos h']
      simp only
      rw [if_neg (by omega), Nat.add_sub_cancel]
    · rw [if_neg h']
      simp only
      rw [if_pos (by omega), Nat.sub_add_cancel (by omega)]

/-- `Q̃_{(N, l)} = e_N Q̃_l` when `e` vanishes after `N`. -/
theorem qTilde_top (hN : ∀ p, N < p → e p = 0) : ∀ (r : ℕ) (l : List Int), l.length = r → qTilde e ((N : Int) :: l) = e N * qTilde e l := by
  intro r
  induction r with
  | zero =>
    intro l hl
    obtain rfl := List.length_eq_zero_iff.1 hl
    simp [qTilde, qtil]
  | succ r ih =>
    intro l hl
    unfold qTilde
    rw [List.length_cons, hl]
    by_cases hr : r % 2 = 0
    · rw [qtil, if_pos hr, qtil_odd r hr, Finset.mul_sum]
      refine Finset.sum_congr rfl (fun j _ => ?_)
      rw [List.getD_cons_zero, Int.toNat_natCast, rowPair_high hN, List.tail_cons]
      ring
    · obtain ⟨s, rfl⟩ : ∃ s, r = s + 1 := ⟨r - 1, by omega⟩
      rw [qtil, if_neg hr, Finset.sum_range_succ']
      have h1 : ∀ j ∈ Finset.range (s + 1 + 1), (-1) ^ (j + 1) * (e ((((N : Int) :: l).getD (j + 1) 0)).toNat * qtil e (s + 1 + 1) (((N : Int) :: l).eraseIdx (j + 1))) =
          -e N * ((-1) ^ j * (e (l.getD j 0).toNat * qtil e (s + 1) (l.eraseIdx j))) := by
        intro j hj
        rw [Finset.mem_range] at hj
        have hlen : (l.eraseIdx j).length = s + 1 := by rw [List.length_eraseIdx_of_lt (by omega)]; omega
        have h2 := ih (l.eraseIdx j) hlen
        unfold qTilde at h2
        rw [List.length_cons, hlen] at h2
        rw [List.getD_cons_succ, List.eraseIdx_cons_succ, h2]
        ring
      rw [Finset.sum_congr rfl h1, ← Finset.mul_sum, qtil_even_sum s (by omega)]
      simp

end Verif
