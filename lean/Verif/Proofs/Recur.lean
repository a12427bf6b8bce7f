import Mathlib.LinearAlgebra.Matrix.Adjugate
import Mathlib.Tactic.LinearCombination
import Verif.Proofs.JacobiTrudi
/-!
# Hooks, Newton's relation, and the Pieri rule of a recurrent sequence
-/

namespace Verif
open Spec Cyl Finset Alt

variable {m : ℕ} {R : Type*} [CommRing R]

/-- The elementary functions of the sequence `H`. -/
noncomputable def ee (H : ℤ → R) (j : ℕ) : R := (Matrix.of fun i c : Fin j => H (1 - (i.val : ℤ) + (c.val : ℤ))).det

/-- The determinant of a hook. -/
noncomputable def hkD (H : ℤ → R) (a : ℤ) (j : ℕ) : R :=
  (Matrix.of fun i c : Fin (j + 1) => H ((if i.val = 0 then a else 1) - (i.val : ℤ) + (c.val : ℤ))).det

theorem ee_zero (H : ℤ → R) : ee H 0 = 1 := by simp [ee]

theorem ee_succ (H : ℤ → R) (j : ℕ) : ee H (j + 1) = hkD H 1 j := by
  rw [ee, hkD]
  simp

theorem hkD_zero (H : ℤ → R) (a : ℤ) : hkD H a 0 = H a := by
  rw [hkD, Matrix.det_fin_one]
  simp

theorem hkD_succ {H : ℤ → R} (h0 : H 0 = 1) (hneg : ∀ p < 0, H p = 0) (a : ℤ) (j : ℕ) :
    hkD H a (j + 1) = H a * ee H (j + 1) - hkD H (a + 1) j := by
  rw [hkD, Matrix.det_succ_column_zero, Fin.sum_univ_succ, Fin.sum_univ_succ, Finset.sum_eq_zero]
  · have h1 : ∀ i : Fin (j + 1), ((0 : Fin (j + 2)).succAbove i).val = i.val + 1 := by intro i; simp
    have h2 : ∀ i : Fin (j + 1), ((0 : Fin (j + 1)).succ.succAbove i).val = if i.val = 0 then 0 else i.val + 1 := by
      intro i
      refine Fin.cases ?_ (fun i => ?_) i
      · simp
      · rw [Fin.succ_succAbove_succ]; simp
    have e1 : ((Matrix.of fun i c : Fin (j + 2) => H ((if i.val = 0 then a else 1) - (i.val : ℤ) + (c.val : ℤ))).submatrix
        (0 : Fin (j + 2)).succAbove Fin.succ).det = ee H (j + 1) := by
      rw [ee]
      congr 1
      ext i c : 2
      rw [Matrix.submatrix_apply, Matrix.of_apply, Matrix.of_apply, h1, if_neg (by omega)]
      congr 1
      simp only [Fin.val_succ]
      push_cast
      ring
    have e2 : ((Matrix.of fun i c : Fin (j + 2) => H ((if i.val = 0 then a else 1) - (i.val : ℤ) + (c.val : ℤ))).submatrix
        (0 : Fin (j + 1)).succ.succAbove Fin.succ).det = hkD H (a + 1) j := by
      rw [hkD]
      congr 1
      ext i c : 2
      rw [Matrix.submatrix_apply, Matrix.of_apply, Matrix.of_apply, h2]
      congr 1
      simp only [Fin.val_succ]
      by_cases hi : i.val = 0
      · simp [hi]; ring
      · simp only [hi, if_false, if_neg (Nat.succ_ne_zero _)]
        push_cast
        ring
    rw [e1, e2]
    simp [h0]
    ring
  · intro i _
    rw [Matrix.of_apply, hneg]
    · ring
    · simp
      omega

/-- Unrolling the first row of a hook. -/
theorem hkD_sum {H : ℤ → R} (h0 : H 0 = 1) (hneg : ∀ p < 0, H p = 0) (s j : ℕ) : ∀ a : ℤ,
    hkD H a (j + s) = ∑ i ∈ range s, (-1) ^ i * H (a + i) * ee H (j + s - i) + (-1) ^ s * hkD H (a + s) j := by
  induction s with
  | zero => intro a; simp
  | succ s ih =>
    intro a
    rw [show j + (s + 1) = (j + s) + 1 by ring, hkD_succ h0 hneg, ih, Finset.sum_range_succ']
    rw [Finset.sum_congr rfl (g := fun i => - ((-1) ^ (i + 1) * H (a + (i + 1 : ℕ)) * ee H (j + s + 1 - (i + 1))))]
    · rw [Finset.sum_neg_distrib]
      push_cast
      rw [show a + 1 + (s : ℤ) = a + (s + 1) by ring]
      simp
      ring
    · intro i _
      rw [show j + s + 1 - (i + 1) = j + s - i by omega]
      push_cast
      rw [show a + 1 + (i : ℤ) = a + (i + 1) by ring]
      ring

/-- Newton's relation. -/
theorem newton {H : ℤ → R} (h0 : H 0 = 1) (hneg : ∀ p < 0, H p = 0) {p : ℕ} (hp : 1 ≤ p) :
    ∑ i ∈ range (p + 1), (-1) ^ i * ee H i * H ((p : ℤ) - i) = 0 := by
  obtain ⟨r, rfl⟩ : ∃ r, p = r + 1 := ⟨p - 1, by omega⟩
  have h1 := hkD_sum h0 hneg r 0 1
  rw [zero_add, ← ee_succ, hkD_zero] at h1
  rw [Finset.sum_range_succ, ← Finset.sum_range_reflect, h1]
  rw [Finset.sum_congr rfl (g := fun i : ℕ => (-1) ^ r * ((-1) ^ i * H (1 + (i : ℤ)) * ee H (r - i)))]
  · rw [← Finset.mul_sum, Finset.sum_range_succ]
    simp only [Nat.sub_self, ee_zero]
    rw [show (((r + 1 : ℕ) : ℤ) - ((r + 1 : ℕ) : ℤ)) = 0 by ring, h0, pow_succ]
    ring
  · intro i hi
    rw [Finset.mem_range] at hi
    rw [show r + 1 - 1 - i = r - i by omega]
    have e1 : (((r + 1 : ℕ) : ℤ) - ((r - i : ℕ) : ℤ)) = 1 + i := by
      rw [Nat.cast_sub (by omega)]; push_cast; ring
    have e2 : (-1 : R) ^ (r - i) = (-1) ^ r * (-1) ^ i := by
      obtain ⟨d, rfl⟩ : ∃ d, r = i + d := ⟨r - i, by omega⟩
      rw [show i + d - i = d by omega, pow_add]
      have : ((-1 : R) ^ i) * (-1) ^ i = 1 := by rw [← mul_pow]; simp
      linear_combination (-(-1 : R) ^ d) * this
    rw [e1, e2]
    ring

/-- A linear relation between the columns. -/
theorem det_zero_of_cols {N : ℕ} (A : Matrix (Fin (N + 1)) (Fin (N + 1)) R) (c : Fin (N + 1) → R) (hc : c 0 = 1)
    (h : ∀ i, ∑ j, A i j * c j = 0) : A.det = 0 := by
  have h1 : A.mulVec c = 0 := by
    funext i
    exact h i
  have h2 : (A.adjugate * A).mulVec c = 0 := by
    rw [← Matrix.mulVec_mulVec, h1, Matrix.mulVec_zero]
  rw [Matrix.adjugate_mul, Matrix.smul_mulVec, Matrix.one_mulVec] at h2
  have := congrFun h2 0
  simpa [hc] using this

/-- Determinants with `m + 2` rows vanish if the sequence satisfies a recurrence of length `m + 1`. -/
theorem JD_zero {H : ℤ → R} {c : ℕ → R} (hc : c 0 = 1)
    (hr : ∀ p : ℕ, 1 ≤ p → ∑ i ∈ range (m + 2), c i * H ((p : ℤ) - i) = 0) {γ : Fin (m + 2) → ℕ} (hγ : ∀ i, 1 ≤ γ i) :
    JD H γ = 0 := by
  apply det_zero_of_cols _ (fun j => c j.val) hc
  intro i
  have := hr (γ i) (hγ i)
  rw [← Fin.sum_univ_eq_sum_range (fun j => c j * H ((γ i : ℤ) - j))] at this
  rw [← this]
  apply Finset.sum_congr rfl
  intro j _
  rw [Matrix.of_apply, mul_comm]

theorem JD_snoc {H : ℤ → R} (h0 : H 0 = 1) (hneg : ∀ p < 0, H p = 0) (β : Fin (m + 1) → ℕ) :
    JD H (Fin.snoc (fun i => β i + 1) 0 : Fin (m + 2) → ℕ) = (-1) ^ (m + 1) * JD H β := by
  rw [JD, det_last_row]
  · have h1 : (Matrix.of fun i j : Fin (m + 2) => H ((((Fin.snoc (fun i => β i + 1) 0 : Fin (m + 2) → ℕ) i : ℕ) : ℤ) - (j.val : ℤ)))
        (Fin.last (m + 1)) 0 = 1 := by simp [h0]
    rw [h1, one_mul, JD]
    congr 2
    ext i j : 2
    simp
  · intro j
    rw [Matrix.of_apply, Fin.snoc_last, hneg]
    simp
    omega

/-- Pieri rule of a recurrent sequence, for all exponents. -/
theorem JD_pieri_all {H : ℤ → R} (h0 : H 0 = 1) (hneg : ∀ p < 0, H p = 0) {c : ℕ → R} (hc : c 0 = 1)
    (hr : ∀ p : ℕ, 1 ≤ p → ∑ i ∈ range (m + 2), c i * H ((p : ℤ) - i) = 0) (β : Fin (m + 1) → ℕ) (p : ℕ) :
    H p * JD H β = ∑ α ∈ comps m p, JD H (β + α) := by
  have h1 := JD_pieri h0 hneg (β := (Fin.snoc (fun i => β i + 1) 0 : Fin (m + 2) → ℕ)) (by simp) p
  rw [JD_snoc h0 hneg, mul_left_comm] at h1
  have h2 : ∑ α ∈ comps (m + 1) p, JD H ((Fin.snoc (fun i => β i + 1) 0 : Fin (m + 2) → ℕ) + α) =
      ∑ α ∈ comps m p, (-1) ^ (m + 1) * JD H (β + α) := by
    rw [← Finset.sum_filter_of_ne (p := fun α => α (Fin.last (m + 1)) = 0)]
    · refine Finset.sum_bij' (fun α _ => fun i => α i.castSucc) (fun α _ => (Fin.snoc α 0 : Fin (m + 2) → ℕ)) ?_ ?_ ?_ ?_ ?_
      · intro α hα
        rw [Finset.mem_filter, mem_comps, Fin.sum_univ_castSucc] at hα
        rw [mem_comps]
        omega
      · intro α hα
        rw [mem_comps] at hα
        rw [Finset.mem_filter, mem_comps, Fin.sum_univ_castSucc]
        simp [hα]
      · intro α hα
        rw [Finset.mem_filter] at hα
        funext i
        refine Fin.lastCases ?_ (fun i => ?_) i
        · simp [hα.2]
        · simp
      · intro α _; funext i; simp
      · intro α hα
        rw [Finset.mem_filter] at hα
        rw [← JD_snoc h0 hneg]
        congr 1
        funext i
        refine Fin.lastCases ?_ (fun i => ?_) i
        · simp [hα.2]
        · simp; ring
    · intro α _ hne
      by_contra hl
      apply hne
      apply JD_zero hc hr
      intro i
      refine Fin.lastCases ?_ (fun i => ?_) i
      · simp; omega
      · simp; omega
  rw [h2, ← Finset.mul_sum] at h1
  have h3 : ((-1 : R) ^ (m + 1)) * (-1) ^ (m + 1) = 1 := by rw [← mul_pow]; simp
  linear_combination (-1 : R) ^ (m + 1) * h1 - (H p * JD H β - ∑ α ∈ comps m p, JD H (β + α)) * h3

end Verif
