import Mathlib.LinearAlgebra.Matrix.Determinant.Basic
import Mathlib.RingTheory.PowerSeries.Basic
import Mathlib.LinearAlgebra.Matrix.Block
import Verif.Proofs.AltQ
import Verif.Proofs.RingA2
import Verif.Spec.Det
/-!
# Determinants of complete functions

`JD H β = det(H(β i - j))` for a sequence `H` with `H 0 = 1` and `H p = 0` for `p < 0`. Multiplying by `H p` adds the
strips of size `p`, as long as the last entry of `β` is zero.
-/

namespace Verif
open Spec Cyl Finset Alt

variable {m : ℕ} {R : Type*} [CommRing R]

/-- The determinant of the rows `H(β i), H(β i - 1), ..., H(β i - m)`. -/
noncomputable def JD (H : ℤ → R) (β : Fin (m + 1) → ℕ) : R :=
  (Matrix.of fun i j : Fin (m + 1) => H ((β i : ℤ) - (j.val : ℤ))).det

theorem JD_alternating (H : ℤ → R) : Alternating (JD (m := m) H) where
  perm := by
    intro γ σ
    have := Matrix.det_permute σ (Matrix.of fun i j : Fin (m + 1) => H ((γ i : ℤ) - (j.val : ℤ)))
    rw [zsmul_eq_mul]
    exact this
  zero := by
    intro γ i j hij h
    apply Matrix.det_zero_of_row_eq hij
    funext c
    simp [h]

/-- The generating function of the shifts of an entry. -/
noncomputable def JW (H : ℤ → R) (b : ℤ) : PowerSeries R := PowerSeries.mk fun c => H (b + c)

theorem JW_pred (H : ℤ → R) (b : ℤ) : JW H (b - 1) = PowerSeries.C (H (b - 1)) + PowerSeries.X * JW H b := by
  ext c
  rw [map_add]
  cases c with
  | zero => simp [JW, PowerSeries.coeff_mk]
  | succ c =>
    rw [PowerSeries.coeff_succ_X_mul, PowerSeries.coeff_C, if_neg (Nat.succ_ne_zero c), zero_add]
    simp only [JW, PowerSeries.coeff_mk]
    congr 1
    push_cast
    ring

/-- The sum over all shifts is a coefficient of the determinant of generating functions. -/
theorem sum_JD (H : ℤ → R) (β : Fin (m + 1) → ℕ) (p : ℕ) :
    ∑ α ∈ comps m p, JD H (β + α) =
      PowerSeries.coeff p (Matrix.of fun i j : Fin (m + 1) => JW H ((β i : ℤ) - (j.val : ℤ))).det := by
  simp only [JD, Matrix.det_apply, Matrix.of_apply]
  rw [Finset.sum_comm, map_sum]
  apply Finset.sum_congr rfl
  intro σ _
  rw [← Finset.smul_sum, Units.smul_def, Units.smul_def, map_zsmul]
  congr 1
  rw [PowerSeries.coeff_prod]
  symm
  refine Finset.sum_bij' (fun l _ => fun i => l (σ.symm i)) (fun α _ => Finsupp.equivFunOnFinite.symm (fun i => α (σ i))) ?_ ?_ ?_ ?_ ?_
  · intro l hl
    rw [Finset.mem_finsuppAntidiag] at hl
    rw [mem_comps, ← hl.1]
    exact Equiv.sum_comp σ.symm l
  · intro α hα
    rw [mem_comps] at hα
    rw [Finset.mem_finsuppAntidiag]
    refine ⟨?_, Finset.subset_univ _⟩
    rw [← hα]
    exact Equiv.sum_comp σ α
  · intro l _; ext i; simp
  · intro α _; funext i; simp
  · intro l _
    apply Finset.prod_congr rfl
    intro i _
    simp only [JW, PowerSeries.coeff_mk, Pi.add_apply, Equiv.symm_apply_apply]
    congr 1
    push_cast
    ring

/-- A matrix whose last row is `(c, 0, ..., 0)`. -/
theorem det_last_row {S : Type*} [CommRing S] (A : Matrix (Fin (m + 1)) (Fin (m + 1)) S)
    (h : ∀ j : Fin m, A (Fin.last m) j.succ = 0) :
    A.det = A (Fin.last m) 0 * ((-1) ^ m * (A.submatrix Fin.castSucc Fin.succ).det) := by
  rw [Matrix.det_succ_row A (Fin.last m), Finset.sum_eq_single 0]
  · have h1 : (Fin.last m).succAbove = Fin.castSucc := by funext i; simp
    have h2 : (0 : Fin (m + 1)).succAbove = Fin.succ := by funext i; simp
    rw [h1, h2]
    simp
    ring
  · intro j _ hj
    obtain ⟨i, rfl⟩ := Fin.exists_succ_eq.2 hj
    rw [h]; ring
  · intro h; exact absurd (Finset.mem_univ _) h

/-- Pieri rule for the determinants. -/
theorem JD_pieri {H : ℤ → R} (h0 : H 0 = 1) (hneg : ∀ p < 0, H p = 0) {β : Fin (m + 1) → ℕ} (hβ : β (Fin.last m) = 0) (p : ℕ) :
    H p * JD H β = ∑ α ∈ comps m p, JD H (β + α) := by
  rw [sum_JD]
  set B : Matrix (Fin (m + 1)) (Fin (m + 1)) (PowerSeries R) := Matrix.of fun i j =>
    Fin.cases (JW H (β i)) (fun j => PowerSeries.C (H ((β i : ℤ) - (j.val + 1 : ℤ)))) j with hB
  rw [Matrix.det_eq_of_forall_col_eq_smul_add_pred (B := B) (fun _ => PowerSeries.X)]
  · rw [det_last_row B]
    · have h1 : B (Fin.last m) 0 = JW H 0 := by simp [hB, hβ]
      have h2 : B.submatrix Fin.castSucc Fin.succ =
          (PowerSeries.C (R := R)).mapMatrix (Matrix.of fun i j : Fin m => H ((β i.castSucc : ℤ) - (j.val + 1 : ℤ))) := by
        ext i j : 2
        simp [hB]
      rw [h1, h2, ← RingHom.map_det, show ((-1 : PowerSeries R) ^ m) = PowerSeries.C ((-1 : R) ^ m) by simp, ← map_mul,
        PowerSeries.coeff_mul_C, JD, det_last_row]
      · simp only [JW, PowerSeries.coeff_mk, Matrix.of_apply, hβ]
        simp only [Nat.cast_zero, Fin.val_zero, sub_zero, h0, one_mul, zero_add]
        congr 3
      · intro j
        rw [Matrix.of_apply, hβ, hneg]
        simp; omega
    · intro j
      simp only [hB, Matrix.of_apply, Fin.cases_succ, hβ]
      rw [hneg]
      · simp
      · simp; omega
  · intro i; simp [hB]
  · intro i j
    simp only [hB, Matrix.of_apply, Fin.cases_succ, Fin.val_succ, Fin.val_castSucc]
    have := JW_pred H ((β i : ℤ) - (j.val : ℤ))
    rw [show (β i : ℤ) - (j.val : ℤ) - 1 = (β i : ℤ) - (j.val + 1 : ℤ) by ring] at this
    push_cast
    rw [this]

/-- The same for vectors with last entry zero: the sum over strips. -/
theorem JD_strip {H : ℤ → R} (h0 : H 0 = 1) (hneg : ∀ p < 0, H p = 0) {K : ℕ} (hK : ∀ p : ℤ, K < p → H p = 0)
    {f : Fin (m + 1) → ℤ} (hf : BoxV K f) (hl : f (Fin.last m) = 0) (p : ℕ) :
    H p * JD H (bt f) = ∑ g ∈ Om K p f, JD H (bt g) := by
  have hb : bt f (Fin.last m) = 0 := by unfold bt; rw [hl]; simp
  rw [JD_pieri h0 hneg hb, sum_strip (JD_alternating H) (bt_anti hf), ← sum_conv hf K p]
  symm
  apply Finset.sum_subset
  · intro α hα
    rw [Finset.mem_filter] at hα ⊢
    exact ⟨hα.1, hα.2.1⟩
  · intro α hα hn
    rw [Finset.mem_filter] at hα hn
    have h1 : ¬ (bt f + α) 0 < (K + m + 1) + bt f (Fin.last m) := fun h => hn ⟨hα.1, hα.2, h⟩
    rw [hb] at h1
    apply Matrix.det_eq_zero_of_row_eq_zero 0
    intro j
    rw [Matrix.of_apply, hK]
    have := j.2
    omega

/-! ### the determinant of a list -/

theorem hvar_zero (K : ℤ) : hvar K 0 = 1 := by simp [hvar]

theorem hvar_neg (K : ℤ) : ∀ p < 0, hvar K p = 0 := by
  intro p hp
  rw [hvar, if_neg (by omega), if_neg (by omega)]

theorem hvar_big {K : ℤ} (hK : 0 ≤ K) : ∀ p, K < p → hvar K p = 0 := by
  intro p hp
  rw [hvar, if_neg (by omega), if_neg (by omega)]

theorem hvar_special {K p : ℤ} (h1 : 1 ≤ p) (h2 : p ≤ K) : hvar K p = MvPolynomial.X (.S [p]) := by
  rw [hvar, if_neg (by omega), if_pos (by omega)]

/-- The determinant of size `N`. -/
noncomputable def JT (K : ℤ) (N : ℕ) (l : List Int) : P :=
  (Matrix.of fun i j : Fin N => hvar K (part l i.val - (i.val : ℤ) + (j.val : ℤ))).det

theorem JT_succ (K : ℤ) {N : ℕ} {l : List Int} (h : l.length ≤ N) : JT K (N + 1) l = JT K N l := by
  rw [JT, Matrix.det_succ_row _ (Fin.last N), Finset.sum_eq_single (Fin.last N)]
  · have h1 : (Fin.last N).succAbove = Fin.castSucc := by funext i; simp
    have h2 : part l (Fin.last N).val = 0 := part_of_ge (by simpa using h)
    rw [h1, Matrix.of_apply, h2]
    rw [show (0 : ℤ) - ((Fin.last N).val : ℤ) + ((Fin.last N).val : ℤ) = 0 by ring, hvar_zero, JT]
    rw [Even.neg_one_pow ⟨_, rfl⟩, one_mul, one_mul]
    congr 1
  · intro j _ hj
    have hj' : j.val < N := by
      rcases lt_or_eq_of_le (Nat.lt_succ_iff.1 j.2) with h | h
      · exact h
      · exact absurd (Fin.ext h) hj
    have h2 : part l (Fin.last N).val = 0 := part_of_ge (by simpa using h)
    rw [Matrix.of_apply, h2, hvar_neg]
    · ring
    · simp; omega
  · intro h; exact absurd (Finset.mem_univ _) h

theorem JT_length (K : ℤ) (l : List Int) : JT K l.length l = jacobiTrudi K l := by
  rw [JT, jacobiTrudi]
  congr 1
  ext i j : 2
  rw [Matrix.of_apply, Matrix.of_apply, part_of_lt i.2]
  rfl

theorem JT_eq (K : ℤ) {N : ℕ} {l : List Int} (h : l.length ≤ N) : JT K N l = jacobiTrudi K l := by
  induction N, h using Nat.le_induction with
  | base => exact JT_length K l
  | succ N h ih => rw [JT_succ K h, ih]

/-- Reversing the columns. -/
theorem JT_JD (K : ℤ) {l : List Int} (hl : ∀ i, 0 ≤ part l i) :
    JT K (m + 1) l = ((Equiv.Perm.sign (Fin.revPerm (n := m + 1)) : ℤ) : P) * JD (hvar K) (bt (vec m l)) := by
  have := Matrix.det_permute' (Fin.revPerm (n := m + 1))
    (Matrix.of fun i j : Fin (m + 1) => hvar K (((bt (vec m l) i : ℕ) : ℤ) - (j.val : ℤ)))
  rw [JD, ← this, JT]
  congr 1
  ext i j : 2
  rw [Matrix.submatrix_apply, Matrix.of_apply, Matrix.of_apply, bt_cast (hl _)]
  congr 1
  have := j.2
  simp only [vec, id, Fin.revPerm_apply, Fin.val_rev]
  rw [Nat.cast_sub (by omega)]
  push_cast
  ring

theorem JT_pieri {k : ℤ} (hk : 0 ≤ k) {p : ℤ} {l : List Int} (h : clsA (m + 1) k (p :: l)) :
    MvPolynomial.X (.S [p]) * JT k (m + 1) l = ∑ g ∈ Om k p.toNat (vec m l), JT k (m + 1) (lab g) := by
  obtain ⟨h1, h2, h3, -, h5, -⟩ := stepA h
  have hB := boxV_vec (m := m) hk h3
  have hlast : vec m l (Fin.last m) = 0 := by
    simp only [vec]; exact part_of_ge (by have := h.2.1; simp at this ⊢; omega)
  obtain ⟨K, rfl⟩ : ∃ K : ℕ, k = K := ⟨k.toNat, by omega⟩
  have hs := JD_strip (hvar_zero (K : ℤ)) (hvar_neg K) (hvar_big hk) hB hlast p.toNat
  rw [JT_JD _ (fun i => h3.1.isPartition.part_nonneg i), mul_left_comm]
  rw [show ((p.toNat : ℕ) : ℤ) = p by omega, hvar_special h1 h2] at hs
  rw [hs, Finset.mul_sum]
  apply Finset.sum_congr
  · rw [show ((p.toNat : ℕ) : ℤ) = p by omega]
  · intro g hg
    rw [JT_JD, vec_lab]
    intro i
    by_cases hi : i < m + 1
    · have : (g ⟨i, hi⟩ : ℤ) = part (lab g) i := (part_lab_lt g ⟨i, hi⟩).symm
      rw [← this]
      exact le_trans (hB.nonneg _) ((mem_Om.1 hg).1 _)
    · rw [part_lab_ge g (by omega)]

/-- The Giambelli polynomial is the determinant. -/
theorem G_JT {k n : ℤ} (hk : 0 ≤ k) (hn : n = m + 1 + k) : ∀ l, clsA (m + 1) k l →
    (sysC m hk hn).G l = JT k (m + 1) l := by
  refine (sysC m hk hn).G_induction (Q := fun l => (sysC m hk hn).G l = JT k (m + 1) l) ?_ ?_
  · intro _
    rw [GSys.G_nil, JT_eq k (by simp)]
    simp [jacobiTrudi]
  · intro p l hl h1 h2 hl' ih ihr
    obtain ⟨-, -, h3, -, h5, -⟩ := stepA hl
    rw [GSys.G_cons _ hl, ih, subst_ev_congr _ (fun mu hmu => (ihr mu hmu).2), JT_pieri hk hl]
    have : (sysC m hk hn).rest p l = ∑ g ∈ Om k p.toNat (vec m l), Finsupp.single (lab g) 1 - Finsupp.single (p :: l) 1 := by
      show tc m k p.toNat l - _ = _
      rw [tc, if_pos h3, Finset.filter_true_of_mem h5]
    rw [this]
    simp only [map_sub, map_sum, ev_single, inq, map_one, one_mul, subst_S]
    ring

end Verif
