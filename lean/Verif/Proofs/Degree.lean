import Verif.Spec.Degree
import Verif.Proofs.AltA
import Mathlib.LinearAlgebra.Vandermonde
import Mathlib.RingTheory.Polynomial.Pochhammer
/-!
# Powers of the class of a hyperplane on `Gr(m, n)`
-/

namespace Verif
open Spec Alt
open scoped Nat

theorem invFact_natCast (a : ℕ) : invFact a = 1 / (a ! : ℚ) := by
  unfold invFact
  rw [if_neg (by omega), Int.toNat_natCast]

theorem mul_invFact (z : ℤ) : (z : ℚ) * invFact z = invFact (z - 1) := by
  unfold invFact
  rcases lt_trichotomy z 0 with h | rfl | h
  · rw [if_pos h, if_pos (by omega), mul_zero]
  · simp
  · obtain ⟨a, rfl⟩ : ∃ a : ℕ, z = a + 1 := ⟨(z - 1).toNat, by omega⟩
    rw [if_neg (by omega), if_neg (by omega), show ((a : ℤ) + 1).toNat = a + 1 by omega, show ((a : ℤ) + 1 - 1).toNat = a by omega,
      Nat.factorial_succ]
    have h1 : (a ! : ℚ) ≠ 0 := by exact_mod_cast Nat.factorial_ne_zero a
    have h2 : ((a : ℚ) + 1) ≠ 0 := by positivity
    push_cast
    rw [mul_one_div, div_eq_div_iff (mul_ne_zero h2 h1) h1]
    ring

variable {m : ℕ}

theorem hpol_one : hpol m 1 = ∑ i, MvPolynomial.X i := by
  classical
  unfold hpol
  have : comps m 1 = Finset.univ.image (fun i => (Pi.single i 1 : Fin (m + 1) → ℕ)) := by
    ext α
    rw [mem_comps, Finset.mem_image]
    constructor
    · intro h
      obtain ⟨i, -, hi⟩ := Finset.exists_ne_zero_of_sum_ne_zero (s := Finset.univ) (f := α) (by omega)
      refine ⟨i, Finset.mem_univ _, ?_⟩
      rw [Fintype.sum_eq_add_sum_compl i] at h
      have h0 : ∑ j ∈ ({i}ᶜ : Finset _), α j = 0 := by omega
      rw [Finset.sum_eq_zero_iff] at h0
      funext j
      by_cases hj : j = i
      · subst hj; simp; omega
      · rw [Pi.single_eq_of_ne hj, h0 j (by simpa using hj)]
    · rintro ⟨i, -, rfl⟩
      simp
  rw [this, Finset.sum_image (fun i _ j _ h => by
    by_contra hne
    have := congrFun h i
    rw [Pi.single_eq_same, Pi.single_eq_of_ne hne] at this
    omega)]
  refine Finset.sum_congr rfl fun i _ => ?_
  rw [MvPolynomial.X]
  have e : exM (Pi.single i 1) = Finsupp.single i 1 := by
    ext j
    rw [ex_apply, Finsupp.single_apply, Pi.single_apply]
    simp [eq_comm]
  rw [e]

theorem coeff_pow_mono (r : ℕ) (γ : Fin (m + 1) → ℕ) : ∀ l : Fin (m + 1) → ℕ,
    MvPolynomial.coeff (exM l) (hpol m 1 ^ r * MvPolynomial.monomial (exM γ) 1) =
      if ∑ i, l i = r + ∑ i, γ i then Polynomial.C ((r ! : ℚ) * ∏ i, invFact ((l i : ℤ) - γ i)) else 0 := by
  classical
  induction r with
  | zero =>
    intro l
    rw [pow_zero, one_mul, MvPolynomial.coeff_monomial, zero_add]
    by_cases h : γ = l
    · subst h
      simp [invFact]
    · rw [if_neg (fun e => h (ex_inj.1 e))]
      split
      · rename_i hs
        obtain ⟨i, hi⟩ : ∃ i, l i < γ i := by
          by_contra hc
          push Not at hc
          apply h
          funext i
          have := (Finset.sum_eq_sum_iff_of_le (fun i _ => hc i)).1 hs.symm i (Finset.mem_univ i)
          exact this
        rw [Finset.prod_eq_zero (Finset.mem_univ i), mul_zero, map_zero]
        unfold invFact
        rw [if_pos (by omega)]
      · rfl
  | succ r ih =>
    intro l
    rw [pow_succ', mul_assoc, hpol_one, Finset.sum_mul, MvPolynomial.coeff_sum]
    rw [← hpol_one]
    have step : ∀ i, MvPolynomial.coeff (exM l) (MvPolynomial.X i * (hpol m 1 ^ r * MvPolynomial.monomial (exM γ) 1)) =
        if ∑ i, l i = r + 1 + ∑ i, γ i then
          Polynomial.C ((r ! : ℚ) * ((((l i : ℤ) - γ i : ℤ) : ℚ) * ∏ i, invFact ((l i : ℤ) - γ i))) else 0 := by
      intro i
      rw [MvPolynomial.coeff_X_mul']
      by_cases hi : l i = 0
      · rw [if_neg (by simpa using hi)]
        split
        · rw [← Finset.mul_prod_erase _ _ (Finset.mem_univ i), ← mul_assoc ((((l i : ℤ) - γ i : ℤ) : ℚ)), mul_invFact]
          have : invFact ((l i : ℤ) - γ i - 1) = 0 := by unfold invFact; rw [if_pos (by omega)]
          rw [this, zero_mul, mul_zero, map_zero]
        · rfl
      · rw [if_pos (by simpa using hi)]
        have e : exM l - Finsupp.single i 1 = exM (Function.update l i (l i - 1)) := by
          ext j
          by_cases hj : j = i
          · subst hj; simp
          · simp [hj]
        rw [e, ih]
        have hs : ∑ j, Function.update l i (l i - 1) j + 1 = ∑ j, l j := by
          rw [Fintype.sum_eq_add_sum_compl i, Fintype.sum_eq_add_sum_compl i l, Function.update_self]
          have := Finset.sum_congr rfl (s₁ := ({i}ᶜ : Finset _)) (f := Function.update l i (l i - 1)) (g := l)
            (fun j hj => Function.update_of_ne (by simpa using hj) _ _)
          rw [this, add_right_comm]
          congr 1
          omega
        by_cases hq : ∑ j, l j = r + 1 + ∑ j, γ j
        · rw [if_pos hq, if_pos (by omega)]
          congr 2
          rw [← Finset.mul_prod_erase _ _ (Finset.mem_univ i), ← Finset.mul_prod_erase _ (fun i => invFact ((l i : ℤ) - γ i)) (Finset.mem_univ i),
            ← mul_assoc, mul_invFact, Function.update_self]
          congr 1
          · congr 1; omega
          · refine Finset.prod_congr rfl fun j hj => ?_
            rw [Function.update_of_ne (Finset.ne_of_mem_erase hj)]
        · rw [if_neg hq, if_neg (by omega)]
    simp only [step]
    split
    · rename_i hq
      rw [← map_sum, ← Finset.mul_sum, ← Finset.sum_mul]
      congr 1
      rw [← Int.cast_sum, Finset.sum_sub_distrib, ← Nat.cast_sum, ← Nat.cast_sum, hq, Nat.factorial_succ]
      push_cast
      ring
    · simp

theorem coeff_pow_alt (r : ℕ) (γ l : Fin (m + 1) → ℕ) :
    MvPolynomial.coeff (exM l) (hpol m 1 ^ r * altP γ) =
      if ∑ i, l i = r + ∑ i, γ i then Polynomial.C ((r ! : ℚ) * (Matrix.of fun i j => invFact ((l i : ℤ) - γ j)).det) else 0 := by
  rw [altP_eq, Finset.mul_sum, MvPolynomial.coeff_sum]
  have : ∀ σ : Equiv.Perm (Fin (m + 1)), MvPolynomial.coeff (exM l) (hpol m 1 ^ r *
      ((Equiv.Perm.sign σ : ℤ) • MvPolynomial.monomial (exM (γ ∘ σ)) (1 : Polynomial ℚ))) =
      if ∑ i, l i = r + ∑ i, γ i then Polynomial.C ((r ! : ℚ) * ((Equiv.Perm.sign σ : ℤ) • ∏ i, invFact ((l i : ℤ) - γ (σ i)))) else 0 := by
    intro σ
    rw [mul_smul_comm, MvPolynomial.coeff_smul, coeff_pow_mono, sum_comp_swap]
    split
    · rw [← map_zsmul, mul_smul_comm]
      rfl
    · simp
  simp only [this]
  split
  · rw [← map_sum, ← Finset.mul_sum, ← Matrix.det_transpose, Matrix.det_apply]
    rfl
  · simp

/-- Aitken's determinant for the empty inner shape is a Vandermonde determinant. -/
theorem det_invFact (l : Fin (m + 1) → ℕ) :
    (Matrix.of fun i j : Fin (m + 1) => invFact ((l i : ℤ) - (m - (j.val : ℤ)))).det =
      (∏ i, ∏ j ∈ Finset.Ioi i, ((l i : ℚ) - l j)) / ∏ i, ((l i) ! : ℚ) := by
  have h0 : ∀ i, ((l i) ! : ℚ) ≠ 0 := fun i => by exact_mod_cast Nat.factorial_ne_zero _
  have h1 : (Matrix.of fun i j : Fin (m + 1) => invFact ((l i : ℤ) - (m - (j.val : ℤ)))) =
      Matrix.of fun i j : Fin (m + 1) => (1 / ((l i) ! : ℚ)) *
        ((Matrix.of fun i j : Fin (m + 1) => (descPochhammer ℚ j).eval ((l i.rev : ℕ) : ℚ)).submatrix Fin.revPerm Fin.revPerm i j) := by
    ext i j
    simp only [Matrix.of_apply, Matrix.submatrix_apply, Fin.revPerm_apply, Fin.rev_rev]
    rw [descPochhammer_eval_eq_descFactorial]
    have hv : (j.rev : ℕ) = m - j.val := by rw [Fin.val_rev]; omega
    have hj := j.2
    rw [hv]
    unfold invFact
    split
    · rw [Nat.descFactorial_eq_zero_iff_lt.2 (by omega)]; simp
    · rename_i h
      rw [show ((l i : ℤ) - (m - (j.val : ℤ))).toNat = l i - (m - j.val) by omega]
      have := Nat.factorial_mul_descFactorial (n := l i) (k := m - j.val) (by omega)
      rw [one_div_mul_eq_div, div_eq_div_iff (by exact_mod_cast Nat.factorial_ne_zero _) (h0 i)]
      rw [one_mul, ← this]
      push_cast
      ring
  rw [h1, Matrix.det_mul_column, Matrix.det_submatrix_equiv_self,
    ← Matrix.det_eval_matrixOfPolynomials_eq_det_vandermonde (fun i => ((l (Fin.rev i) : ℕ) : ℚ)) (fun j => descPochhammer ℚ j)
      (fun i => descPochhammer_natDegree ℚ i) (fun i => monic_descPochhammer ℚ i), Matrix.det_vandermonde]
  rw [Finset.prod_div_distrib, Finset.prod_const_one, one_div_mul_eq_div]
  congr 1
  rw [Finset.prod_sigma', Finset.prod_sigma']
  refine Finset.prod_bij' (fun x _ => ⟨x.2.rev, x.1.rev⟩) (fun x _ => ⟨x.2.rev, x.1.rev⟩) ?_ ?_ ?_ ?_ ?_
  · rintro ⟨i, j⟩ h
    simpa using h
  · rintro ⟨i, j⟩ h
    simpa using h
  · rintro ⟨i, j⟩ h
    simp
  · rintro ⟨i, j⟩ h
    simp
  · rintro ⟨i, j⟩ h
    simp

/-- The coefficient of a class in `g` times a class. -/
theorem act_coeff {K : ℕ} {n : ℤ} (hn : n = m + 1 + K) (g : P) {l mu : List Int} (hl : clsA (m + 1) K l) (hmu : clsA (m + 1) K mu) :
    (sysC m (Int.natCast_nonneg K) hn).act g (Finsupp.single mu 1) l =
      MvPolynomial.coeff (exM (bt (vec m l))) (hev m K g * altP (bt (vec m mu))) := by
  have h1 := act_mod (sysC m (Int.natCast_nonneg K) hn).toPSys (Psi m) (N := AltJ m (K + m + 1)) AltJ_hpol
    (fun p _ _ l hl => Psi_tc hl) g _ (clsA_single hmu)
  rw [Psi_single] at h1
  have h2 := coeff_altP_J (bt_lt (boxV_vec (m := m) (Int.natCast_nonneg K) hl)) h1
  rw [MvPolynomial.coeff_sub, sub_eq_zero, coeff_Psi ((sysC m (Int.natCast_nonneg K) hn).act_support g (clsA_single hmu)) hl] at h2
  exact h2

theorem sum_bt {K : ℕ} {l : List Int} (hl : clsA (m + 1) K l) :
    ((∑ i, bt (vec m l) i : ℕ) : ℤ) = l.sum + ∑ i : Fin (m + 1), ((m : ℤ) - (i.val : ℤ)) := by
  have hb := boxV_vec (m := m) (Int.natCast_nonneg K) hl
  rw [Nat.cast_sum, Finset.sum_congr rfl (fun i _ => bt_cast (hb.nonneg i)), Finset.sum_add_distrib, vec_sum hl.1 hl.2.1]

theorem act_pow {K : ℕ} (hK : 1 ≤ K) {n : ℤ} (hn : n = m + 1 + K) (r : ℕ) {l mu : List Int} (hl : clsA (m + 1) K l)
    (hmu : clsA (m + 1) K mu) :
    (sysC m (Int.natCast_nonneg K) hn).act (MvPolynomial.X (.S [1]) ^ r) (Finsupp.single mu 1) l =
      if l.sum = mu.sum + r then Polynomial.C (aitken (m + 1) l mu) else 0 := by
  rw [act_coeff hn _ hl hmu, map_pow]
  have h1 : hev m K (MvPolynomial.X (.S [1])) = hpol m 1 := by
    rw [hev, MvPolynomial.aeval_X, hsym, if_pos (by omega)]
    rfl
  rw [h1, coeff_pow_alt]
  have e1 := sum_bt hl
  have e2 := sum_bt hmu
  have hb := boxV_vec (m := m) (Int.natCast_nonneg K) hl
  have hb' := boxV_vec (m := m) (Int.natCast_nonneg K) hmu
  by_cases h : l.sum = mu.sum + r
  · rw [if_pos h, if_pos (by omega), aitken, show (l.sum - mu.sum).toNat = r by omega]
    congr 4
    ext i j
    rw [bt_cast (hb.nonneg i), bt_cast (hb'.nonneg j)]
    congr 1
    show part l i + _ - (part mu j + _) = _
    ring
  · rw [if_neg h, if_neg (by omega)]

theorem aitken_nil {K : ℕ} {l : List Int} (hl : clsA (m + 1) K l) : aitken (m + 1) l [] = stdCount (m + 1) l := by
  have hb := boxV_vec (m := m) (Int.natCast_nonneg K) hl
  have h := det_invFact (m := m) (bt (vec m l))
  have hc : ∀ i : Fin (m + 1), ((bt (vec m l) i : ℕ) : ℤ) = part l i + ((m : ℤ) - (i.val : ℤ)) := fun i => bt_cast (hb.nonneg i)
  unfold aitken stdCount
  rw [List.sum_nil, sub_zero, mul_div_assoc]
  congr 1
  have e1 : (Matrix.of fun i j : Fin (m + 1) => invFact (part l i - part [] j - (i.val : ℤ) + (j.val : ℤ))) =
      Matrix.of fun i j : Fin (m + 1) => invFact ((bt (vec m l) i : ℤ) - (m - (j.val : ℤ))) := by
    ext i j
    rw [Matrix.of_apply, Matrix.of_apply, hc]
    congr 1
    show part l i - 0 - _ + _ = _
    ring
  rw [e1, h]
  congr 1
  · refine Finset.prod_congr rfl fun i _ => Finset.prod_congr rfl fun j _ => ?_
    rw [← Int.cast_natCast (bt (vec m l) i), ← Int.cast_natCast (bt (vec m l) j), hc, hc, ← Int.cast_sub]
    congr 1
    ring
  · refine Finset.prod_congr rfl fun i _ => ?_
    have := hc i
    congr 2
    push_cast
    omega

end Verif
