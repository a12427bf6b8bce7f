import Verif.Proofs.Roots
import Mathlib.Analysis.SpecialFunctions.Trigonometric.Basic
import Mathlib.LinearAlgebra.Vandermonde
/-!
# Alternants at the values `exp(iπ(2j - m)/n)`
-/

namespace Verif
open Spec SchurSym Cyl

variable {m : ℕ}

theorem sum_pairs (b : Fin (m + 1) → ℂ) : ∑ i, ∑ j ∈ Finset.Ioi i, (b i + b j) = m * ∑ i, b i := by
  have h1 : ∑ i : Fin (m + 1), ∑ j ∈ Finset.Ioi i, b j = ∑ j : Fin (m + 1), ∑ i ∈ Finset.Iio j, b j :=
    Finset.sum_comm' (by simp)
  simp only [Finset.sum_add_distrib]
  rw [h1, ← Finset.sum_add_distrib, Finset.mul_sum]
  refine Finset.sum_congr rfl (fun i _ => ?_)
  simp only [Finset.sum_const, nsmul_eq_mul, Fin.card_Ioi, Fin.card_Iio]
  rw [← add_mul, ← Nat.cast_add]
  congr 2
  omega

/-- the values -/
noncomputable def expPt (m n : ℕ) (j : ℕ) : ℂ := Complex.exp (Complex.I * Real.pi * (2 * j - m) / n)

theorem expPt_pow {n : ℕ} (hn : 1 ≤ n) (j : ℕ) : expPt m n j ^ n = (-1) ^ m := by
  have hn0 : (n : ℂ) ≠ 0 := by exact_mod_cast (by omega : n ≠ 0)
  rw [expPt, ← Complex.exp_nat_mul, mul_div_cancel₀ _ hn0]
  have : Complex.I * Real.pi * (2 * j - m) = j * (2 * Real.pi * Complex.I) - m * (Real.pi * Complex.I) := by ring
  rw [this, Complex.exp_sub, Complex.exp_nat_mul_two_pi_mul_I, Complex.exp_nat_mul, Complex.exp_pi_mul_I, one_div, ← inv_pow]
  norm_num

theorem altR_exp (n : ℕ) (β : Fin (m + 1) → ℕ) :
    altR (expPt m n) β = ∏ i, ∏ j ∈ Finset.Ioi i, (2 * Complex.I * (Real.sin (Real.pi * ((β j : ℝ) - β i) / n) : ℝ)) := by
  have e1 : (Matrix.of fun i j : Fin (m + 1) => expPt m n j ^ β i) =
      Matrix.of fun i j => Complex.exp (-(Complex.I * Real.pi * m * β i / n)) * Matrix.vandermonde (fun i => Complex.exp (2 * (Complex.I * Real.pi * β i / n))) i j := by
    ext i j
    simp only [Matrix.of_apply, Matrix.vandermonde_apply, expPt]
    rw [← Complex.exp_nat_mul, ← Complex.exp_nat_mul, ← Complex.exp_add]
    congr 1
    ring
  rw [altR, e1, Matrix.det_mul_column, Matrix.det_vandermonde, ← Complex.exp_sum]
  have e2 : ∀ i j : Fin (m + 1), Complex.exp (2 * (Complex.I * Real.pi * β j / n)) - Complex.exp (2 * (Complex.I * Real.pi * β i / n)) =
      Complex.exp (Complex.I * Real.pi / n * β i + Complex.I * Real.pi / n * β j) * (2 * Complex.I * (Real.sin (Real.pi * ((β j : ℝ) - β i) / n) : ℝ)) := by
    intro i j
    rw [Complex.ofReal_sin, Complex.sin]
    push_cast
    have h : ∀ z w : ℂ, Complex.exp (z + w) * (2 * Complex.I * ((Complex.exp (-(w - z)) - Complex.exp (w - z)) * Complex.I / 2)) =
        Complex.exp (2 * w) - Complex.exp (2 * z) := by
      intro z w
      have : (2 * Complex.I * ((Complex.exp (-(w - z)) - Complex.exp (w - z)) * Complex.I / 2)) = Complex.exp (w - z) - Complex.exp (-(w - z)) := by
        linear_combination (Complex.exp (-(w - z)) - Complex.exp (w - z)) * Complex.I_mul_I
      rw [this, mul_sub, ← Complex.exp_add, ← Complex.exp_add]
      congr 2 <;> ring
    have := h (Complex.I * Real.pi / n * β i) (Complex.I * Real.pi / n * β j)
    rw [show 2 * (Complex.I * Real.pi * β j / n) = 2 * (Complex.I * Real.pi / n * β j) by ring,
      show 2 * (Complex.I * Real.pi * β i / n) = 2 * (Complex.I * Real.pi / n * β i) by ring, ← this]
    congr 6 <;> ring
  simp only [e2, Finset.prod_mul_distrib]
  simp only [← Complex.exp_sum]
  rw [sum_pairs, ← mul_assoc, ← Complex.exp_add]
  have e3 : ∑ i, -(Complex.I * Real.pi * m * β i / n) + m * ∑ i, Complex.I * Real.pi / n * β i = 0 := by
    rw [Finset.mul_sum, ← Finset.sum_add_distrib]
    apply Finset.sum_eq_zero
    intro i _
    ring
  rw [e3, Complex.exp_zero, one_mul]

end Verif
