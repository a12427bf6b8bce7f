import Verif.Proofs.Jacobi
import Verif.Props.SchurPol
import Mathlib.LinearAlgebra.Vandermonde
/-!
# C71, C72: the formula of Jacobi and the number of tableaux

`SchurPol(n, l)` is the quotient of two determinants in the variables, and its value at `1, …, 1` is given by
a product over all pairs of rows.
-/

namespace Verif
open Spec SchurSym Matrix

/-- The determinant with entries `x_j ^ e_i`. -/
def Spec.alternant {R : Type} [CommRing R] (x : Nat → R) (n : Nat) (e : Nat → Nat) : R :=
  Matrix.det (Matrix.of fun i j : Fin n => x j ^ e i)

theorem part_filter {l : List Int} (hl : IsPartition l) (i : Nat) : part (l.filter (· ≠ 0)) i = part l i := by
  rw [← partClip_eq_filter hl]
  obtain ⟨c, hc⟩ := partClip_append l
  conv_rhs => rw [hc]
  unfold part
  by_cases hi : i < (partClip l).length
  · rw [List.getD_append _ _ _ _ hi]
  · rw [List.getD_append_right _ _ _ _ (by omega), List.getD_eq_default _ _ (by omega)]
    rw [List.getD_eq_getElem?_getD, List.getElem?_replicate]
    split <;> rfl

section
variable {R : Type} [CommRing R]

theorem altW_rev (x : Nat → R) (n : Nat) (γ : Nat → Nat) :
    altW x n γ = ((Equiv.Perm.sign (Fin.revPerm (n := n)) : ℤ) : R) * Spec.alternant x n (fun i => γ (n - 1 - i)) := by
  unfold altW Spec.alternant
  rw [← Matrix.det_permute]
  congr 1
  ext i j
  simp only [Matrix.of_apply, Matrix.submatrix_apply, id]
  congr 2
  simp [Fin.rev]
  omega

theorem jacobi_desc (x : Nat → R) (n : Nat) {l : List Int} (hl : IsPartition l) (h : part l n = 0) :
    tabSum x n l * Spec.alternant x n (fun i => n - 1 - i)
      = Spec.alternant x n (fun i => (part l i).toNat + (n - 1 - i)) := by
  have h1 := jacobi x n hl h
  rw [altW_rev, altW_rev] at h1
  have hs : ((Equiv.Perm.sign (Fin.revPerm (n := n)) : ℤ) : R) * ((Equiv.Perm.sign (Fin.revPerm (n := n)) : ℤ) : R) = 1 := by
    rw [← Int.cast_mul, ← Units.val_mul, Int.units_mul_self]; simp
  have h2 : tabSum x n l * Spec.alternant x n (fun i => n - 1 - i)
      = Spec.alternant x n (fun i => expoG n l (n - 1 - i)) := by
    generalize ((Equiv.Perm.sign (Fin.revPerm (n := n)) : ℤ) : R) = s at h1 hs
    calc _ = (s * s) * (tabSum x n l * Spec.alternant x n (fun i => n - 1 - i)) := by rw [hs, one_mul]
      _ = s * (tabSum x n l * (s * Spec.alternant x n (fun i => n - 1 - i))) := by ring
      _ = s * (s * Spec.alternant x n (fun i => expoG n l (n - 1 - i))) := by rw [h1]
      _ = _ := by rw [← mul_assoc, hs, one_mul]
  rw [h2]
  unfold Spec.alternant
  congr 1
  ext i j
  simp only [Matrix.of_apply, expoG]
  have := i.2
  rw [show n - 1 - (n - 1 - (i : Nat)) = i by omega]

/-- C71: the value times the determinant with entries `x_j ^ (n - i)` is the determinant with entries
`x_j ^ (l_i + n - i)` (rows counted from 1), over every commutative ring. -/
theorem C71_bialternant (x : Nat → R) (n : Nat) (hn : 1 ≤ n) (l : List Int) (hl : IsPartition l)
    (hlen : (l.filter (· ≠ 0)).length ≤ n) :
    ∃ v, schurPol x n l = .ok v ∧ v * Spec.alternant x n (fun i => n - 1 - i)
      = Spec.alternant x n (fun i => (part l i).toNat + (n - 1 - i)) := by
  refine ⟨_, schurPol_eq x n (by omega) l hl, ?_⟩
  rw [Int.toNat_natCast, jacobi_desc x n (isPartition_filter hl) (part_of_ge hlen)]
  simp only [part_filter hl]

end

theorem alternant_ne_zero {R : Type} [CommRing R] [IsDomain R] (x : Nat → R) (n : Nat)
    (h : ∀ i j, i < n → j < n → x i = x j → i = j) : Spec.alternant x n (fun i => n - 1 - i) ≠ 0 := by
  intro h0
  have h1 := altW_rev x n (fun i => i)
  rw [h0, mul_zero] at h1
  have h2 : altW x n (fun i => i) = Matrix.det (Matrix.vandermonde (fun i : Fin n => x i)) := by
    rw [← Matrix.det_transpose]
    rfl
  rw [h2, Matrix.det_vandermonde_eq_zero_iff] at h1
  obtain ⟨i, j, hij, hne⟩ := h1
  exact hne (Fin.ext (h i j i.2 j.2 hij))

theorem schurVars_inj (n : Nat) : ∀ i j, i < n → j < n → schurVars n i = schurVars n j → i = j := by
  intro i j hi hj h
  unfold schurVars at h
  rw [dif_pos hi, dif_pos hj] at h
  have := MvPolynomial.X_injective h
  simpa using this

/-- C71: as a polynomial in the variables, the value is the only quotient of the two determinants. -/
theorem C71_quotient (n : Nat) (hn : 1 ≤ n) (l : List Int) (hl : IsPartition l)
    (hlen : (l.filter (· ≠ 0)).length ≤ n) (v : MvPolynomial (Fin n) ℤ) :
    schurPol (schurVars n) n l = .ok v ↔ v * Spec.alternant (schurVars n) n (fun i => n - 1 - i)
      = Spec.alternant (schurVars n) n (fun i => (part l i).toNat + (n - 1 - i)) := by
  obtain ⟨w, hw, hq⟩ := C71_bialternant (schurVars n) n hn l hl hlen
  rw [hw]
  constructor
  · intro h
    injection h with h
    rw [← h, hq]
  · intro h
    rw [← hq] at h
    rw [mul_right_cancel₀ (alternant_ne_zero _ n (schurVars_inj n)) h]

/-! ### The number of tableaux -/

open Polynomial in
theorem vander_eval (n : Nat) (β : Nat → Nat) (h : ∀ i j, i < j → j < n → β j ≤ β i) :
    ∃ g : ℤ[X], Spec.alternant (fun j => (X : ℤ[X]) ^ j) n β =
        (∏ i : Fin n, ∏ _j ∈ Finset.Ioi i, (1 - X)) * g ∧
      g.eval 1 = ∏ i : Fin n, ∏ j ∈ Finset.Ioi i, ((β i : ℤ) - β j) := by
  refine ⟨∏ i : Fin n, ∏ j ∈ Finset.Ioi i, (X ^ β j * ∑ c ∈ Finset.range (β i - β j), X ^ c), ?_, ?_⟩
  · have h1 : Spec.alternant (fun j => (X : ℤ[X]) ^ j) n β = Matrix.det (Matrix.vandermonde (fun i : Fin n => (X : ℤ[X]) ^ β i)) := by
      unfold Spec.alternant
      congr 1
      ext1 i j
      simp only [Matrix.of_apply, Matrix.vandermonde_apply]
      rw [← pow_mul, ← pow_mul, mul_comm]
    rw [h1, Matrix.det_vandermonde, ← Finset.prod_mul_distrib]
    refine Finset.prod_congr rfl (fun i _ => ?_)
    rw [← Finset.prod_mul_distrib]
    refine Finset.prod_congr rfl (fun j hj => ?_)
    have hij : i < j := Finset.mem_Ioi.1 hj
    have hb := h i j hij j.2
    have h2 := mul_neg_geom_sum (X : ℤ[X]) (β i - β j)
    calc (X : ℤ[X]) ^ β j - X ^ β i = X ^ β j * (1 - X ^ (β i - β j)) := by
          rw [mul_sub, ← pow_add, mul_one, Nat.add_sub_cancel' hb]
      _ = _ := by rw [← h2]; ring
  · rw [Polynomial.eval_prod]
    refine Finset.prod_congr rfl (fun i _ => ?_)
    rw [Polynomial.eval_prod]
    refine Finset.prod_congr rfl (fun j hj => ?_)
    have hij : i < j := Finset.mem_Ioi.1 hj
    have hb := h i j hij j.2
    simp [Polynomial.eval_finsetSum, hb]

open Polynomial in
/-- C72: with all variables equal to 1 the value `v`, which is the number of semistandard tableaux, satisfies
`v · ∏ (j - i) = ∏ (l_i - l_j + j - i)`, both products over all pairs of rows `i < j ≤ n`. -/
theorem C72_dimension (n : Nat) (hn : 1 ≤ n) (l : List Int) (hl : IsPartition l)
    (hlen : (l.filter (· ≠ 0)).length ≤ n) :
    ∃ v : ℤ, schurPol (fun _ => 1) n l = .ok v ∧
      v * ∏ i : Fin n, ∏ j ∈ Finset.Ioi i, ((j : ℤ) - i)
        = ∏ i : Fin n, ∏ j ∈ Finset.Ioi i, (part l i - part l j + ((j : ℤ) - i)) := by
  refine ⟨_, schurPol_eq _ n (by omega) l hl, ?_⟩
  have hp := isPartition_filter hl
  have h1 := jacobi_desc (fun j => (X : ℤ[X]) ^ j) n hp (part_of_ge hlen)
  simp only [part_filter hl] at h1
  obtain ⟨g, hg1, hg2⟩ := vander_eval n (fun i => n - 1 - i) (by intro i j _ _; omega)
  obtain ⟨g', hg1', hg2'⟩ := vander_eval n (fun i => (part l i).toNat + (n - 1 - i)) (by
    intro i j hij hj
    have := Int.toNat_le_toNat (hl.part_anti (le_of_lt hij))
    omega)
  rw [hg1, hg1', mul_left_comm] at h1
  have hne : (∏ i : Fin n, ∏ _j ∈ Finset.Ioi i, (1 - X : ℤ[X])) ≠ 0 := by
    rw [Finset.prod_ne_zero_iff]
    intro i _
    rw [Finset.prod_ne_zero_iff]
    intro j _ h0
    have := congrArg (Polynomial.eval 0) h0
    simp at this
  have h2 := congrArg (Polynomial.eval 1) (mul_left_cancel₀ hne h1)
  rw [Polynomial.eval_mul, hg2, hg2'] at h2
  have h3 := map_tabSum (Polynomial.evalRingHom (1 : ℤ)) (fun j => (X : ℤ[X]) ^ j) n hp
  simp only [Polynomial.coe_evalRingHom, Polynomial.eval_pow, Polynomial.eval_X, one_pow] at h3
  rw [h3] at h2
  rw [Int.toNat_natCast]
  have e1 : ∏ i : Fin n, ∏ j ∈ Finset.Ioi i, ((j : ℤ) - i)
      = ∏ i : Fin n, ∏ j ∈ Finset.Ioi i, (((n - 1 - (i : ℕ) : ℕ) : ℤ) - (n - 1 - (j : ℕ) : ℕ)) :=
    Finset.prod_congr rfl (fun i _ => Finset.prod_congr rfl (fun j _ => by
      have := i.2
      have := j.2
      omega))
  have e2 : ∏ i : Fin n, ∏ j ∈ Finset.Ioi i, (part l i - part l j + ((j : ℤ) - i))
      = ∏ i : Fin n, ∏ j ∈ Finset.Ioi i, ((((part l i).toNat + (n - 1 - (i : ℕ)) : ℕ) : ℤ)
          - ((part l j).toNat + (n - 1 - (j : ℕ)) : ℕ)) :=
    Finset.prod_congr rfl (fun i _ => Finset.prod_congr rfl (fun j _ => by
      have := i.2
      have := j.2
      have := hl.part_nonneg i
      have := hl.part_nonneg j
      omega))
  rw [e1, e2]
  exact h2

example : schurPol (fun _ => (1 : ℤ)) 3 [2, 1] = .ok 8 := by decide +kernel

/-- `8 · (1 · 2 · 1) = 2 · 4 · 2`. -/
example : (8 : ℤ) * ∏ i : Fin 3, ∏ j ∈ Finset.Ioi i, ((j : ℤ) - i)
    = ∏ i : Fin 3, ∏ j ∈ Finset.Ioi i, (part [2, 1] i - part [2, 1] j + ((j : ℤ) - i)) := by decide

example : IsPartition [3, 1] ∧ ([3, 1].filter (· ≠ (0 : ℤ))).length ≤ 2 := by
  refine ⟨by unfold IsPartition; decide, by decide⟩

/-- The quotient at `x = (2, 3)` for the shape `[3, 1]`: `114 · (2 - 3) = 2^4 · 3 - 3^4 · 2`. -/
example : schurPol (fun i => if i = 0 then (2 : ℤ) else 3) 2 [3, 1] = .ok 114 ∧
    (114 : ℤ) * (2 - 3) = 2 ^ 4 * 3 - 3 ^ 4 * 2 := by decide +kernel

end Verif
