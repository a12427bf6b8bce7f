import Verif.Proofs.AltQ
import Mathlib.RingTheory.MvPolynomial.Basic
import Mathlib.Algebra.MvPolynomial.NoZeroDivisors
import Mathlib.RingTheory.Adjoin.Basic
/-!
# Alternating polynomials

`altP γ` is the determinant of the powers `x_j ^ γ_i`. Multiplication by the complete symmetric polynomials `hpol p`
is the sum over all vectors of size `p`. Every `altP` of a decreasing vector is `altP` of the staircase times a
polynomial in the `hpol`.
-/

namespace Verif
open Spec Cyl Finset Alt

variable {m : ℕ}

/-- The polynomial ring. -/
abbrev VP (m : ℕ) := MvPolynomial (Fin (m + 1)) (Polynomial ℚ)

/-- A vector as an exponent. -/
noncomputable def exM (γ : Fin (m + 1) → ℕ) : Fin (m + 1) →₀ ℕ := Finsupp.equivFunOnFinite.symm γ

@[simp] theorem ex_apply (γ : Fin (m + 1) → ℕ) (i) : exM γ i = γ i := rfl

theorem ex_coe (s : Fin (m + 1) →₀ ℕ) : exM ⇑s = s := by ext i; rfl

theorem coe_ex (γ : Fin (m + 1) → ℕ) : ⇑(exM γ) = γ := rfl

theorem ex_inj {γ δ : Fin (m + 1) → ℕ} : exM γ = exM δ ↔ γ = δ := Finsupp.equivFunOnFinite.symm.injective.eq_iff

theorem ex_add (γ δ : Fin (m + 1) → ℕ) : exM (γ + δ) = exM γ + exM δ := by ext i; rfl

/-- The complete symmetric polynomial. -/
noncomputable def hpol (m p : ℕ) : VP m := ∑ α ∈ comps m p, MvPolynomial.monomial (exM α) 1

/-- The alternating polynomial. -/
noncomputable def altP (γ : Fin (m + 1) → ℕ) : VP m :=
  (Matrix.of fun i j => (MvPolynomial.X j : VP m) ^ γ i).det

theorem altP_eq (γ : Fin (m + 1) → ℕ) :
    altP γ = ∑ σ : Equiv.Perm (Fin (m + 1)), (Equiv.Perm.sign σ : ℤ) • MvPolynomial.monomial (exM (γ ∘ σ)) (1 : Polynomial ℚ) := by
  rw [altP, Matrix.det_apply]
  apply Finset.sum_congr rfl
  intro σ _
  congr 1
  rw [MvPolynomial.monomial_eq, Finsupp.prod_fintype _ _ (fun _ => pow_zero _)]
  simp

theorem altP_alternating : Alternating (altP (m := m)) := by
  refine ⟨?_, ?_⟩
  · intro γ σ
    have : (Matrix.of fun i j => (MvPolynomial.X j : VP m) ^ (γ ∘ σ) i) =
        (Matrix.of fun i j => (MvPolynomial.X j : VP m) ^ γ i).submatrix σ id := rfl
    rw [altP, this, Matrix.det_permute]
    simp [altP]
  · intro γ i j hij h
    apply Matrix.det_zero_of_row_eq hij
    funext l
    simp [h]

theorem hpol_altP (p : ℕ) (γ : Fin (m + 1) → ℕ) : hpol m p * altP γ = ∑ α ∈ comps m p, altP (γ + α) := by
  simp only [altP_eq]
  rw [Finset.sum_comm, Finset.mul_sum]
  apply Finset.sum_congr rfl
  intro σ _
  rw [mul_smul_comm, ← Finset.smul_sum, hpol, Finset.sum_mul]
  congr 1
  symm
  refine Finset.sum_bij' (fun α _ => α ∘ σ) (fun α _ => α ∘ σ.symm) ?_ ?_ ?_ ?_ ?_
  · intro α hα; rw [mem_comps] at hα ⊢; rw [← hα]; exact Equiv.sum_comp σ α
  · intro α hα; rw [mem_comps] at hα ⊢; rw [← hα]; exact Equiv.sum_comp σ.symm α
  · intro α _; funext i; simp
  · intro α _; funext i; simp
  · intro α _
    rw [MvPolynomial.monomial_mul, mul_one, ← ex_add]
    congr 3
    funext i
    simp [add_comm]

/-- The linear map given on monomials. -/
noncomputable def onMono {A : Type*} [AddCommGroup A] [Module (Polynomial ℚ) A] (D : (Fin (m + 1) → ℕ) → A) :
    VP m →ₗ[Polynomial ℚ] A := (MvPolynomial.basisMonomials (Fin (m + 1)) (Polynomial ℚ)).constr (Polynomial ℚ) (fun s => D ⇑s)

theorem onMono_monomial {A : Type*} [AddCommGroup A] [Module (Polynomial ℚ) A] (D : (Fin (m + 1) → ℕ) → A)
    (γ : Fin (m + 1) → ℕ) : onMono D (MvPolynomial.monomial (exM γ) 1) = D γ := by
  have := (MvPolynomial.basisMonomials (Fin (m + 1)) (Polynomial ℚ)).constr_basis (Polynomial ℚ) (fun s => D ⇑s) (exM γ)
  rw [MvPolynomial.coe_basisMonomials] at this
  exact this

theorem linear_ext {A : Type*} [AddCommGroup A] [Module (Polynomial ℚ) A] {u v : VP m →ₗ[Polynomial ℚ] A}
    (h : ∀ γ, u (MvPolynomial.monomial (exM γ) 1) = v (MvPolynomial.monomial (exM γ) 1)) : u = v := by
  apply (MvPolynomial.basisMonomials (Fin (m + 1)) (Polynomial ℚ)).ext
  intro s
  rw [MvPolynomial.coe_basisMonomials]
  have := h ⇑s
  rwa [ex_coe] at this

theorem onMono_hpol {A : Type*} [AddCommGroup A] [Module (Polynomial ℚ) A] (D : (Fin (m + 1) → ℕ) → A) (p : ℕ)
    (f : VP m) : onMono D (hpol m p * f) = onMono (fun γ => ∑ α ∈ comps m p, D (γ + α)) f := by
  have : (onMono D).comp (LinearMap.mulLeft (Polynomial ℚ) (hpol m p)) = onMono (fun γ => ∑ α ∈ comps m p, D (γ + α)) := by
    apply linear_ext
    intro γ
    rw [onMono_monomial, LinearMap.comp_apply, LinearMap.mulLeft_apply, hpol, Finset.sum_mul, map_sum]
    apply Finset.sum_congr rfl
    intro α _
    rw [MvPolynomial.monomial_mul, mul_one, ← ex_add, onMono_monomial, add_comm]
  exact LinearMap.congr_fun this f

theorem onMono_altP {A : Type*} [AddCommGroup A] [Module (Polynomial ℚ) A] {D : (Fin (m + 1) → ℕ) → A}
    (hD : Alternating D) (γ : Fin (m + 1) → ℕ) : onMono D (altP γ) = (Nat.factorial (m + 1)) • D γ := by
  rw [altP_eq, map_sum]
  have : ∀ σ : Equiv.Perm (Fin (m + 1)), onMono D ((Equiv.Perm.sign σ : ℤ) • MvPolynomial.monomial (exM (γ ∘ σ)) (1 : Polynomial ℚ)) = D γ := by
    intro σ
    rw [map_zsmul, onMono_monomial, hD.perm, ← mul_smul]
    rcases Int.units_eq_one_or (Equiv.Perm.sign σ) with e | e <;> simp [e]
  rw [Finset.sum_congr rfl (fun σ _ => this σ), Finset.sum_const, Finset.card_univ, Fintype.card_perm, Fintype.card_fin]

/-- The algebra of the complete symmetric polynomials. -/
noncomputable def Lam (m : ℕ) : Subalgebra (Polynomial ℚ) (VP m) := Algebra.adjoin (Polynomial ℚ) (Set.range (hpol m))

theorem hpol_mem (p : ℕ) : hpol m p ∈ Lam m := Algebra.subset_adjoin ⟨p, rfl⟩

/-- A submodule closed under the complete symmetric polynomials is closed under their algebra. -/
theorem Lam_closed {N : Submodule (Polynomial ℚ) (VP m)} (h : ∀ p, ∀ f ∈ N, hpol m p * f ∈ N) {z : VP m} (hz : z ∈ Lam m) :
    ∀ f ∈ N, z * f ∈ N := by
  induction hz using Algebra.adjoin_induction with
  | mem x hx =>
    obtain ⟨p, rfl⟩ := hx
    exact h p
  | algebraMap r =>
    intro f hf
    rw [← Algebra.smul_def]
    exact N.smul_mem r hf
  | add x y _ _ hx hy =>
    intro f hf
    rw [add_mul]
    exact N.add_mem (hx f hf) (hy f hf)
  | mul x y _ _ hx hy =>
    intro f hf
    rw [mul_assoc]
    exact hx _ (hy f hf)

/-- The span of all alternating polynomials. -/
noncomputable def AltS (m : ℕ) : Submodule (Polynomial ℚ) (VP m) := Submodule.span _ (Set.range (altP (m := m)))

theorem altP_mem (γ : Fin (m + 1) → ℕ) : altP γ ∈ AltS m := Submodule.subset_span ⟨γ, rfl⟩

theorem AltS_hpol (p : ℕ) : ∀ f ∈ AltS m, hpol m p * f ∈ AltS m := by
  intro f hf
  induction hf using Submodule.span_induction with
  | mem x hx =>
    obtain ⟨γ, rfl⟩ := hx
    rw [hpol_altP]
    exact Submodule.sum_mem _ (fun α _ => altP_mem _)
  | zero => rw [mul_zero]; exact Submodule.zero_mem _
  | add x y _ _ hx hy => rw [mul_add]; exact Submodule.add_mem _ hx hy
  | smul a x _ hx => rw [mul_smul_comm]; exact Submodule.smul_mem _ a hx

/-- The alternating polynomials with an exponent of at least `N`. -/
noncomputable def AltJ (m N : ℕ) : Submodule (Polynomial ℚ) (VP m) :=
  Submodule.span _ {x | ∃ γ : Fin (m + 1) → ℕ, (∃ i, N ≤ γ i) ∧ x = altP γ}

theorem altP_memJ {N : ℕ} {γ : Fin (m + 1) → ℕ} {i : Fin (m + 1)} (h : N ≤ γ i) : altP γ ∈ AltJ m N :=
  Submodule.subset_span ⟨γ, ⟨i, h⟩, rfl⟩

theorem AltJ_hpol {N : ℕ} (p : ℕ) : ∀ f ∈ AltJ m N, hpol m p * f ∈ AltJ m N := by
  intro f hf
  induction hf using Submodule.span_induction with
  | mem x hx =>
    obtain ⟨γ, ⟨i, hi⟩, rfl⟩ := hx
    rw [hpol_altP]
    exact Submodule.sum_mem _ (fun α _ => altP_memJ (i := i) (by simp only [Pi.add_apply]; omega))
  | zero => rw [mul_zero]; exact Submodule.zero_mem _
  | add x y _ _ hx hy => rw [mul_add]; exact Submodule.add_mem _ hx hy
  | smul a x _ hx => rw [mul_smul_comm]; exact Submodule.smul_mem _ a hx

theorem coeff_altP {β γ : Fin (m + 1) → ℕ} (hβ : StrictAnti β) (hγ : StrictAnti γ) :
    MvPolynomial.coeff (exM β) (altP γ) = if β = γ then 1 else 0 := by
  classical
  rw [altP_eq, MvPolynomial.coeff_sum]
  have h1 : ∀ σ : Equiv.Perm (Fin (m + 1)), γ ∘ σ = β → σ = 1 := by
    intro σ h
    have hs : StrictMono σ := by
      intro i j hij
      have h2 := hβ hij
      rw [← h] at h2
      exact hγ.lt_iff_gt.1 h2
    have h3 : (σ : Fin (m + 1) → Fin (m + 1)) ∘ id = id := by
      have := (hs.range_inj strictMono_id).1 (by rw [σ.surjective.range_eq, Set.range_id])
      simpa using this
    ext i
    have := congrFun h3 i
    simpa using congrArg Fin.val this
  rw [Finset.sum_eq_single 1]
  · rw [MvPolynomial.coeff_smul, MvPolynomial.coeff_monomial]
    simp only [ex_inj, Equiv.Perm.coe_one, Function.comp_id, Equiv.Perm.sign_one]
    simp [eq_comm]
  · intro σ _ hσ
    rw [MvPolynomial.coeff_smul, MvPolynomial.coeff_monomial, if_neg, smul_zero]
    rw [ex_inj]
    exact fun h => hσ (h1 σ h)
  · intro h; exact absurd (Finset.mem_univ _) h

theorem coeff_altP_J {N : ℕ} {β : Fin (m + 1) → ℕ} (hβ : ∀ i, β i < N) {f : VP m} (hf : f ∈ AltJ m N) :
    MvPolynomial.coeff (exM β) f = 0 := by
  classical
  induction hf using Submodule.span_induction with
  | mem x hx =>
    obtain ⟨γ, ⟨i, hi⟩, rfl⟩ := hx
    rw [altP_eq, MvPolynomial.coeff_sum]
    apply Finset.sum_eq_zero
    intro σ _
    rw [MvPolynomial.coeff_smul, MvPolynomial.coeff_monomial, if_neg, smul_zero]
    rw [ex_inj]
    intro h
    have := hβ (σ.symm i)
    rw [← h] at this
    simp at this
    omega
  | zero => simp
  | add x y _ _ hx hy => rw [MvPolynomial.coeff_add, hx, hy, add_zero]
  | smul a x _ hx => rw [MvPolynomial.coeff_smul, hx, smul_zero]

/-- An element of the span is a combination of `altP` of decreasing vectors, with its own coefficients. -/
theorem AltS_repr {f : VP m} (hf : f ∈ AltS m) :
    ∃ c : (Fin (m + 1) → ℕ) →₀ Polynomial ℚ, (∀ γ ∈ c.support, StrictAnti γ) ∧ f = c.sum (fun γ a => a • altP γ) ∧
      ∀ β, StrictAnti β → MvPolynomial.coeff (exM β) f = c β := by
  classical
  have h1 : ∃ c : (Fin (m + 1) → ℕ) →₀ Polynomial ℚ, (∀ γ ∈ c.support, StrictAnti γ) ∧ f = c.sum (fun γ a => a • altP γ) := by
    induction hf using Submodule.span_induction with
    | mem x hx =>
      obtain ⟨γ, rfl⟩ := hx
      by_cases hinj : Function.Injective γ
      · obtain ⟨σ, hσ⟩ := exists_sort γ hinj
        refine ⟨Finsupp.single (γ ∘ σ) ((Equiv.Perm.sign σ : ℤ) : Polynomial ℚ), ?_, ?_⟩
        · intro δ hδ
          rw [Finset.mem_singleton.1 (Finsupp.support_single_subset hδ)]
          exact hσ
        · rw [Finsupp.sum_single_index (h := fun γ a => a • altP γ) (zero_smul _ _), altP_alternating.perm]
          rcases Int.units_eq_one_or (Equiv.Perm.sign σ) with e | e <;> simp [e]
      · unfold Function.Injective at hinj
        push Not at hinj
        obtain ⟨i, j, he, hne⟩ := hinj
        exact ⟨0, by simp, by rw [altP_alternating.zero γ i j hne he]; simp⟩
    | zero => exact ⟨0, by simp, by simp⟩
    | add x y _ _ hx hy =>
      obtain ⟨c, hc, rfl⟩ := hx
      obtain ⟨d, hd, rfl⟩ := hy
      refine ⟨c + d, ?_, ?_⟩
      · intro γ hγ
        rcases Finset.mem_union.1 (Finsupp.support_add hγ) with h | h
        · exact hc γ h
        · exact hd γ h
      · rw [Finsupp.sum_add_index' (h := fun γ a => a • altP γ) (fun _ => zero_smul _ _) (fun _ _ _ => add_smul _ _ _)]
    | smul a x _ hx =>
      obtain ⟨c, hc, rfl⟩ := hx
      refine ⟨a • c, fun γ hγ => hc γ (Finsupp.support_smul hγ), ?_⟩
      rw [Finsupp.sum_smul_index' (h := fun γ a => a • altP γ) (fun _ => zero_smul _ _), Finsupp.smul_sum]
      simp only [smul_assoc]
  obtain ⟨c, hc, hfc⟩ := h1
  refine ⟨c, hc, hfc, fun β hβ => ?_⟩
  rw [hfc, Finsupp.sum, MvPolynomial.coeff_sum]
  rw [Finset.sum_congr rfl (fun γ hγ => by rw [MvPolynomial.coeff_smul, coeff_altP hβ (hc γ hγ)])]
  simp [eq_comm]

end Verif
