import Verif.Props.SchurRing
/-!
# Alternants at roots

Values `x_j` with `x_j ^ n = (-1)^(m-1) q` turn the reduction modulo `n` into an identity of alternants.
-/

namespace Verif
open Spec SchurSym Cyl Alt

section
variable {R : Type} [CommRing R] [Algebra ℚ R] {m : ℕ}

/-- the alternant at given values -/
def altR (x : ℕ → R) (γ : Fin (m + 1) → ℕ) : R := (Matrix.of fun i j : Fin (m + 1) => x j ^ γ i).det

theorem altR_alternating (x : ℕ → R) : Alternating (altR (m := m) x) := by
  refine ⟨?_, ?_⟩
  · intro γ σ
    have : (Matrix.of fun i j : Fin (m + 1) => x j ^ (γ ∘ σ) i) = (Matrix.of fun i j : Fin (m + 1) => x j ^ γ i).submatrix σ id := rfl
    rw [altR, this, Matrix.det_permute]
    simp [altR]
  · intro γ i j hij h
    apply Matrix.det_zero_of_row_eq hij
    funext l
    simp [h]

theorem altR_shift {x : ℕ → R} {c : R} {n : ℕ} (hx : ∀ j < m + 1, x j ^ n = c) (γ : Fin (m + 1) → ℕ) (i : Fin (m + 1)) :
    altR x (Function.update γ i (γ i + n)) = c * altR x γ := by
  unfold altR
  have h := Matrix.det_updateRow_smul (Matrix.of fun i j : Fin (m + 1) => x j ^ γ i) i c ((Matrix.of fun i j : Fin (m + 1) => x j ^ γ i) i)
  rw [Matrix.updateRow_eq_self] at h
  rw [← h]
  congr 1
  ext a b : 2
  by_cases h : a = i
  · subst h
    simp [pow_add, hx b b.2, mul_comm]
  · rw [Matrix.updateRow_ne h]
    simp [Function.update_of_ne h]

theorem altR_expand {x : ℕ → R} {q0 : R} {k : ℕ} (hx : ∀ j < m + 1, x j ^ (k + m + 1) = (-1) ^ m * q0) (β : Fin (m + 1) → ℕ) :
    altR x β = ∑ f ∈ boxesV m k, Polynomial.aeval q0 (resM k β f).det * altR x (bt f) := by
  let _ : Module (Polynomial ℚ) R := Module.compHom R (Polynomial.aeval (R := ℚ) q0).toRingHom
  have hs : ∀ (c : Polynomial ℚ) (r : R), c • r = Polynomial.aeval q0 c * r := fun _ _ => rfl
  have h : Periodic (k + m + 1) (altR (m := m) x) := by
    refine ⟨altR_alternating x, fun γ i => ?_⟩
    rw [hs, altR_shift hx]
    simp [cq]
  have := h.expand β
  simpa only [hs] using this

theorem altR_tab (x : ℕ → R) {K : ℕ} {l : List Int} (hl : clsA (m + 1) K l) :
    tabSum x (m + 1) l * altR (m := m) x (bt 0) = altR x (bt (vec m l)) := by
  have hp := hl.1.isPartition
  have h := jacobi_desc x (m + 1) hp (part_of_ge hl.2.1)
  have e1 : (fun i : Fin (m + 1) => m + 1 - 1 - (i : ℕ)) = bt (0 : Fin (m + 1) → ℤ) := by
    funext i
    have := i.2
    simp only [bt, Pi.zero_apply]
    omega
  have e2 : (fun i : Fin (m + 1) => (part l i).toNat + (m + 1 - 1 - (i : ℕ))) = bt (vec m l) := by
    funext i
    have := i.2
    have := hp.part_nonneg i
    simp only [bt, vec]
    omega
  rw [← e1, ← e2]
  exact h

/-- the value of a reduction -/
theorem aeval_Dq {x : ℕ → R} {f : Sym → R} {k : ℕ} (hx : ∀ j < m + 1, x j ^ (k + m + 1) = (-1) ^ m * f .q)
    (hf : ∀ l, clsA (m + 1) k l → f (.S l) = tabSum x (m + 1) l) (β : Fin (m + 1) → ℕ) :
    MvPolynomial.aeval f (ev (Dq m k β)) * altR (m := m) x (bt 0) = altR x β := by
  rw [altR_expand hx β, Dq, map_sum, map_sum, Finset.sum_mul]
  refine Finset.sum_congr rfl (fun g hg => ?_)
  have hb := mem_boxesV.1 hg
  have hc := clsA_lab hb
  rw [Finsupp.smul_single, smul_eq_mul, mul_one, aeval_ev, Finsupp.sum_single_index (by simp), hf _ hc, mul_assoc, altR_tab x hc, vec_lab]

theorem aeval_redq {x : ℕ → R} {f g : Sym → R} {k K : ℕ} (hx : ∀ j < m + 1, x j ^ (k + m + 1) = (-1) ^ m * f .q)
    (hf : ∀ l, clsA (m + 1) k l → f (.S l) = tabSum x (m + 1) l) (hg : ∀ l, clsA (m + 1) K l → g (.S l) = tabSum x (m + 1) l)
    (hq : g .q = f .q) {z : LMod} (hz : ∀ l ∈ z.support, clsA (m + 1) K l) :
    MvPolynomial.aeval f (ev (redq m k z)) * altR (m := m) x (bt 0) = MvPolynomial.aeval g (ev z) * altR (m := m) x (bt 0) := by
  rw [redq, lin, Finsupp.linearCombination_apply, Finsupp.sum, map_sum, map_sum, aeval_ev, Finsupp.sum, Finset.sum_mul, Finset.sum_mul]
  refine Finset.sum_congr rfl (fun l hl => ?_)
  have h1 : altR (m := m) x (bt (vec m l)) = MvPolynomial.aeval f (ev (Dq m k (bt (vec m l)))) * altR (m := m) x (bt 0) :=
    (aeval_Dq hx hf _).symm
  rw [hg l (hz l hl), mul_assoc, altR_tab x (hz l hl), h1, ← mul_assoc, hq, ev_smul, map_mul]
  congr 2
  rw [inq, ← Polynomial.aeval_algHom_apply, MvPolynomial.aeval_X]

end
end Verif
