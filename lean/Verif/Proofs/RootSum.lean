import Verif.Proofs.Roots
import Mathlib.RingTheory.RootsOfUnity.Basic
import Mathlib.Algebra.BigOperators.Ring.Finset
/-!
# Sums over all roots
-/

namespace Verif
open Spec SchurSym Cyl

section
variable {K : Type} [Field K]

theorem pow_sum_zero {n : ℕ} {ζ : Fin n → K} (hi : Function.Injective ζ) {ε : K} (h0 : ε ≠ 0) (hε : ∀ i, ζ i ^ n = ε) {d : ℕ} (hd : 0 < d) (hdn : d < n) :
    ∑ i, ζ i ^ d = 0 := by
  classical
  have hn : 0 < n := by omega
  set T := (Polynomial.nthRoots n ε).toFinset with hT
  have hmem : ∀ y, y ∈ T ↔ y ^ n = ε := fun y => by rw [hT, Multiset.mem_toFinset, Polynomial.mem_nthRoots hn]
  have hZ : Finset.univ.image ζ = T := by
    apply Finset.eq_of_subset_of_card_le
    · intro y hy
      obtain ⟨i, _, rfl⟩ := Finset.mem_image.1 hy
      exact (hmem _).2 (hε i)
    · rw [Finset.card_image_of_injective _ hi, Finset.card_univ, Fintype.card_fin]
      exact (Multiset.toFinset_card_le _).trans (Polynomial.card_nthRoots n ε)
  have hnz : ∀ i, ζ i ≠ 0 := by
    intro i h
    have := hε i
    rw [h, zero_pow (by omega)] at this
    exact h0 this.symm
  have hs : ∑ i, ζ i ^ d = ∑ y ∈ T, y ^ d := by
    rw [← hZ, Finset.sum_image (fun a _ b _ h => hi h)]
  obtain ⟨i, hne⟩ : ∃ i, ζ i ^ d ≠ ζ ⟨0, hn⟩ ^ d := by
    by_contra hc
    push Not at hc
    have : (Finset.univ.image ζ).card ≤ d := by
      have hsub : Finset.univ.image ζ ⊆ (Polynomial.nthRoots d (ζ ⟨0, hn⟩ ^ d)).toFinset := by
        intro y hy
        obtain ⟨i, _, rfl⟩ := Finset.mem_image.1 hy
        rw [Multiset.mem_toFinset, Polynomial.mem_nthRoots hd]
        exact hc i
      exact (Finset.card_le_card hsub).trans ((Multiset.toFinset_card_le _).trans (Polynomial.card_nthRoots _ _))
    rw [Finset.card_image_of_injective _ hi, Finset.card_univ, Fintype.card_fin] at this
    omega
  set ω := ζ i / ζ ⟨0, hn⟩ with hω
  have hωn : ω ^ n = 1 := by rw [hω, div_pow, hε, hε, div_self h0]
  have hω0 : ω ≠ 0 := div_ne_zero (hnz _) (hnz _)
  have hperm : ∑ y ∈ T, (ω * y) ^ d = ∑ y ∈ T, y ^ d := by
    refine Finset.sum_bij' (fun y _ => ω * y) (fun y _ => ω⁻¹ * y) ?_ ?_ ?_ ?_ (fun _ _ => rfl)
    · intro y hy
      rw [hmem] at hy ⊢
      rw [mul_pow, hωn, one_mul, hy]
    · intro y hy
      rw [hmem] at hy ⊢
      rw [mul_pow, inv_pow, hωn, inv_one, one_mul, hy]
    · intro y _
      rw [inv_mul_cancel_left₀ hω0]
    · intro y _
      rw [mul_inv_cancel_left₀ hω0]
  rw [hs]
  have h2 : ω ^ d * ∑ y ∈ T, y ^ d = ∑ y ∈ T, y ^ d := by
    conv_rhs => rw [← hperm]
    rw [Finset.mul_sum]
    exact Finset.sum_congr rfl (fun y _ => by rw [mul_pow])
  have h3 : (ω ^ d - 1) * ∑ y ∈ T, y ^ d = 0 := by rw [sub_mul, one_mul, h2, sub_self]
  rcases mul_eq_zero.1 h3 with h | h
  · exfalso
    apply hne
    rw [hω, div_pow, sub_eq_zero, div_eq_one_iff_eq (pow_ne_zero _ (hnz _))] at h
    exact h
  · exact h

theorem root_sum {n : ℕ} {ζ : Fin n → K} (hi : Function.Injective ζ) {ε : K} (h0 : ε ≠ 0) (hε : ∀ i, ζ i ^ n = ε) {b c : ℕ} (hb : b < n) (hc : c < n) :
    ∑ i, ζ i ^ b * (ζ i)⁻¹ ^ c = if b = c then (n : K) else 0 := by
  have hnz : ∀ i, ζ i ≠ 0 := by
    intro i h
    have := hε i
    rw [h, zero_pow (by omega)] at this
    exact h0 this.symm
  split
  · rename_i h
    subst h
    have : ∀ i, ζ i ^ b * (ζ i)⁻¹ ^ b = 1 := fun i => by rw [← mul_pow, mul_inv_cancel₀ (hnz i), one_pow]
    simp only [this, Finset.sum_const, Finset.card_univ, Fintype.card_fin, nsmul_eq_mul, mul_one]
  · rename_i h
    rcases lt_or_gt_of_ne h with h | h
    · have : ∀ i, ζ i ^ b * (ζ i)⁻¹ ^ c = (ζ i)⁻¹ ^ (c - b) := fun i => by
        conv_lhs => rw [show c = b + (c - b) by omega]
        rw [pow_add, ← mul_assoc, ← mul_pow, mul_inv_cancel₀ (hnz i), one_pow, one_mul]
      simp only [this]
      exact pow_sum_zero (ζ := fun i => (ζ i)⁻¹) (fun a b h => hi (inv_injective h)) (inv_ne_zero h0) (fun i => by rw [inv_pow, hε]) (by omega) (by omega)
    · have : ∀ i, ζ i ^ b * (ζ i)⁻¹ ^ c = ζ i ^ (b - c) := fun i => by
        conv_lhs => rw [show b = c + (b - c) by omega]
        rw [pow_add, mul_right_comm, ← mul_pow, mul_inv_cancel₀ (hnz i), one_pow, one_mul]
      simp only [this]
      exact pow_sum_zero hi h0 hε (by omega) (by omega)

variable {m : ℕ}

/-- The values `ζ_(I_0), …, ζ_(I_(a-1))` of a tuple of `a` indices. -/
def Spec.pick {n a : ℕ} (ζ : Fin n → K) (I : Fin a → Fin n) (j : ℕ) : K := if h : j < a then ζ (I ⟨j, h⟩) else 0

theorem altR_pick {n : ℕ} (ζ : Fin n → K) (I : Fin (m + 1) → Fin n) (γ : Fin (m + 1) → ℕ) :
    altR (pick ζ I) γ = ∑ σ : Equiv.Perm (Fin (m + 1)), ((Equiv.Perm.sign σ : ℤ) : K) * ∏ j, ζ (I j) ^ γ (σ j) := by
  unfold altR
  rw [Matrix.det_apply']
  refine Finset.sum_congr rfl (fun σ _ => ?_)
  congr 1
  refine Finset.prod_congr rfl (fun j _ => ?_)
  simp only [Matrix.of_apply, pick, j.2, dif_pos]

theorem anti_perm {β γ : Fin (m + 1) → ℕ} (hβ : StrictAnti β) (hγ : StrictAnti γ) {σ τ : Equiv.Perm (Fin (m + 1))} (h : ∀ j, β (σ j) = γ (τ j)) :
    β = γ ∧ σ = τ := by
  have hr : Set.range β = Set.range γ := by
    have h1 : Set.range (β ∘ σ) = Set.range (γ ∘ τ) := congrArg Set.range (funext h)
    rwa [σ.surjective.range_comp, τ.surjective.range_comp] at h1
  have hmono : ∀ {f : Fin (m + 1) → ℕ}, StrictAnti f → StrictMono (f ∘ Fin.rev) := fun hf i j hij => hf (Fin.rev_lt_rev.2 hij)
  have h2 : β ∘ Fin.rev = γ ∘ Fin.rev := by
    apply ((hmono hβ).range_inj (hmono hγ)).1
    rw [Fin.rev_surjective.range_comp, Fin.rev_surjective.range_comp, hr]
  have h3 : β = γ := by
    funext i
    have := congrFun h2 i.rev
    simpa using this
  subst h3
  exact ⟨rfl, Equiv.ext (fun j => hβ.injective (h j))⟩

/-- orthogonality of alternants -/
theorem alt_orth {n : ℕ} {ζ : Fin n → K} (hi : Function.Injective ζ) {ε : K} (h0 : ε ≠ 0) (hε : ∀ i, ζ i ^ n = ε) {β γ : Fin (m + 1) → ℕ}
    (hβ : StrictAnti β) (hγ : StrictAnti γ) (hb : ∀ i, β i < n) (hc : ∀ i, γ i < n) :
    ∑ I : Fin (m + 1) → Fin n, altR (pick ζ I) β * altR (pick (fun i => (ζ i)⁻¹) I) γ =
      if β = γ then (n : K) ^ (m + 1) * ((m + 1).factorial : K) else 0 := by
  classical
  have e1 : ∀ σ τ : Equiv.Perm (Fin (m + 1)), ∑ I : Fin (m + 1) → Fin n, (∏ j, ζ (I j) ^ β (σ j)) * ∏ j, (ζ (I j))⁻¹ ^ γ (τ j) =
      if β = γ ∧ σ = τ then (n : K) ^ (m + 1) else 0 := by
    intro σ τ
    have h1 : ∀ I : Fin (m + 1) → Fin n, (∏ j, ζ (I j) ^ β (σ j)) * ∏ j, (ζ (I j))⁻¹ ^ γ (τ j) =
        ∏ j, (fun j i => ζ i ^ β (σ j) * (ζ i)⁻¹ ^ γ (τ j)) j (I j) := fun I => by rw [← Finset.prod_mul_distrib]
    simp only [h1]
    have h2 := Finset.prod_univ_sum (fun _ : Fin (m + 1) => (Finset.univ : Finset (Fin n))) (fun j i => ζ i ^ β (σ j) * (ζ i)⁻¹ ^ γ (τ j))
    rw [Fintype.piFinset_univ] at h2
    rw [← h2]
    simp only [root_sum hi h0 hε (hb _) (hc _)]
    split
    · rename_i h
      obtain ⟨rfl, rfl⟩ := h
      simp
    · rename_i h
      have : ∃ j, β (σ j) ≠ γ (τ j) := by
        by_contra hcon
        push Not at hcon
        exact h (anti_perm hβ hγ hcon)
      obtain ⟨j, hj⟩ := this
      exact Finset.prod_eq_zero (Finset.mem_univ j) (if_neg hj)
  simp only [altR_pick]
  have e2 : ∀ I : Fin (m + 1) → Fin n,
      (∑ σ : Equiv.Perm (Fin (m + 1)), ((Equiv.Perm.sign σ : ℤ) : K) * ∏ j, ζ (I j) ^ β (σ j)) *
        (∑ τ : Equiv.Perm (Fin (m + 1)), ((Equiv.Perm.sign τ : ℤ) : K) * ∏ j, (ζ (I j))⁻¹ ^ γ (τ j)) =
      ∑ σ : Equiv.Perm (Fin (m + 1)), ∑ τ : Equiv.Perm (Fin (m + 1)), ((Equiv.Perm.sign σ : ℤ) : K) * ((Equiv.Perm.sign τ : ℤ) : K) *
        ((∏ j, ζ (I j) ^ β (σ j)) * ∏ j, (ζ (I j))⁻¹ ^ γ (τ j)) := by
    intro I
    rw [Finset.sum_mul_sum]
    refine Finset.sum_congr rfl (fun σ _ => Finset.sum_congr rfl (fun τ _ => by ring))
  simp only [e2]
  rw [Finset.sum_comm]
  have e3 : ∀ σ : Equiv.Perm (Fin (m + 1)), ∑ I : Fin (m + 1) → Fin n, ∑ τ : Equiv.Perm (Fin (m + 1)),
      ((Equiv.Perm.sign σ : ℤ) : K) * ((Equiv.Perm.sign τ : ℤ) : K) * ((∏ j, ζ (I j) ^ β (σ j)) * ∏ j, (ζ (I j))⁻¹ ^ γ (τ j)) =
      if β = γ then (n : K) ^ (m + 1) else 0 := by
    intro σ
    rw [Finset.sum_comm]
    simp only [← Finset.mul_sum, e1]
    have hsg : ((Equiv.Perm.sign σ : ℤ) : K) * ((Equiv.Perm.sign σ : ℤ) : K) = 1 := by
      rw [← Int.cast_mul, ← Units.val_mul, Int.units_mul_self]; simp
    by_cases hbc : β = γ
    · simp [hbc, hsg]
    · simp [hbc]
  simp only [e3, Finset.sum_const, Finset.card_univ, Fintype.card_perm, Fintype.card_fin]
  split
  · rw [nsmul_eq_mul, mul_comm]
  · simp

end
end Verif
