import Mathlib.LinearAlgebra.LinearIndependent.Lemmas
import Mathlib.LinearAlgebra.Matrix.NonsingularInverse
import Mathlib.LinearAlgebra.Matrix.ToLin
import Mathlib.Algebra.FreeMonoid.Basic
import Mathlib.Algebra.BigOperators.Field
/-!
# Characters of a Frobenius algebra given by structure constants

`N a b c` is the coefficient of `c` in the product of `a` and `b`, `D` the duality of the basis, `f i` for `i` in `ι` as many different characters as
there are basis elements.
-/

namespace Verif.Frob
variable {K T ι : Type*} [Field K] [Fintype T] [Fintype ι] [DecidableEq ι] [DecidableEq T] {N : T → T → T → K} {f : ι → T → K} {D : T → T} {o : T}
  (hmul : ∀ i a b, f i a * f i b = ∑ c, N a b c * f i c) (hone : ∀ i, f i o = 1) (hinj : Function.Injective f)
  (hcard : Fintype.card ι = Fintype.card T) (hD : ∀ a, D (D a) = a) (hN : ∀ a b c, N a b c = N b (D c) (D a))

include hmul hone in
omit [Fintype ι] [DecidableEq ι] [DecidableEq T] in
/-- a product of basis elements is a linear combination of basis elements, in the same way for all characters -/
theorem word_lin (w : FreeMonoid T) : ∃ z : T → K, ∀ i, FreeMonoid.lift (f i) w = ∑ c, z c * f i c := by
  classical
  induction w using FreeMonoid.inductionOn' with
  | one => exact ⟨fun c => if c = o then 1 else 0, fun i => by simp [hone]⟩
  | of_mul x xs ih =>
    obtain ⟨z, hz⟩ := ih
    refine ⟨fun c => ∑ b, z b * N x b c, fun i => ?_⟩
    rw [map_mul, FreeMonoid.lift_eval_of, hz, Finset.mul_sum]
    simp only [Finset.sum_mul]
    rw [Finset.sum_comm]
    refine Finset.sum_congr rfl (fun b _ => ?_)
    rw [mul_left_comm, hmul, Finset.mul_sum]
    exact Finset.sum_congr rfl (fun c _ => by ring)

include hmul hone hinj in
omit [DecidableEq ι] [DecidableEq T] in
/-- different characters are linearly independent -/
theorem indep {v : ι → K} (hv : ∀ a, ∑ i, v i * f i a = 0) : ∀ i, v i = 0 := by
  have h1 := linearIndependent_monoidHom (FreeMonoid T) K
  have hg : Function.Injective (fun i => FreeMonoid.lift (f i)) := fun i j h => hinj (FreeMonoid.lift.injective h)
  have h2 := h1.comp _ hg
  rw [Fintype.linearIndependent_iff] at h2
  refine h2 v ?_
  funext w
  obtain ⟨z, hz⟩ := word_lin hmul hone w
  simp only [Finset.sum_apply, Pi.smul_apply, smul_eq_mul, Function.comp_apply, hz, Pi.zero_apply, Finset.mul_sum]
  rw [Finset.sum_comm]
  refine Finset.sum_eq_zero (fun c _ => ?_)
  rw [show ∑ i, v i * (z c * f i c) = z c * ∑ i, v i * f i c by rw [Finset.mul_sum]; exact Finset.sum_congr rfl (fun i _ => by ring), hv, mul_zero]

/-- the value of the Euler class -/
def euler (f : ι → T → K) (D : T → T) (i : ι) : K := ∑ a, f i a * f i (D a)

include hmul hinj hD hN in
omit [Fintype ι] [DecidableEq ι] [DecidableEq T] in
/-- different characters are orthogonal -/
theorem orth {i j : ι} (hij : i ≠ j) : ∑ a, f i a * f j (D a) = 0 := by
  have hb : Function.Bijective D := ⟨fun a b h => by rw [← hD a, h, hD b], fun a => ⟨D a, hD a⟩⟩
  have key : ∀ a, f i a * ∑ c, f i c * f j (D c) = f j a * ∑ c, f i c * f j (D c) := by
    intro a
    rw [Finset.mul_sum, Finset.mul_sum]
    have e1 : ∀ c, f i a * (f i c * f j (D c)) = ∑ d, N c a d * f i d * f j (D c) := fun c => by
      rw [← mul_assoc, mul_comm (f i a), hmul, Finset.sum_mul]
    have e2 : ∀ d, f j a * (f i d * f j (D d)) = ∑ c, N c a d * f i d * f j (D c) := fun d => by
      rw [mul_left_comm, hmul, Finset.mul_sum, ← (Equiv.ofBijective D hb).sum_comp]
      refine Finset.sum_congr rfl (fun c _ => ?_)
      rw [hN c a d, Equiv.ofBijective_apply]
      ring
    rw [Finset.sum_congr rfl (fun c _ => e1 c), Finset.sum_congr rfl (fun d _ => e2 d), Finset.sum_comm]
  by_contra h
  exact hij (hinj (funext fun a => mul_right_cancel₀ h (key a)))

include hmul hone hinj hD hN hcard in
theorem euler_ne (i : ι) : euler f D i ≠ 0 := by
  intro h
  obtain ⟨E⟩ : Nonempty (T ≃ ι) := Fintype.card_eq.1 hcard.symm
  obtain ⟨M, hM⟩ : ∃ M : Matrix ι ι K, M = fun j s => f j (E.symm s) := ⟨_, rfl⟩
  have hu : IsUnit M := by
    rw [← Matrix.linearIndependent_rows_iff_isUnit, Fintype.linearIndependent_iff]
    intro v hv
    refine indep hmul hone hinj (v := v) (fun a => ?_)
    have := congrFun hv (E a)
    simpa [hM, Matrix.row] using this
  have hb : Function.Bijective D := ⟨fun a b h => by rw [← hD a, h, hD b], fun a => ⟨D a, hD a⟩⟩
  have h0 : M.mulVec (fun s => f i (D (E.symm s))) = 0 := by
    funext j
    rw [Matrix.mulVec, dotProduct, hM, Pi.zero_apply]
    show ∑ s, f j (E.symm s) * f i (D (E.symm s)) = 0
    rw [E.symm.sum_comp (fun a => f j a * f i (D a))]
    by_cases hij : j = i
    · subst hij; exact h
    · exact orth hmul hinj hD hN hij
  have h1 := Matrix.mulVec_injective_iff_isUnit.2 hu (h0.trans (Matrix.mulVec_zero M).symm)
  have h2 := congrFun h1 (E (D o))
  simp only [Equiv.symm_apply_apply, hD, hone, Pi.zero_apply] at h2
  exact one_ne_zero h2

include hmul hone hinj hD hN hcard in
/-- the structure constants from the characters -/
theorem formula (a b c : T) : N a b c = ∑ i, f i a * f i b * f i (D c) / euler f D i := by
  have h1 : (Matrix.of (fun i a => f i a) : Matrix ι T K) * (Matrix.of (fun a i => f i (D a) / euler f D i) : Matrix T ι K) = 1 := by
    ext i j
    rw [Matrix.mul_apply, Matrix.one_apply]
    simp only [Matrix.of_apply, ← mul_div_assoc]
    rw [← Finset.sum_div]
    by_cases hij : i = j
    · subst hij
      rw [if_pos rfl]
      exact div_self (euler_ne hmul hone hinj hcard hD hN i)
    · rw [if_neg hij, orth hmul hinj hD hN hij, zero_div]
  have h2 := (Matrix.mul_eq_one_comm_of_card_eq _ _ _ hcard).1 h1
  have h3 : ∀ d, ∑ i, f i (D c) / euler f D i * f i d = if c = d then 1 else 0 := fun d => by
    have := congrFun (congrFun h2 c) d
    rwa [Matrix.mul_apply, Matrix.one_apply] at this
  have e1 : ∀ i, f i a * f i b * f i (D c) / euler f D i = ∑ d, N a b d * (f i (D c) / euler f D i * f i d) := fun i => by
    rw [hmul, mul_div_assoc, Finset.sum_mul]
    exact Finset.sum_congr rfl (fun d _ => by ring)
  rw [Finset.sum_congr rfl (fun i _ => e1 i), Finset.sum_comm]
  simp only [← Finset.mul_sum, h3]
  simp

end Verif.Frob
