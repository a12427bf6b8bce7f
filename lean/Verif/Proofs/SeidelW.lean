import Verif.Proofs.RingBC
import Verif.Proofs.RingQB
import Verif.Proofs.WordDual
import Verif.Proofs.RingHom
/-!
# Operators that commute with the quantum Pieri operators

A permutation of the words that multiplies the matrix entries by a ratio of powers of `q` gives a linear map that commutes
with all products; it is the multiplication with the image of the unit.
-/

namespace Verif
open Spec

namespace PieriSys
variable {pieri : Int → List Int → Except PyErr Poly} {spc : Int → Prop} {cls : List Int → Prop} (Y : PieriSys pieri spc cls)

theorem act_map (T : LMod →ₗ[Polynomial ℚ] LMod) (hT : ∀ p, spc p → ∀ x, T (lin (Y.t p) x) = lin (Y.t p) (T x)) (g : P) :
    ∀ x, T (Y.act g x) = Y.act g (T x) := by
  induction g using MvPolynomial.induction_on with
  | C c => intro x; rw [Y.act_C, Y.act_C, map_smul]
  | add f g hf hg => intro x; rw [map_add, LinearMap.add_apply, map_add, hf, hg, LinearMap.add_apply]
  | mul_X f s hf =>
    intro x
    rw [map_mul, Module.End.mul_apply, Module.End.mul_apply, hf, Y.act_X]
    congr 1
    rcases Y.op_cases s with h | h | ⟨p, h1, h2⟩
    · rw [h, Module.algebraMap_end_apply, Module.algebraMap_end_apply, map_smul]
    · rw [h, LinearMap.zero_apply, LinearMap.zero_apply, map_zero]
    · rw [h2]
      exact hT p h1 x

end PieriSys

namespace GiamSys
variable {k : ℤ} {pieri : Int → List Int → Except PyErr Poly} {spc : Int → Prop} {cls : List Int → Prop} (Y : GiamSys k pieri spc cls)

theorem map_eq_prod (T : LMod →ₗ[Polynomial ℚ] LMod) (hT : ∀ p, spc p → ∀ x, T (lin (Y.t p) x) = lin (Y.t p) (T x)) {x : LMod}
    (hx : ∀ l ∈ x.support, cls l) : T x = Y.prod x (T (Finsupp.single [] 1)) := by
  unfold prod
  rw [← Y.toPieriSys.act_map T hT, Y.act_GL hx]

end GiamSys

section
variable {ι : Type*} [DecidableEq ι] (W : Finset ι) (lab : ι → List Int) (σ : ι → ι) (ε : ι → ℕ)

/-- the map of classes of a map of words -/
noncomputable def twM (l : List Int) : LMod :=
  ∑ u ∈ W.filter (fun u => lab u = l), Finsupp.single (lab (σ u)) (Polynomial.X ^ ε u)

variable {W lab}

theorem twM_lab (hinj : ∀ u ∈ W, ∀ w ∈ W, lab u = lab w → u = w) {u : ι} (hu : u ∈ W) :
    twM W lab σ ε (lab u) = Finsupp.single (lab (σ u)) (Polynomial.X ^ ε u) := by
  unfold twM
  have : W.filter (fun u' => lab u' = lab u) = {u} := by
    ext u'
    simp only [Finset.mem_filter, Finset.mem_singleton]
    exact ⟨fun h => hinj u' h.1 u hu h.2, fun h => by subst h; exact ⟨hu, rfl⟩⟩
  rw [this, Finset.sum_singleton]

theorem twM_ne {l : List Int} (h : ∀ u ∈ W, lab u ≠ l) : twM W lab σ ε l = 0 := by
  unfold twM
  rw [Finset.filter_false_of_mem h, Finset.sum_empty]

theorem comm_of_single {f g : List Int → LMod} (h : ∀ l, lin f (g l) = lin g (f l)) (x : LMod) :
    lin f (lin g x) = lin g (lin f x) := by
  have e : ∀ (f : List Int → LMod) l, lin f (Finsupp.single l 1) = f l := fun f l => by
    rw [lin, Finsupp.linearCombination_single, one_smul]
  rw [lmod_sum x, map_sum, map_sum, map_sum, map_sum]
  refine Finset.sum_congr rfl fun l _ => ?_
  rw [map_smul, map_smul, map_smul, map_smul, e, e, h]

theorem twM_comm (hinj : ∀ u ∈ W, ∀ w ∈ W, lab u = lab w → u = w) (σ' : ι → ι) (hσ : ∀ u ∈ W, σ u ∈ W) (hσ' : ∀ u ∈ W, σ' u ∈ W)
    (h1 : ∀ u ∈ W, σ' (σ u) = u) (h2 : ∀ u ∈ W, σ (σ' u) = u) (M : Nat → ι → ι → Polynomial ℚ) {p : Nat}
    (h : ∀ u ∈ W, ∀ w ∈ W, Polynomial.X ^ ε u * M p (σ u) (σ w) = Polynomial.X ^ ε w * M p u w) :
    ∀ x, lin (twM W lab σ ε) (lin (tM W lab M p) x) = lin (tM W lab M p) (lin (twM W lab σ ε) x) := by
  refine comm_of_single (fun l => ?_)
  by_cases hl : ∃ u ∈ W, lab u = l
  · obtain ⟨u, hu, rfl⟩ := hl
    rw [tM_lab M hinj p hu, twM_lab σ ε hinj hu, map_sum, lin, lin, Finsupp.linearCombination_single, tM_lab M hinj p (hσ u hu),
      Finset.smul_sum]
    refine Finset.sum_bij' (fun w _ => σ w) (fun w _ => σ' w) hσ hσ' h1 h2 ?_
    intro w hw
    rw [Finsupp.linearCombination_single, twM_lab σ ε hinj hw, Finsupp.smul_single, Finsupp.smul_single, smul_eq_mul, smul_eq_mul,
      h u hu w hw, mul_comm]
  · push Not at hl
    rw [tM_ne M p hl, twM_ne σ ε hl, map_zero, map_zero]

end

/-! ### type B: the first letter -/

/-- exchanges the first and the last coordinate -/
def flipW : List L3 → List L3
  | [] => []
  | p :: u => p.dual :: u

theorem flipW_flipW (u : List L3) : flipW (flipW u) = u := by
  cases u with
  | nil => rfl
  | cons p u => simp only [flipW, L3.dual_dual]

theorem flipW_mem {n k : Nat} {u : List L3} (h : u ∈ Wd n k) : flipW u ∈ Wd n k := by
  rw [mem_Wd] at h ⊢
  cases u with
  | nil => exact h
  | cons p u => cases p <;> simpa [flipW, L3.dual, colsW] using h

/-- the power of `q` -/
def flipE (k : Nat) : List L3 → ℕ
  | .a :: _ => if k = 0 then 1 else 2
  | .o :: _ => 1
  | _ => 0

theorem opQ_flip {R : Type*} [CommRing R] (c h x : R) {k : ℕ} {u w : List L3} (hu : k = 0 → L3.o ∉ u) (hw : k = 0 → L3.o ∉ w) :
    h ^ flipE k u * opQ c h (if k = 0 then h else h ^ 2) x (flipW u) (flipW w) =
      h ^ flipE k w * opQ c h (if k = 0 then h else h ^ 2) x u w := by
  cases u with
  | nil => cases w <;> simp [opQ, flipW, flipE]
  | cons p u =>
    cases w with
    | nil => cases p <;> simp [opQ, flipW, L3.dual]
    | cons r w =>
      by_cases hk : k = 0
      · have h1 := hu hk
        have h2 := hw hk
        cases p <;> cases r <;> simp [opQ, flipW, L3.dual, flipE, hk] at h1 h2 ⊢
      · cases p <;> cases r <;> simp [opQ, flipW, L3.dual, flipE, hk] <;> ring

theorem no_o {n : Nat} {u : List L3} (h : u ∈ Wd n 0) : L3.o ∉ u := by
  rw [mem_Wd] at h
  obtain ⟨-, h⟩ := h
  induction u with
  | nil => simp
  | cons p u ih => cases p <;> simp [colsW] at h ⊢ <;> exact ih h

open Polynomial in
theorem MQB_flip (p : Nat) {n k : Nat} {u w : List L3} (hu : u ∈ Wd n k) (hw : w ∈ Wd n k) :
    X ^ flipE k u * MQB k p (flipW u) (flipW w) = X ^ flipE k w * MQB k p u w := by
  unfold MQB
  have := opQ_flip (C 2) (C X) (X : (Polynomial ℚ)[X]) (k := k) (u := u) (w := w) (fun h => no_o (by rw [← h]; exact hu))
    (fun h => no_o (by rw [← h]; exact hw))
  have e : (C (if k = 0 then X else X ^ 2) : (Polynomial ℚ)[X]) = if k = 0 then C X else C X ^ 2 := by
    split <;> simp
  rw [e, mul_left_comm, mul_left_comm (X ^ flipE k w)]
  congr 1
  rw [← Polynomial.coeff_C_mul, ← Polynomial.coeff_C_mul, C_pow, C_pow, this]

end Verif
