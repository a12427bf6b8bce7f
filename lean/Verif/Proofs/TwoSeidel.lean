import Verif.Proofs.TwoDeg
import Verif.Proofs.SeidelD
/-!
# The first letter, `OG(n, 2n+2)` with two parameters
-/

namespace Verif
open Spec
namespace TwoProd

section
variable {R : Type*} [CommRing R]

/-- the factor of a word -/
def flip2 (q1 q2 : R) : WordD → R
  | (.a :: _, _) => q1 * q2
  | (.o :: _, i) => qOf q1 q2 i
  | _ => 1

theorem sD_mixed (s : St) {i j : L3} (h : tyOk i j = false) (u w : List L3) : (sD s (u, i) (w, j) : R) = 0 := by
  apply sD_run
  by_contra hc
  have hc' : runB i j s u w = true := by simpa using hc
  have := run_inner (i := i) (j := j) (by rintro rfl; simp [tyOk] at h) (by rintro rfl; cases i <;> simp [tyOk] at h) u w s hc'
  subst this
  cases i <;> simp [tyOk] at h

theorem op2G_flip (q1 q2 x : R) {U W : WordD} (hl : U.1.length = W.1.length) (hU : Lone U) (hW : Lone W) :
    flip2 q1 q2 U * op2G q1 q2 x (flipD U) (flipD W) = flip2 q1 q2 W * op2G q1 q2 x U W := by
  have hm : ∀ s (u w : List L3), gD x s (u, .a) (w, .b) = 0 := fun s u w => gD_mixed x s rfl
  have hm' : ∀ s (u w : List L3), gD x s (u, .b) (w, .a) = 0 := fun s u w => gD_mixed x s rfl
  have sw1 : ∀ s (u w : List L3), gD x s (u, .b) (w, .b) = gD x s (u, .a) (w, .a) := fun s u w => gD_sw x s (u, .a) (w, .a)
  have sw2 : ∀ s (u w : List L3), gD x s (u, .b) (w, .o) = gD x s (u, .a) (w, .o) := fun s u w => gD_sw x s (u, .a) (w, .o)
  have sw3 : ∀ s (u w : List L3), gD x s (u, .o) (w, .b) = gD x s (u, .o) (w, .a) := fun s u w => gD_sw x s (u, .o) (w, .a)
  rcases U with ⟨_ | ⟨p, u⟩, i⟩ <;> rcases W with ⟨_ | ⟨q, w⟩, j⟩
  · simp [flip2, flipD, flipW]
  · simp at hl
  · simp at hl
  · unfold Lone at hU hW
    cases p <;> cases q <;> cases i <;> cases j <;> simp at hU hW <;>
      simp [flip2, flipD, flipW, L3.dual, op2G, opGE, opGO, kerE, kerO, swD, L3.sw, qw, qOf, hm, hm', sw1, sw2, sw3] <;> ring

theorem op2S_flip (q1 q2 : R) {U W : WordD} (hl : U.1.length = W.1.length) (hn : U.1 ≠ []) (hU : Lone U) (hW : Lone W) :
    flip2 q1 q2 U * op2S q1 q2 (flipD U) (flipD W) = flip2 q1 q2 W * op2S q1 q2 U W := by
  have hm : ∀ s (u w : List L3), (sD s (u, .a) (w, .b) : R) = 0 := fun s u w => sD_mixed s rfl u w
  have hm' : ∀ s (u w : List L3), (sD s (u, .b) (w, .a) : R) = 0 := fun s u w => sD_mixed s rfl u w
  have sw1 : ∀ s (u w : List L3), (sD s (u, .b) (w, .b) : R) = -sD s (u, .a) (w, .a) := fun s u w => sD_sw s (u, .a) (w, .a)
  have sw2 : ∀ s (u w : List L3), (sD s (u, .b) (w, .o) : R) = -sD s (u, .a) (w, .o) := fun s u w => sD_sw s (u, .a) (w, .o)
  have sw3 : ∀ s (u w : List L3), (sD s (u, .o) (w, .b) : R) = -sD s (u, .o) (w, .a) := fun s u w => sD_sw s (u, .o) (w, .a)
  rcases U with ⟨_ | ⟨p, u⟩, i⟩ <;> rcases W with ⟨_ | ⟨q, w⟩, j⟩
  · simp at hn
  · simp at hl
  · simp at hl
  · unfold Lone at hU hW
    cases p <;> cases q <;> cases i <;> cases j <;> simp at hU hW <;>
      simp [flip2, flipD, flipW, L3.dual, op2S, opSE, opSO, kerSE, kerSO, swD, L3.sw, qw, qOf, hm, hm', sw1, sw2, sw3] <;> ring

end

open MvPolynomial

section
variable {n : Nat}

theorem M2_flip (hn : 1 ≤ n) (p : Int) {U W : WordD} (hU : U ∈ WdD n 1) (hW : W ∈ WdD n 1) :
    flip2 (X .q1) (X .q2) U * M2 p (flipD U) (flipD W) = flip2 (X .q1) (X .q2) W * M2 p U W := by
  have hl : U.1.length = W.1.length := by rw [mem_WdD] at hU hW; omega
  have hne : U.1 ≠ [] := by
    intro h0
    rw [mem_WdD, h0] at hU
    simp at hU; omega
  have e1 := op2G_flip (Polynomial.C (X .q1 : P)) (Polynomial.C (X .q2)) Polynomial.X hl (lone_of_mem hU) (lone_of_mem hW)
  have e2 := op2S_flip (X .q1 : P) (X .q2) hl hne (lone_of_mem hU) (lone_of_mem hW)
  have eF : ∀ V : WordD, flip2 (Polynomial.C (X .q1 : P)) (Polynomial.C (X .q2)) V = Polynomial.C (flip2 (X .q1) (X .q2) V) := by
    rintro ⟨_ | ⟨q, v⟩, i⟩
    · simp [flip2]
    · cases q <;> cases i <;> simp [flip2, qOf]
  rw [eF, eF] at e1
  have e3 := congrArg (fun f => f.coeff p.natAbs) e1
  simp only [Polynomial.coeff_C_mul] at e3
  unfold M2
  linear_combination C (alD 1 p) * e3 + C (alD 1 p) * C (beD 1 p) * e2

/-- a permutation of the words with a factor, on vectors; `σ` is the inverse permutation -/
noncomputable def twist (σ : WordD → WordD) (F : WordD → P) : (WordD → P) →ₗ[P] (WordD → P) where
  toFun f W := F (σ W) * f (σ W)
  map_add' f g := by funext W; simp [mul_add]
  map_smul' a f := by funext W; simp; ring

variable {σ σ' : WordD → WordD} {F : WordD → P}

theorem twist_bas (h2 : ∀ U, σ' (σ U) = U) (h2' : ∀ U, σ (σ' U) = U) (hσ : ∀ U ∈ WdD n 1, σ U ∈ WdD n 1) {U : WordD} (hU : U ∈ WdD n 1) :
    twist σ' F (bas n (labD U)) = F U • bas n (labD (σ U)) := by
  funext W
  show F (σ' W) * bas n (labD U) (σ' W) = F U * bas n (labD (σ U)) W
  rw [bas_apply hU, bas_apply (hσ U hU)]
  by_cases h : W = σ U
  · rw [if_pos h, h, h2, if_pos rfl]
  · rw [if_neg h, if_neg (fun h' => h (by rw [← h', h2'])), mul_zero, mul_zero]

theorem twist_T2 (h2 : ∀ U, σ' (σ U) = U) (h2' : ∀ U, σ (σ' U) = U) (hσ : ∀ U ∈ WdD n 1, σ U ∈ WdD n 1)
    (hσ' : ∀ U ∈ WdD n 1, σ' U ∈ WdD n 1) {p : Int}
    (hM : ∀ U ∈ WdD n 1, ∀ W ∈ WdD n 1, F U * M2 p (σ U) (σ W) = F W * M2 p U W) (f : WordD → P) :
    twist σ' F (T2 n p f) = T2 n p (twist σ' F f) := by
  have hs : ∀ (K : WordD → P), ∑ W ∈ WdD n 1, K (σ W) = ∑ W ∈ WdD n 1, K W := fun K =>
    Finset.sum_bij' (fun W _ => σ W) (fun W _ => σ' W) hσ hσ' (fun W _ => h2 W) (fun W _ => h2' W) (fun _ _ => rfl)
  funext W
  show F (σ' W) * T2 n p f (σ' W) = T2 n p (fun W => F (σ' W) * f (σ' W)) W
  rw [T2_apply, T2_apply]
  by_cases hW : W ∈ WdD n 1
  · rw [if_pos hW, if_pos (hσ' W hW), Finset.mul_sum, ← hs (fun U => F (σ' U) * f (σ' U) * M2 p U W)]
    refine Finset.sum_congr rfl (fun U hU => ?_)
    have := hM U hU (σ' W) (hσ' W hW)
    rw [h2'] at this
    rw [h2]
    linear_combination -f U * this
  · rw [if_neg hW, if_neg (fun h => hW (by have := hσ _ h; rwa [h2'] at this)), mul_zero]

theorem twist_act2 (hn : 1 ≤ n) (h2 : ∀ U, σ' (σ U) = U) (h2' : ∀ U, σ (σ' U) = U) (hσ : ∀ U ∈ WdD n 1, σ U ∈ WdD n 1)
    (hσ' : ∀ U ∈ WdD n 1, σ' U ∈ WdD n 1)
    (hM : ∀ p, ∀ U ∈ WdD n 1, ∀ W ∈ WdD n 1, F U * M2 p (σ U) (σ W) = F W * M2 p U W) (a : P) (f : WordD → P) :
    twist σ' F (act2 hn a f) = act2 hn a (twist σ' F f) := by
  induction a using MvPolynomial.induction_on generalizing f with
  | C c => rw [act2_C, act2_C, map_smul]
  | add p r hp hr => rw [map_add, LinearMap.add_apply, LinearMap.add_apply, map_add, hp, hr]
  | mul_X p s hp =>
    rw [map_mul, Module.End.mul_apply, Module.End.mul_apply, hp]
    congr 1
    unfold act2
    rw [commAct_X]
    rcases op2_cases n s with h | h | ⟨p, h⟩ <;> rw [h]
    · rw [Module.algebraMap_end_apply, Module.algebraMap_end_apply, map_smul]
    · rw [LinearMap.zero_apply, LinearMap.zero_apply, map_zero]
    · exact twist_T2 h2 h2' hσ hσ' (hM p) f

theorem str_twist (hn : 1 ≤ n) (h2 : ∀ U, σ' (σ U) = U) (h2' : ∀ U, σ (σ' U) = U) (hσ : ∀ U ∈ WdD n 1, σ U ∈ WdD n 1)
    (hσ' : ∀ U ∈ WdD n 1, σ' U ∈ WdD n 1)
    (hM : ∀ p, ∀ U ∈ WdD n 1, ∀ W ∈ WdD n 1, F U * M2 p (σ U) (σ W) = F W * M2 p U W) {N : WordD} (hN : N ∈ WdD n 1) (h0 : labD N = [])
    (hF : F N = 1) {V : WordD} (hV : V ∈ WdD n 1) : str hn (σ N) V = F V • bas n (labD (σ V)) := by
  rw [← twist_bas h2 h2' hσ hV, ← act_G hn _ (lab_cls hV), twist_act2 hn h2 h2' hσ hσ' hM]
  have e : twist σ' F (bas n []) = bas n (labD (σ N)) := by
    rw [← h0, twist_bas h2 h2' hσ hN, hF, one_smul]
  rw [e]
  funext W
  rw [str_comm hn (hσ N hN) hV]
  rfl

theorem ev2_bas {U : WordD} (hU : U ∈ WdD n 1) (a : P) : ev2 n (a • bas n (labD U)) = a * X (.S (labD U)) := by
  rw [ev2_smul]
  congr 1
  unfold ev2
  rw [Finset.sum_eq_single U, bas_apply hU, if_pos rfl, one_mul]
  · intro W _ h
    rw [bas_apply hU, if_neg h, zero_mul]
  · exact fun h => absurd hU h

end
end TwoProd
end Verif
