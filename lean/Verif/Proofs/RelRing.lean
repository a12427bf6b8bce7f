import Verif.Proofs.RelationsQ
import Verif.Proofs.RingOps
import Verif.Proofs.RingHom
import Mathlib.Algebra.BigOperators.NatAntidiagonal
import Mathlib.Tactic.Module
/-!
# From relations between matrices to relations in the rings
-/

namespace Verif
open Spec

/-- a sum over pairs with given sum, for a symmetric function -/
theorem sum_antidiag_symm {M : Type*} [AddCommGroup M] (g : ℕ → ℕ → M) (hg : ∀ a b, g a b = g b a) (r : ℕ) :
    ∑ ab ∈ Finset.antidiagonal (2 * r), ((-1) ^ ab.2 : ℤ) • g ab.1 ab.2 =
      ((-1) ^ r : ℤ) • (g r r + (2 : ℤ) • ∑ i ∈ Finset.Icc 1 r, ((-1) ^ i : ℤ) • g (r + i) (r - i)) := by
  rw [Finset.Nat.sum_antidiagonal_eq_sum_range_succ_mk, show (2 * r).succ = r + (r + 1) by omega, Finset.sum_range_add, Finset.sum_range_succ',
    ← Finset.sum_range_reflect (fun x => ((-1) ^ (2 * r - x) : ℤ) • g x (2 * r - x)) r]
  have e : Finset.Icc 1 r = (Finset.range r).image (· + 1) := by
    ext i
    simp only [Finset.mem_Icc, Finset.mem_image, Finset.mem_range]
    constructor
    · intro h; exact ⟨i - 1, by omega, by omega⟩
    · rintro ⟨j, h1, rfl⟩; omega
  rw [e, Finset.sum_image (by intro a _ b _ h; simpa using h), smul_add, smul_smul]
  have h1 : ∀ j ∈ Finset.range r, ((-1) ^ (2 * r - (r - 1 - j)) : ℤ) • g (r - 1 - j) (2 * r - (r - 1 - j)) =
      ((-1) ^ r * (-1) ^ (j + 1) : ℤ) • g (r + (j + 1)) (r - (j + 1)) := by
    intro j hj
    rw [Finset.mem_range] at hj
    rw [hg, ← pow_add, show 2 * r - (r - 1 - j) = r + (j + 1) by omega, show r - 1 - j = r - (j + 1) by omega]
  have h2 : ∀ j ∈ Finset.range r, ((-1) ^ (2 * r - (r + (j + 1))) : ℤ) • g (r + (j + 1)) (2 * r - (r + (j + 1))) =
      ((-1) ^ r * (-1) ^ (j + 1) : ℤ) • g (r + (j + 1)) (r - (j + 1)) := by
    intro j hj
    rw [Finset.mem_range] at hj
    rw [← pow_add, show 2 * r - (r + (j + 1)) = r - (j + 1) by omega]
    congr 1
    rw [show r + (j + 1) = (r - (j + 1)) + 2 * (j + 1) by omega, pow_add, pow_mul]
    simp
  rw [Finset.sum_congr rfl h1, Finset.sum_congr rfl h2]
  have h3 : ∑ j ∈ Finset.range r, ((-1) ^ r * (-1) ^ (j + 1) : ℤ) • g (r + (j + 1)) (r - (j + 1)) =
      ((-1) ^ r : ℤ) • ∑ j ∈ Finset.range r, ((-1) ^ (j + 1) : ℤ) • g (r + (j + 1)) (r - (j + 1)) := by
    rw [Finset.smul_sum]
    exact Finset.sum_congr rfl (fun j _ => mul_smul _ _ _)
  rw [h3]
  simp only [add_zero, show 2 * r - r = r by omega]
  module

/-- The special class with one row of `p` boxes, `S[]` for `p = 0`. -/
def Spec.rowS (p : ℕ) : List Int := if p = 0 then [] else [(p : Int)]

section
variable {ι : Type*} [DecidableEq ι] {W : Finset ι} {lab : ι → List Int} {N : ℕ → ι → ι → Polynomial ℚ}

/-- two operators applied to the unit -/
noncomputable def tM2 (W : Finset ι) (lab : ι → List Int) (N : ℕ → ι → ι → Polynomial ℚ) (a b : ℕ) : LMod :=
  lin (tM W lab N a) (tM W lab N b [])

theorem tM2_eq (hinj : ∀ u ∈ W, ∀ w ∈ W, lab u = lab w → u = w) {u : ι} (hu : u ∈ W) (h0 : lab u = []) (a b : ℕ) :
    tM2 W lab N a b = ∑ v ∈ W, Finsupp.single (lab v) (∑ w ∈ W, N b u w * N a w v) := by
  unfold tM2
  rw [← h0, tM_lab N hinj b hu, map_sum]
  have : ∀ w ∈ W, lin (tM W lab N a) (Finsupp.single (lab w) (N b u w)) =
      ∑ v ∈ W, Finsupp.single (lab v) (N b u w * N a w v) := by
    intro w hw
    rw [lin, Finsupp.linearCombination_single, tM_lab N hinj a hw, Finset.smul_sum]
    apply Finset.sum_congr rfl
    intro v _
    rw [Finsupp.smul_single, smul_eq_mul]
  rw [Finset.sum_congr rfl this, Finset.sum_comm]
  apply Finset.sum_congr rfl
  intro v _
  rw [← Finsupp.single_finsetSum]

/-- a relation between matrices gives a relation between special classes -/
theorem tM2_rel (hinj : ∀ u ∈ W, ∀ w ∈ W, lab u = lab w → u = w) {u : ι} (hu : u ∈ W) (h0 : lab u = [])
    (hcomm : ∀ a b, ∀ u ∈ W, ∀ v ∈ W, ∑ w ∈ W, N a u w * N b w v = ∑ w ∈ W, N b u w * N a w v) {r : ℕ} {e : Polynomial ℚ}
    (h : ∀ v ∈ W, ∑ ab ∈ Finset.antidiagonal (2 * r), (-1) ^ ab.2 * ∑ w ∈ W, N ab.1 u w * N ab.2 w v = if u = v then (-1) ^ r * e else 0) :
    tM2 W lab N r r + (2 : ℤ) • ∑ i ∈ Finset.Icc 1 r, ((-1) ^ i : ℤ) • tM2 W lab N (r + i) (r - i) = Finsupp.single [] e := by
  have key := sum_antidiag_symm (fun a b => tM2 W lab N a b) (fun a b => by
    rw [tM2_eq hinj hu h0, tM2_eq hinj hu h0]
    exact Finset.sum_congr rfl (fun v hv => by rw [hcomm a b u hu v hv])) r
  have h1 : ∑ ab ∈ Finset.antidiagonal (2 * r), ((-1) ^ ab.2 : ℤ) • tM2 W lab N ab.1 ab.2 = Finsupp.single [] ((-1) ^ r * e) := by
    have e1 : ∀ ab ∈ Finset.antidiagonal (2 * r), ((-1) ^ ab.2 : ℤ) • tM2 W lab N ab.1 ab.2 =
        ∑ v ∈ W, Finsupp.single (lab v) ((-1) ^ ab.2 * ∑ w ∈ W, N ab.1 u w * N ab.2 w v) := by
      intro ab _
      rw [tM2_eq hinj hu h0, Finset.smul_sum]
      refine Finset.sum_congr rfl (fun v hv => ?_)
      rw [hcomm _ _ u hu v hv, Finsupp.smul_single, zsmul_eq_mul]
      push_cast
      rfl
    rw [Finset.sum_congr rfl e1, Finset.sum_comm]
    have e2 : ∀ v ∈ W, ∑ ab ∈ Finset.antidiagonal (2 * r), Finsupp.single (lab v) ((-1) ^ ab.2 * ∑ w ∈ W, N ab.1 u w * N ab.2 w v) =
        if u = v then Finsupp.single [] ((-1) ^ r * e) else (0 : LMod) := by
      intro v hv
      rw [← Finsupp.single_finsetSum, h v hv]
      split
      · rename_i huv
        rw [← huv, h0]
      · rw [Finsupp.single_zero]
    rw [Finset.sum_congr rfl e2, Finset.sum_ite_eq, if_pos hu]
  rw [h1] at key
  have h2 := congrArg (fun x => ((-1) ^ r : ℤ) • x) key
  simp only [smul_smul, ← pow_add, Even.neg_one_pow ⟨r, rfl⟩, one_smul] at h2
  rw [← h2, Finsupp.smul_single, zsmul_eq_mul]
  congr 1
  push_cast
  rw [← mul_assoc, ← pow_add, Even.neg_one_pow ⟨r, rfl⟩, one_mul]

/-- products of two special classes in terms of the matrices -/
theorem tM2_prod {X : Space} {pieri : Int → List Int → Except PyErr Poly} {cls : List Int → Prop} {B K : ℕ}
    (Z : RingOn X pieri (stdSpc K) cls B) (hinj : ∀ u ∈ W, ∀ w ∈ W, lab u = lab w → u = w) (hcls : ∀ l, cls l ↔ ∃ u ∈ W, lab u = l)
    (hrow : ∀ p, 1 ≤ p → p ≤ K → cls [(p : Int)]) (cf : ℕ → Polynomial ℚ)
    (hz : ∀ u ∈ W, ∀ w ∈ W, N 0 u w = if u = w then 1 else 0) (h0 : cf 0 = 1)
    (ht : ∀ p l, 1 ≤ p → p ≤ K → tM W lab N p l = cf p • Z.Y.t p l) {a b : ℕ} (ha : a ≤ K) (hb : b ≤ K) :
    tM2 W lab N a b = (cf a * cf b) • Z.Y.prod (Finsupp.single (rowS a) 1) (Finsupp.single (rowS b) 1) := by
  have hid : ∀ l, cls l → tM W lab N 0 l = Finsupp.single l 1 := by
    intro l hl
    obtain ⟨u, hu, rfl⟩ := (hcls l).1 hl
    rw [tM_lab N hinj 0 hu, Finset.sum_eq_single u]
    · rw [hz u hu u hu, if_pos rfl]
    · intro w hw hne
      rw [hz u hu w hw, if_neg hne.symm, Finsupp.single_zero]
    · intro h; exact absurd hu h
  have hcr : ∀ p, p ≤ K → cls (rowS p) := by
    intro p hp
    unfold Spec.rowS
    split
    · exact Z.nil
    · exact hrow p (by omega) hp
  have hunit : ∀ p, p ≤ K → tM W lab N p [] = cf p • Finsupp.single (rowS p) 1 := by
    intro p hp
    unfold Spec.rowS
    split
    · rename_i h; subst h
      rw [hid [] Z.nil, h0, one_smul]
    · have hs : stdSpc K p := ⟨by omega, by omega⟩
      have hn : num2spec (p : Int) = [(p : Int)] := num2spec_pos (by omega)
      rw [ht p [] (by omega) hp]
      have := Z.unit p hs (by rw [hn]; exact hrow p (by omega) hp)
      rw [this, hn]
  have happ : ∀ p l, p ≤ K → cls l → tM W lab N p l = cf p • Z.Y.prod (Finsupp.single (rowS p) 1) (Finsupp.single l 1) := by
    intro p l hp hl
    unfold Spec.rowS
    split
    · rename_i h; subst h
      rw [hid l hl, h0, one_smul, Z.Y.one_prod]
    · have hs : stdSpc K p := ⟨by omega, by omega⟩
      have hn : num2spec (p : Int) = [(p : Int)] := num2spec_pos (by omega)
      have hc : cls (num2spec (p : Int)) := by rw [hn]; exact hrow p (by omega) hp
      have := Z.Y.prod_special hs hc Z.nil (Z.unit p hs hc) (supp_single hl 1)
      rw [hn] at this
      rw [this, ht p l (by omega) hp]
      simp [lin]
  unfold tM2
  rw [hunit b hb, map_smul, mul_comm, mul_smul]
  congr 1
  rw [← happ a _ ha (hcr b hb)]
  simp [lin]

/-- the operators of large degree -/
theorem tM2_split (hinj : ∀ u ∈ W, ∀ w ∈ W, lab u = lab w → u = w) {u : ι} (hu : u ∈ W) (h0 : lab u = []) {K r : ℕ} (hr : r ≤ K)
    {g : Polynomial ℚ} (htop : ∀ u ∈ W, ∀ w ∈ W, N (K + 1) u w = if u = w then g else 0)
    (hhigh : ∀ p, K + 1 < p → ∀ u ∈ W, ∀ w ∈ W, N p u w = 0) :
    ∑ i ∈ Finset.Icc 1 r, ((-1) ^ i : ℤ) • tM2 W lab N (r + i) (r - i) =
      ∑ i ∈ (Finset.Icc 1 r).filter (fun i => r + i ≤ K), ((-1) ^ i : ℤ) • tM2 W lab N (r + i) (r - i) +
      if K + 1 ≤ 2 * r then ((-1) ^ (K + 1 - r) : ℤ) • g • tM W lab N (2 * r - (K + 1)) [] else 0 := by
  rw [← Finset.sum_filter_add_sum_filter_not (Finset.Icc 1 r) (fun i => r + i ≤ K)]
  congr 1
  have hz : ∀ i ∈ (Finset.Icc 1 r).filter (fun i => ¬ r + i ≤ K), i ≠ K + 1 - r → ((-1) ^ i : ℤ) • tM2 W lab N (r + i) (r - i) = 0 := by
    intro i hi hne
    have hp : K + 1 < r + i := by have := (Finset.mem_filter.1 hi).2; omega
    rw [tM2_eq hinj hu h0, Finset.sum_eq_zero, smul_zero]
    intro v hv
    rw [Finset.sum_eq_zero, Finsupp.single_zero]
    intro w hw
    rw [hhigh _ hp w hw v hv, mul_zero]
  split
  · rename_i hK
    have hmem : K + 1 - r ∈ (Finset.Icc 1 r).filter (fun i => ¬ r + i ≤ K) := by
      simp only [Finset.mem_filter, Finset.mem_Icc]; omega
    rw [Finset.sum_eq_single_of_mem _ hmem hz, show r + (K + 1 - r) = K + 1 by omega, show r - (K + 1 - r) = 2 * r - (K + 1) by omega]
    congr 1
    rw [tM2_eq hinj hu h0, ← h0, tM_lab N hinj _ hu, Finset.smul_sum]
    refine Finset.sum_congr rfl (fun v hv => ?_)
    rw [Finsupp.smul_single, Finset.sum_eq_single v]
    · rw [htop v hv v hv, if_pos rfl, smul_eq_mul, mul_comm]
    · intro w hw hne
      rw [htop w hw v hv, if_neg hne, mul_zero]
    · intro h; exact absurd hv h
  · rename_i hK
    refine Finset.sum_eq_zero (fun i hi => hz i hi ?_)
    have := (Finset.mem_filter.1 hi).1
    rw [Finset.mem_Icc] at this
    omega

end

end Verif
