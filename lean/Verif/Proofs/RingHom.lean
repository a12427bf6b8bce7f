import Verif.Proofs.RingOps
/-!
# Maps between the rings

A linear map between the modules of two systems that respects the multiplication with the special classes respects all products.
-/

namespace Verif
open Spec

theorem supp_single {cls : List Int → Prop} {l : List Int} (hl : cls l) (a : Polynomial ℚ) : ∀ nu ∈ (Finsupp.single l a).support, cls nu := by
  intro nu hnu
  rw [Finset.mem_singleton.1 (Finsupp.support_single_subset hnu)]
  exact hl

theorem supp_sum {cls : List Int → Prop} {ι : Type*} (s : Finset ι) (f : ι → LMod) (h : ∀ i ∈ s, ∀ nu ∈ (f i).support, cls nu) :
    ∀ nu ∈ (∑ i ∈ s, f i).support, cls nu := by
  classical
  intro nu hnu
  obtain ⟨i, hi, hn⟩ := Finset.mem_biUnion.1 (Finsupp.support_finsetSum hnu)
  exact h i hi nu hn

/-- a linear combination as a sum -/
theorem lmod_sum (x : LMod) : x = ∑ l ∈ x.support, x l • Finsupp.single l (1 : Polynomial ℚ) := by
  conv_lhs => rw [← Finsupp.sum_single x]
  refine Finset.sum_congr rfl (fun l _ => ?_)
  simp

namespace GiamSys
variable {k k' : ℤ} {pieri pieri' : Int → List Int → Except PyErr Poly} {spc spc' : Int → Prop} {cls cls' : List Int → Prop}
  (Y : GiamSys k pieri spc cls) (Z : GiamSys k' pieri' spc' cls')

theorem prod_lin {p : Int} (hp : spc p) {x y : LMod} (hx : ∀ l ∈ x.support, cls l) (hy : ∀ l ∈ y.support, cls l) :
    Y.prod (lin (Y.t p) x) y = lin (Y.t p) (Y.prod x y) := by
  rw [Y.prod_comm (lin_support (Y.closed _) x) hy, Y.prod_comm hx hy]
  unfold prod
  rw [← Y.act_special hp, ← Y.act_special hp, Y.act_comm]

theorem prod_sum_left {ι : Type*} (s : Finset ι) (f : ι → LMod) (y : LMod) : Y.prod (∑ i ∈ s, f i) y = ∑ i ∈ s, Y.prod (f i) y := by
  classical
  induction s using Finset.induction_on with
  | empty => simp [prod, GL]
  | insert i s hi ih => rw [Finset.sum_insert hi, Finset.sum_insert hi, prod_add_left, ih]

theorem prod_sub_left (x x' y : LMod) : Y.prod (x - x') y = Y.prod x y - Y.prod x' y := by
  have : Y.prod (x - x') y + Y.prod x' y = Y.prod x y := by rw [← prod_add_left, sub_add_cancel]
  rw [← this, add_sub_cancel_right]

/-- Linear maps that respect the special classes respect products. -/
theorem hom (φ : LMod →ₗ[Polynomial ℚ] LMod) (hφ : ∀ l, cls l → ∀ nu ∈ (φ (Finsupp.single l 1)).support, cls' nu)
    (h1 : φ (Finsupp.single [] 1) = Finsupp.single [] 1)
    (hs : ∀ p, spc p → ∃ s : LMod, (∀ nu ∈ s.support, cls' nu) ∧
      ∀ l, cls l → φ (Y.t p l) = Z.prod s (φ (Finsupp.single l 1)))
    {x y : LMod} (hx : ∀ l ∈ x.support, cls l) (hy : ∀ l ∈ y.support, cls l) : φ (Y.prod x y) = Z.prod (φ x) (φ y) := by
  have hsupp : ∀ x : LMod, (∀ l ∈ x.support, cls l) → ∀ nu ∈ (φ x).support, cls' nu := by
    intro x hx
    rw [lmod_sum x, map_sum]
    refine supp_sum _ _ (fun l hl nu hnu => ?_)
    rw [map_smul] at hnu
    exact hφ l (hx l hl) nu (Finsupp.support_smul hnu)
  have hs' : ∀ p, spc p → ∃ s : LMod, (∀ nu ∈ s.support, cls' nu) ∧
      ∀ y : LMod, (∀ l ∈ y.support, cls l) → φ (lin (Y.t p) y) = Z.prod s (φ y) := by
    intro p hp
    obtain ⟨s, h2, h3⟩ := hs p hp
    refine ⟨s, h2, fun y hy => ?_⟩
    rw [lmod_sum y, map_sum, map_sum, map_sum]
    have : Z.prod s (∑ l ∈ y.support, φ (y l • Finsupp.single l 1)) = ∑ l ∈ y.support, Z.prod s (φ (y l • Finsupp.single l 1)) := by
      unfold prod
      rw [map_sum]
    rw [this]
    refine Finset.sum_congr rfl (fun l hl => ?_)
    rw [map_smul, map_smul, map_smul, Z.prod_smul_right, ← h3 l (hy l hl)]
    simp [lin]
  have key : ∀ l, cls l → ∀ y : LMod, (∀ l ∈ y.support, cls l) →
      φ (Y.prod (Finsupp.single l 1) y) = Z.prod (φ (Finsupp.single l 1)) (φ y) := by
    refine Y.G_induction (Q := fun l => ∀ y : LMod, (∀ l ∈ y.support, cls l) →
      φ (Y.prod (Finsupp.single l 1) y) = Z.prod (φ (Finsupp.single l 1)) (φ y)) ?_ ?_
    · intro _ y _
      rw [one_prod, h1, one_prod]
    · intro l hl h0 hp ht ih ihr y hy
      obtain ⟨s, h2, h3⟩ := hs' _ hp
      have e : Finsupp.single l 1 = lin (Y.t (hdK k l)) (Finsupp.single (tlK k l) 1) - Y.rest l := by
        rw [rest]
        simp [lin]
      have hr : φ (Y.prod (Y.rest l) y) = Z.prod (φ (Y.rest l)) (φ y) := by
        rw [lmod_sum (Y.rest l), prod_sum_left, map_sum, map_sum, prod_sum_left]
        refine Finset.sum_congr rfl (fun mu hmu => ?_)
        rw [Y.prod_smul_left, map_smul, map_smul, Z.prod_smul_left, (ihr mu hmu).2 y hy]
      have hst := supp_single (cls := cls) ht 1
      rw [e, prod_sub_left, map_sub, map_sub, prod_sub_left, hr, Y.prod_lin hp hst hy, h3 _ (Y.prod_support _ hy), h3 _ hst, ih y hy,
        Z.prod_assoc s (hφ _ ht) (hsupp y hy)]
  rw [lmod_sum x, prod_sum_left, map_sum, map_sum, prod_sum_left]
  refine Finset.sum_congr rfl (fun l hl => ?_)
  rw [Y.prod_smul_left, map_smul, map_smul, Z.prod_smul_left, key l (hx l hl) y hy]

end GiamSys

end Verif
