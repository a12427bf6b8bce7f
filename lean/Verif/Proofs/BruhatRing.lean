import Verif.Proofs.Bruhat
import Verif.Proofs.RingHom
/-!
# Products and the order of the classes

The support of a product, and when a product vanishes, for rings where the special classes lead upwards in an order.
-/

namespace Verif
open Spec

/-- all coefficients are nonnegative constants -/
def PosL (x : LMod) : Prop := ∀ l, ∃ r : ℚ, 0 ≤ r ∧ x l = Polynomial.C r

theorem posL_single (l : List Int) {r : ℚ} (hr : 0 ≤ r) : PosL (Finsupp.single l (Polynomial.C r)) := by
  classical
  intro m
  rw [Finsupp.single_apply]
  split
  · exact ⟨r, hr, rfl⟩
  · exact ⟨0, le_rfl, by simp⟩

theorem posL_sum {ι : Type*} (s : Finset ι) (f : ι → Polynomial ℚ) (h : ∀ i ∈ s, ∃ r : ℚ, 0 ≤ r ∧ f i = Polynomial.C r) :
    (∃ r : ℚ, 0 ≤ r ∧ ∑ i ∈ s, f i = Polynomial.C r) ∧ ∀ i ∈ s, f i ≠ 0 → ∑ i ∈ s, f i ≠ 0 := by
  classical
  induction s using Finset.induction_on with
  | empty => exact ⟨⟨0, le_rfl, by simp⟩, fun i hi => absurd hi (by simp)⟩
  | insert i s hi ih =>
    obtain ⟨⟨r, hr, e⟩, h2⟩ := ih (fun j hj => h j (Finset.mem_insert_of_mem hj))
    obtain ⟨r', hr', e'⟩ := h i (Finset.mem_insert_self _ _)
    rw [Finset.sum_insert hi]
    refine ⟨⟨r' + r, by linarith, by rw [e, e', map_add]⟩, fun j hj hne => ?_⟩
    have key : (0 < r' ∨ 0 < r) → f i + ∑ i ∈ s, f i ≠ 0 := by
      intro hp
      rw [e, e', ← map_add, Ne, Polynomial.C_eq_zero]
      rcases hp with hp | hp <;> linarith
    have pos : ∀ {r : ℚ} {g : Polynomial ℚ}, 0 ≤ r → g = Polynomial.C r → g ≠ 0 → 0 < r := by
      intro r g h1 h2 h3
      refine lt_of_le_of_ne h1 (fun h => h3 ?_)
      rw [h2, ← h, map_zero]
    apply key
    rcases Finset.mem_insert.1 hj with rfl | hj
    · exact Or.inl (pos hr' e' hne)
    · exact Or.inr (pos hr e (h2 j hj hne))

theorem lin_apply_sum (t : List Int → LMod) (x : LMod) (m : List Int) : lin t x m = ∑ l ∈ x.support, x l * t l m := by
  unfold lin
  rw [Finsupp.linearCombination_apply, Finsupp.sum, Finsupp.finsetSum_apply]
  rfl

theorem posL_lin {t : List Int → LMod} {cls : List Int → Prop} (ht : ∀ l, cls l → PosL (t l)) {x : LMod} (hx : PosL x) (hc : ∀ l ∈ x.support, cls l) :
    PosL (lin t x) ∧ ∀ l m, x l ≠ 0 → t l m ≠ 0 → lin t x m ≠ 0 := by
  have key := fun m => posL_sum x.support (fun l => x l * t l m) (fun l hl => by
    obtain ⟨r, hr, e⟩ := hx l
    obtain ⟨r', hr', e'⟩ := ht l (hc l hl) m
    exact ⟨r * r', mul_nonneg hr hr', by rw [e, e', map_mul]⟩)
  refine ⟨fun m => ?_, fun l m h1 h2 => ?_⟩
  · rw [lin_apply_sum]; exact (key m).1
  · rw [lin_apply_sum]; exact (key m).2 l (Finsupp.mem_support_iff.2 h1) (mul_ne_zero h1 h2)

namespace GiamSys
variable {k : ℤ} {pieri : Int → List Int → Except PyErr Poly} {spc : Int → Prop} {cls : List Int → Prop} (Y : GiamSys k pieri spc cls)

/-- products with a class stay in a set that is closed under the special classes -/
theorem prod_closed {Q : List Int → Prop} (hQ : ∀ p, spc p → ∀ l, cls l → Q l → ∀ m ∈ (Y.t p l).support, Q m) :
    ∀ l, cls l → ∀ y : LMod, (∀ m ∈ y.support, cls m ∧ Q m) → ∀ m ∈ (Y.prod (Finsupp.single l 1) y).support, Q m := by
  classical
  have hlin : ∀ p, spc p → ∀ x : LMod, (∀ m ∈ x.support, cls m ∧ Q m) → ∀ m ∈ (lin (Y.t p) x).support, Q m := by
    intro p hp x hx m hm
    rw [Finsupp.mem_support_iff, lin_apply_sum] at hm
    obtain ⟨l, hl, h1⟩ := Finset.exists_ne_zero_of_sum_ne_zero hm
    exact hQ p hp l (hx l hl).1 (hx l hl).2 m (Finsupp.mem_support_iff.2 (right_ne_zero_of_mul h1))
  refine Y.G_induction (Q := fun l => ∀ y : LMod, (∀ m ∈ y.support, cls m ∧ Q m) → ∀ m ∈ (Y.prod (Finsupp.single l 1) y).support, Q m) ?_ ?_
  · intro _ y hy m hm
    rw [one_prod] at hm
    exact (hy m hm).2
  · intro l hl h0 hp ht ih ihr y hy m hm
    have hyc : ∀ m ∈ y.support, cls m := fun m h => (hy m h).1
    have e : Finsupp.single l 1 = lin (Y.t (hdK k l)) (Finsupp.single (tlK k l) 1) - Y.rest l := by
      rw [rest]
      simp [lin]
    have hr : ∀ m ∈ (Y.prod (Y.rest l) y).support, Q m := by
      rw [lmod_sum (Y.rest l), prod_sum_left]
      refine supp_sum _ _ (fun mu hmu nu hnu => ?_)
      rw [Y.prod_smul_left] at hnu
      exact (ihr mu hmu).2 y hy nu (Finsupp.support_smul hnu)
    have hst := supp_single (cls := cls) ht 1
    rw [e, prod_sub_left, Y.prod_lin hp hst hyc] at hm
    rcases Finset.mem_union.1 (Finsupp.support_sub hm) with h | h
    · exact hlin _ hp _ (fun m hm => ⟨Y.prod_support _ hyc m hm, ih y hy m hm⟩) m h
    · exact hr m h

variable {Le : List Int → List Int → Prop}

theorem support_le (hrefl : ∀ l, cls l → Le l l) (htr : ∀ a b c, Le a b → Le b c → Le a c)
    (hup : ∀ p, spc p → ∀ l, cls l → ∀ m, Y.t p l m ≠ 0 → Le l m) {l mu nu : List Int} (hl : cls l) (hmu : cls mu)
    (h : Y.prod (Finsupp.single l 1) (Finsupp.single mu 1) nu ≠ 0) : Le l nu ∧ Le mu nu := by
  have key : ∀ {l mu : List Int}, cls l → cls mu → Y.prod (Finsupp.single l 1) (Finsupp.single mu 1) nu ≠ 0 → Le mu nu := by
    intro l mu hl hmu h
    refine Y.prod_closed (Q := Le mu) (fun p hp a ha hla m hm => htr _ _ _ hla (hup p hp a ha m (Finsupp.mem_support_iff.1 hm))) l hl _ ?_ nu
      (Finsupp.mem_support_iff.2 h)
    exact supp_single (cls := fun m => cls m ∧ Le mu m) ⟨hmu, hrefl mu hmu⟩ 1
  refine ⟨key hmu hl ?_, key hl hmu h⟩
  rwa [Y.prod_comm (supp_single hmu 1) (supp_single hl 1)]

/-- a composite of multiplications with special classes that leads from one class to another one -/
theorem reach (hpos : ∀ p, spc p → ∀ l, cls l → PosL (Y.t p l))
    (hstep : ∀ l nu, cls l → cls nu → Le l nu → l ≠ nu → (∃ p m, spc p ∧ cls m ∧ l.sum < m.sum ∧ Y.t p l m ≠ 0 ∧ Le m nu) ∨
      ∃ p m, spc p ∧ cls m ∧ m.sum < nu.sum ∧ Y.t p m nu ≠ 0 ∧ Le l m) {N : ℕ} (hN : ∀ l, cls l → 0 ≤ l.sum ∧ l.sum ≤ N) :
    ∀ (j : ℕ) (l nu : List Int), cls l → cls nu → Le l nu → N + nu.sum - l.sum < j →
      ∃ T : LMod →ₗ[Polynomial ℚ] LMod, (∀ x y : LMod, (∀ l ∈ x.support, cls l) → (∀ l ∈ y.support, cls l) → T (Y.prod x y) = Y.prod (T x) y) ∧
        (∀ x : LMod, (∀ l ∈ x.support, cls l) → ∀ l ∈ (T x).support, cls l) ∧
        (∀ x : LMod, (∀ l ∈ x.support, cls l) → PosL x → PosL (T x)) ∧ T (Finsupp.single l 1) nu ≠ 0 := by
  classical
  intro j
  induction j with
  | zero =>
    intro l nu hl hnu _ h
    have := hN l hl
    have := hN nu hnu
    push_cast at h
    omega
  | succ j ih =>
    intro l nu hl hnu hle hj
    push_cast at hj
    by_cases hne : l = nu
    · subst hne
      exact ⟨LinearMap.id, fun _ _ _ _ => rfl, fun _ h => h, fun _ _ h => h, by simp⟩
    rcases hstep l nu hl hnu hle hne with ⟨p, m, hp, hm, hs, ht, hmn⟩ | ⟨p, m, hp, hm, hs, ht, hmn⟩
    · obtain ⟨T, h1, h2, h3, h4⟩ := ih m nu hm hnu hmn (by omega)
      refine ⟨T ∘ₗ lin (Y.t p), fun x y hx hy => ?_, fun x hx => h2 _ (lin_support (Y.closed _) x),
        fun x hx hxp => h3 _ (lin_support (Y.closed _) x) (posL_lin (hpos p hp) hxp hx).1, ?_⟩
      · rw [LinearMap.comp_apply, LinearMap.comp_apply, ← Y.prod_lin hp hx hy, h1 _ _ (lin_support (Y.closed _) x) hy]
      · have e : lin (Y.t p) (Finsupp.single l 1) = Y.t p l m • Finsupp.single m 1 + (Y.t p l).erase m := by
          rw [show lin (Y.t p) (Finsupp.single l 1) = Y.t p l by simp [lin]]
          conv_lhs => rw [← Finsupp.single_add_erase m (Y.t p l)]
          simp
        have pe : PosL ((Y.t p l).erase m) := by
          intro a
          rw [Finsupp.erase_apply]
          split
          · exact ⟨0, le_rfl, by simp⟩
          · exact hpos p hp l hl a
        obtain ⟨r1, hr1, f1⟩ := hpos p hp l hl m
        have s1 := supp_single (cls := cls) hm 1
        have p1 : PosL (Finsupp.single m 1) := by
          rw [← Polynomial.C_1]
          exact posL_single m (zero_le_one (α := ℚ))
        have s2 : ∀ a ∈ ((Y.t p l).erase m).support, cls a := by
          intro a ha
          rw [Finsupp.support_erase] at ha
          exact Y.closed p l a (Finset.mem_of_mem_erase ha)
        obtain ⟨r2, hr2, f2⟩ := h3 _ s1 p1 nu
        obtain ⟨r3, hr3, f3⟩ := h3 _ s2 pe nu
        rw [LinearMap.comp_apply, e, map_add, map_smul, Finsupp.add_apply, Finsupp.smul_apply, f1, f2, f3, smul_eq_mul, ← map_mul, ← map_add, Ne,
          Polynomial.C_eq_zero]
        rw [f1, Ne, Polynomial.C_eq_zero] at ht
        rw [f2, Ne, Polynomial.C_eq_zero] at h4
        have : 0 < r1 * r2 := mul_pos (lt_of_le_of_ne hr1 (Ne.symm ht)) (lt_of_le_of_ne hr2 (Ne.symm h4))
        linarith
    · obtain ⟨T, h1, h2, h3, h4⟩ := ih l m hl hm hmn (by omega)
      refine ⟨lin (Y.t p) ∘ₗ T, fun x y hx hy => ?_, fun x hx => lin_support (Y.closed p) (T x),
        fun x hx hxp => (posL_lin (hpos p hp) (h3 x hx hxp) (h2 x hx)).1, ?_⟩
      · rw [LinearMap.comp_apply, LinearMap.comp_apply, h1 x y hx hy, Y.prod_lin hp (h2 x hx) hy]
      · have s1 := supp_single (cls := cls) hl 1
        have p1 : PosL (Finsupp.single l 1) := by
          rw [← Polynomial.C_1]
          exact posL_single l (zero_le_one (α := ℚ))
        have q1 := h3 _ s1 p1
        have q2 := h2 _ s1
        rw [LinearMap.comp_apply]
        generalize T (Finsupp.single l 1) = z at h4 q1 q2 ⊢
        exact (posL_lin (hpos p hp) q1 q2).2 m nu h4 ht

/-- a product of two classes does not vanish exactly if one is below the dual of the other one -/
theorem prod_ne_iff (hrefl : ∀ l, cls l → Le l l) (htr : ∀ a b c, Le a b → Le b c → Le a c)
    (hup : ∀ p, spc p → ∀ l, cls l → ∀ m, Y.t p l m ≠ 0 → Le l m) (hpos : ∀ p, spc p → ∀ l, cls l → PosL (Y.t p l))
    (hstep : ∀ l nu, cls l → cls nu → Le l nu → l ≠ nu → (∃ p m, spc p ∧ cls m ∧ l.sum < m.sum ∧ Y.t p l m ≠ 0 ∧ Le m nu) ∨
      ∃ p m, spc p ∧ cls m ∧ m.sum < nu.sum ∧ Y.t p m nu ≠ 0 ∧ Le l m) {N : ℕ} (hN : ∀ l, cls l → 0 ≤ l.sum ∧ l.sum ≤ N)
    (dl : List Int → List Int) (hcl : ∀ l, cls l → cls (dl l)) (hdd : ∀ l, cls l → dl (dl l) = l)
    (hadj : ∀ p l nu, spc p → cls l → cls nu → Y.t p l (dl nu) = Y.t p nu (dl l)) {l mu : List Int} (hl : cls l) (hmu : cls mu) :
    Y.prod (Finsupp.single l 1) (Finsupp.single mu 1) ≠ 0 ↔ Le l (dl mu) := by
  have hpt : ∀ {l : List Int}, cls l → ∀ y : LMod, (∀ l ∈ y.support, cls l) → Y.prod (Finsupp.single l 1) y (dl []) = y (dl l) := by
    intro l hl y hy
    rw [prod_single]
    exact Y.dual_coeff dl hcl hdd hadj l hl y hy
  have s1 := supp_single (cls := cls) hl 1
  have s2 := supp_single (cls := cls) hmu 1
  constructor
  · intro h
    obtain ⟨nu, hnu⟩ := Finsupp.ne_iff.1 h
    rw [Finsupp.zero_apply] at hnu
    have hc : cls nu := Y.prod_support _ s2 nu (Finsupp.mem_support_iff.2 hnu)
    have s3 := supp_single (cls := cls) (hcl nu hc) 1
    have e := hpt (hcl nu hc) _ (Y.prod_support (Finsupp.single l 1) s2)
    rw [hdd nu hc, ← Y.prod_assoc _ s1 s2, Y.prod_comm (Y.prod_support _ s1) s2, hpt hmu _ (Y.prod_support _ s1)] at e
    rw [← e] at hnu
    exact (Y.support_le hrefl htr hup (hcl nu hc) hl hnu).2
  · intro h h0
    obtain ⟨T, h1, h2, h3, h4⟩ := Y.reach hpos hstep hN ((N + (dl mu).sum - l.sum + 1).toNat) l (dl mu) hl (hcl mu hmu) h (by omega)
    have e := h1 _ _ s1 s2
    rw [h0, map_zero, Y.prod_comm (h2 _ s1) s2] at e
    have e2 := hpt hmu _ (h2 _ s1)
    rw [← e, Finsupp.zero_apply] at e2
    exact h4 e2.symm

end GiamSys

end Verif
