import Verif.Proofs.Perron
import Verif.Proofs.RingGen
import Verif.Props.SchurRing
import Mathlib.Algebra.Algebra.Rat
import Mathlib.Analysis.Normed.Module.Basic
/-!
# A homomorphism to the real numbers, positive at all classes
-/

namespace Verif
open Spec MvPolynomial

namespace GiamSys
variable {k : Int} {pieri : Int → List Int → Except PyErr Poly} {spc : Int → Prop} {cls : List Int → Prop}
  (Y : GiamSys k pieri spc cls)

theorem hom_of_eigen {f : Sym → ℝ} (hnil : f (.S []) = 1)
    (he : ∀ p, spc p → ∃ r : ℝ, ∀ l, cls l → aeval f (ev (Y.t p l)) = r * f (.S l)) {x y : LMod} (hx : ∀ l ∈ x.support, cls l)
    (hy : ∀ l ∈ y.support, cls l) (h0 : cls []) :
    aeval f (ev (Y.prod x y)) = aeval f (ev x) * aeval f (ev y) := by
  have hs : ∀ (a : Polynomial ℚ) (z : LMod), aeval f (ev (a • z)) = Polynomial.aeval (f .q) a * aeval f (ev z) := fun a z => by
    rw [ev_smul, map_mul]
    congr 1
    rw [inq, ← Polynomial.aeval_algHom_apply, MvPolynomial.aeval_X]
  have h1 : ∀ p, spc p → ∃ r : ℝ, ∀ z : LMod, (∀ l ∈ z.support, cls l) → aeval f (ev (lin (Y.t p) z)) = r * aeval f (ev z) := by
    intro p hp
    obtain ⟨r, hr⟩ := he p hp
    refine ⟨r, fun z hz => ?_⟩
    rw [lin, Finsupp.linearCombination_apply, Finsupp.sum, map_sum, map_sum, aeval_ev, Finsupp.sum, Finset.mul_sum]
    refine Finset.sum_congr rfl (fun l hl => ?_)
    rw [hs, hr l (hz l hl)]
    ring
  have h2 : ∀ s, ∃ r : ℝ, ∀ z : LMod, (∀ l ∈ z.support, cls l) → aeval f (ev (Y.op s z)) = r * aeval f (ev z) := by
    intro s
    rcases Y.op_cases s with h | h | ⟨p, hp, h⟩
    · refine ⟨f .q, fun z _ => ?_⟩
      rw [h, Module.algebraMap_end_apply, hs, Polynomial.aeval_X]
    · refine ⟨0, fun z _ => ?_⟩
      rw [h]; simp
    · rw [h]
      exact h1 p hp
  choose ρ hρ using h2
  have h3 : ∀ (g : P) (z : LMod), (∀ l ∈ z.support, cls l) → aeval f (ev (Y.act g z)) = aeval ρ g * aeval f (ev z) := by
    intro g
    induction g using MvPolynomial.induction_on with
    | C a =>
      intro z _
      rw [Y.act_C, hs, aeval_C, Polynomial.aeval_C]
    | add p q hp hq =>
      intro z hz
      rw [map_add, LinearMap.add_apply, map_add, map_add, hp z hz, hq z hz, map_add, add_mul]
    | mul_X p s hp =>
      intro z hz
      rw [map_mul, Module.End.mul_apply, Y.act_X, hp _ (Y.op_support s hz), hρ s z hz, map_mul, aeval_X, mul_assoc]
  have hone : aeval f (ev (Finsupp.single [] 1)) = 1 := by
    rw [aeval_ev, Finsupp.sum_single_index (by simp), hnil, map_one, mul_one]
  have hx1 : aeval f (ev x) = aeval ρ (Y.GL x) := by
    have := h3 (Y.GL x) (Finsupp.single [] 1) (fun l hl => by
      rw [Finset.mem_singleton.1 (Finsupp.support_single_subset hl)]; exact h0)
    rw [Y.act_GL hx, hone, mul_one] at this
    exact this
  rw [hx1]
  exact h3 _ y hy

/-- A matrix with non-negative entries that commutes with all Pieri operators at `q = 1`, and leads from any class to any other one, gives a
homomorphism. -/
theorem pos_hom {ι : Type} [DecidableEq ι] {W : Finset ι} {lab : ι → List Int} (hinj : ∀ u ∈ W, ∀ w ∈ W, lab u = lab w → u = w)
    (hcls : ∀ l, cls l ↔ ∃ u ∈ W, lab u = l) (h0 : cls []) {M : Int → ι → ι → Polynomial ℚ}
    (ht : ∀ p, spc p → ∀ u ∈ W, Y.t p (lab u) = ∑ w ∈ W, Finsupp.single (lab w) (M p u w))
    {A : ι → ι → ℝ} (hA : ∀ u ∈ W, ∀ w ∈ W, 0 ≤ A u w)
    (hc : ∀ p, spc p → ∀ u ∈ W, ∀ v ∈ W, ∑ w ∈ W, Polynomial.aeval (1 : ℝ) (M p u w) * A w v = ∑ w ∈ W, A u w * Polynomial.aeval (1 : ℝ) (M p w v))
    (hcon : ∀ u ∈ W, ∀ w ∈ W, Relation.ReflTransGen (fun u w => u ∈ W ∧ w ∈ W ∧ 0 < A u w) u w) :
    ∃ f : Sym → ℝ, (∀ s, (∀ l, s ≠ .S l) → f s = 1) ∧ (∀ l, cls l → 0 < f (.S l)) ∧
      ∀ x y : LMod, (∀ l ∈ x.support, cls l) → (∀ l ∈ y.support, cls l) → aeval f (ev (Y.prod x y)) = aeval f (ev x) * aeval f (ev y) := by
  classical
  obtain ⟨u0, hu0, hl0⟩ := (hcls []).1 h0
  have : Nonempty W := ⟨⟨u0, hu0⟩⟩
  have hcon' : ∀ i j : W, Relation.ReflTransGen (fun i j : W => 0 < A i j) i j := by
    intro i j
    have key : ∀ v, Relation.ReflTransGen (fun u w => u ∈ W ∧ w ∈ W ∧ 0 < A u w) (i : ι) v → ∀ hv : v ∈ W,
        Relation.ReflTransGen (fun i j : W => 0 < A i j) i ⟨v, hv⟩ := by
      intro v h
      induction h with
      | refl => intro hv; exact .refl
      | tail _ h ih => intro hv; exact (ih h.1).tail h.2.2
    exact key j (hcon i i.2 j j.2) j.2
  obtain ⟨c, hcpos, heig⟩ := perron_common (ι := W) (A := Matrix.of fun i j : W => A i j) (fun i j => hA i i.2 j j.2) hcon'
  have hc0 := hcpos ⟨u0, hu0⟩
  let e : List Int → ℝ := fun l => if h : ∃ u ∈ W, lab u = l then c ⟨h.choose, h.choose_spec.1⟩ / c ⟨u0, hu0⟩ else 1
  have helab : ∀ (u : ι) (hu : u ∈ W), e (lab u) = c ⟨u, hu⟩ / c ⟨u0, hu0⟩ := by
    intro u hu
    have h : ∃ w ∈ W, lab w = lab u := ⟨u, hu, rfl⟩
    simp only [e]
    rw [dif_pos h]
    congr 2
    exact Subtype.ext (hinj _ h.choose_spec.1 u hu h.choose_spec.2)
  let f : Sym → ℝ := fun s => match s with
    | .S l => e l
    | _ => 1
  refine ⟨f, ?_, ?_, fun x y hx hy => Y.hom_of_eigen ?_ ?_ hx hy h0⟩
  · intro s hs
    cases s with
    | S l => exact absurd rfl (hs l)
    | _ => rfl
  · intro l hl
    obtain ⟨u, hu, rfl⟩ := (hcls l).1 hl
    show 0 < e (lab u)
    rw [helab u hu]
    exact div_pos (hcpos _) hc0
  · show e [] = 1
    rw [← hl0, helab u0 hu0, div_self hc0.ne']
  · intro p hp
    obtain ⟨r, hr⟩ := heig (Matrix.of fun i j => Polynomial.aeval (1 : ℝ) (M p i j)) (by
      ext i j
      rw [Matrix.mul_apply, Matrix.mul_apply]
      have := hc p hp i i.2 j j.2
      rw [← Finset.sum_coe_sort W, ← Finset.sum_coe_sort W] at this
      exact this)
    refine ⟨r, fun l hl => ?_⟩
    obtain ⟨u, hu, rfl⟩ := (hcls l).1 hl
    rw [ht p hp u hu, map_sum, map_sum]
    have h1 : ∀ w ∈ W, aeval f (ev (Finsupp.single (lab w) (M p u w))) = Polynomial.aeval (1 : ℝ) (M p u w) * e (lab w) := by
      intro w _
      rw [aeval_ev, Finsupp.sum_single_index (by simp)]
    rw [Finset.sum_congr rfl h1]
    show _ = r * e (lab u)
    have h2 := congrFun hr ⟨u, hu⟩
    simp only [Matrix.mulVec, dotProduct, Pi.smul_apply, smul_eq_mul, Matrix.of_apply] at h2
    rw [helab u hu, ← mul_div_assoc, ← h2, div_eq_mul_inv, Finset.sum_mul, ← Finset.sum_coe_sort W]
    refine Finset.sum_congr rfl (fun w _ => ?_)
    rw [helab w w.2, div_eq_mul_inv, ← mul_assoc]

end GiamSys
end Verif
