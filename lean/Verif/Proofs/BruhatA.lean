import Verif.Proofs.BruhatRing
import Verif.Proofs.DualQA
/-!
# Containment of diagrams and the products of type A
-/

namespace Verif
open Spec Cyl

/-- containment of the diagrams -/
def Spec.Inside (l mu : List Int) : Prop := ∀ i, part l i ≤ part mu i

theorem inside_vec {m : ℕ} {k : ℤ} {l mu : List Int} (hl : clsA (m + 1) k l) (hm : clsA (m + 1) k mu) : Inside l mu ↔ vec m l ≤ vec m mu := by
  constructor
  · exact fun h i => h i
  · intro h i
    by_cases hi : i < m + 1
    · exact h ⟨i, hi⟩
    · rw [part_of_ge (by have := hl.2.1; omega)]
      exact hm.1.isPartition.part_nonneg i

/-- the largest horizontal strip inside a larger diagram -/
theorem strip_toward {m : ℕ} {k : ℤ} {f h : Fin (m + 1) → ℤ} (hf : BoxV k f) (hh : BoxV k h) (hle : f ≤ h) (hne : f ≠ h) :
    ∃ (p : ℕ) (g : Fin (m + 1) → ℤ), 1 ≤ p ∧ (p : ℤ) ≤ k ∧ g ∈ Om k p f ∧ BoxV k g ∧ g ≤ h := by
  have hfs : f ≤ sh k f := by
    intro i
    refine Fin.cases ?_ (fun i => ?_) i
    · rw [sh_zero]
      have h1 := hf.first
      have h2 := hf.last
      show f 0 ≤ f (Fin.last m) + k
      omega
    · rw [sh_succ]; exact hf.anti i
  have h1 : f ≤ h ⊓ sh k f := le_inf hle hfs
  have s1 : ∑ i, f i ≤ ∑ i, (h ⊓ sh k f) i := Finset.sum_le_sum (fun i _ => h1 i)
  have s2 : ∑ i, (h ⊓ sh k f) i ≤ ∑ i, f i + k := by
    rw [← sum_sh]
    exact Finset.sum_le_sum (fun i _ => (inf_le_right : h ⊓ sh k f ≤ sh k f) i)
  obtain ⟨p, hp⟩ : ∃ p : ℕ, ∑ i, (h ⊓ sh k f) i = ∑ i, f i + p := ⟨(∑ i, (h ⊓ sh k f) i - ∑ i, f i).toNat, by omega⟩
  have hom : h ⊓ sh k f ∈ Om k p f := mem_Om.2 ⟨h1, inf_le_right, hp⟩
  refine ⟨p, h ⊓ sh k f, ?_, by omega, hom, om_box hf hom (le_trans ((inf_le_left : h ⊓ sh k f ≤ h) 0) hh.first), inf_le_left⟩
  by_contra hp0
  obtain rfl : p = 0 := by omega
  have e := (Finset.sum_eq_sum_iff_of_le (fun i _ => h1 i)).1 (by simpa using hp.symm)
  apply hne
  funext i
  have key : ∀ i : Fin (m + 1), f i = h i := by
    intro i
    induction i using Fin.induction with
    | zero =>
      have e0 : f 0 = min (h 0) (sh k f 0) := e 0 (Finset.mem_univ _)
      rw [sh_zero] at e0
      have := hh.first; have := hf.last; have := hle 0
      omega
    | succ i ih =>
      have e0 : f i.succ = min (h i.succ) (sh k f i.succ) := e i.succ (Finset.mem_univ _)
      rw [sh_succ] at e0
      have := hh.anti i
      have := hle i.succ
      omega
  exact key i

section
variable {m : ℕ} {k : ℤ} (hk : 0 ≤ k) {pieri : Int → List Int → Except PyErr Poly} {K : ℤ}
  (Y : GiamSys K pieri (stdSpc k.toNat) (clsA (m + 1) k)) (hY : ∀ p, Y.t p = tc m k p.toNat)
include hk hY

theorem bruhatA_up {p : ℤ} {l mu : List Int} (hl : clsA (m + 1) k l) (h : Y.t p l mu ≠ 0) : Inside l mu := by
  classical
  have hm := Y.closed p _ mu (Finsupp.mem_support_iff.2 h)
  have hb := boxV_vec hk hm
  rw [hY, ← lab_vec' hm, tc_coeff hl hb] at h
  rw [inside_vec hl hm]
  by_contra hc
  exact h (if_neg (fun hg => hc (mem_Om.1 hg).1))

theorem bruhatA_pos {p : ℤ} {l : List Int} (hl : clsA (m + 1) k l) : PosL (Y.t p l) := by
  classical
  intro mu
  by_cases hm : clsA (m + 1) k mu
  · rw [hY, ← lab_vec' hm, tc_coeff hl (boxV_vec hk hm)]
    split
    · exact ⟨1, by norm_num, by simp⟩
    · exact ⟨0, le_rfl, by simp⟩
  · refine ⟨0, le_rfl, ?_⟩
    by_contra h
    exact hm (Y.closed p l mu (Finsupp.mem_support_iff.2 (by simpa using h)))

theorem bruhatA_step {l nu : List Int} (hl : clsA (m + 1) k l) (hn : clsA (m + 1) k nu) (h : Inside l nu) (hne : l ≠ nu) :
    ∃ p mu, stdSpc k.toNat p ∧ clsA (m + 1) k mu ∧ l.sum < mu.sum ∧ Y.t p l mu ≠ 0 ∧ Inside mu nu := by
  classical
  obtain ⟨p, g, h1, h2, h3, h4, h5⟩ := strip_toward (boxV_vec hk hl) (boxV_vec hk hn) ((inside_vec hl hn).1 h)
    (fun e => hne (by rw [← lab_vec' hl, ← lab_vec' hn, e]))
  refine ⟨p, lab g, ⟨by omega, by omega⟩, clsA_lab h4, ?_, ?_, ?_⟩
  · have e1 := (mem_Om.1 h3).2.2
    rw [vec_sum hl.1 hl.2.1, ← lab_sum] at e1
    omega
  · rw [hY, Int.toNat_natCast, tc_coeff hl h4, if_pos h3]
    exact one_ne_zero
  · rw [inside_vec (clsA_lab h4) hn, vec_lab]
    exact h5

theorem bruhatA_prod {l mu : List Int} (hl : clsA (m + 1) k l) (hm : clsA (m + 1) k mu) :
    (Y.prod (Finsupp.single l 1) (Finsupp.single mu 1) ≠ 0 ↔ Inside l (dualC m k mu)) ∧
    ∀ nu, Y.prod (Finsupp.single l 1) (Finsupp.single mu 1) nu ≠ 0 → clsA (m + 1) k nu ∧ Inside l nu ∧ Inside mu nu := by
  have hrefl : ∀ l, clsA (m + 1) k l → Inside l l := fun l _ i => le_rfl
  have htr : ∀ a b c, Inside a b → Inside b c → Inside a c := fun a b c h1 h2 i => (h1 i).trans (h2 i)
  have hup : ∀ p, stdSpc k.toNat p → ∀ l, clsA (m + 1) k l → ∀ mu, Y.t p l mu ≠ 0 → Inside l mu := fun p _ l hl mu h => bruhatA_up hk Y hY hl h
  refine ⟨Y.prod_ne_iff hrefl htr hup (fun p _ l hl => bruhatA_pos hk Y hY hl) (fun l nu hl hn h hne => Or.inl (bruhatA_step hk Y hY hl hn h hne))
    (N := ((m + 1) * k).toNat) ?_ (dualC m k) (fun l hl => clsA_dual hk hl) (fun l hl => dualC_dualC hl) ?_ hl hm, fun nu h => ?_⟩
  · intro l hl
    have e := vec_sum (m := m) hl.1 hl.2.1
    have hb := boxV_vec hk hl
    have s1 : ∑ i, vec m l i ≤ ∑ _i : Fin (m + 1), k := Finset.sum_le_sum (fun i _ => hb.le i)
    rw [e] at s1
    simp only [Finset.sum_const, Finset.card_univ, Fintype.card_fin, nsmul_eq_mul] at s1
    push_cast at s1
    exact ⟨isPartition_sum_nonneg hl.1.isPartition, s1.trans (Int.self_le_toNat _)⟩
  · intro p l nu _ hl hn
    rw [hY]
    exact tc_adjoint hk p.toNat hn hl
  · obtain ⟨h1, h2⟩ := Y.support_le hrefl htr hup hl hm h
    exact ⟨Y.prod_support _ (supp_single hm 1) nu (Finsupp.mem_support_iff.2 h), h1, h2⟩

end

end Verif
