import Mathlib.Analysis.Convex.StdSimplex
import Mathlib.Topology.Order.Compact
import Mathlib.LinearAlgebra.Matrix.ToLin
import Mathlib.Algebra.Order.Field.Basic
import Mathlib.Tactic.Linarith
import Mathlib.Tactic.FieldSimp
import Mathlib.Logic.Relation
/-!
# A positive vector that is an eigenvector of all matrices commuting with a non-negative one (Perron)
-/

namespace Verif
open Matrix

variable {ι : Type*} [Fintype ι]

theorem mulVec_pos {P : Matrix ι ι ℝ} (hP : ∀ i j, 0 < P i j) {x : ι → ℝ} (hx : ∀ i, 0 ≤ x i) (h : ∃ i, x i ≠ 0) (i : ι) : 0 < (P *ᵥ x) i := by
  obtain ⟨j, hj⟩ := h
  exact Finset.sum_pos' (fun l _ => mul_nonneg (hP i l).le (hx l)) ⟨j, Finset.mem_univ j, mul_pos (hP i j) ((hx j).lt_of_ne' hj)⟩

theorem perron [Nonempty ι] {P : Matrix ι ι ℝ} (hP : ∀ i j, 0 < P i j) :
    ∃ (r : ℝ) (c : ι → ℝ), 0 < r ∧ (∀ i, 0 < c i) ∧ P *ᵥ c = r • c := by
  classical
  set R := ∑ i, ∑ j, P i j with hR
  let S : Set (ℝ × (ι → ℝ)) := (Set.Icc 0 R ×ˢ stdSimplex ℝ ι) ∩ {p | ∀ i, p.1 * p.2 i ≤ (P *ᵥ p.2) i}
  have hcl : IsClosed {p : ℝ × (ι → ℝ) | ∀ i, p.1 * p.2 i ≤ (P *ᵥ p.2) i} := by
    simp only [Set.setOf_forall]
    refine isClosed_iInter (fun i => isClosed_le ?_ ?_)
    · fun_prop
    · unfold Matrix.mulVec dotProduct
      fun_prop
  have hcomp : IsCompact S := (isCompact_Icc.prod (isCompact_stdSimplex ℝ ι)).inter_right hcl
  have hbound : ∀ (r : ℝ) (x : ι → ℝ), x ∈ stdSimplex ℝ ι → (∀ i, r * x i ≤ (P *ᵥ x) i) → r ≤ R := by
    intro r x hx h
    have h1 : r = ∑ i, r * x i := by rw [← Finset.mul_sum, hx.2, mul_one]
    rw [h1, hR]
    refine Finset.sum_le_sum (fun i _ => (h i).trans ?_)
    refine Finset.sum_le_sum (fun j _ => ?_)
    have : x j ≤ 1 := by
      rw [← hx.2]
      exact Finset.single_le_sum (fun l _ => hx.1 l) (Finset.mem_univ j)
    calc P i j * x j ≤ P i j * 1 := mul_le_mul_of_nonneg_left this (hP i j).le
      _ = P i j := mul_one _
  have hne : S.Nonempty := by
    obtain ⟨i0⟩ := ‹Nonempty ι›
    have hx : Pi.single i0 (1 : ℝ) ∈ stdSimplex ℝ ι := single_mem_stdSimplex ℝ i0
    refine ⟨(0, Pi.single i0 1), ⟨⟨le_rfl, Finset.sum_nonneg (fun i _ => Finset.sum_nonneg (fun j _ => (hP i j).le))⟩, hx⟩, fun i => ?_⟩
    rw [zero_mul]
    exact Finset.sum_nonneg (fun j _ => mul_nonneg (hP i j).le (hx.1 j))
  obtain ⟨⟨r, x⟩, ⟨⟨hr, hx⟩, hle⟩, hmax⟩ := hcomp.exists_isMaxOn hne continuous_fst.continuousOn
  simp only at hr hx hle
  have hle' : ∀ i, r * x i ≤ (P *ᵥ x) i := hle
  have hxne : ∃ i, x i ≠ 0 := by
    by_contra hc
    push Not at hc
    have := hx.2
    simp [hc] at this
  have hu := mulVec_pos hP hx.1 hxne
  have heq : P *ᵥ x = r • x := by
    by_contra hcon
    have hd : ∀ i, 0 ≤ (P *ᵥ x - r • x) i := fun i => by simpa [sub_nonneg] using hle' i
    have hdne : ∃ i, (P *ᵥ x - r • x) i ≠ 0 := by
      by_contra hc
      push Not at hc
      exact hcon (sub_eq_zero.1 (funext hc))
    have hpd := mulVec_pos hP hd hdne
    rw [Matrix.mulVec_sub, Matrix.mulVec_smul] at hpd
    set u := P *ᵥ x with hudef
    obtain ⟨i0, _, hi0⟩ := Finset.exists_min_image Finset.univ (fun i => (P *ᵥ u) i / u i) Finset.univ_nonempty
    set s := (P *ᵥ u) i0 / u i0 with hs
    have hrs : r < s := by
      rw [hs, lt_div_iff₀ (hu i0)]
      have := hpd i0
      simp only [Pi.sub_apply, Pi.smul_apply, smul_eq_mul] at this
      linarith
    set t := ∑ i, u i with ht
    have htpos : 0 < t := Finset.sum_pos (fun i _ => hu i) Finset.univ_nonempty
    have hmem : (t⁻¹ • u) ∈ stdSimplex ℝ ι := by
      refine ⟨fun i => mul_nonneg (inv_nonneg.2 htpos.le) (hu i).le, ?_⟩
      simp only [Pi.smul_apply, smul_eq_mul]
      rw [← Finset.mul_sum, ← ht, inv_mul_cancel₀ htpos.ne']
    have hsle : ∀ i, s * (t⁻¹ • u) i ≤ (P *ᵥ (t⁻¹ • u)) i := by
      intro i
      rw [Matrix.mulVec_smul]
      simp only [Pi.smul_apply, smul_eq_mul]
      have h1 := hi0 i (Finset.mem_univ i)
      have h2 : s * u i ≤ (P *ᵥ u) i := (le_div_iff₀ (hu i)).1 h1
      calc s * (t⁻¹ * u i) = t⁻¹ * (s * u i) := by ring
        _ ≤ t⁻¹ * (P *ᵥ u) i := mul_le_mul_of_nonneg_left h2 (inv_nonneg.2 htpos.le)
    have hin : (s, t⁻¹ • u) ∈ S := ⟨⟨⟨hr.1.trans hrs.le, hbound s _ hmem hsle⟩, hmem⟩, hsle⟩
    have := hmax hin
    simp only [Set.mem_setOf_eq] at this
    exact absurd this (not_le.2 hrs)
  have hrpos : 0 < r := by
    obtain ⟨i, hi⟩ := hxne
    have h1 := hu i
    rw [heq] at h1
    simp only [Pi.smul_apply, smul_eq_mul] at h1
    exact pos_of_mul_pos_left h1 (hx.1 i)
  refine ⟨r, x, hrpos, fun i => ?_, heq⟩
  have h1 := hu i
  rw [heq] at h1
  simp only [Pi.smul_apply, smul_eq_mul] at h1
  exact pos_of_mul_pos_right h1 hrpos.le

theorem perron_simple [Nonempty ι] {P : Matrix ι ι ℝ} (hP : ∀ i j, 0 < P i j) {r : ℝ} {c y : ι → ℝ} (hc : ∀ i, 0 < c i) (h : P *ᵥ c = r • c)
    (hy : P *ᵥ y = r • y) : ∃ s : ℝ, y = s • c := by
  obtain ⟨i0, _, hi0⟩ := Finset.exists_max_image Finset.univ (fun i => y i / c i) Finset.univ_nonempty
  refine ⟨y i0 / c i0, ?_⟩
  set s := y i0 / c i0 with hs
  have hz : P *ᵥ (s • c - y) = r • (s • c - y) := by
    rw [Matrix.mulVec_sub, Matrix.mulVec_smul, h, hy, smul_sub, smul_comm]
  have hz0 : ∀ i, 0 ≤ (s • c - y) i := fun i => by
    simp only [Pi.sub_apply, Pi.smul_apply, smul_eq_mul]
    have := (div_le_iff₀ (hc i)).1 (hi0 i (Finset.mem_univ i))
    linarith
  by_contra hne
  have hex : ∃ i, (s • c - y) i ≠ 0 := by
    by_contra hcon
    push Not at hcon
    exact hne (sub_eq_zero.1 (funext hcon)).symm
  have := mulVec_pos hP hz0 hex i0
  rw [hz] at this
  simp only [Pi.sub_apply, Pi.smul_apply, smul_eq_mul] at this
  rw [hs, div_mul_cancel₀ _ (hc i0).ne', sub_self, mul_zero] at this
  exact lt_irrefl _ this

/-- If the entries of `A` are not negative and any index leads to any other one, a positive vector is an eigenvector of all matrices that
commute with `A`. -/
theorem perron_common [Nonempty ι] [DecidableEq ι] {A : Matrix ι ι ℝ} (hA : ∀ i j, 0 ≤ A i j) (hcon : ∀ i j, Relation.ReflTransGen (fun i j => 0 < A i j) i j) :
    ∃ c : ι → ℝ, (∀ i, 0 < c i) ∧ ∀ B : Matrix ι ι ℝ, Commute B A → ∃ r : ℝ, B *ᵥ c = r • c := by
  have hpow : ∀ n i j, 0 ≤ (A ^ n) i j := by
    intro n
    induction n with
    | zero =>
      intro i j
      rw [pow_zero, Matrix.one_apply]
      split <;> norm_num
    | succ n ih =>
      intro i j
      rw [pow_succ, Matrix.mul_apply]
      exact Finset.sum_nonneg (fun l _ => mul_nonneg (ih i l) (hA l j))
  have hreach : ∀ i j, ∃ n, 0 < (A ^ n) i j := by
    intro i j
    induction hcon i j with
    | refl => exact ⟨0, by simp⟩
    | tail _ h ih =>
      obtain ⟨n, hn⟩ := ih
      refine ⟨n + 1, ?_⟩
      rw [pow_succ, Matrix.mul_apply]
      exact Finset.sum_pos' (fun l _ => mul_nonneg (hpow n i l) (hA l _)) ⟨_, Finset.mem_univ _, mul_pos hn h⟩
  choose N hN using hreach
  set P : Matrix ι ι ℝ := ∑ i, ∑ j, A ^ N i j with hP
  have hpos : ∀ i j, 0 < P i j := by
    intro i j
    rw [hP, Matrix.sum_apply]
    refine Finset.sum_pos' (fun a _ => ?_) ⟨i, Finset.mem_univ i, ?_⟩
    · rw [Matrix.sum_apply]
      exact Finset.sum_nonneg (fun b _ => hpow _ i j)
    · rw [Matrix.sum_apply]
      exact Finset.sum_pos' (fun b _ => hpow _ i j) ⟨j, Finset.mem_univ j, hN i j⟩
  obtain ⟨r, c, _, hc, h⟩ := perron hpos
  refine ⟨c, hc, fun B hB => ?_⟩
  apply perron_simple hpos hc h
  have hcomm : Commute P B := by
    rw [hP]
    exact Commute.sum_left _ _ _ (fun i _ => Commute.sum_left _ _ _ (fun j _ => (hB.symm).pow_left _))
  rw [Matrix.mulVec_mulVec, hcomm.eq, ← Matrix.mulVec_mulVec, h, Matrix.mulVec_smul]

end Verif
