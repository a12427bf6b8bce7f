import Verif.Proofs.SchurSym
import Mathlib.LinearAlgebra.Matrix.Determinant.Basic
import Mathlib.Algebra.Ring.GeomSum
/-!
# Tableau sums are quotients of alternants

The determinants `det (x_j ^ γ_i)` satisfy the same branching rule as the tableau sums.
-/

namespace Verif.SchurSym
open Spec Matrix

section
variable {R : Type} [CommRing R] {x : Nat → R}

/-- `det (x_j ^ γ_i)` with rows in increasing order of the exponents. -/
def altW (x : Nat → R) (m : Nat) (γ : Nat → Nat) : R :=
  Matrix.det (Matrix.of fun i j : Fin m => x j ^ γ i)

theorem pow_step (a y : R) {b c : Nat} (h : b ≤ c) :
    a ^ c = (a - y) * ∑ e ∈ Finset.Ico b c, a ^ e * y ^ (c - 1 - e) + y ^ (c - b) * a ^ b := by
  obtain ⟨d, rfl⟩ := Nat.exists_eq_add_of_le h
  have h1 : ∑ e ∈ Finset.Ico b (b + d), a ^ e * y ^ (b + d - 1 - e)
      = a ^ b * ∑ e ∈ Finset.range d, a ^ e * y ^ (d - 1 - e) := by
    rw [Finset.sum_Ico_eq_sum_range, Finset.mul_sum]
    rw [Nat.add_sub_cancel_left]
    refine Finset.sum_congr rfl (fun e he => ?_)
    have := Finset.mem_range.1 he
    rw [show b + d - 1 - (b + e) = d - 1 - e by omega, pow_add, mul_assoc]
  rw [h1]
  have h2 := (Commute.all a y).geom_sum₂_mul d
  rw [Nat.add_sub_cancel_left]
  calc a ^ (b + d) = a ^ b * (a ^ d - y ^ d) + y ^ d * a ^ b := by rw [pow_add]; ring
    _ = a ^ b * ((∑ i ∈ Finset.range d, a ^ i * y ^ (d - 1 - i)) * (a - y)) + y ^ d * a ^ b := by rw [h2]
    _ = _ := by ring

/-- Branching of alternants: the exponents of the smaller one interlace. -/
theorem altW_branch (x : Nat → R) (m : Nat) (γ : Nat → Nat) (h : ∀ i < m, γ i ≤ γ (i + 1)) :
    altW x (m + 1) γ = (-1) ^ m * (∏ j : Fin m, (x j - x m)) *
      ∑ c ∈ Fintype.piFinset (fun i : Fin m => Finset.Ico (γ i) (γ (i + 1))),
        x m ^ (γ 0 + ∑ i : Fin m, (γ (i + 1) - 1 - c i)) *
          Matrix.det (Matrix.of fun i j : Fin m => x j ^ c i) := by
  have hd : altW x (m + 1) γ = Matrix.det (Matrix.of fun (i j : Fin (m + 1)) =>
      Fin.cases (motive := fun _ => R) (x j ^ γ 0) (fun i : Fin m =>
        (x j - x m) * ∑ e ∈ Finset.Ico (γ i) (γ (i + 1)), x j ^ e * x m ^ (γ (i + 1) - 1 - e)) i) := by
    unfold altW
    refine Matrix.det_eq_of_forall_row_eq_smul_add_pred (fun i => x m ^ (γ (i + 1) - γ i)) ?_ ?_
    · intro j; rfl
    · intro i j
      simp only [Matrix.of_apply, Fin.cases_succ, Fin.val_succ, Fin.val_castSucc]
      exact pow_step _ _ (h i i.2)
  rw [hd, Matrix.det_succ_column _ (Fin.last m), Finset.sum_eq_single 0]
  rotate_left
  · intro i _ hi
    obtain ⟨i, rfl⟩ := Fin.exists_succ_eq.2 hi
    simp
  · simp
  have hsub : Matrix.det (Matrix.submatrix (Matrix.of fun (i j : Fin (m + 1)) =>
      Fin.cases (motive := fun _ => R) (x j ^ γ 0) (fun i : Fin m =>
        (x j - x m) * ∑ e ∈ Finset.Ico (γ i) (γ (i + 1)), x j ^ e * x m ^ (γ (i + 1) - 1 - e)) i)
        (Fin.succAbove 0) (Fin.succAbove (Fin.last m))) =
      (∏ j : Fin m, (x j - x m)) * ∑ c ∈ Fintype.piFinset (fun i : Fin m => Finset.Ico (γ i) (γ (i + 1))),
        (∏ i : Fin m, x m ^ (γ (i + 1) - 1 - c i)) * Matrix.det (Matrix.of fun i j : Fin m => x j ^ c i) := by
    have e1 : Matrix.submatrix (Matrix.of fun (i j : Fin (m + 1)) =>
      Fin.cases (motive := fun _ => R) (x j ^ γ 0) (fun i : Fin m =>
        (x j - x m) * ∑ e ∈ Finset.Ico (γ i) (γ (i + 1)), x j ^ e * x m ^ (γ (i + 1) - 1 - e)) i)
        (Fin.succAbove 0) (Fin.succAbove (Fin.last m)) =
        Matrix.of fun i j : Fin m => (x j - x m) * (Matrix.of (fun i j : Fin m =>
          ∑ e ∈ Finset.Ico (γ i) (γ (i + 1)), x j ^ e * x m ^ (γ (i + 1) - 1 - e))) i j := by
      ext i j
      simp
    rw [e1, Matrix.det_mul_row]
    congr 1
    have e2 : (Matrix.of fun i j : Fin m => ∑ e ∈ Finset.Ico (γ i) (γ (i + 1)), x j ^ e * x m ^ (γ (i + 1) - 1 - e))
        = fun i : Fin m => ∑ e ∈ Finset.Ico (γ i) (γ (i + 1)), (fun j : Fin m => x m ^ (γ (i + 1) - 1 - e) * x j ^ e) := by
      ext i j
      show ∑ e ∈ Finset.Ico (γ i) (γ (i + 1)), x j ^ e * x m ^ (γ (i + 1) - 1 - e) =
        (∑ e ∈ Finset.Ico (γ i) (γ (i + 1)), (fun j : Fin m => x m ^ (γ (i + 1) - 1 - e) * x j ^ e)) j
      rw [Finset.sum_apply]
      exact Finset.sum_congr rfl (fun e _ => mul_comm (x j ^ e) _)
    rw [e2]
    have e3 := (Matrix.detRowAlternating (R := R) (n := Fin m)).toMultilinearMap.map_sum_finset
      (fun (i : Fin m) (e : Nat) => (fun j : Fin m => x m ^ (γ (i + 1) - 1 - e) * x j ^ e))
      (fun i : Fin m => Finset.Ico (γ i) (γ (i + 1)))
    refine Eq.trans e3 (Finset.sum_congr rfl (fun c _ => ?_))
    exact Matrix.det_mul_column (fun i : Fin m => x m ^ (γ (i + 1) - 1 - c i)) (Matrix.of fun i j : Fin m => x j ^ c i)
  rw [hsub]
  simp only [Matrix.of_apply, Fin.cases_zero, Fin.val_last, Fin.val_zero, zero_add]
  rw [mul_assoc, mul_left_comm (x m ^ γ 0), mul_assoc]
  congr 2
  rw [Finset.mul_sum]
  refine Finset.sum_congr rfl (fun c _ => ?_)
  rw [Finset.prod_pow_eq_pow_sum, pow_add, mul_assoc]

theorem altW_stair (x : Nat → R) (m : Nat) :
    altW x (m + 1) (fun i => i) = (-1) ^ m * (∏ j : Fin m, (x j - x m)) * altW x m (fun i => i) := by
  rw [altW_branch x m _ (fun i _ => by omega)]
  congr 1
  rw [Finset.sum_eq_single (fun i : Fin m => (i : Nat))]
  · have : ∑ i : Fin m, ((i : Nat) + 1 - 1 - (i : Nat)) = 0 := Finset.sum_eq_zero (fun i _ => by omega)
    rw [this]
    simp [altW]
  · intro c hc hne
    exfalso
    apply hne
    funext i
    have := Finset.mem_Ico.1 (Fintype.mem_piFinset.1 hc i)
    omega
  · intro hn
    exfalso
    apply hn
    rw [Fintype.mem_piFinset]
    intro i
    exact Finset.mem_Ico.2 ⟨le_refl _, by omega⟩

/-- The exponents of a shape in `m` variables, smallest first. -/
def expoG (m : Nat) (nu : List Int) (i : Nat) : Nat := (part nu (m - 1 - i)).toNat + i

theorem tabSum_zero_empty {nu : List Int} (hnu : IsPartition nu) (h : part nu 0 = 0) : tabSum x 0 nu = 1 := by
  have h0 : ∀ i, part nu i = 0 := fun i => by
    have h1 := hnu.part_nonneg i
    have h2 := hnu.part_anti (Nat.zero_le i)
    omega
  have := (Gen.single (x := x) (tableau_unique_empty (m := 0) h0)).unique (tabSum_gen hnu)
  rw [← this]
  unfold weight
  apply List.prod_eq_one
  intro a ha
  obtain ⟨r, hr, rfl⟩ := List.mem_map.1 ha
  have : r = [] := by
    by_contra hne
    simp_all
  simp [this]

theorem tabSum_vanish (m : Nat) : ∀ {nu : List Int}, IsPartition nu → part nu m ≠ 0 → tabSum x m nu = 0 := by
  induction m with
  | zero =>
    intro nu hnu h
    refine (tabSum_gen hnu).unique (Gen.empty (fun T hT => ?_))
    have h1 := hT.2.1 0
    rcases hr : row T 0 with _ | ⟨e, r⟩
    · rw [hr] at h1; simp at h1; omega
    · have := hT.2.2.2.1 0 e (by rw [hr]; simp)
      omega
  | succ m ih =>
    intro nu hnu h
    rw [branch hnu]
    refine Finset.sum_eq_zero (fun mu hmu => ?_)
    have h1 := (mem_strips.1 hmu).2 m
    have h2 := hnu.part_nonneg (m + 1)
    rw [ih (strips_isPartition hnu hmu) (by omega), mul_zero]

theorem sum_eq_of_part {l : List Int} (hl : IsPartition l) {n : Nat} (h : part l n = 0) :
    l.sum = ∑ i ∈ Finset.range n, part l i := by
  rw [sum_eq_range l (max n l.length) (le_max_right _ _)]
  refine (Finset.sum_subset ?_ ?_).symm
  · intro i hi
    rw [Finset.mem_range] at hi ⊢
    exact lt_of_lt_of_le hi (le_max_left _ _)
  · intro i _ hi
    rw [Finset.mem_range, not_lt] at hi
    have h1 := hl.part_anti hi
    have h2 := hl.part_nonneg i
    omega

/-- Jacobi's formula: the tableau sum times the smallest alternant is an alternant. -/
theorem jacobi (x : Nat → R) (m : Nat) : ∀ {nu : List Int}, IsPartition nu → part nu m = 0 →
    tabSum x m nu * altW x m (fun i => i) = altW x m (expoG m nu) := by
  induction m with
  | zero =>
    intro nu hnu h
    rw [tabSum_zero_empty hnu h]
    simp [altW]
  | succ m ih =>
    intro nu hnu h
    have hmono : ∀ i < m, expoG (m + 1) nu i ≤ expoG (m + 1) nu (i + 1) := by
      intro i hi
      unfold expoG
      have := hnu.part_anti (show m + 1 - 1 - (i + 1) ≤ m + 1 - 1 - i by omega)
      have := Int.toNat_le_toNat this
      omega
    rw [branch hnu, altW_branch x m _ hmono, altW_stair]
    have hf : ∑ mu ∈ strips nu, x m ^ (nu.sum - mu.sum).toNat * tabSum x m mu
        = ∑ mu ∈ strips nu with part mu m = 0, x m ^ (nu.sum - mu.sum).toNat * tabSum x m mu := by
      refine (Finset.sum_filter_of_ne ?_).symm
      intro mu hmu hne
      by_contra h0
      exact hne (by rw [tabSum_vanish m (strips_isPartition hnu hmu) h0, mul_zero])
    rw [hf, mul_left_comm, Finset.sum_mul]
    congr 1
    refine Finset.sum_bij (fun mu _ => fun i : Fin m => expoG m mu i) ?_ ?_ ?_ ?_
    · intro mu hmu
      obtain ⟨hmu, h0⟩ := Finset.mem_filter.1 hmu
      have hp := strips_isPartition hnu hmu
      rw [Fintype.mem_piFinset]
      intro i
      rw [Finset.mem_Ico]
      have h1 := (mem_strips.1 hmu).2 (m - 1 - i)
      have hi := i.2
      unfold expoG
      rw [show m - 1 - (i : Nat) + 1 = m + 1 - 1 - i by omega] at h1
      rw [show m + 1 - 1 - ((i : Nat) + 1) = m - 1 - i by omega]
      have := Int.toNat_le_toNat h1.1
      have := Int.toNat_le_toNat h1.2
      omega
    · intro mu hmu mu' hmu' he
      obtain ⟨hmu, h0⟩ := Finset.mem_filter.1 hmu
      obtain ⟨hmu', h0'⟩ := Finset.mem_filter.1 hmu'
      have hp := strips_isPartition hnu hmu
      have hp' := strips_isPartition hnu hmu'
      apply ext_part (by rw [(mem_strips.1 hmu).1, (mem_strips.1 hmu').1])
      intro i
      have n1 := hp.part_nonneg i
      have n2 := hp'.part_nonneg i
      by_cases hi : i < m
      · have := congrFun he ⟨m - 1 - i, by omega⟩
        simp only [expoG] at this
        rw [show m - 1 - (m - 1 - i) = i by omega] at this
        omega
      · have := hp.part_anti (show m ≤ i by omega)
        have := hp'.part_anti (show m ≤ i by omega)
        omega
    · intro c hc
      rw [Fintype.mem_piFinset] at hc
      have hc' : ∀ i, (hi : i < m) → (part nu (i + 1) : Int) ≤ c ⟨m - 1 - i, by omega⟩ - (m - 1 - i : Nat) ∧
          (c ⟨m - 1 - i, by omega⟩ : Int) - (m - 1 - i : Nat) ≤ part nu i := by
        intro i hi
        have := Finset.mem_Ico.1 (hc ⟨m - 1 - i, by omega⟩)
        simp only [expoG] at this
        rw [show m + 1 - 1 - (m - 1 - i) = i + 1 by omega, show m + 1 - 1 - (m - 1 - i + 1) = i by omega] at this
        have := hnu.part_nonneg i
        have := hnu.part_nonneg (i + 1)
        omega
      have hpart : ∀ i, part ((List.range nu.length).map fun i =>
          if hi : i < m then (c ⟨m - 1 - i, by omega⟩ : Int) - (m - 1 - i : Nat) else 0) i =
          if hi : i < m then (c ⟨m - 1 - i, by omega⟩ : Int) - (m - 1 - i : Nat) else 0 := by
        intro i
        rw [part_map_range]
        split
        · rfl
        · rename_i hi
          split
          · rename_i hi'
            have := hc' i hi'
            rw [part_of_ge (l := nu) (i := i) (by omega), part_of_ge (l := nu) (i := i + 1) (by omega)] at this
            omega
          · rfl
      have hmem : ((List.range nu.length).map fun i =>
          if hi : i < m then (c ⟨m - 1 - i, by omega⟩ : Int) - (m - 1 - i : Nat) else 0) ∈ strips nu := by
        rw [mem_strips]
        refine ⟨by simp, fun i => ?_⟩
        rw [hpart]
        split
        · exact hc' i ‹_›
        · have := hnu.part_nonneg i
          have := hnu.part_anti (show m + 1 ≤ i + 1 by omega)
          omega
      refine ⟨_, Finset.mem_filter.2 ⟨hmem, by rw [hpart]; simp⟩, ?_⟩
      funext i
      have hi := i.2
      unfold expoG
      rw [hpart, dif_pos (by omega)]
      have e : (⟨m - 1 - (m - 1 - (i : Nat)), by omega⟩ : Fin m) = i := by ext; simp; omega
      rw [e]
      have := Finset.mem_Ico.1 (hc i)
      simp only [expoG] at this
      omega
    · intro mu hmu
      obtain ⟨hmu, h0⟩ := Finset.mem_filter.1 hmu
      have hp := strips_isPartition hnu hmu
      rw [mul_assoc, ih hp h0]
      congr 2
      rw [sum_eq_of_part hnu h, sum_eq_of_part hp h0, Finset.sum_range_succ]
      have e1 : ∑ i : Fin m, (expoG (m + 1) nu (i + 1) - 1 - expoG m mu i) =
          ∑ i ∈ Finset.range m, (expoG (m + 1) nu (i + 1) - 1 - expoG m mu i) :=
        Fin.sum_univ_eq_sum_range (fun i => expoG (m + 1) nu (i + 1) - 1 - expoG m mu i) m
      have e2 : ((∑ i ∈ Finset.range m, (expoG (m + 1) nu (i + 1) - 1 - expoG m mu i) : Nat) : Int) =
          ∑ i ∈ Finset.range m, part nu i - ∑ i ∈ Finset.range m, part mu i := by
        rw [← Finset.sum_range_reflect (fun i => part nu i), ← Finset.sum_range_reflect (fun i => part mu i),
          ← Finset.sum_sub_distrib]
        push_cast
        refine Finset.sum_congr rfl (fun i hi => ?_)
        have hi := Finset.mem_range.1 hi
        have h1 := (mem_strips.1 hmu).2 (m - 1 - i)
        have h2 := hp.part_nonneg (m - 1 - i)
        unfold expoG
        rw [show m + 1 - 1 - (i + 1) = m - 1 - i by omega]
        omega
      have e3 := hnu.part_nonneg m
      rw [e1]
      have e4 : expoG (m + 1) nu 0 = (part nu m).toNat := by simp [expoG]
      rw [e4]
      omega

end

end Verif.SchurSym
