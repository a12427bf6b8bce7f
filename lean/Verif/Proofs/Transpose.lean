import Verif.Proofs.Column
/-!
# Transposing diagrams exchanges the row operators of Gr(n-m,n) and the column operators of Gr(m,n)
-/

namespace Verif
open Spec Cyl Finset Alt

variable {m k : ℕ}

theorem part_zero_of_ge {l : List Int} {i : ℕ} (h : l.length ≤ i) : part l i = 0 := by
  unfold part
  rw [List.getD_eq_default _ _ h]

theorem fin_nat {Q : ℕ → Prop} (h : ∀ i, m + 1 ≤ i → Q i) : (∀ i : Fin (m + 1), Q i) ↔ ∀ i, Q i :=
  ⟨fun h' i => if hi : i < m + 1 then h' ⟨i, hi⟩ else h i (by omega), fun h' i => h' i⟩

theorem fin_nat' {Q : ℕ → Prop} (h : ∀ i, m ≤ i → Q i) : (∀ i : Fin m, Q i) ↔ ∀ i, Q i :=
  ⟨fun h' i => if hi : i < m then h' ⟨i, hi⟩ else h i (by omega), fun h' i => h' i⟩

theorem all_succ {Q : Fin (m + 1) → Prop} : (∀ i, Q i) ↔ Q 0 ∧ ∀ i : Fin m, Q i.succ :=
  ⟨fun h => ⟨h 0, fun i => h _⟩, fun h i => Fin.cases h.1 h.2 i⟩

section
variable {l mu : List Int} (hl : clsA (m + 1) k l) (hmu : clsA (m + 1) k mu) (p : ℤ)
include hl hmu

theorem memV : vec m mu ∈ Vm p (vec m l) ↔ (∀ i, part l i ≤ part mu i ∧ part mu i ≤ part l i + 1) ∧ mu.sum = l.sum + p := by
  rw [mem_Vm, vec_sum hl.1 hl.2.1, vec_sum hmu.1 hmu.2.1]
  refine and_congr (fin_nat (Q := fun i => part l i ≤ part mu i ∧ part mu i ≤ part l i + 1) (fun i hi => ?_)) Iff.rfl
  rw [part_zero_of_ge (hl.2.1.trans hi), part_zero_of_ge (hmu.2.1.trans hi)]
  omega

theorem memVQ : unrot k (vec m mu) ∈ Vm p (vec m l) ↔
    (part l 0 = k ∧ ∀ i, part l (i + 1) ≤ part mu i + 1 ∧ part mu i ≤ part l (i + 1)) ∧ mu.sum + (m + 1) + k = l.sum + p := by
  have e2 : ∑ i, unrot k (vec m mu) i = mu.sum + (m + 1) + k := by
    rw [unrot, sum_sh, Finset.sum_add_distrib, vec_sum hmu.1 hmu.2.1]
    simp
  rw [mem_Vm, vec_sum hl.1 hl.2.1, e2]
  refine and_congr ?_ Iff.rfl
  have h1 := (boxV_vec (m := m) (Int.natCast_nonneg k) hl).first
  have h2 := hmu.1.isPartition.part_nonneg m
  have h3 : part l (m + 1) = 0 := part_zero_of_ge hl.2.1
  have h0 : part l 0 ≤ k := h1
  rw [all_succ, unrot_zero]
  have e3 : vec m mu (Fin.last m) = part mu m := rfl
  have e4 : vec m l 0 = part l 0 := rfl
  rw [e3, e4]
  have e5 : ∀ i : Fin m, (vec m l i.succ ≤ unrot k (vec m mu) i.succ ∧ unrot k (vec m mu) i.succ ≤ vec m l i.succ + 1) ↔
      (part l (i.val + 1) ≤ part mu i.val + 1 ∧ part mu i.val ≤ part l (i.val + 1)) := by
    intro i
    rw [unrot, sh_succ]
    show part l (i.val + 1) ≤ part mu i.val + 1 ∧ part mu i.val + 1 ≤ part l (i.val + 1) + 1 ↔ _
    omega
  rw [forall_congr' e5]
  constructor
  · rintro ⟨h4, h5⟩
    have h6 : part mu m = 0 := by omega
    refine ⟨by omega, fun i => ?_⟩
    by_cases hi : i < m
    · exact h5 ⟨i, hi⟩
    · have : part mu i ≤ part mu m := hmu.1.isPartition.part_anti (by omega)
      have := hmu.1.isPartition.part_nonneg i
      rw [part_zero_of_ge (l := l) (hl.2.1.trans (by omega))]
      omega
  · rintro ⟨h4, h5⟩
    have := h5 m
    exact ⟨by omega, fun i => h5 i⟩

theorem memH : vec m mu ∈ Om k p (vec m l) ↔ (∀ i, part l i ≤ part mu i ∧ part mu (i + 1) ≤ part l i) ∧ mu.sum = l.sum + p := by
  rw [mem_Om, vec_sum hl.1 hl.2.1, vec_sum hmu.1 hmu.2.1]
  have h1 := (boxV_vec (m := m) (Int.natCast_nonneg k) hmu).first
  have h2 := hl.1.isPartition.part_nonneg m
  have e1 : vec m l ≤ vec m mu ↔ ∀ i, part l i ≤ part mu i := by
    refine fin_nat (Q := fun i => part l i ≤ part mu i) (fun i hi => ?_)
    rw [part_zero_of_ge (hl.2.1.trans hi)]
    exact hmu.1.isPartition.part_nonneg i
  have e2 : vec m mu ≤ sh k (vec m l) ↔ ∀ i, part mu (i + 1) ≤ part l i := by
    show (∀ i, vec m mu i ≤ sh k (vec m l) i) ↔ _
    rw [all_succ, sh_zero]
    have e3 : vec m l (Fin.last m) = part l m := rfl
    have e4 : ∀ i : Fin m, vec m mu i.succ ≤ sh k (vec m l) i.succ ↔ part mu (i.val + 1) ≤ part l i.val := by
      intro i
      rw [sh_succ]
      rfl
    rw [forall_congr' e4, e3, fin_nat' (Q := fun i => part mu (i + 1) ≤ part l i)]
    · constructor
      · exact fun h => h.2
      · exact fun h => ⟨by omega, h⟩
    · intro i hi
      rw [part_zero_of_ge (l := mu) (hmu.2.1.trans (by omega))]
      exact hl.1.isPartition.part_nonneg i
  rw [e1, e2, ← and_assoc, ← forall_and]

theorem memHQ : unrot k (vec m mu) ∈ Om k p (vec m l) ↔
    ((∀ i < m + 1, part mu i + 1 ≤ part l i) ∧ ∀ i, part l (i + 1) ≤ part mu i + 1) ∧ mu.sum + (m + 1) + k = l.sum + p := by
  have e2 : ∑ i, unrot k (vec m mu) i = mu.sum + (m + 1) + k := by
    rw [unrot, sum_sh, Finset.sum_add_distrib, vec_sum hmu.1 hmu.2.1]
    simp
  rw [mem_Om, vec_sum hl.1 hl.2.1, e2]
  have h1 := (boxV_vec (m := m) (Int.natCast_nonneg k) hl).first
  have h2 := hmu.1.isPartition.part_nonneg m
  have a1 : vec m l ≤ unrot k (vec m mu) ↔ ∀ i, part l (i + 1) ≤ part mu i + 1 := by
    show (∀ i, vec m l i ≤ unrot k (vec m mu) i) ↔ _
    rw [all_succ, unrot_zero]
    have e3 : vec m mu (Fin.last m) = part mu m := rfl
    have e4 : ∀ i : Fin m, vec m l i.succ ≤ unrot k (vec m mu) i.succ ↔ part l (i.val + 1) ≤ part mu i.val + 1 := by
      intro i
      rw [unrot, sh_succ]
      rfl
    rw [forall_congr' e4, e3, fin_nat' (Q := fun i => part l (i + 1) ≤ part mu i + 1)]
    · constructor
      · exact fun h => h.2
      · exact fun h => ⟨by omega, h⟩
    · intro i hi
      rw [part_zero_of_ge (l := l) (hl.2.1.trans (by omega))]
      have := hmu.1.isPartition.part_nonneg i
      omega
  have a2 : unrot k (vec m mu) ≤ sh k (vec m l) ↔ ∀ i < m + 1, part mu i + 1 ≤ part l i := by
    rw [le_sh_iff, unrot, dn_sh]
    exact ⟨fun h i hi => h ⟨i, hi⟩, fun h i => h i.val i.2⟩
  rw [a1, a2, ← and_assoc, and_comm (a := ∀ i, part l (i + 1) ≤ part mu i + 1)]

end

theorem conj_lt {l : List Int} (h : IsPartition l) (i j : ℕ) : (i : ℤ) < part (partConj l) j ↔ (j : ℤ) < part l i := by
  have := lt_part_partConj h j i
  omega

theorem clsA_conj {l : List Int} (hl : clsA (m + 1) k l) : clsA k (m + 1 : ℕ) (partConj l) := by
  have hp := hl.1.isPartition
  refine ⟨partConj_reduced hp, ?_, ?_⟩
  · rw [partConj_length hp]
    have := (boxV_vec (m := m) (Int.natCast_nonneg k) hl).first
    have e : vec m l 0 = part l 0 := rfl
    omega
  · intro x hx
    obtain ⟨i, hi, rfl⟩ := List.getElem_of_mem hx
    rw [← part_of_lt hi]
    exact (part_partConj_le hp i).trans (by exact_mod_cast hl.2.1)

theorem conj_conj' {l : List Int} (hl : ReducedPart l) : partConj (partConj l) = l := by
  rw [partConj_partConj hl.isPartition, partClip_of_noTrailing hl.noTrailing]

/-- comparison of integers by the smaller natural numbers -/
theorem le_iff_lt {a b : ℤ} (hb : 0 ≤ b) : a ≤ b ↔ ∀ j : ℕ, (j : ℤ) < a → (j : ℤ) < b :=
  ⟨fun h j hj => by omega, fun h => by
    by_contra hc
    have := h b.toNat (by omega)
    omega⟩

theorem le_succ_iff_lt {a b : ℤ} (hb : 0 ≤ b) : a ≤ b + 1 ↔ ∀ j : ℕ, ((j + 1 : ℕ) : ℤ) < a → (j : ℤ) < b :=
  ⟨fun h j hj => by push_cast at hj; omega, fun h => by
    by_contra hc
    have := h b.toNat (by push_cast; omega)
    omega⟩

section
variable {l mu : List Int} (hl : clsA (m + 1) k l) (hmu : clsA (m + 1) k mu)
include hl hmu

theorem conj_V (p : ℤ) : (vec m mu ∈ Vm p (vec m l)) ↔
    ((∀ i, part (partConj l) i ≤ part (partConj mu) i ∧ part (partConj mu) (i + 1) ≤ part (partConj l) i) ∧
      (partConj mu).sum = (partConj l).sum + p) := by
  have pl := hl.1.isPartition
  have pm := hmu.1.isPartition
  have ql := (partConj_reduced pl).isPartition
  have qm := (partConj_reduced pm).isPartition
  rw [memV hl hmu, partConj_sum pl, partConj_sum pm, forall_and, forall_and]
  refine and_congr (and_congr ?_ ?_) Iff.rfl
  · rw [forall_congr' (fun i => le_iff_lt (pm.part_nonneg i)), forall_congr' (fun i => le_iff_lt (qm.part_nonneg i))]
    simp only [conj_lt pl, conj_lt pm]
    exact forall_comm
  · rw [forall_congr' (fun i => le_succ_iff_lt (pl.part_nonneg i)), forall_congr' (fun i => le_iff_lt (ql.part_nonneg i))]
    simp only [conj_lt pl, conj_lt pm]
    exact forall_comm

theorem conj_VQ (p : ℤ) : (unrot k (vec m mu) ∈ Vm p (vec m l)) ↔
    (((∀ i < k, part (partConj mu) i + 1 ≤ part (partConj l) i) ∧ ∀ i, part (partConj l) (i + 1) ≤ part (partConj mu) i + 1) ∧
      (partConj mu).sum + k + (m + 1 : ℕ) = (partConj l).sum + p) := by
  have pl := hl.1.isPartition
  have pm := hmu.1.isPartition
  have ql := (partConj_reduced pl).isPartition
  have qm := (partConj_reduced pm).isPartition
  have h1 := (boxV_vec (m := m) (Int.natCast_nonneg k) hl).first
  have h2 := (boxV_vec (m := m) (Int.natCast_nonneg k) hmu).first
  have h0 : part l 0 ≤ k := h1
  have h0' : part mu 0 ≤ k := h2
  rw [memVQ hl hmu, partConj_sum pl, partConj_sum pm]
  refine and_congr ?_ (by push_cast; omega)
  rw [forall_and, ← and_assoc, and_comm (a := part l 0 = k), and_assoc, and_comm]
  refine and_congr ?_ ?_
  · constructor
    · rintro ⟨a1, a2⟩ i hi
      by_contra hc
      have b0 := qm.part_nonneg i
      have b1 : ¬ (((part (partConj mu) i).toNat : ℤ) < part (partConj l) i) := by omega
      rw [conj_lt pl] at b1
      by_cases hz : part (partConj mu) i = 0
      · rw [hz] at b1
        simp only [Int.toNat_zero] at b1
        omega
      · have b2 : (((part (partConj mu) i).toNat - 1 : ℕ) : ℤ) < part (partConj mu) i := by omega
        rw [conj_lt pm] at b2
        have := a2 ((part (partConj mu) i).toNat - 1)
        rw [show (part (partConj mu) i).toNat - 1 + 1 = (part (partConj mu) i).toNat by omega] at this
        omega
    · intro a
      refine ⟨?_, fun i => ?_⟩
      · rcases Nat.eq_zero_or_pos k with rfl | hk
        · have := pl.part_nonneg 0
          push_cast at h0 ⊢
          omega
        · have b1 := a (k - 1) (by omega)
          have b2 := qm.part_nonneg (k - 1)
          have b3 : ((0 : ℕ) : ℤ) < part (partConj l) (k - 1) := by push_cast; omega
          rw [conj_lt pl] at b3
          omega
      · rw [le_iff_lt (pl.part_nonneg _)]
        intro j hj
        have b1 := hj
        rw [← conj_lt pm] at hj
        rw [← conj_lt pl]
        have b2 : part mu i ≤ part mu 0 := pm.part_anti (Nat.zero_le i)
        have := a j (by omega)
        push_cast
        omega
  · rw [forall_congr' (fun i => le_succ_iff_lt (pm.part_nonneg i)), forall_congr' (fun i => le_succ_iff_lt (qm.part_nonneg i))]
    simp only [conj_lt pl, conj_lt pm]
    exact forall_comm

end

/-- The row operators of the transposed diagrams are the column operators. -/
theorem tq_conj {l mu : List Int} {c : ℕ} (hl : clsA (m + 1) (c + 1 : ℕ) l) (hmu : clsA (m + 1) (c + 1 : ℕ) mu) (p : ℕ) :
    tq c (m + 1 : ℕ) p (partConj l) (partConj mu) = Ecol m (c + 1) p (Finsupp.single l 1) mu := by
  classical
  have hl' := clsA_conj hl
  have hmu' := clsA_conj hmu
  have e1 := tq_coeff (k := ((m + 1 : ℕ) : ℤ)) (p := p) hl' (boxV_vec (m := c) (Int.natCast_nonneg _) hmu')
  have e2 := Ecol_coeff (p := p) hl (boxV_vec (m := m) (Int.natCast_nonneg _) hmu)
  rw [lab_vec' hmu'] at e1
  rw [lab_vec' hmu] at e2
  rw [e1, e2]
  congr 1
  · refine if_congr ?_ rfl rfl
    rw [conj_V hl hmu, memH hl' hmu']
  · refine if_congr ?_ rfl rfl
    rw [conj_VQ hl hmu, memHQ hl' hmu']
    push_cast
    rfl

end Verif
