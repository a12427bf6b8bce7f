import Verif.Spec.Dec
import Verif.Proofs.IndexA
import Verif.Spec.Index
/-!
# Property C08: partitions and index sets of `Gr(m,n)`
-/

namespace Verif
open Spec

theorem mkGr_ok {m n : Int} {X : Space} (hX : mkGr m n = .ok X) :
    X = ⟨.A, n - m, n⟩ ∧ 0 ≤ m ∧ m ≤ n := by
  unfold mkGr at hX
  split at hX
  · cases hX
  split at hX
  · cases hX
  injection hX with hX
  exact ⟨hX.symm, by omega, by omega⟩

/-- C08: the index set of a class is an index set, and converting back gives the class. -/
theorem C08_part_index_part (m n : Int) (X : Space) (hX : mkGr m n = .ok X) (l : List Int)
    (hl : ReducedPart l) (hr : InRect l m.toNat (n - m)) :
    IndexList m.toNat n (X.part2index l) ∧ X.index2part (X.part2index l) = .ok l := by
  obtain ⟨rfl, h0, h1⟩ := mkGr_ok hX
  have hm : (n - (n - m)) = m := by omega
  have hge := fun i => hl.isPartition.part_nonneg i
  have hle := fun i => InRect.part_le hr (by omega) i
  simp only [Space.part2index, Space.index2part, part2indexA, index2partA, hm, at'_pad]
  refine ⟨⟨by simp, ?_, ?_⟩, ?_⟩
  · rw [pairwise_map_range]
    intro i j hij _
    have := hl.isPartition.part_anti (le_of_lt hij)
    omega
  · intro x hx
    rw [List.mem_map] at hx
    obtain ⟨j, hj, rfl⟩ := hx
    rw [List.mem_range] at hj
    have := hge j
    have := hle j
    omega
  · rw [if_neg (by simp)]
    congr 1
    rw [← partClip_of_noTrailing hl.noTrailing]
    conv_rhs => rw [← map_part_range hr.1]
    rw [partClip_of_noTrailing hl.noTrailing]
    congr 1
    apply List.map_congr_left
    intro j hj
    rw [List.mem_range] at hj
    rw [at'_eq_part, part_map_range _ _ _ hj]
    omega

example : (Space.mk .A 4 7).part2index [4, 2] = [1, 4, 7] ∧ (Space.mk .A 4 7).index2part [1, 4, 7] = .ok [4, 2] := by
  decide +kernel

/-- C08: every index set is the index set of the class it converts to. -/
theorem C08_index_part_index (m n : Int) (X : Space) (hX : mkGr m n = .ok X) (idx : List Int)
    (hi : IndexList m.toNat n idx) :
    ∃ l, X.index2part idx = .ok l ∧ ReducedPart l ∧ InRect l m.toNat (n - m) ∧ X.part2index l = idx := by
  obtain ⟨rfl, h0, h1⟩ := mkGr_ok hX
  have hm : (n - (n - m)) = m := by omega
  obtain ⟨hlen, hp, hb⟩ := hi
  rw [pairwise_iff_part] at hp
  rw [forall_mem_iff_part] at hb
  rw [hlen] at hp hb
  have hgap := fun {i j : Nat} (hij : i ≤ j) (hj : j < m.toNat) => strict_mono_gap hp hij hj
  simp only [Space.part2index, Space.index2part, part2indexA, index2partA, hm, at'_pad]
  rw [if_neg (by omega)]
  have hpart : IsPartition ((List.range m.toNat).map (fun j : Nat => n - m + (j : Int) + 1 - at' idx j)) := by
    constructor
    · rw [pairwise_map_range]
      intro i j hij hj
      have := hgap (le_of_lt hij) hj
      simp only [at'_eq_part]
      omega
    · intro x hx
      rw [List.mem_map] at hx
      obtain ⟨j, hj, rfl⟩ := hx
      rw [List.mem_range] at hj
      have h1 := hgap (show j ≤ m.toNat - 1 by omega) (by omega)
      have h2 := hb (m.toNat - 1) (by omega)
      simp only [at'_eq_part]
      omega
  refine ⟨_, rfl, hpart.partClip, ⟨?_, ?_⟩, ?_⟩
  · refine le_trans (partClip_length_le _) (by simp)
  · intro x hx
    have hx' := (partClip_sublist _).mem hx
    rw [List.mem_map] at hx'
    obtain ⟨j, hj, rfl⟩ := hx'
    rw [List.mem_range] at hj
    have h1 := hgap (show 0 ≤ j by omega) hj
    have h2 := hb 0 (by omega)
    simp only [at'_eq_part]
    omega
  · conv_rhs => rw [list_eq_map_part idx, hlen]
    apply List.map_congr_left
    intro j hj
    rw [List.mem_range] at hj
    rw [part_partClip, part_map_range _ _ _ hj, at'_eq_part]
    omega

example : (Space.mk .A 4 7).index2part [2, 3, 6] = .ok [3, 3, 1] ∧ (Space.mk .A 4 7).part2index [3, 3, 1] = [2, 3, 6] := by
  decide +kernel

/-- C08, error branch: a list that is too short raises `IndexError`. -/
theorem C08_short_index_raises (m n : Int) (X : Space) (hX : mkGr m n = .ok X) (idx : List Int)
    (h : (idx.length : Int) < m) : X.index2part idx = .error .indexError := by
  obtain ⟨rfl, h0, h1⟩ := mkGr_ok hX
  simp only [Space.index2part, index2partA]
  rw [if_pos (by omega)]

example : ∃ X, mkGr 3 7 = .ok X ∧ ReducedPart [4, 2] ∧ InRect [4, 2] 3 4 ∧
    X.part2index [4, 2] = [1, 4, 7] ∧ X.index2part [1, 4, 7] = .ok [4, 2] ∧
    IndexList 3 7 [1, 4, 7] := by
  refine ⟨_, rfl, ?_, ?_, ?_, ?_, ?_⟩
  · unfold ReducedPart; decide
  · unfold InRect; decide
  · decide
  · decide
  · unfold IndexList; decide

end Verif
