import Verif.Spec.Dec
import Verif.Proofs.IndexBC
/-!
# Properties C09, C10: partitions and index sets of `IG(m,2n)` and `OG(m,2n+1)`
-/

namespace Verif
open Spec

theorem mkIG_ok {m n : Int} {X : Space} (hX : mkIG m (2 * n) = .ok X) :
    X = ⟨.C, n - m, n⟩ ∧ 0 ≤ m ∧ m ≤ n := by
  unfold mkIG at hX
  split at hX
  · cases hX
  split at hX
  · cases hX
  split at hX
  · cases hX
  injection hX with hX
  rw [show 2 * n / 2 = n by omega] at hX
  exact ⟨hX.symm, by omega, by omega⟩

theorem mkOGodd_ok {m n : Int} {X : Space} (hX : mkOG m (2 * n + 1) = .ok X) :
    X = ⟨.B, n - m, n⟩ ∧ 0 ≤ m ∧ 0 ≤ n := by
  unfold mkOG at hX
  split at hX
  · cases hX
  rw [if_pos (by omega)] at hX
  injection hX with hX
  rw [show (2 * n + 1 - 1) / 2 = n by omega] at hX
  exact ⟨hX.symm, by omega, by omega⟩

theorem indexList_of_isoSeq {p : Nat → Int} {m : Nat} {N : Int} (h : IsoSeq p m N) :
    IndexList m N ((List.range m).map p) ∧ Isotropic N ((List.range m).map p) := by
  refine ⟨⟨by simp, pairwise_map_range.2 h.mono, ?_⟩, ?_⟩
  · intro x hx
    rw [List.mem_map] at hx
    obtain ⟨j, hj, rfl⟩ := hx
    rw [List.mem_range] at hj
    exact ⟨h.pos j hj, h.le j hj⟩
  · intro x hx y hy
    rw [List.mem_map] at hx hy
    obtain ⟨i, hi, rfl⟩ := hx
    obtain ⟨j, hj, rfl⟩ := hy
    rw [List.mem_range] at hi hj
    exact h.iso i j hi hj

theorem isoSeq_of_indexList {m : Nat} {N : Int} {idx : List Int} (h : IndexList m N idx)
    (hi : Isotropic N idx) : IsoSeq (part idx) m N := by
  obtain ⟨hlen, hp, hb⟩ := h
  rw [pairwise_iff_part] at hp
  rw [hlen] at hp
  have hmem : ∀ j < m, part idx j ∈ idx := fun j hj => by
    rw [part_of_lt (by omega)]; exact List.getElem_mem _
  exact ⟨hp, fun i hi' => (hb _ (hmem i hi')).1, fun i hi' => (hb _ (hmem i hi')).2,
    fun i j hi' hj' => hi _ (hmem i hi') _ (hmem j hj')⟩

theorem partClip_map_part {l : List Int} {m : Nat} {f : Nat → Int} (hl : ReducedPart l)
    (hr : l.length ≤ m) (hf : ∀ j < m, f j = part l j) : partClip ((List.range m).map f) = l := by
  have : (List.range m).map f = (List.range m).map (fun j => part l j) := by
    apply List.map_congr_left
    intro j hj
    exact hf j (by simpa using hj)
  rw [this, map_part_range hr, partClip_of_noTrailing hl.noTrailing]

/-- clipping a k-strict nonnegative sequence -/
theorem reduced_of_seq {f : Nat → Int} {m : Nat} {k c : Int} (h0 : ∀ j < m, 0 ≤ f j)
    (ha : ∀ j, j + 1 < m → f (j + 1) ≤ f j) (hs : ∀ j, j + 1 < m → k < f j → f (j + 1) < f j)
    (hc : ∀ j < m, f j ≤ c) :
    ReducedPart (partClip ((List.range m).map f)) ∧ KStrict k (partClip ((List.range m).map f)) ∧
      InRect (partClip ((List.range m).map f)) m c := by
  have hanti : ∀ i j, i < j → j < m → f j ≤ f i := by
    intro i j hij
    induction j with
    | zero => omega
    | succ j ih =>
      intro hj
      by_cases hi : i = j
      · subst hi; exact ha i hj
      · exact le_trans (ha j hj) (ih (by omega) (by omega))
  have hp : IsPartition ((List.range m).map f) := by
    refine ⟨pairwise_map_range.2 hanti, ?_⟩
    intro x hx
    rw [List.mem_map] at hx
    obtain ⟨j, hj, rfl⟩ := hx
    exact h0 j (by simpa using hj)
  have hk : KStrict k ((List.range m).map f) := by
    refine pairwise_map_range.2 ?_
    intro i j hij hj hk
    have h1 := hs i (by omega) hk
    by_cases h2 : j = i + 1
    · subst h2; exact h1
    · exact lt_of_le_of_lt (hanti (i + 1) j (by omega) hj) h1
  refine ⟨hp.partClip, hk.sublist (partClip_sublist _), le_trans (partClip_length_le _) (by simp), ?_⟩
  intro x hx
  have hx' := (partClip_sublist _).mem hx
  rw [List.mem_map] at hx'
  obtain ⟨j, hj, rfl⟩ := hx'
  exact hc j (by simpa using hj)

theorem part2indexC_eq (l : List Int) (k n : Int) :
    part2indexC l k n = (List.range (n - k).toNat).map (seqC (part l) k n) := by
  unfold part2indexC seqC
  simp only [at'_pad, countInner_eq]

/-! ## C09 -/

/-- C09: the index list of a class is isotropic, and converting back gives the class. -/
theorem C09_part_index_part (m n : Int) (X : Space) (hX : mkIG m (2 * n) = .ok X) (l : List Int)
    (hl : ReducedPart l) (hk : KStrict (n - m) l) (hr : InRect l m.toNat (2 * n - m)) :
    IndexList m.toNat (2 * n) (X.part2index l) ∧ Isotropic (2 * n) (X.part2index l) ∧
      X.index2part (X.part2index l) = .ok l := by
  obtain ⟨rfl, h0, h1⟩ := mkIG_ok hX
  have hks := kseq_of_kstrict (by omega) hl.isPartition hk
  have hmm : n - (n - m) = m := by omega
  have hiso := seqC_isoSeq (m := m.toNat) (n := n) hks (by omega)
    (fun i => hl.isPartition.part_nonneg i)
    (fun i => by have := InRect.part_le hr (by omega) i; omega)
  simp only [Space.part2index, Space.index2part, part2indexC_eq, hmm]
  refine ⟨(indexList_of_isoSeq hiso).1, (indexList_of_isoSeq hiso).2, ?_⟩
  unfold index2partC
  rw [hmm, if_neg (by simp)]
  congr 1
  apply partClip_map_part hl hr.1
  intro j hj
  rw [idxCount_eq, at'_eq_part, part_map_range _ _ _ hj]
  have hd : dcnt (part ((List.range m.toNat).map (seqC (part l) (n - m) n))) (2 * n + 1) j
      = dcnt (seqC (part l) (n - m) n) (2 * n + 1) j := by
    unfold dcnt
    congr 2
    apply Finset.filter_congr
    intro i hi
    rw [Finset.mem_range] at hi
    rw [part_map_range _ _ _ hj, part_map_range _ _ _ (by omega)]
  rw [hd, dcnt_seqC hks]
  unfold seqC
  omega

example : (Space.mk .C 1 3).part2index [3, 2] = [2, 3] ∧
    (Space.mk .C 1 3).index2part ((Space.mk .C 1 3).part2index [3, 2]) = .ok [3, 2] := by decide +kernel

/-- C09: every isotropic index list is the index list of the class it converts to. -/
theorem C09_index_part_index (m n : Int) (X : Space) (hX : mkIG m (2 * n) = .ok X) (idx : List Int)
    (hi : IndexList m.toNat (2 * n) idx) (hiso : Isotropic (2 * n) idx) :
    ∃ l, X.index2part idx = .ok l ∧ ReducedPart l ∧ KStrict (n - m) l ∧
      InRect l m.toNat (2 * n - m) ∧ X.part2index l = idx := by
  obtain ⟨rfl, h0, h1⟩ := mkIG_ok hX
  have hs := isoSeq_of_indexList hi hiso
  have hmm : n - (n - m) = m := by omega
  have hred := reduced_of_seq (f := backC (part idx) (n - m) n) (m := m.toNat) (k := n - m)
    (c := n + (n - m)) (fun j hj => backC_nonneg hs (by omega) hj) (fun j hj => backC_anti hs hj)
    (fun j hj hk => backC_strict hs hj hk) (fun j hj => backC_le hs (by omega) hj)
  have hidx : index2partC idx (n - m) n =
      .ok (partClip ((List.range m.toNat).map (backC (part idx) (n - m) n))) := by
    unfold index2partC backC
    rw [hmm, if_neg (by have := hi.1; omega)]
    simp only [idxCount_eq, at'_eq_part]
  refine ⟨_, hidx, hred.1, hred.2.1, ?_, ?_⟩
  · rw [show 2 * n - m = n + (n - m) by omega]; exact hred.2.2
  · simp only [Space.part2index, part2indexC_eq, hmm]
    conv_rhs => rw [list_eq_map_part idx, hi.1]
    apply List.map_congr_left
    intro j hj
    rw [List.mem_range] at hj
    unfold seqC
    rw [part_partClip, part_map_range _ _ _ hj]
    have : cnt (part (partClip ((List.range m.toNat).map (backC (part idx) (n - m) n)))) (n - m) 0 j
        = dcnt (part idx) (2 * n + 1) j := by
      unfold cnt dcnt
      congr 2
      apply Finset.filter_congr
      intro i hi'
      rw [Finset.mem_range] at hi'
      rw [← backC_cond (k := n - m) hs hi' hj]
      unfold cond
      rw [part_partClip, part_partClip, part_map_range _ _ _ hj, part_map_range _ _ _ (by omega)]
    rw [this]
    unfold backC
    omega

example : ∃ X, mkIG 2 (2 * 3) = .ok X ∧ ReducedPart [4, 1] ∧ KStrict (3 - 2) [4, 1] ∧
    InRect [4, 1] 2 (2 * 3 - 2) ∧ X.part2index [4, 1] = [1, 4] ∧
    X.index2part [1, 4] = .ok [4, 1] := by
  refine ⟨_, rfl, ?_, ?_, ?_, ?_, ?_⟩
  · unfold ReducedPart; decide
  · unfold KStrict; decide
  · unfold InRect; decide
  · decide
  · decide

/-! ## C10 -/

/-- the order-preserving bijection `1..2n → 1..2n+1` avoiding `n+1` -/
def shiftB (n x : Int) : Int := if x ≤ n then x else x + 1

/-- its inverse -/
def unshiftB (n x : Int) : Int := if x ≤ n then x else x - 1

theorem unshiftB_shiftB (n x : Int) : unshiftB n (shiftB n x) = x := by
  unfold unshiftB shiftB
  by_cases h : x ≤ n
  · rw [if_pos h, if_pos h]
  · rw [if_neg h, if_neg (by omega)]; omega

theorem shiftB_unshiftB (n x : Int) (hx : x ≠ n + 1) : shiftB n (unshiftB n x) = x := by
  unfold unshiftB shiftB
  by_cases h : x ≤ n
  · rw [if_pos h, if_pos h]
  · rw [if_neg h, if_neg (by omega)]; omega

theorem seqC_le_iff {lam : Nat → Int} {k n : Int} (h : KSeq lam k) (j : Nat) :
    seqC lam k n j ≤ n ↔ k < lam j := by
  unfold seqC
  constructor
  · intro hle
    have := cnt_nonneg (lam := lam) (k := k) (δ := 0) j
    omega
  · intro hlt
    have := cnt_zero (δ := 0) h (by omega) hlt
    omega

theorem part2indexB_eq (l : List Int) (k n : Int) (h : KSeq (part l) k) :
    part2indexB l k n = (List.range (n - k).toNat).map (fun j => shiftB n (seqC (part l) k n j)) := by
  unfold part2indexB
  apply List.map_congr_left
  intro j _
  rw [at'_pad, countInner_eq]
  unfold shiftB
  by_cases hj : part l j > k
  · rw [if_pos hj, if_pos ((seqC_le_iff h j).2 hj)]
    unfold seqC
    rw [cnt_zero h (by omega) hj]
    omega
  · rw [if_neg hj, if_neg (fun hc => hj ((seqC_le_iff h j).1 hc))]
    unfold seqC
    omega

theorem index2partB_eq (idx : List Int) (k n : Int) (hlen : (n - k).toNat ≤ idx.length)
    (hiso : IsoSeq (part idx) (n - k).toNat (2 * n + 1)) :
    index2partB idx k n = .ok (partClip ((List.range (n - k).toNat).map
      (backC (fun j => unshiftB n (part idx j)) k n))) ∧
    IsoSeq (fun j => unshiftB n (part idx j)) (n - k).toNat (2 * n) := by
  have hne : ∀ j, j < (n - k).toNat → part idx j ≠ n + 1 := by
    intro j hj h
    have := hiso.iso j j hj hj
    omega
  have hiso' : IsoSeq (fun j => unshiftB n (part idx j)) (n - k).toNat (2 * n) := by
    constructor
    · intro i j hij hj
      have h1 := hiso.mono i j hij hj
      have h2 := hne i (by omega)
      have h3 := hne j hj
      unfold unshiftB
      split <;> split <;> omega
    · intro i hi
      have := hiso.pos i hi
      have := hne i hi
      unfold unshiftB
      split
      · omega
      · by_cases hn : 0 ≤ n
        · omega
        · have := hiso.le i hi; omega
    · intro i hi
      have := hiso.le i hi
      have := hiso.pos i hi
      unfold unshiftB
      split <;> omega
    · intro i j hi hj
      have h1 := hiso.iso i j hi hj
      have h2 := hne i hi
      have h3 := hne j hj
      unfold unshiftB
      split <;> split <;> omega
  refine ⟨?_, hiso'⟩
  unfold index2partB
  rw [if_neg (by omega)]
  congr 2
  apply List.map_congr_left
  intro j hj
  rw [List.mem_range] at hj
  rw [idxCount_eq, at'_eq_part]
  have hd : part idx j > n → dcnt (part idx) (2 * n + 2) j
      = dcnt (fun j => unshiftB n (part idx j)) (2 * n + 1) j := by
    intro hgt
    unfold dcnt
    congr 2
    apply Finset.filter_congr
    intro i hi
    rw [Finset.mem_range] at hi
    have h1 := hiso.iso i j (by omega) hj
    have h2 := hne i (by omega)
    have h3 := hne j hj
    beta_reduce
    unfold unshiftB
    split <;> split <;> omega
  unfold backC
  beta_reduce
  by_cases hle : part idx j ≤ n
  · rw [if_pos hle, dcnt_zero hiso' hj (by unfold unshiftB; rw [if_pos hle]; exact hle)]
    unfold unshiftB
    rw [if_pos hle]
    omega
  · rw [if_neg hle, hd (by omega)]
    simp only [unshiftB, if_neg hle]
    omega

/-- C10: the index list of a class is isotropic (in particular avoids `n+1`), and converting back
gives the class. -/
theorem C10_part_index_part (m n : Int) (hmn : m ≤ n) (X : Space) (hX : mkOG m (2 * n + 1) = .ok X)
    (l : List Int) (hl : ReducedPart l) (hk : KStrict (n - m) l) (hr : InRect l m.toNat (2 * n - m)) :
    IndexList m.toNat (2 * n + 1) (X.part2index l) ∧ Isotropic (2 * n + 1) (X.part2index l) ∧
      X.index2part (X.part2index l) = .ok l := by
  obtain ⟨rfl, h0, h1⟩ := mkOGodd_ok hX
  have hks := kseq_of_kstrict (by omega) hl.isPartition hk
  have hmm : n - (n - m) = m := by omega
  have hiso := seqC_isoSeq (m := m.toNat) (n := n) hks (by omega)
    (fun i => hl.isPartition.part_nonneg i)
    (fun i => by have := InRect.part_le hr (by omega) i; omega)
  have hisoB : IsoSeq (fun j => shiftB n (seqC (part l) (n - m) n j)) m.toNat (2 * n + 1) := by
    constructor
    · intro i j hij hj
      have := hiso.mono i j hij hj
      unfold shiftB
      split <;> split <;> omega
    · intro i hi
      have := hiso.pos i hi
      unfold shiftB
      split <;> omega
    · intro i hi
      have := hiso.le i hi
      unfold shiftB
      split <;> omega
    · intro i j hi hj
      have := hiso.iso i j hi hj
      unfold shiftB
      split <;> split <;> omega
  simp only [Space.part2index, Space.index2part, part2indexB_eq _ _ _ hks, hmm]
  refine ⟨(indexList_of_isoSeq hisoB).1, (indexList_of_isoSeq hisoB).2, ?_⟩
  obtain ⟨hil, his⟩ := indexList_of_isoSeq hisoB
  have h2 := (index2partB_eq ((List.range m.toNat).map (fun j => shiftB n (seqC (part l) (n - m) n j)))
    (n - m) n (by rw [hmm]; simp) (by rw [hmm]; exact isoSeq_of_indexList hil his)).1
  rw [h2, hmm]
  congr 1
  apply partClip_map_part hl hr.1
  intro j hj
  have hun : ∀ i < m.toNat, unshiftB n (part ((List.range m.toNat).map
      (fun j => shiftB n (seqC (part l) (n - m) n j))) i) = seqC (part l) (n - m) n i := by
    intro i hi
    rw [part_map_range _ _ _ hi, unshiftB_shiftB]
  unfold backC
  beta_reduce
  rw [hun j hj]
  have hd : dcnt (fun j => unshiftB n (part ((List.range m.toNat).map
      (fun j => shiftB n (seqC (part l) (n - m) n j))) j)) (2 * n + 1) j
      = dcnt (seqC (part l) (n - m) n) (2 * n + 1) j := by
    unfold dcnt
    congr 2
    apply Finset.filter_congr
    intro i hi
    rw [Finset.mem_range] at hi
    beta_reduce
    rw [hun j hj, hun i (by omega)]
  rw [hd, dcnt_seqC hks]
  unfold seqC
  omega

example : (Space.mk .B 1 3).part2index [3, 2] = [2, 3] ∧
    (Space.mk .B 1 3).index2part ((Space.mk .B 1 3).part2index [3, 2]) = .ok [3, 2] := by decide +kernel

/-- C10: every isotropic index list is the index list of the class it converts to. -/
theorem C10_index_part_index (m n : Int) (hmn : m ≤ n) (X : Space) (hX : mkOG m (2 * n + 1) = .ok X)
    (idx : List Int) (hi : IndexList m.toNat (2 * n + 1) idx) (hiso : Isotropic (2 * n + 1) idx) :
    ∃ l, X.index2part idx = .ok l ∧ ReducedPart l ∧ KStrict (n - m) l ∧
      InRect l m.toNat (2 * n - m) ∧ X.part2index l = idx := by
  obtain ⟨rfl, h0, h1⟩ := mkOGodd_ok hX
  have hsB := isoSeq_of_indexList hi hiso
  have hmm : n - (n - m) = m := by omega
  obtain ⟨heq, hs⟩ := index2partB_eq idx (n - m) n (by rw [hmm]; have := hi.1; omega)
    (by rw [hmm]; exact hsB)
  rw [hmm] at hs heq
  have hred := reduced_of_seq (f := backC (fun j => unshiftB n (part idx j)) (n - m) n) (m := m.toNat)
    (k := n - m) (c := n + (n - m)) (fun j hj => backC_nonneg hs (by omega) hj)
    (fun j hj => backC_anti hs hj) (fun j hj hk => backC_strict hs hj hk)
    (fun j hj => backC_le hs (by omega) hj)
  refine ⟨_, heq, hred.1, hred.2.1, ?_, ?_⟩
  · rw [show 2 * n - m = n + (n - m) by omega]; exact hred.2.2
  · have hks := kseq_of_kstrict (by omega) hred.1.isPartition hred.2.1
    simp only [Space.part2index, part2indexB_eq _ _ _ hks, hmm]
    conv_rhs => rw [list_eq_map_part idx, hi.1]
    apply List.map_congr_left
    intro j hj
    rw [List.mem_range] at hj
    have hsq : seqC (part (partClip ((List.range m.toNat).map
        (backC (fun j => unshiftB n (part idx j)) (n - m) n)))) (n - m) n j = unshiftB n (part idx j) := by
      unfold seqC
      rw [part_partClip, part_map_range _ _ _ hj]
      have : cnt (part (partClip ((List.range m.toNat).map
          (backC (fun j => unshiftB n (part idx j)) (n - m) n)))) (n - m) 0 j
          = dcnt (fun j => unshiftB n (part idx j)) (2 * n + 1) j := by
        unfold cnt dcnt
        congr 2
        apply Finset.filter_congr
        intro i hi'
        rw [Finset.mem_range] at hi'
        rw [← backC_cond (k := n - m) hs hi' hj]
        unfold cond
        rw [part_partClip, part_partClip, part_map_range _ _ _ hj, part_map_range _ _ _ (by omega)]
      rw [this]
      unfold backC
      beta_reduce
      omega
    rw [hsq]
    have hne := hsB.iso j j hj hj
    exact shiftB_unshiftB _ _ (by omega)

example : ∃ X, mkOG 2 (2 * 3 + 1) = .ok X ∧ ReducedPart [4, 1] ∧ KStrict (3 - 2) [4, 1] ∧
    InRect [4, 1] 2 (2 * 3 - 2) ∧ X.part2index [4, 1] = [1, 5] ∧
    X.index2part [1, 5] = .ok [4, 1] := by
  refine ⟨_, rfl, ?_, ?_, ?_, ?_, ?_⟩
  · unfold ReducedPart; decide
  · unfold KStrict; decide
  · unfold InRect; decide
  · decide
  · decide

end Verif
