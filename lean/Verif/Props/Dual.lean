import Verif.Spec.Dec
import Verif.Proofs.Dual
import Verif.Props.IndexA
import Verif.Props.IndexD
/-!
# Properties C12, C37: dualizing, generators and the point class
-/

namespace Verif
open Spec

theorem partClip_map_sum (f : Nat → Int) (m : Nat) :
    (partClip ((List.range m).map f)).sum = ∑ j ∈ Finset.range m, f j := by
  rw [partClip_sum, sum_map_range]

theorem list_eq_map_range {idx : List Int} {m : Nat} (h : idx.length = m) :
    idx = (List.range m).map (part idx) := by
  conv_lhs => rw [list_eq_map_part idx, h]

theorem dualizeIndex_false {idx : List Int} {m : Nat} {N : Int} (h : idx.length = m) :
    dualizeIndex idx N false = (List.range m).map (dualSeq (part idx) m N) := by
  unfold dualizeIndex
  conv_lhs => rw [list_eq_map_range h]
  simp only [Bool.false_eq_true, false_and, if_false]
  exact dualize_reverse _ _ _

theorem map_sub_sub (idx : List Int) (N : Int) :
    (((idx.reverse.map (fun x => N + 1 - x)).reverse).map (fun x => N + 1 - x)) = idx := by
  rw [← List.map_reverse, List.reverse_reverse, List.map_map]
  conv_rhs => rw [← List.map_id idx]
  apply List.map_congr_left
  intro x _
  simp

theorem dualizeIndex_false_invol (idx : List Int) (N : Int) :
    dualizeIndex (dualizeIndex idx N false) N false = idx := by
  unfold dualizeIndex
  simp only [Bool.false_eq_true, false_and, if_false]
  exact map_sub_sub idx N

/-! ## C12 -/

theorem index2partA_eq (idx : List Int) (k n : Int) (h : (n - k).toNat ≤ idx.length) :
    index2partA idx k n = .ok (partClip ((List.range (n - k).toNat).map
      (fun j : Nat => k + (j : Int) + 1 - part idx j))) := by
  unfold index2partA
  rw [if_neg (by omega)]
  rfl

theorem indexList_dual {m : Nat} {N : Int} {idx : List Int} (h : IndexList m N idx) :
    IndexList m N (dualizeIndex idx N false) := by
  obtain ⟨hlen, hp, hb⟩ := h
  rw [dualizeIndex_false hlen]
  rw [pairwise_iff_part, hlen] at hp
  rw [forall_mem_iff_part, hlen] at hb
  refine ⟨by simp, pairwise_map_range.2 ?_, ?_⟩
  · intro i j hij hj
    have := hp (m - 1 - j) (m - 1 - i) (by omega) (by omega)
    unfold dualSeq; omega
  · intro x hx
    rw [List.mem_map] at hx
    obtain ⟨j, hj, rfl⟩ := hx
    rw [List.mem_range] at hj
    have := hb (m - 1 - j) (by omega)
    unfold dualSeq; omega

/-- C12, type A: the dual of `λ` is the complement `(k-λ_m, …, k-λ_1)`; dualizing is an involution on
classes and codimensions add up to `mk`. -/
theorem C12_dualize_A (m n : Int) (X : Space) (hX : mkGr m n = .ok X) (l : List Int)
    (hl : ReducedPart l) (hr : InRect l m.toNat (n - m)) :
    ∃ l', X.dualize l = .ok l' ∧ ReducedPart l' ∧ InRect l' m.toNat (n - m) ∧
      (∀ j, j < m.toNat → part l' j = (n - m) - part l (m.toNat - 1 - j)) ∧
      X.dualize l' = .ok l ∧ l.sum + l'.sum = m * (n - m) := by
  obtain ⟨hi, hback⟩ := C08_part_index_part m n X hX l hl hr
  obtain ⟨l', h1, h2, h3, h4⟩ := C08_index_part_index m n X hX _ (indexList_dual hi)
  obtain ⟨rfl, hm0, hmn⟩ := mkGr_ok hX
  have hmm : n - (n - m) = m := by omega
  have hpart : ∀ j, j < m.toNat → part l' j = (n - m) - part l (m.toNat - 1 - j) := by
    intro j hj
    have h5 := h1
    simp only [Space.index2part] at h5
    rw [index2partA_eq _ _ _ (by rw [hmm, (indexList_dual hi).1]), hmm] at h5
    injection h5 with h5
    rw [← h5, part_partClip, part_map_range _ _ _ hj, dualizeIndex_false hi.1, part_map_range _ _ _ hj]
    unfold dualSeq
    simp only [Space.part2index, part2indexA, hmm, at'_pad]
    rw [part_map_range _ _ _ (by omega)]
    omega
  refine ⟨l', ?_, h2, h3, hpart, ?_, ?_⟩
  · simp only [Space.dualize, Space.ambient, reduceCtorEq, decide_false]
    exact h1
  · simp only [Space.dualize, Space.ambient, reduceCtorEq, decide_false]
    rw [h4, dualizeIndex_false_invol]
    exact hback
  · rw [← partClip_of_noTrailing hl.noTrailing, ← partClip_of_noTrailing h2.noTrailing]
    rw [show partClip l = partClip ((List.range m.toNat).map (part l)) by
        rw [map_part_range hr.1, partClip_of_noTrailing hl.noTrailing],
      show partClip l' = partClip ((List.range m.toNat).map (part l')) by
        rw [map_part_range h3.1, partClip_of_noTrailing h2.noTrailing]]
    rw [partClip_map_sum, partClip_map_sum, Finset.sum_congr rfl (fun j hj => hpart j (Finset.mem_range.1 hj)),
      Finset.sum_sub_distrib, Finset.sum_range_reflect]
    simp only [Finset.sum_const, Finset.card_range, nsmul_eq_mul]
    have : (m.toNat : Int) = m := by omega
    rw [this]
    omega

/-- `Gr(3,7)` -/
example : ReducedPart [4, 1] ∧ InRect [4, 1] 3 (7 - 3) ∧ (Space.mk .A 4 7).dualize [4, 1] = .ok [4, 3] ∧
    (Space.mk .A 4 7).dualize [4, 3] = .ok [4, 1] := by decide +kernel

theorem index2partC_eq (idx : List Int) (k n : Int) (h : (n - k).toNat ≤ idx.length) :
    index2partC idx k n = .ok (partClip ((List.range (n - k).toNat).map (backC (part idx) k n))) := by
  unfold index2partC backC
  rw [if_neg (by omega)]
  simp only [idxCount_eq, at'_eq_part]

theorem iso_dual {m : Nat} {N : Int} {idx : List Int} (h : IndexList m N idx) (hi : Isotropic N idx) :
    IndexList m N (dualizeIndex idx N false) ∧ Isotropic N (dualizeIndex idx N false) := by
  rw [dualizeIndex_false h.1]
  exact indexList_of_isoSeq (dualSeq_iso (isoSeq_of_indexList h hi))

theorem backC_congr {p p' : Nat → Int} {k n : Int} {m : Nat} (h : ∀ j < m, p j = p' j) {j : Nat} (hj : j < m) :
    backC p k n j = backC p' k n j := by
  unfold backC
  have hd : dcnt p (2 * n + 1) j = dcnt p' (2 * n + 1) j := by
    unfold dcnt
    congr 2
    apply Finset.filter_congr
    intro i hi
    rw [Finset.mem_range] at hi
    rw [h i (by omega), h j hj]
  rw [hd, h j hj]

/-- C12, type C: dualizing is an involution on classes and codimensions add up to
`dim IG(m,2n) = 2m(n-m) + m(m+1)/2`. -/
theorem C12_dualize_C (m n : Int) (X : Space) (hX : mkIG m (2 * n) = .ok X) (l : List Int)
    (hl : ReducedPart l) (hk : KStrict (n - m) l) (hr : InRect l m.toNat (2 * n - m)) :
    ∃ l', X.dualize l = .ok l' ∧ ReducedPart l' ∧ KStrict (n - m) l' ∧ InRect l' m.toNat (2 * n - m) ∧
      X.dualize l' = .ok l ∧ 2 * (l.sum + l'.sum) = 4 * m * (n - m) + m * (m + 1) := by
  obtain ⟨hi, hi2, hback⟩ := C09_part_index_part m n X hX l hl hk hr
  obtain ⟨hd1, hd2⟩ := iso_dual hi hi2
  obtain ⟨l', h1, h2, h2k, h3, h4⟩ := C09_index_part_index m n X hX _ hd1 hd2
  have hs := isoSeq_of_indexList hi hi2
  obtain ⟨rfl, hm0, hmn⟩ := mkIG_ok hX
  have hmm : n - (n - m) = m := by omega
  refine ⟨l', ?_, h2, h2k, h3, ?_, ?_⟩
  · simp only [Space.dualize, Space.ambient, reduceCtorEq, decide_false]
    exact h1
  · simp only [Space.dualize, Space.ambient, reduceCtorEq, decide_false]
    rw [h4, dualizeIndex_false_invol]
    exact hback
  · simp only [Space.index2part] at h1 hback
    rw [index2partC_eq _ _ _ (by rw [hmm, hi.1]), hmm] at hback
    rw [index2partC_eq _ _ _ (by rw [hmm, hd1.1]), hmm] at h1
    injection hback with hback
    injection h1 with h1
    have hcong : ∀ j ∈ Finset.range m.toNat,
        backC (part (dualizeIndex (Space.part2index ⟨.C, n - m, n⟩ l) (2 * n) false)) (n - m) n j =
        backC (dualSeq (part (Space.part2index ⟨.C, n - m, n⟩ l)) m.toNat (2 * n)) (n - m) n j := by
      intro j hj
      rw [Finset.mem_range] at hj
      apply backC_congr (m := m.toNat) _ hj
      intro i hi'
      rw [dualizeIndex_false hi.1, part_map_range _ _ _ hi']
    have := backC_dual_sum (k := n - m) hs
    rw [← Finset.sum_congr rfl hcong, ← partClip_map_sum, ← partClip_map_sum, hback, h1] at this
    rw [this, show (m.toNat : Int) = m by omega]
    ring

example : KStrict (3 - 2) [4, 2] ∧ (Space.mk .C 1 3).dualize [4, 2] = .ok [1] ∧
    (Space.mk .C 1 3).dualize [1] = .ok [4, 2] := by decide +kernel

/-- C12, type B: dualizing is an involution on classes and codimensions add up to
`dim OG(m,2n+1) = 2m(n-m) + m(m+1)/2`. -/
theorem C12_dualize_B (m n : Int) (hmn : m ≤ n) (X : Space) (hX : mkOG m (2 * n + 1) = .ok X) (l : List Int)
    (hl : ReducedPart l) (hk : KStrict (n - m) l) (hr : InRect l m.toNat (2 * n - m)) :
    ∃ l', X.dualize l = .ok l' ∧ ReducedPart l' ∧ KStrict (n - m) l' ∧ InRect l' m.toNat (2 * n - m) ∧
      X.dualize l' = .ok l ∧ 2 * (l.sum + l'.sum) = 4 * m * (n - m) + m * (m + 1) := by
  obtain ⟨hi, hi2, hback⟩ := C10_part_index_part m n hmn X hX l hl hk hr
  obtain ⟨hd1, hd2⟩ := iso_dual hi hi2
  obtain ⟨l', h1, h2, h2k, h3, h4⟩ := C10_index_part_index m n hmn X hX _ hd1 hd2
  have hs := isoSeq_of_indexList hi hi2
  have hsd := isoSeq_of_indexList hd1 hd2
  obtain ⟨rfl, hm0, hn0⟩ := mkOGodd_ok hX
  have hmm : n - (n - m) = m := by omega
  refine ⟨l', ?_, h2, h2k, h3, ?_, ?_⟩
  · simp only [Space.dualize, Space.ambient, reduceCtorEq, decide_false]
    exact h1
  · simp only [Space.dualize, Space.ambient, reduceCtorEq, decide_false]
    rw [h4, dualizeIndex_false_invol]
    exact hback
  · simp only [Space.index2part] at h1 hback
    obtain ⟨e1, hs1⟩ := index2partB_eq _ (n - m) n (by rw [hmm, hi.1]) (by rw [hmm]; exact hs)
    obtain ⟨e2, hs2⟩ := index2partB_eq _ (n - m) n (by rw [hmm, hd1.1]) (by rw [hmm]; exact hsd)
    rw [e1, hmm] at hback
    rw [e2, hmm] at h1
    injection hback with hback
    injection h1 with h1
    rw [hmm] at hs1
    have hcong : ∀ j ∈ Finset.range m.toNat,
        backC (fun j => unshiftB n (part (dualizeIndex (Space.part2index ⟨.B, n - m, n⟩ l)
          (2 * n + 1) false) j)) (n - m) n j =
        backC (dualSeq (fun j => unshiftB n (part (Space.part2index ⟨.B, n - m, n⟩ l) j)) m.toNat (2 * n))
          (n - m) n j := by
      intro j hj
      rw [Finset.mem_range] at hj
      apply backC_congr (m := m.toNat) _ hj
      intro i hi'
      rw [dualizeIndex_false hi.1, part_map_range _ _ _ hi']
      have := hs.iso (m.toNat - 1 - i) (m.toNat - 1 - i) (by omega) (by omega)
      unfold dualSeq unshiftB
      beta_reduce
      split <;> split <;> omega
    have := backC_dual_sum (k := n - m) hs1
    rw [← Finset.sum_congr rfl hcong, ← partClip_map_sum, ← partClip_map_sum, hback, h1] at this
    rw [this, show (m.toNat : Int) = m by omega]
    ring

/-- `OG(3,11)` -/
example : KStrict (5 - 3) [6, 2, 2] ∧ (Space.mk .B 2 5).dualize [6, 2, 2] = .ok [4, 3, 1] := by decide +kernel

/-! ### Type D -/

theorem dualizeIndex_D {idx : List Int} {m : Nat} {M : Int} (h : idx.length = m) :
    dualizeIndex idx (2 * M) true = if M % 2 = 1
      then (List.range m).map (fun j => swapMid M (dualSeq (part idx) m (2 * M) j))
      else (List.range m).map (dualSeq (part idx) m (2 * M)) := by
  unfold dualizeIndex
  conv_lhs => rw [list_eq_map_range h]
  simp only [true_and]
  rw [dualize_reverse]
  by_cases hM : M % 2 = 1
  · rw [if_pos (by omega), if_pos hM, List.map_map]
    apply List.map_congr_left
    intro j _
    simp only [Function.comp_apply, swapMid]
    rw [show 2 * M / 2 = M by omega]
  · rw [if_neg (by omega), if_neg hM]

theorem swapMid_compl (M y : Int) : swapMid M (2 * M + 1 - y) = 2 * M + 1 - swapMid M y := by
  unfold swapMid
  by_cases h1 : y = M
  · rw [if_neg (by omega), if_pos (by omega), if_pos h1]; omega
  · by_cases h2 : y = M + 1
    · rw [if_pos (by omega), if_neg h1, if_pos h2]; omega
    · rw [if_neg (by omega), if_neg (by omega), if_neg h1, if_neg h2]

theorem dualizeIndex_D_invol (idx : List Int) (M : Int) :
    dualizeIndex (dualizeIndex idx (2 * M) true) (2 * M) true = idx := by
  unfold dualizeIndex
  simp only [true_and]
  by_cases hM : 2 * M % 4 = 2
  · rw [if_pos hM, if_pos hM]
    rw [show 2 * M / 2 = M by omega]
    simp only [← List.map_reverse, List.reverse_reverse, List.map_map]
    conv_rhs => rw [← List.map_id idx]
    apply List.map_congr_left
    intro x _
    change swapMid M (2 * M + 1 - swapMid M (2 * M + 1 - x)) = x
    rw [swapMid_compl, swapMid_swapMid]
    omega
  · rw [if_neg hM, if_neg hM]
    exact map_sub_sub idx _

/-- the dual sequence, type D -/
def dualSeqD (p : Nat → Int) (m : Nat) (M : Int) (j : Nat) : Int :=
  if M % 2 = 1 then swapMid M (dualSeq p m (2 * M) j) else dualSeq p m (2 * M) j

theorem dualizeIndex_D' {idx : List Int} {m : Nat} {M : Int} (h : idx.length = m) :
    dualizeIndex idx (2 * M) true = (List.range m).map (dualSeqD (part idx) m M) := by
  rw [dualizeIndex_D h]
  unfold dualSeqD
  split <;> rfl

theorem dualSeqD_iso {p : Nat → Int} {m : Nat} {M : Int} (h : IsoSeq p m (2 * M)) :
    IsoSeq (dualSeqD p m M) m (2 * M) := by
  have h1 := dualSeq_iso h
  have h2 := swapMid_iso h1
  unfold dualSeqD
  by_cases hM : M % 2 = 1
  · simp only [hM, if_true]; exact h2
  · simp only [hM, if_false]; exact h1

/-- In a maximal isotropic index list exactly one of `M`, `M+1` occurs; the number of entries at most `M`
keeps its parity class when dualizing. -/
theorem dual_count_parity {p : Nat → Int} {m : Nat} {M : Int} (h : IsoSeq p m (2 * M)) (hm : (m : Int) = M)
    (hc : ((List.range m).map p).countP (fun y => decide (y ≤ M)) % 2 = m % 2) :
    ((List.range m).map (dualSeqD p m M)).countP (fun y => decide (y ≤ M)) % 2 = m % 2 := by
  have hcount : ∀ f : Nat → Int, (((List.range m).map f).countP (fun y => decide (y ≤ M)) : Int) =
      ∑ j ∈ Finset.range m, if f j ≤ M then (1 : Int) else 0 := by
    intro f
    rw [List.countP_map]
    have : (List.range m).countP ((fun y => decide (y ≤ M)) ∘ f) =
        (List.range m).countP (fun i => decide (f i ≤ M)) := rfl
    rw [this, countP_range_eq_card, Finset.sum_boole]
  -- the plain dual
  have hd : ∑ j ∈ Finset.range m, (if p j ≤ M then (1 : Int) else 0) +
      ∑ j ∈ Finset.range m, (if dualSeq p m (2 * M) j ≤ M then (1 : Int) else 0) = m := by
    rw [← Finset.sum_range_reflect (fun j => if p j ≤ M then (1 : Int) else 0), ← Finset.sum_add_distrib]
    have : ∀ j ∈ Finset.range m, ((if p (m - 1 - j) ≤ M then (1 : Int) else 0) +
        if dualSeq p m (2 * M) j ≤ M then (1 : Int) else 0) = 1 := by
      intro j _
      unfold dualSeq
      split <;> split <;> omega
    rw [Finset.sum_congr rfl this]
    simp
  have hc1 := hcount p
  have hc2 := hcount (dualSeqD p m M)
  by_cases hM : M % 2 = 1
  · -- exactly one entry of the dual is `M` or `M+1`
    have hq := dualSeq_iso h
    set q := dualSeq p m (2 * M) with hqd
    have hmid : ∃ j, j < m ∧ (q j = M ∨ q j = M + 1) := by
      by_contra hno
      push Not at hno
      have hcard : (Finset.range m).card ≤ (Finset.Icc (1 : Int) (M - 1)).card := by
        apply Finset.card_le_card_of_injOn (fun j => if q j ≤ M then q j else 2 * M + 1 - q j)
        · intro j hj
          simp only [Finset.coe_range, Set.mem_Iio] at hj
          have h1 := hno j hj
          have h2 := hq.pos j hj
          have h3 := hq.le j hj
          simp only [Finset.coe_Icc, Set.mem_Icc]
          split <;> omega
        · intro i hi j hj hij
          simp only [Finset.coe_range, Set.mem_Iio] at hi hj
          have h1 := hq.iso i j hi hj
          beta_reduce at hij
          have heq : q i = q j := by
            split at hij <;> split at hij <;> omega
          by_contra hne
          rcases Nat.lt_or_gt_of_ne hne with h2 | h2
          · have := hq.mono i j h2 hj; omega
          · have := hq.mono j i h2 hi; omega
      rw [Finset.card_range, Int.card_Icc] at hcard
      omega
    obtain ⟨j0, hj0, hmid⟩ := hmid
    have huniq : ∀ j, j < m → j ≠ j0 → q j ≠ M ∧ q j ≠ M + 1 := by
      intro j hj hne
      have h1 := hq.iso j j0 hj hj0
      rcases Nat.lt_or_gt_of_ne hne with h2 | h2
      · have := hq.mono j j0 h2 hj0; omega
      · have := hq.mono j0 j h2 hj; omega
    have hflip : (∑ j ∈ Finset.range m, if dualSeqD p m M j ≤ M then (1 : Int) else 0) =
        (∑ j ∈ Finset.range m, if q j ≤ M then (1 : Int) else 0) + (if q j0 = M then -1 else 1) := by
      rw [← Finset.add_sum_erase _ _ (Finset.mem_range.2 hj0),
        ← Finset.add_sum_erase (a := j0) _ (fun j => if q j ≤ M then (1 : Int) else 0) (Finset.mem_range.2 hj0)]
      have hrest : ∑ j ∈ (Finset.range m).erase j0, (if dualSeqD p m M j ≤ M then (1 : Int) else 0) =
          ∑ j ∈ (Finset.range m).erase j0, if q j ≤ M then (1 : Int) else 0 := by
        apply Finset.sum_congr rfl
        intro j hj
        rw [Finset.mem_erase, Finset.mem_range] at hj
        have := huniq j hj.2 hj.1
        unfold dualSeqD swapMid
        rw [if_pos hM, ← hqd, if_neg this.1, if_neg this.2]
      rw [hrest]
      have h0 : (if dualSeqD p m M j0 ≤ M then (1 : Int) else 0) =
          (if q j0 ≤ M then (1 : Int) else 0) + (if q j0 = M then -1 else 1) := by
        unfold dualSeqD swapMid
        rw [if_pos hM, ← hqd]
        rcases hmid with h1 | h1
        · rw [if_pos h1, if_neg (by omega), if_pos (by omega)]; omega
        · rw [if_neg (show ¬ q j0 = M by omega), if_pos h1, if_pos (by omega), if_neg (by omega)]; omega
      rw [h0]
      ring
    rw [hflip] at hc2
    split at hc2 <;> omega
  · have : dualSeqD p m M = dualSeq p m (2 * M) := by
      funext j; unfold dualSeqD; rw [if_neg hM]
    rw [this] at hc2 ⊢
    omega

theorem typed_sum {k : Int} {m : Nat} {c : Int} {x : List Int} (h : TypedClass k m c x) :
    ∃ mu, ReducedPart mu ∧ InRect mu m c ∧ x.sum = mu.sum ∧ partClip x = mu := by
  obtain ⟨mu, h1, _, h3, h4 | ⟨_, h4⟩⟩ := h
  · exact ⟨mu, h1, h3, by rw [h4], by rw [h4, partClip_of_noTrailing h1.noTrailing]⟩
  · refine ⟨mu, h1, h3, by rw [h4]; simp, ?_⟩
    rw [h4, partClip_concat_zero, partClip_of_noTrailing h1.noTrailing]

theorem index2partD_sum {idx : List Int} {k n : Int} (hlen : idx.length = (n + 1 - k).toNat)
    (h : IsoSeq (part idx) (n + 1 - k).toNat (2 * (n + 1))) {x : List Int}
    (hx : index2partD idx k n = .ok x) :
    x.sum = ∑ j ∈ Finset.range (n + 1 - k).toNat, backD (part idx) k (n + 1) j := by
  have heq := index2partD_eq h
  rw [← list_eq_map_range hlen] at heq
  rw [heq] at hx
  injection hx with hx
  rw [← hx]
  split
  · rw [partClip_map_sum]
  · split
    · rw [List.sum_append, partClip_map_sum]; simp
    · rw [partClip_map_sum]

theorem backD_congr {p p' : Nat → Int} {k n : Int} {m : Nat} (h : ∀ j < m, p j = p' j) {j : Nat} (hj : j < m) :
    backD p k n j = backD p' k n j := by
  unfold backD
  rw [backC_congr h hj, h j hj]

/-- C12, type D: dualizing is an involution on typed classes and codimensions add up to
`dim OG(m,2n+2) = 2m(n+1-m) + m(m-1)/2`. -/
theorem C12_dualize_D (m n : Int) (hmn : m ≤ n + 1) (X : Space) (hX : mkOG m (2 * n + 2) = .ok X)
    (x : List Int) (hx : TypedClass (n + 1 - m) m.toNat (2 * n + 1 - m) x) :
    ∃ x', X.dualize x = .ok x' ∧ TypedClass (n + 1 - m) m.toNat (2 * n + 1 - m) x' ∧
      X.dualize x' = .ok x ∧ 2 * (x.sum + x'.sum) = 4 * m * (n + 1 - m) + m * (m - 1) := by
  obtain ⟨hi, hi2, hpar, hback⟩ := C11_part_index_part m n hmn X hX x hx
  have hs := isoSeq_of_indexList hi hi2
  have hM : 2 * n + 2 = 2 * (n + 1) := by omega
  rw [hM] at hs
  have hd : dualizeIndex (X.part2index x) (2 * n + 2) true =
      (List.range m.toNat).map (dualSeqD (part (X.part2index x)) m.toNat (n + 1)) := by
    rw [hM]; exact dualizeIndex_D' hi.1
  have hsd := dualSeqD_iso hs
  obtain ⟨hd1, hd2⟩ := indexList_of_isoSeq hsd
  rw [← hM] at hd1 hd2
  obtain ⟨x', h1, h2, h3⟩ := C11_index_part_index m n hmn X hX _ hd1 hd2 (by
    intro hmax
    have h4 := hpar hmax
    rw [list_eq_map_range hi.1] at h4
    exact dual_count_parity hs (by have := (mkOGeven_ok hX).2.1; omega) h4)
  obtain ⟨rfl, hm0, hn0⟩ := mkOGeven_ok hX
  have hmm : n + 1 - (n + 1 - m) = m := by omega
  refine ⟨x', ?_, h2, ?_, ?_⟩
  · simp only [Space.dualize, Space.ambient, decide_true]
    rw [hd]; exact h1
  · simp only [Space.dualize, Space.ambient, decide_true]
    rw [h3, ← hd, hM, dualizeIndex_D_invol]
    exact hback
  · simp only [Space.index2part] at h1 hback
    have s1 := index2partD_sum (by rw [hmm, hi.1]) (by rw [hmm]; exact hs) hback
    have hsd' := isoSeq_of_indexList hd1 hd2
    rw [hM] at hsd'
    have s2 := index2partD_sum (by rw [hmm, hd1.1]) (by rw [hmm]; exact hsd') h1
    rw [hmm] at s1 s2
    have hcong : ∀ j ∈ Finset.range m.toNat,
        backD (part ((List.range m.toNat).map (dualSeqD (part (Space.part2index ⟨.D, n + 1 - m, n⟩ x))
          m.toNat (n + 1)))) (n + 1 - m) (n + 1) j =
        backD (dualSeq (part (Space.part2index ⟨.D, n + 1 - m, n⟩ x)) m.toNat (2 * (n + 1)))
          (n + 1 - m) (n + 1) j := by
      intro j hj
      rw [Finset.mem_range] at hj
      rw [backD_congr (m := m.toNat) (p' := dualSeqD (part (Space.part2index ⟨.D, n + 1 - m, n⟩ x))
          m.toNat (n + 1)) (fun i hi' => part_map_range _ _ _ hi') hj]
      by_cases hodd : (n + 1) % 2 = 1
      · have hdd : dualSeqD (part (Space.part2index ⟨.D, n + 1 - m, n⟩ x)) m.toNat (n + 1) =
            fun j => swapMid (n + 1) (dualSeq (part (Space.part2index ⟨.D, n + 1 - m, n⟩ x))
              m.toNat (2 * (n + 1)) j) := by
          funext i; unfold dualSeqD; rw [if_pos hodd]
        rw [hdd]
        exact backD_swapMid (dualSeq_iso hs) hj
      · have hdd : dualSeqD (part (Space.part2index ⟨.D, n + 1 - m, n⟩ x)) m.toNat (n + 1) =
            dualSeq (part (Space.part2index ⟨.D, n + 1 - m, n⟩ x)) m.toNat (2 * (n + 1)) := by
          funext i; unfold dualSeqD; rw [if_neg hodd]
        rw [hdd]
    rw [Finset.sum_congr rfl hcong] at s2
    rw [s1, s2, backD_dual_sum hs, show (m.toNat : Int) = m by omega]
    ring

example : ∃ X, mkOG 2 (2 * 3 + 2) = .ok X ∧ TypedClass (3 + 1 - 2) 2 (2 * 3 + 1 - 2) [3, 2, 0] ∧
    X.dualize [3, 2, 0] = .ok [2, 2, 0] ∧ X.dualize [2, 2, 0] = .ok [3, 2, 0] := by
  refine ⟨_, rfl, ?_, ?_, ?_⟩
  · refine ⟨[3, 2], ?_, ?_, ?_, Or.inr ?_⟩
    · unfold ReducedPart; decide
    · unfold KStrict; decide
    · unfold InRect; decide
    · decide
  · decide
  · decide

example : ∃ X, mkIG 2 (2 * 3) = .ok X ∧ ReducedPart [4, 1] ∧ KStrict (3 - 2) [4, 1] ∧
    InRect [4, 1] 2 (2 * 3 - 2) ∧ X.dualize [4, 1] = .ok [2] ∧ X.dualize [2] = .ok [4, 1] := by
  refine ⟨_, rfl, ?_, ?_, ?_, ?_, ?_⟩
  · unfold ReducedPart; decide
  · unfold KStrict; decide
  · unfold InRect; decide
  · decide
  · decide

/-! ## C37 -/

theorem sum_range_id (m : Nat) : 2 * ∑ j ∈ Finset.range m, (j : Int) = m * (m - 1) := by
  rw [← pair_sum_one]
  simp

theorem staircase_eq (a b : Int) :
    (pyRange 0 a).map (fun i => b - i) = (List.range a.toNat).map (fun i : Nat => b - (i : Int)) := by
  unfold pyRange
  rw [List.map_map, Int.sub_zero]
  apply List.map_congr_left
  intro i _
  have : Int.ofNat i = (i : Int) := rfl
  simp only [Function.comp_apply, this]
  omega

theorem staircase_class (a : Nat) (b k : Int) (h : (a : Int) ≤ b) :
    ReducedPart ((List.range a).map (fun i : Nat => b - (i : Int))) ∧
    KStrict k ((List.range a).map (fun i : Nat => b - (i : Int))) ∧
    InRect ((List.range a).map (fun i : Nat => b - (i : Int))) a b ∧
    2 * ((List.range a).map (fun i : Nat => b - (i : Int))).sum = 2 * a * b - a * (a - 1) := by
  refine ⟨⟨pairwise_map_range.2 (fun i j hij _ => by omega), ?_⟩,
    pairwise_map_range.2 (fun i j hij _ _ => by omega), ⟨by simp, ?_⟩, ?_⟩
  · intro x hx
    rw [List.mem_map] at hx
    obtain ⟨j, hj, rfl⟩ := hx
    rw [List.mem_range] at hj
    omega
  · intro x hx
    rw [List.mem_map] at hx
    obtain ⟨j, hj, rfl⟩ := hx
    omega
  · rw [sum_map_range, Finset.sum_sub_distrib]
    have := sum_range_id a
    simp only [Finset.sum_const, Finset.card_range, nsmul_eq_mul]
    linarith

theorem reduced_sum_nonneg {l : List Int} (h : ReducedPart l) : 0 ≤ l.sum ∧ (l.sum = 0 → l = []) := by
  induction l with
  | nil => simp
  | cons x l ih =>
    have h1 := ih ⟨(List.pairwise_cons.1 h.1).2, fun y hy => h.2 y (List.mem_cons_of_mem _ hy)⟩
    have h2 := h.2 x (List.mem_cons_self)
    rw [List.sum_cons]
    exact ⟨by omega, fun hs => by omega⟩

/-- C37 and C12, type A: the point class is a class, it is dual to `S[]`, and every other class has
smaller codimension. -/
theorem C37_point_A (m n : Int) (X : Space) (hX : mkGr m n = .ok X) :
    ReducedPart X.pointClass ∧ InRect X.pointClass m.toNat (n - m) ∧ X.pointClass.sum = m * (n - m) ∧
    X.dualize [] = .ok X.pointClass ∧
    ∀ l, ReducedPart l → InRect l m.toNat (n - m) → l ≠ X.pointClass → l.sum < X.pointClass.sum := by
  have hd := C12_dualize_A m n X hX
  have hpt : ReducedPart X.pointClass ∧ InRect X.pointClass m.toNat (n - m) ∧ X.pointClass.sum = m * (n - m) := by
    obtain ⟨rfl, hm0, hmn⟩ := mkGr_ok hX
    simp only [Space.pointClass]
    by_cases hk : n - m > 0
    · rw [if_pos hk]
      unfold rep
      rw [show n - (n - m) = m by omega]
      refine ⟨⟨?_, ?_⟩, ⟨by simp, ?_⟩, ?_⟩
      · rw [List.pairwise_replicate]; omega
      · intro x hx; have := List.eq_of_mem_replicate hx; omega
      · intro x hx; have := List.eq_of_mem_replicate hx; omega
      · simp; omega
    · rw [if_neg hk]
      have : n - m = 0 := by omega
      rw [this]
      refine ⟨⟨by simp, by simp⟩, ⟨by simp, by simp⟩, by simp⟩
  obtain ⟨h1, h2, h3⟩ := hpt
  obtain ⟨l', e1, e2, e3, _, e4, e5⟩ := hd X.pointClass h1 h2
  have hnil : l' = [] := (reduced_sum_nonneg e2).2 (by omega)
  rw [hnil] at e4
  refine ⟨h1, h2, h3, e4, ?_⟩
  intro l hl hr hne
  obtain ⟨l'', f1, f2, f3, _, f4, f5⟩ := hd l hl hr
  have hpos := reduced_sum_nonneg f2
  rw [h3]
  by_contra hlt
  have : l'' = [] := hpos.2 (by omega)
  rw [this, e4] at f4
  injection f4 with f4
  exact hne f4.symm

example : (Space.mk .A 4 7).pointClass = [4, 4, 4] ∧ (Space.mk .A 4 7).dualize [] = .ok [4, 4, 4] := by decide +kernel

/-- C37 and C12, type C. -/
theorem C37_point_C (m n : Int) (X : Space) (hX : mkIG m (2 * n) = .ok X) :
    (ReducedPart X.pointClass ∧ KStrict (n - m) X.pointClass ∧ InRect X.pointClass m.toNat (2 * n - m)) ∧
    2 * X.pointClass.sum = 4 * m * (n - m) + m * (m + 1) ∧ X.dualize [] = .ok X.pointClass ∧
    ∀ l, ReducedPart l → KStrict (n - m) l → InRect l m.toNat (2 * n - m) → l ≠ X.pointClass →
      l.sum < X.pointClass.sum := by
  have hd := C12_dualize_C m n X hX
  have hpt : (ReducedPart X.pointClass ∧ KStrict (n - m) X.pointClass ∧
      InRect X.pointClass m.toNat (2 * n - m)) ∧ 2 * X.pointClass.sum = 4 * m * (n - m) + m * (m + 1) := by
    obtain ⟨rfl, hm0, hmn⟩ := mkIG_ok hX
    simp only [Space.pointClass]
    rw [staircase_eq, show n - (n - m) = m by omega, show n + (n - m) = 2 * n - m by omega]
    obtain ⟨g1, g2, g3, g4⟩ := staircase_class m.toNat (2 * n - m) (n - m) (by omega)
    refine ⟨⟨g1, g2, g3⟩, ?_⟩
    rw [g4, show (m.toNat : Int) = m by omega]
    ring
  obtain ⟨⟨h1, hk, h2⟩, h3⟩ := hpt
  obtain ⟨l', e1, e2, _, e3, e4, e5⟩ := hd X.pointClass h1 hk h2
  have hnil : l' = [] := (reduced_sum_nonneg e2).2 (by omega)
  rw [hnil] at e4
  refine ⟨⟨h1, hk, h2⟩, h3, e4, ?_⟩
  intro l hl hlk hr hne
  obtain ⟨l'', f1, f2, _, f3, f4, f5⟩ := hd l hl hlk hr
  have hpos := reduced_sum_nonneg f2
  by_contra hlt
  have : l'' = [] := hpos.2 (by omega)
  rw [this, e4] at f4
  injection f4 with f4
  exact hne f4.symm

example : (Space.mk .C 2 5).pointClass = [7, 6, 5] ∧ (Space.mk .C 2 5).dualize [] = .ok [7, 6, 5] := by decide +kernel

/-- C37 and C12, type B. -/
theorem C37_point_B (m n : Int) (hmn : m ≤ n) (X : Space) (hX : mkOG m (2 * n + 1) = .ok X) :
    (ReducedPart X.pointClass ∧ KStrict (n - m) X.pointClass ∧ InRect X.pointClass m.toNat (2 * n - m)) ∧
    2 * X.pointClass.sum = 4 * m * (n - m) + m * (m + 1) ∧ X.dualize [] = .ok X.pointClass ∧
    ∀ l, ReducedPart l → KStrict (n - m) l → InRect l m.toNat (2 * n - m) → l ≠ X.pointClass →
      l.sum < X.pointClass.sum := by
  have hd := C12_dualize_B m n hmn X hX
  have hpt : (ReducedPart X.pointClass ∧ KStrict (n - m) X.pointClass ∧
      InRect X.pointClass m.toNat (2 * n - m)) ∧ 2 * X.pointClass.sum = 4 * m * (n - m) + m * (m + 1) := by
    obtain ⟨rfl, hm0, hn0⟩ := mkOGodd_ok hX
    simp only [Space.pointClass]
    rw [staircase_eq, show n - (n - m) = m by omega, show n + (n - m) = 2 * n - m by omega]
    obtain ⟨g1, g2, g3, g4⟩ := staircase_class m.toNat (2 * n - m) (n - m) (by omega)
    refine ⟨⟨g1, g2, g3⟩, ?_⟩
    rw [g4, show (m.toNat : Int) = m by omega]
    ring
  obtain ⟨⟨h1, hk, h2⟩, h3⟩ := hpt
  obtain ⟨l', e1, e2, _, e3, e4, e5⟩ := hd X.pointClass h1 hk h2
  have hnil : l' = [] := (reduced_sum_nonneg e2).2 (by omega)
  rw [hnil] at e4
  refine ⟨⟨h1, hk, h2⟩, h3, e4, ?_⟩
  intro l hl hlk hr hne
  obtain ⟨l'', f1, f2, _, f3, f4, f5⟩ := hd l hl hlk hr
  have hpos := reduced_sum_nonneg f2
  by_contra hlt
  have : l'' = [] := hpos.2 (by omega)
  rw [this, e4] at f4
  injection f4 with f4
  exact hne f4.symm

example : (Space.mk .B 2 5).pointClass = [7, 6, 5] ∧ (Space.mk .B 2 5).dualize [] = .ok [7, 6, 5] := by decide +kernel

theorem typed_sum_nonneg {k : Int} {m : Nat} {c : Int} {x : List Int} (h : TypedClass k m c x) :
    0 ≤ x.sum ∧ (x.sum = 0 → x = []) := by
  obtain ⟨mu, h1, _, _, h4 | ⟨h5, h4⟩⟩ := h
  · rw [h4]; exact reduced_sum_nonneg h1
  · have := reduced_sum_nonneg h1
    have hs : x.sum = mu.sum := by rw [h4]; simp
    refine ⟨by omega, fun h0 => ?_⟩
    rw [this.2 (by omega)] at h5
    simp at h5

/-- C37 and C12, type D. -/
theorem C37_point_D (m n : Int) (hmn : m ≤ n + 1) (X : Space) (hX : mkOG m (2 * n + 2) = .ok X) :
    TypedClass (n + 1 - m) m.toNat (2 * n + 1 - m) X.pointClass ∧
    2 * X.pointClass.sum = 4 * m * (n + 1 - m) + m * (m - 1) ∧ X.dualize [] = .ok X.pointClass ∧
    ∀ x, TypedClass (n + 1 - m) m.toNat (2 * n + 1 - m) x → x ≠ X.pointClass →
      x.sum < X.pointClass.sum := by
  have hd := C12_dualize_D m n hmn X hX
  have hpt : TypedClass (n + 1 - m) m.toNat (2 * n + 1 - m) X.pointClass ∧
      2 * X.pointClass.sum = 4 * m * (n + 1 - m) + m * (m - 1) := by
    obtain ⟨rfl, hm0, hn0⟩ := mkOGeven_ok hX
    simp only [Space.pointClass]
    by_cases hk : n + 1 - m > 0
    · rw [if_pos hk, staircase_eq, show n - (n + 1 - m) - 0 + 1 = m by omega,
        show n + (n + 1 - m) = 2 * n + 1 - m by omega]
      obtain ⟨g1, g2, g3, g4⟩ := staircase_class m.toNat (2 * n + 1 - m) (n + 1 - m) (by omega)
      refine ⟨⟨_, g1, g2, g3, Or.inl rfl⟩, ?_⟩
      rw [g4, show (m.toNat : Int) = m by omega]
      ring
    · have hm : m = n + 1 := by omega
      subst hm
      rw [if_neg hk, staircase_eq, show n - (n + 1 - (n + 1)) - 1 + 1 = n by omega,
        show n + (n + 1 - (n + 1)) = n by omega]
      by_cases hn : 0 ≤ n
      · obtain ⟨g1, g2, g3, g4⟩ := staircase_class n.toNat n (n + 1 - (n + 1)) (by omega)
        refine ⟨⟨_, g1, g2, ⟨le_trans g3.1 (by omega), fun x hx => le_trans (g3.2 x hx) (by omega)⟩,
          Or.inl rfl⟩, ?_⟩
        rw [g4, show (n.toNat : Int) = n by omega]
        ring
      · have : n = -1 := by omega
        subst this
        refine ⟨⟨[], ⟨by simp, by simp⟩, by simp [KStrict], ⟨by simp, by simp⟩, Or.inl (by decide)⟩, by decide⟩
  obtain ⟨h1, h3⟩ := hpt
  obtain ⟨l', e1, e2, e4, e5⟩ := hd X.pointClass h1
  have hnil : l' = [] := (typed_sum_nonneg e2).2 (by omega)
  rw [hnil] at e4
  refine ⟨h1, h3, e4, ?_⟩
  intro l hl hne
  obtain ⟨l'', f1, f2, f4, f5⟩ := hd l hl
  have hpos := typed_sum_nonneg f2
  by_contra hlt
  have : l'' = [] := hpos.2 (by omega)
  rw [this, e4] at f4
  injection f4 with f4
  exact hne f4.symm

example : (Space.mk .D 2 5).pointClass = [7, 6, 5, 4] ∧ (Space.mk .D 2 5).dualize [] = .ok [7, 6, 5, 4] := by
  decide +kernel

theorem single_class (i c k : Int) (m : Nat) (h1 : 0 < i) (h2 : i ≤ c) (hm : 1 ≤ m) :
    ReducedPart [i] ∧ KStrict k [i] ∧ InRect [i] m c := by
  refine ⟨⟨by simp, by simp; omega⟩, by simp [KStrict], ⟨by simpa using hm, by simp; omega⟩⟩

/-- C37: generators of `Gr(m,n)` are Schubert classes. -/
theorem C37_generators_A (m n : Int) (X : Space) (hX : mkGr m n = .ok X) (g : List Int)
    (hg : g ∈ X.generators) : ReducedPart g ∧ InRect g m.toNat (n - m) := by
  obtain ⟨rfl, hm0, hmn⟩ := mkGr_ok hX
  simp only [Space.generators] at hg
  split at hg
  · simp at hg
  · rw [List.mem_map] at hg
    obtain ⟨i, hi, rfl⟩ := hg
    rw [mem_pyRange] at hi
    have := single_class i (n - m) 0 m.toNat (by omega) (by omega) (by omega)
    exact ⟨this.1, this.2.2⟩

example : (Space.mk .A 4 7).generators = [[1], [2], [3], [4]] := by decide +kernel

/-- C37: generators of `IG(m,2n)` are Schubert classes. -/
theorem C37_generators_C (m n : Int) (X : Space) (hX : mkIG m (2 * n) = .ok X) (g : List Int)
    (hg : g ∈ X.generators) : ReducedPart g ∧ KStrict (n - m) g ∧ InRect g m.toNat (2 * n - m) := by
  obtain ⟨rfl, hm0, hmn⟩ := mkIG_ok hX
  simp only [Space.generators] at hg
  split at hg
  · simp at hg
  · rw [List.mem_append, List.mem_map, List.mem_map] at hg
    rcases hg with ⟨i, hi, rfl⟩ | ⟨i, hi, rfl⟩
    · rw [mem_pyRange] at hi
      exact single_class i (2 * n - m) _ m.toNat (by omega) (by omega) (by omega)
    · rw [mem_pyRange] at hi
      exact single_class i (2 * n - m) _ m.toNat (by omega) (by omega) (by omega)

example : (Space.mk .C 1 3).generators = [[1], [2], [3], [4]] := by decide +kernel

/-- C37: generators of `OG(m,2n+1)` are Schubert classes. -/
theorem C37_generators_B (m n : Int) (hmn : m ≤ n) (X : Space) (hX : mkOG m (2 * n + 1) = .ok X)
    (g : List Int) (hg : g ∈ X.generators) :
    ReducedPart g ∧ KStrict (n - m) g ∧ InRect g m.toNat (2 * n - m) := by
  obtain ⟨rfl, hm0, hn0⟩ := mkOGodd_ok hX
  simp only [Space.generators] at hg
  split at hg
  · simp at hg
  · rw [List.mem_append, List.mem_map, List.mem_map] at hg
    rcases hg with ⟨i, hi, rfl⟩ | ⟨i, hi, rfl⟩
    · rw [mem_pyRange] at hi
      exact single_class i (2 * n - m) _ m.toNat (by omega) (by omega) (by omega)
    · rw [mem_pyRange] at hi
      exact single_class i (2 * n - m) _ m.toNat (by omega) (by omega) (by omega)

example : (Space.mk .B 1 3).generators = [[1], [2], [3], [4]] := by decide +kernel

/-- C37: generators of `OG(m,2n+2)` are Schubert classes when `m ≥ 1`. -/
theorem C37_generators_D_partial (m n : Int) (hm : 1 ≤ m) (hmn : m ≤ n + 1) (X : Space)
    (hX : mkOG m (2 * n + 2) = .ok X) (g : List Int) (hg : g ∈ X.generators) :
    TypedClass (n + 1 - m) m.toNat (2 * n + 1 - m) g := by
  obtain ⟨rfl, hm0, hn0⟩ := mkOGeven_ok hX
  simp only [Space.generators] at hg
  rw [List.mem_append, List.mem_append, List.mem_map, List.mem_map] at hg
  rcases hg with (⟨i, hi, rfl⟩ | hg) | ⟨i, hi, rfl⟩
  · rw [mem_pyRange] at hi
    obtain ⟨a, b, c⟩ := single_class i (2 * n + 1 - m) (n + 1 - m) m.toNat (by omega) (by omega) (by omega)
    exact ⟨_, a, b, c, Or.inl rfl⟩
  · split at hg
    · rw [List.mem_singleton] at hg
      obtain ⟨a, b, c⟩ := single_class (n + 1 - m) (2 * n + 1 - m) (n + 1 - m) m.toNat (by omega)
        (by omega) (by omega)
      exact ⟨_, a, b, c, Or.inr ⟨by simp, by rw [hg]; rfl⟩⟩
    · simp at hg
  · rw [mem_pyRange] at hi
    obtain ⟨a, b, c⟩ := single_class i (2 * n + 1 - m) (n + 1 - m) m.toNat (by omega) (by omega) (by omega)
    exact ⟨_, a, b, c, Or.inl rfl⟩

example : (Space.mk .D 1 3).generators = [[1], [1, 0], [2], [3], [4]] := by decide +kernel

/-- C37 fails for `OG(0,2n+2)`: `generators()` has no guard in type D, and lists classes of a space that
is a point.  Here `OG(0,4)`. -/
theorem C37_refuted_D_m0 : ∃ X, mkOG 0 (2 * 1 + 2) = .ok X ∧ [1] ∈ X.generators ∧
    ¬ TypedClass (1 + 1 - 0) 0 (2 * 1 + 1 - 0) [1] := by
  refine ⟨_, rfl, by decide, ?_⟩
  rintro ⟨mu, _, _, ⟨h, _⟩, h2 | ⟨h2, _⟩⟩
  · rw [← h2] at h; simp at h
  · rw [List.length_eq_zero_iff.1 (by omega : mu.length = 0)] at h2; simp at h2

example : ∃ X, mkOG 2 (2 * 3 + 2) = .ok X ∧ X.pointClass = [5, 4] ∧
    X.generators = [[1], [2], [2, 0], [3], [4], [5]] ∧ X.dualize [] = .ok [5, 4] := by
  refine ⟨_, rfl, ?_, ?_, ?_⟩ <;> decide

/-! ### C37: the generators are exactly the special classes, each once -/

/-- C37: `generators()` of `Gr(m,n)` lists exactly the classes with one part, once each. -/
theorem C37_generators_exact_A (m n : Int) (X : Space) (hX : mkGr m n = .ok X) :
    X.generators.Nodup ∧ ∀ g, g ∈ X.generators ↔
      (ReducedPart g ∧ InRect g m.toNat (n - m)) ∧ g.length = 1 := by
  have hin := C37_generators_A m n X hX
  obtain ⟨rfl, hm0, hmn⟩ := mkGr_ok hX
  refine ⟨?_, fun g => ⟨fun hg => ⟨hin g hg, ?_⟩, ?_⟩⟩
  · simp only [Space.generators]
    split
    · simp
    · exact (pyRange_nodup _ _).map (fun a b h => by simpa using h)
  · simp only [Space.generators] at hg
    split at hg
    · simp at hg
    · rw [List.mem_map] at hg
      obtain ⟨i, _, rfl⟩ := hg
      rfl
  · rintro ⟨⟨h1, h2⟩, h3⟩
    obtain ⟨x, rfl⟩ := List.length_eq_one_iff.1 h3
    have hx : 0 < x := h1.2 x (by simp)
    have hx2 := h2.2 x (by simp)
    have hm := h2.1
    simp only [List.length_singleton] at hm
    simp only [Space.generators]
    rw [if_neg (by omega), List.mem_map]
    exact ⟨x, by rw [mem_pyRange]; omega, rfl⟩

example : (Space.mk .A 2 5).generators.Nodup ∧ (Space.mk .A 2 5).generators = [[1], [2]] := by decide +kernel

theorem gen_BC (m n : Int) (hm0 : 0 ≤ m) (hmn : m ≤ n) (g : List Int) :
    (g ∈ (if n - m = n then [] else (pyRange 1 (n - m + 1)).map (fun i => [i])
      ++ (pyRange (n - m + 1) (n + (n - m) + 1)).map (fun i => [i]))) ↔
      (ReducedPart g ∧ KStrict (n - m) g ∧ InRect g m.toNat (2 * n - m)) ∧ g.length = 1 := by
  constructor
  · intro hg
    split at hg
    · simp at hg
    · rw [List.mem_append, List.mem_map, List.mem_map] at hg
      rcases hg with ⟨i, hi, rfl⟩ | ⟨i, hi, rfl⟩ <;>
      · rw [mem_pyRange] at hi
        exact ⟨single_class i (2 * n - m) _ m.toNat (by omega) (by omega) (by omega), rfl⟩
  · rintro ⟨⟨h1, _, h2⟩, h3⟩
    obtain ⟨x, rfl⟩ := List.length_eq_one_iff.1 h3
    have hx : 0 < x := h1.2 x (by simp)
    have hx2 := h2.2 x (by simp)
    have hm := h2.1
    simp only [List.length_singleton] at hm
    rw [if_neg (by omega), List.mem_append, List.mem_map, List.mem_map]
    by_cases h : x ≤ n - m
    · exact Or.inl ⟨x, by rw [mem_pyRange]; omega, rfl⟩
    · exact Or.inr ⟨x, by rw [mem_pyRange]; omega, rfl⟩

theorem gen_nodup (a b c : Int) : ((pyRange a b).map (fun i => [i]) ++ (pyRange b c).map (fun i => [i])).Nodup := by
  rw [List.nodup_append]
  refine ⟨(pyRange_nodup _ _).map (fun a b h => by simpa using h),
    (pyRange_nodup _ _).map (fun a b h => by simpa using h), ?_⟩
  intro x hx y hy
  rw [List.mem_map] at hx hy
  obtain ⟨i, hi, rfl⟩ := hx
  obtain ⟨j, hj, rfl⟩ := hy
  rw [mem_pyRange] at hi hj
  intro h
  simp at h
  omega

/-- C37: `generators()` of `IG(m,2n)` lists exactly the classes with one part, once each. -/
theorem C37_generators_exact_C (m n : Int) (X : Space) (hX : mkIG m (2 * n) = .ok X) :
    X.generators.Nodup ∧ ∀ g, g ∈ X.generators ↔
      (ReducedPart g ∧ KStrict (n - m) g ∧ InRect g m.toNat (2 * n - m)) ∧ g.length = 1 := by
  obtain ⟨rfl, hm0, hmn⟩ := mkIG_ok hX
  refine ⟨?_, gen_BC m n hm0 (by omega)⟩
  simp only [Space.generators]
  split
  · simp
  · exact gen_nodup _ _ _

example : (Space.mk .C 1 3).generators.Nodup ∧ ¬ ([5] : List Int) ∈ (Space.mk .C 1 3).generators := by decide +kernel

/-- C37: `generators()` of `OG(m,2n+1)` lists exactly the classes with one part, once each. -/
theorem C37_generators_exact_B (m n : Int) (hmn : m ≤ n) (X : Space) (hX : mkOG m (2 * n + 1) = .ok X) :
    X.generators.Nodup ∧ ∀ g, g ∈ X.generators ↔
      (ReducedPart g ∧ KStrict (n - m) g ∧ InRect g m.toNat (2 * n - m)) ∧ g.length = 1 := by
  obtain ⟨rfl, hm0, hn0⟩ := mkOGodd_ok hX
  refine ⟨?_, gen_BC m n hm0 hmn⟩
  simp only [Space.generators]
  split
  · simp
  · exact gen_nodup _ _ _

example : (Space.mk .B 1 3).generators.Nodup ∧ ([4] : List Int) ∈ (Space.mk .B 1 3).generators := by decide +kernel

/-- C37: `generators()` of `OG(m,2n+2)`, `m ≥ 1`, lists exactly the typed classes with one non-zero part,
once each. -/
theorem C37_generators_exact_D_partial (m n : Int) (hm : 1 ≤ m) (hmn : m ≤ n + 1) (X : Space)
    (hX : mkOG m (2 * n + 2) = .ok X) :
    X.generators.Nodup ∧ ∀ g, g ∈ X.generators ↔
      TypedClass (n + 1 - m) m.toNat (2 * n + 1 - m) g ∧ (g.filter (fun x => decide (x ≠ 0))).length = 1 := by
  have hin := C37_generators_D_partial m n hm hmn X hX
  obtain ⟨rfl, hm0, hn0⟩ := mkOGeven_ok hX
  refine ⟨?_, fun g => ⟨fun hg => ⟨hin g hg, ?_⟩, ?_⟩⟩
  · simp only [Space.generators]
    rw [List.append_assoc]
    have h := gen_nodup 1 (n + 1 - m + 1) (n + (n + 1 - m) + 1)
    rw [List.nodup_append] at h ⊢
    refine ⟨h.1, ?_, ?_⟩
    · rw [List.nodup_append]
      refine ⟨by split <;> simp, h.2.1, ?_⟩
      intro a ha b hb
      split at ha
      · simp at ha
        rw [List.mem_map] at hb
        obtain ⟨i, _, rfl⟩ := hb
        rw [ha]; simp
      · simp at ha
    · intro a ha b hb
      rw [List.mem_append] at hb
      rcases hb with hb | hb
      · split at hb
        · simp at hb
          rw [List.mem_map] at ha
          obtain ⟨i, _, rfl⟩ := ha
          rw [hb]; simp
        · simp at hb
      · exact h.2.2 a ha b hb
  · simp only [Space.generators] at hg
    rw [List.mem_append, List.mem_append, List.mem_map, List.mem_map] at hg
    rcases hg with (⟨i, hi, rfl⟩ | hg) | ⟨i, hi, rfl⟩
    · rw [mem_pyRange] at hi
      simp [show i ≠ 0 by omega]
    · split at hg
      · rename_i h
        rw [List.mem_singleton] at hg
        rw [hg]
        simp [show n + 1 - m ≠ 0 by omega]
      · simp at hg
    · rw [mem_pyRange] at hi
      simp [show i ≠ 0 by omega]
  · rintro ⟨⟨mu, h1, h2, h3, hg⟩, hlen⟩
    have hmu : mu.filter (fun x => decide (x ≠ 0)) = mu := by
      rw [List.filter_eq_self]
      intro a ha
      have := h1.2 a ha
      simp; omega
    have hl1 : mu.length = 1 := by
      rcases hg with rfl | ⟨_, rfl⟩
      · rwa [hmu] at hlen
      · rw [List.filter_append, hmu] at hlen
        simpa using hlen
    obtain ⟨x, rfl⟩ := List.length_eq_one_iff.1 hl1
    have hx : 0 < x := h1.2 x (by simp)
    have hx2 := h3.2 x (by simp)
    simp only [Space.generators]
    rw [List.mem_append, List.mem_append, List.mem_map, List.mem_map]
    rcases hg with rfl | ⟨hk, rfl⟩
    · by_cases h : x ≤ n + 1 - m
      · exact Or.inl (Or.inl ⟨x, by rw [mem_pyRange]; omega, rfl⟩)
      · exact Or.inr ⟨x, by rw [mem_pyRange]; omega, rfl⟩
    · simp at hk
      refine Or.inl (Or.inr ?_)
      rw [if_pos (by omega), List.mem_singleton, hk]
      rfl

example : (Space.mk .D 2 3).generators.Nodup ∧ ([2, 0] : List Int) ∈ (Space.mk .D 2 3).generators := by decide +kernel

end Verif
