import Verif.Spec.Dec
import Verif.Proofs.Conj
/-!
# Properties C01, C02, C03, C28: partition utilities
-/

namespace Verif
open Spec

/-! ## C01 `part_clip` -/

/-- C01: the result has no trailing zero and is the input without some trailing zeros. -/
theorem C01_clip_spec (l : List Int) :
    NoTrailingZero (partClip l) ∧ ∃ c, l = partClip l ++ List.replicate c 0 :=
  ⟨partClip_noTrailing l, partClip_append l⟩

example : partClip [3, 0, 1, 0, 0] = [3, 0, 1] ∧ partClip [0, 0] = [] := by decide +kernel

/-- C01: it is the only list with that property. -/
theorem C01_clip_unique (l c : List Int) (hc : NoTrailingZero c)
    (h : ∃ z, l = c ++ List.replicate z 0) : c = partClip l := by
  obtain ⟨z, rfl⟩ := h
  rw [partClip_append_zeros, partClip_of_noTrailing hc]

example : NoTrailingZero [4, 0, 2] ∧ partClip ([4, 0, 2] ++ List.replicate 3 0) = [4, 0, 2] := by decide +kernel

/-- C01: idempotence. -/
theorem C01_clip_idem (l : List Int) : partClip (partClip l) = partClip l := partClip_idem l

example : partClip (partClip [5, 2, 0, 0]) = [5, 2] := by decide +kernel

/-- C01: clipped lists agree iff the zero-padded sequences agree. -/
theorem C01_clip_eq_iff (l m : List Int) :
    partClip l = partClip m ↔ ∀ i, part l i = part m i := partClip_eq_iff l m

example : NoTrailingZero [3, 0, 1] ∧ partClip [3, 0, 1, 0, 0] = [3, 0, 1] := by
  constructor
  · simp [NoTrailingZero]
  · decide

/-! ## C02 `part_conj` -/

/-- C02: `part_conj` computes the transpose. -/
theorem C02_conj_transpose (l : List Int) (h : IsPartition l) : IsConjugate l (partConj l) :=
  partConj_isConjugate h

example : IsPartition [4, 2, 2, 0] ∧ partConj [4, 2, 2, 0] = [3, 3, 1, 1] := by decide +kernel

/-- C02: the transpose is a partition without trailing zeros, of the same size. -/
theorem C02_conj_partition (l : List Int) (h : IsPartition l) :
    ReducedPart (partConj l) ∧ (partConj l).sum = l.sum :=
  ⟨partConj_reduced h, partConj_sum h⟩

example : ReducedPart [3, 3, 1, 1] ∧ [3, 3, 1, 1].sum = 8 ∧ [4, 2, 2, 0].sum = 8 := by decide +kernel

/-- C02: conjugating twice clips. -/
theorem C02_conj_conj (l : List Int) (h : IsPartition l) : partConj (partConj l) = partClip l :=
  partConj_partConj h

example : partConj (partConj [5, 2, 2, 0]) = [5, 2, 2] := by decide +kernel

/-- C02: number of parts of the conjugate is the first part, and conversely. -/
theorem C02_conj_length (l : List Int) (h : IsPartition l) :
    ((partConj l).length : Int) = part l 0 ∧ part (partConj l) 0 = ((partClip l).length : Int) := by
  constructor
  · rw [partConj_length h]
    have := h.part_nonneg 0
    omega
  · rw [← partConj_partConj h, partConj_length (partConj_reduced h).isPartition]
    have := (partConj_reduced h).isPartition.part_nonneg 0
    omega

example : partConj [5, 2, 0] = [2, 2, 1, 1, 1] := by decide +kernel

/-- C02, error branch: a list with a negative entry (after clipping) conjugates to the empty list. -/
theorem C02_conj_negative (l : List Int) (h : ∃ x ∈ l, x < 0) : partConj l = [] := by
  obtain ⟨x, hx, hneg⟩ := h
  have hx' : x ∈ partClip l := (mem_partClip_of_ne (by omega)).2 hx
  unfold partConj
  have : (partClip l).any (fun x => decide (x < 0)) = true := by
    rw [List.any_eq_true]; exact ⟨x, hx', by simpa using hneg⟩
  simp only [this, if_true]
  split <;> rfl

example : partConj [2, -1] = [] := by decide +kernel

example : IsPartition [4, 2, 2, 0] ∧ partConj [4, 2, 2, 0] = [3, 3, 1, 1] := by
  constructor
  · unfold IsPartition; decide
  · decide

/-! ## C03 validity -/

/-- C03: the constructor accepts exactly the partitions and stores them unchanged. -/
theorem C03_partition_ok (l : List Int) : mkPartition l = .ok l ↔ IsPartition l := by
  unfold mkPartition
  rw [← isValidPart_iff]
  cases isValidPart l <;> simp

example : mkPartition [3, 3, 0] = .ok [3, 3, 0] := by decide +kernel

/-- C03: every other list raises `ValueError`. -/
theorem C03_partition_error (l : List Int) : mkPartition l = .error .valueError ↔ ¬ IsPartition l := by
  unfold mkPartition
  rw [← isValidPart_iff]
  cases isValidPart l <;> simp

example : mkPartition [1, 2] = .error .valueError ∧ mkPartition [1, -1] = .error (.valueError) := by decide +kernel

example : IsPartition [3, 3, 0] ∧ ¬ IsPartition [1, 2] ∧ ¬ IsPartition [1, -1] := by
  unfold IsPartition; decide

/-! ## C28 `skew_partition_height` -/

theorem skewCheck_iff (l m : List Int) :
    skewCheck l m = true ↔ l.length ≤ m.length ∧ ∀ i < l.length, part l i ≤ part m i := by
  induction l generalizing m with
  | nil => simp [skewCheck]
  | cons a l ih =>
    cases m with
    | nil => simp [skewCheck]
    | cons b m =>
      simp only [skewCheck, List.length_cons]
      split
      · rename_i h
        simp only [Bool.false_eq_true, false_iff, not_and]
        intro _ hi
        have := hi 0 (by omega)
        simp at this; omega
      · rename_i h
        rw [ih]
        constructor
        · rintro ⟨h1, h2⟩
          refine ⟨by omega, ?_⟩
          intro i hi
          cases i with
          | zero => simp; omega
          | succ i => simpa using h2 i (by omega)
        · rintro ⟨h1, h2⟩
          exact ⟨by omega, fun i hi => by simpa using h2 (i + 1) (by omega)⟩

theorem skewCount_eq (l m : List Int) :
    skewCount l m = ((List.range m.length).countP (fun i => decide (part l i < part m i)) : Nat) := by
  induction m generalizing l with
  | nil => cases l <;> simp [skewCount]
  | cons b m ih =>
    rw [List.length_cons, List.range_succ_eq_map, List.countP_cons, List.countP_map]
    cases l with
    | nil =>
      simp only [skewCount, ih]
      have : ((fun i => decide (part [] i < part (b :: m) i)) ∘ Nat.succ)
          = fun i => decide (part [] i < part m i) := by
        funext i; rfl
      rw [this]
      by_cases hb : 0 < b <;> simp [hb]; omega
    | cons a l =>
      simp only [skewCount, ih]
      have : ((fun i => decide (part (a :: l) i < part (b :: m) i)) ∘ Nat.succ)
          = fun i => decide (part l i < part m i) := by
        funext i; rfl
      rw [this]
      by_cases hb : a < b <;> simp [hb]; omega

theorem contained_iff_reduced {l m : List Int} (hl : ReducedPart l) (hm : IsPartition m) :
    Contained l m ↔ l.length ≤ m.length ∧ ∀ i < l.length, part l i ≤ part m i := by
  constructor
  · intro h
    refine ⟨?_, fun i _ => h i⟩
    by_contra hlt
    have h1 := h m.length
    rw [part_of_ge (le_refl m.length), part_of_lt (by omega)] at h1
    have := hl.2 _ (List.getElem_mem (l := l) (by omega : m.length < l.length))
    omega
  · rintro ⟨_, h⟩ i
    by_cases hi : i < l.length
    · exact h i hi
    · rw [part_of_ge (by omega)]; exact hm.part_nonneg i

/-- C28: it raises (always `ValueError`) iff the nonempty `l` is not contained in `mu`. -/
theorem C28_raises_iff (l mu : List Int) (hl : ReducedPart l) (hm : IsPartition mu) :
    skewPartitionHeight l mu = .error .valueError ↔ l ≠ [] ∧ ¬ Contained l mu := by
  rw [contained_iff_reduced hl hm, ← skewCheck_iff]
  unfold skewPartitionHeight
  cases l with
  | nil => simp
  | cons a l => cases skewCheck (a :: l) mu <;> simp

example : skewPartitionHeight [3, 1] [2, 2] = .error .valueError ∧ skewPartitionHeight [2, 1] [4, 2, 2] = .ok 3 := by
  decide +kernel

/-- C28: otherwise it is the number of rows of `mu` with at least one box outside `l`. -/
theorem C28_height (l mu : List Int) (hl : ReducedPart l) (hm : ReducedPart mu) (h : Contained l mu) :
    skewPartitionHeight l mu =
      .ok ((List.range mu.length).countP (fun i => decide (part l i < part mu i)) : Nat) := by
  have hc := (skewCheck_iff l mu).2 ((contained_iff_reduced hl hm.isPartition).1 h)
  unfold skewPartitionHeight
  cases l with
  | nil =>
    simp only [List.length_nil, if_true]
    congr 2
    symm
    conv_rhs => rw [← List.length_range (n := mu.length)]
    rw [List.countP_eq_length]
    intro i hi
    have hi' : i < mu.length := by simpa using hi
    rw [part_nil, part_of_lt hi']
    simpa using hm.2 _ (List.getElem_mem hi')
  | cons a l =>
    simp only [List.length_cons, hc]
    simp [skewCount_eq]

example : ReducedPart [2, 1] ∧ ReducedPart [3, 1, 1] ∧ skewPartitionHeight [2, 1] [3, 1, 1] = .ok 2 := by
  refine ⟨?_, ?_, rfl⟩ <;> · unfold ReducedPart; decide

/-- C28, why `mu` must have no zero rows: the empty `l` is answered with `len(mu)`. -/
theorem C28_zero_rows_counted : skewPartitionHeight [] [1, 0] = .ok 2 := rfl

end Verif
