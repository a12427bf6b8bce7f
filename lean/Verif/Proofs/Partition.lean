import Verif.Model.Partition
import Verif.Spec.Partition
import Mathlib.Data.List.Induction
import Mathlib.Data.List.GetD
import Mathlib.Tactic.Linarith
/-! Lemmas on `part_clip`, validity, `part`. -/

namespace Verif
open Spec

theorem at'_eq_part (l : List Int) (i : Nat) : at' l i = part l i := rfl

theorem part_of_lt {l : List Int} {i : Nat} (h : i < l.length) : part l i = l[i] :=
  List.getD_eq_getElem _ _ h

theorem part_of_ge {l : List Int} {i : Nat} (h : l.length ≤ i) : part l i = 0 :=
  List.getD_eq_default l _ h

@[simp] theorem part_nil (i : Nat) : part [] i = 0 := by simp [part]
@[simp] theorem part_cons_zero (x : Int) (l : List Int) : part (x :: l) 0 = x := rfl
@[simp] theorem part_cons_succ (x : Int) (l : List Int) (i : Nat) : part (x :: l) (i + 1) = part l i := rfl

theorem partClipLoop_append (l m : List Int) (i : Nat) (h : i ≤ l.length) :
    partClipLoop (l ++ m) i = partClipLoop l i := by
  induction i with
  | zero => rfl
  | succ i ih =>
    have : at' (l ++ m) i = at' l i := by
      exact List.getD_append _ _ _ _ (Nat.lt_of_succ_le h)
    simp only [partClipLoop, this]
    rw [ih (by omega)]

theorem partClipLoop_le (l : List Int) (i : Nat) : partClipLoop l i ≤ i := by
  induction i with
  | zero => simp [partClipLoop]
  | succ i ih => simp only [partClipLoop]; split <;> omega

@[simp] theorem partClip_nil : partClip [] = [] := rfl

theorem partClip_concat_zero (l : List Int) : partClip (l ++ [0]) = partClip l := by
  have h : at' (l ++ [0]) l.length = 0 := by simp [at']
  simp only [partClip, List.length_append, List.length_singleton, partClipLoop, h, if_true]
  rw [partClipLoop_append _ _ _ (le_refl _), List.take_append_of_le_length (partClipLoop_le _ _)]

theorem partClip_concat_ne (l : List Int) (x : Int) (hx : x ≠ 0) : partClip (l ++ [x]) = l ++ [x] := by
  have h : at' (l ++ [x]) l.length = x := by simp [at']
  simp only [partClip, List.length_append, List.length_singleton, partClipLoop, h, if_neg hx]
  rw [List.take_of_length_le (by simp)]

theorem partClip_append_zeros (l : List Int) (c : Nat) :
    partClip (l ++ List.replicate c 0) = partClip l := by
  induction c with
  | zero => simp
  | succ c ih => rw [List.replicate_succ', ← List.append_assoc, partClip_concat_zero, ih]

theorem partClip_replicate (c : Nat) : partClip (List.replicate c 0) = [] := by
  simpa using partClip_append_zeros [] c

theorem partClip_noTrailing (l : List Int) : NoTrailingZero (partClip l) := by
  induction l using List.reverseRecOn with
  | nil => simp [NoTrailingZero]
  | append_singleton l x ih =>
    by_cases hx : x = 0
    · subst hx; rwa [partClip_concat_zero]
    · rw [partClip_concat_ne _ _ hx]; simp [NoTrailingZero, hx]

theorem partClip_append (l : List Int) : ∃ c, l = partClip l ++ List.replicate c 0 := by
  induction l using List.reverseRecOn with
  | nil => exact ⟨0, rfl⟩
  | append_singleton l x ih =>
    by_cases hx : x = 0
    · subst hx
      obtain ⟨c, hc⟩ := ih
      refine ⟨c + 1, ?_⟩
      rw [partClip_concat_zero, List.replicate_succ', ← List.append_assoc, ← hc]
    · exact ⟨0, by rw [partClip_concat_ne _ _ hx]; simp⟩

theorem partClip_of_noTrailing {l : List Int} (h : NoTrailingZero l) : partClip l = l := by
  induction l using List.reverseRecOn with
  | nil => rfl
  | append_singleton l x _ =>
    apply partClip_concat_ne
    rintro rfl
    simp [NoTrailingZero] at h

theorem partClip_idem (l : List Int) : partClip (partClip l) = partClip l :=
  partClip_of_noTrailing (partClip_noTrailing l)

theorem part_append_zeros (l : List Int) (c i : Nat) :
    part (l ++ List.replicate c 0) i = part l i := by
  unfold part
  by_cases h : i < l.length
  · rw [List.getD_append _ _ _ _ h]
  · rw [List.getD_append_right _ _ _ _ (by omega)]
    rw [List.getD_eq_default l _ (by omega)]
    simp

theorem part_partClip (l : List Int) (i : Nat) : part (partClip l) i = part l i := by
  obtain ⟨c, hc⟩ := partClip_append l
  conv_rhs => rw [hc]
  rw [part_append_zeros]

theorem partClip_length_le (l : List Int) : (partClip l).length ≤ l.length := by
  simp [partClip]

/-- lists with no trailing zeros are determined by their padded sequence -/
theorem eq_of_part_eq {l m : List Int} (hl : NoTrailingZero l) (hm : NoTrailingZero m)
    (h : ∀ i, part l i = part m i) : l = m := by
  have key : ∀ {l m : List Int}, NoTrailingZero l → (∀ i, part l i = part m i) →
      l.length ≤ m.length := by
    intro l m hl h
    by_contra hlt
    push Not at hlt
    have hpos : 0 < l.length := by omega
    have h1 := h (l.length - 1)
    unfold part at h1
    rw [List.getD_eq_default m _ (by omega)] at h1
    rw [List.getD_eq_getElem _ _ (by omega)] at h1
    apply hl
    rw [List.getLast?_eq_getElem?, List.getElem?_eq_getElem (by omega), h1]
  have hlen : l.length = m.length := le_antisymm (key hl h) (key hm (fun i => (h i).symm))
  apply List.ext_getElem hlen
  intro i h1 h2
  have := h i
  unfold part at this
  rwa [List.getD_eq_getElem _ _ h1, List.getD_eq_getElem _ _ h2] at this

theorem partClip_eq_iff (l m : List Int) : partClip l = partClip m ↔ ∀ i, part l i = part m i := by
  constructor
  · intro h i; rw [← part_partClip l, h, part_partClip]
  · intro h
    apply eq_of_part_eq (partClip_noTrailing _) (partClip_noTrailing _)
    intro i; rw [part_partClip, part_partClip, h]

theorem partClip_cons (x : Int) (l : List Int) :
    partClip (x :: l) = if partClip l = [] ∧ x = 0 then [] else x :: partClip l := by
  obtain ⟨c, hc⟩ := partClip_append l
  split
  · rename_i h
    rw [hc, h.1, h.2]
    simpa [List.replicate_succ] using partClip_replicate (c + 1)
  · rename_i h
    conv_lhs => rw [hc, ← List.cons_append]
    rw [partClip_append_zeros, partClip_of_noTrailing]
    have := partClip_noTrailing l
    unfold NoTrailingZero at *
    rw [List.getLast?_cons]
    cases hl : (partClip l).getLast? with
    | none =>
      have : partClip l = [] := by simpa using hl
      simp; intro hx; exact h ⟨this, hx⟩
    | some y => rw [hl] at this; simpa using this

theorem partClip_sum (l : List Int) : (partClip l).sum = l.sum := by
  obtain ⟨c, hc⟩ := partClip_append l
  conv_rhs => rw [hc]
  simp

theorem mem_partClip_of_ne {l : List Int} {x : Int} (hx : x ≠ 0) : x ∈ partClip l ↔ x ∈ l := by
  obtain ⟨c, hc⟩ := partClip_append l
  conv_rhs => rw [hc]
  simp only [List.mem_append, List.mem_replicate]
  constructor
  · exact Or.inl
  · rintro (h | ⟨_, h⟩)
    · exact h
    · exact absurd h hx

theorem partClip_sublist (l : List Int) : (partClip l).Sublist l := List.take_sublist _ _

theorem Spec.IsPartition.partClip {l : List Int} (h : IsPartition l) : ReducedPart (partClip l) := by
  refine ⟨h.1.sublist (partClip_sublist l), ?_⟩
  have hnt := partClip_noTrailing l
  have hp : (Verif.partClip l).Pairwise (· ≥ ·) := h.1.sublist (partClip_sublist l)
  have hn : ∀ x ∈ Verif.partClip l, 0 ≤ x := fun x hx => h.2 x ((partClip_sublist l).mem hx)
  generalize Verif.partClip l = c at *
  induction c using List.reverseRecOn with
  | nil => simp
  | append_singleton c y _ =>
    have hy : y ≠ 0 := by rintro rfl; simp [NoTrailingZero] at hnt
    have hy0 : 0 ≤ y := hn y (by simp)
    intro x hx
    rw [List.mem_append] at hx
    rcases hx with hx | hx
    · have := (List.pairwise_append.1 hp).2.2 x hx y (by simp)
      omega
    · simp at hx; omega

theorem Spec.ReducedPart.noTrailing {l : List Int} (h : ReducedPart l) : NoTrailingZero l := by
  intro h0
  have := List.mem_of_getLast? h0
  have := h.2 0 this
  omega

theorem Spec.ReducedPart.isPartition {l : List Int} (h : ReducedPart l) : IsPartition l :=
  ⟨h.1, fun x hx => le_of_lt (h.2 x hx)⟩

theorem isNonIncreasing_iff (l : List Int) : isNonIncreasing l = true ↔ l.Pairwise (· ≥ ·) := by
  induction l with
  | nil => simp [isNonIncreasing]
  | cons a l ih =>
    cases l with
    | nil => simp [isNonIncreasing]
    | cons b r =>
      simp only [isNonIncreasing]
      split
      · rename_i h
        simp only [Bool.false_eq_true, false_iff]
        intro hp
        have := (List.pairwise_cons.1 hp).1 b (by simp)
        omega
      · rename_i h
        rw [ih, List.pairwise_cons (a := a)]
        constructor
        · intro hp
          refine ⟨?_, hp⟩
          intro x hx
          rcases List.mem_cons.1 hx with rfl | hx
          · omega
          · have := (List.pairwise_cons.1 hp).1 x hx
            omega
        · exact And.right

theorem isValidPart_iff (l : List Int) : isValidPart l = true ↔ IsPartition l := by
  unfold isValidPart IsPartition
  rw [← isNonIncreasing_iff]
  by_cases h1 : l.all (fun x => decide (0 ≤ x)) = true
  · have h1' : ∀ x ∈ l, 0 ≤ x := by simpa using h1
    simp only [h1, Bool.not_true, Bool.false_eq_true, if_false]
    cases isNonIncreasing l <;> simp; exact h1'
  · have : ¬ ∀ x ∈ l, 0 ≤ x := by simpa using h1
    simp [h1, this]

/-- parts of a partition decrease -/
theorem Spec.IsPartition.part_anti {l : List Int} (h : IsPartition l) {i j : Nat} (hij : i ≤ j) :
    part l j ≤ part l i := by
  unfold part
  by_cases hj : j < l.length
  · rw [List.getD_eq_getElem _ _ hj, List.getD_eq_getElem _ _ (by omega)]
    rcases Nat.lt_or_eq_of_le hij with hlt | rfl
    · exact List.pairwise_iff_getElem.1 h.1 i j (by omega) hj hlt
    · exact le_refl _
  · rw [List.getD_eq_default l _ (by omega)]
    by_cases hi : i < l.length
    · rw [List.getD_eq_getElem _ _ hi]; exact h.2 _ (List.getElem_mem _)
    · rw [List.getD_eq_default l _ (by omega)]

theorem Spec.IsPartition.part_nonneg {l : List Int} (h : IsPartition l) (i : Nat) : 0 ≤ part l i := by
  unfold part
  by_cases hi : i < l.length
  · rw [List.getD_eq_getElem _ _ hi]; exact h.2 _ (List.getElem_mem _)
  · rw [List.getD_eq_default l _ (by omega)]

theorem isPartition_of_part {l : List Int} (h : ∀ i, part l (i + 1) ≤ part l i) : IsPartition l := by
  have anti : ∀ i d, part l (i + d) ≤ part l i := by
    intro i d
    induction d with
    | zero => exact le_refl _
    | succ d ih => exact le_trans (h (i + d)) ih
  constructor
  · rw [List.pairwise_iff_getElem]
    intro i j hi hj hij
    have := anti i (j - i)
    rw [Nat.add_sub_cancel' (le_of_lt hij)] at this
    unfold part at this
    rwa [List.getD_eq_getElem _ _ hj, List.getD_eq_getElem _ _ hi] at this
  · intro x hx
    obtain ⟨i, hi, rfl⟩ := List.getElem_of_mem hx
    have := anti i l.length
    unfold part at this
    rwa [List.getD_eq_default l _ (by omega), List.getD_eq_getElem _ _ hi] at this

theorem isPartition_iff_part {l : List Int} : IsPartition l ↔ ∀ i, part l (i + 1) ≤ part l i :=
  ⟨fun h _ => h.part_anti (Nat.le_succ _), isPartition_of_part⟩

end Verif
