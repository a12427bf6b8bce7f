import Verif.Model.Conversions
import Verif.Spec.Conjugate
import Verif.Proofs.Partition
/-! Lemmas on `part_conj`. -/

namespace Verif
open Spec

theorem countP_partClip (l : List Int) (t : Int) (ht : 0 < t) :
    (partClip l).countP (fun x => decide (t ≤ x)) = l.countP (fun x => decide (t ≤ x)) := by
  obtain ⟨c, hc⟩ := partClip_append l
  conv_rhs => rw [hc]
  rw [List.countP_append, List.countP_replicate]
  have : ¬ t ≤ 0 := by omega
  simp [this]

/-- In a partition, at least `i+1` parts are `≥ t` iff the `i`-th part is. -/
theorem lt_countP_iff {l : List Int} (h : IsPartition l) (t : Int) (ht : 0 < t) (i : Nat) :
    i < l.countP (fun x => decide (t ≤ x)) ↔ t ≤ part l i := by
  induction l generalizing i with
  | nil => simp [part]; omega
  | cons a l ih =>
    have hl : IsPartition l := ⟨(List.pairwise_cons.1 h.1).2, fun x hx => h.2 x (by simp [hx])⟩
    rw [List.countP_cons]
    by_cases ha : t ≤ a
    · simp only [ha, decide_true, if_true]
      cases i with
      | zero => simp [ha]
      | succ i => simpa using ih hl i
    · have hz : l.countP (fun x => decide (t ≤ x)) = 0 := by
        rw [List.countP_eq_zero]
        intro x hx
        have := (List.pairwise_cons.1 h.1).1 x hx
        simp; omega
      rw [hz]
      have : part (a :: l) i ≤ a := h.part_anti (Nat.zero_le i)
      simp only [ha, decide_false, Bool.false_eq_true, if_false, Nat.add_zero, Nat.not_lt_zero, false_iff]; omega

/-- A list whose padded sequence satisfies `p` exactly on an initial segment. -/
theorem countP_of_initial {l : List Int} {p : Int → Bool} {N : Nat} (h0 : p 0 = false)
    (h : ∀ j, p (part l j) = true ↔ j < N) : l.countP p = N := by
  induction l generalizing N with
  | nil =>
    cases N with
    | zero => rfl
    | succ N => have := (h 0).2 (by omega); simp [h0] at this
  | cons a l ih =>
    rw [List.countP_cons]
    cases N with
    | zero =>
      have ha : p a = false := by
        have := (h 0); simp at this; exact this
      rw [ih (N := 0) (fun j => by have := h (j + 1); simpa using this)]
      simp [ha]
    | succ N =>
      have ha : p a = true := (h 0).2 (by omega)
      rw [ih (N := N) (fun j => by have := h (j + 1); simpa using this)]
      simp [ha]

theorem reduced_map_pred {l : List Int} (h : ReducedPart l) :
    ReducedPart (partClip (l.map (fun x => x - 1))) := by
  apply IsPartition.partClip
  constructor
  · rw [List.pairwise_map]
    exact h.1.imp (fun hab => by omega)
  · intro x hx
    rw [List.mem_map] at hx
    obtain ⟨y, hy, rfl⟩ := hx
    have := h.2 y hy
    omega

theorem part_partConjLoop (m : Nat) (l : List Int) (h : ReducedPart l) (hm : ∀ x ∈ l, x ≤ m) (j : Nat) :
    part (partConjLoop m l) j = (l.countP (fun x => decide ((j : Int) + 1 ≤ x)) : Nat) := by
  induction m generalizing l j with
  | zero =>
    have : l = [] := by
      cases l with
      | nil => rfl
      | cons a l =>
        have h1 := h.2 a (by simp)
        have h2 := hm a (by simp)
        simp at h2; omega
    subst this
    simp [partConjLoop]
  | succ m ih =>
    cases j with
    | zero =>
      simp only [partConjLoop, part_cons_zero]
      congr 1
      symm
      rw [List.countP_eq_length]
      intro x hx
      have := h.2 x hx
      simp; omega
    | succ j =>
      simp only [partConjLoop, part_cons_succ]
      rw [ih _ (reduced_map_pred h), countP_partClip _ _ (by omega), List.countP_map]
      · congr 1
        apply List.countP_congr
        intro x _
        simp; omega
      · intro x hx
        have hx' := (partClip_sublist _).mem hx
        rw [List.mem_map] at hx'
        obtain ⟨y, hy, rfl⟩ := hx'
        have := hm y hy
        push_cast at this; omega

theorem reduced_le_head {l : List Int} (h : ReducedPart l) : ∀ x ∈ l, x ≤ ((at' l 0).toNat : Int) := by
  intro x hx
  obtain ⟨i, hi, rfl⟩ := List.getElem_of_mem hx
  have h1 : part l i ≤ part l 0 := h.isPartition.part_anti (Nat.zero_le i)
  rw [part_of_lt hi] at h1
  unfold at'
  unfold part at h1
  omega

theorem partConj_eq_of_reduced {l : List Int} (h : ReducedPart l) :
    partConj l = partConjLoop (at' l 0).toNat l := by
  unfold partConj
  rw [partClip_of_noTrailing h.noTrailing]
  have hany : l.any (fun x => decide (x < 0)) = false := by
    rw [List.any_eq_false]
    intro x hx
    have := h.2 x hx
    simp; omega
  cases l with
  | nil => simp [partConjLoop, at']
  | cons a l => simp only [hany]; simp

theorem partConj_partClip (l : List Int) : partConj (partClip l) = partConj l := by
  unfold partConj; rw [partClip_idem]

theorem partConj_isConjugate {l : List Int} (h : IsPartition l) : IsConjugate l (partConj l) := by
  intro j
  rw [← partConj_partClip, partConj_eq_of_reduced h.partClip,
    part_partConjLoop _ _ h.partClip (reduced_le_head h.partClip), countP_partClip _ _ (by omega)]

theorem partConjLoop_length (m : Nat) (l : List Int) : (partConjLoop m l).length = m := by
  induction m generalizing l with
  | zero => rfl
  | succ m ih => simp [partConjLoop, ih]

theorem partConj_length {l : List Int} (h : IsPartition l) : (partConj l).length = (part l 0).toNat := by
  rw [← partConj_partClip, partConj_eq_of_reduced h.partClip, partConjLoop_length, ← part_partClip]; rfl

theorem Spec.IsConjugate.isPartition {l c : List Int} (h : IsConjugate l c) : IsPartition c := by
  apply isPartition_of_part
  intro i
  rw [h i, h (i + 1)]
  have : l.countP (fun x => decide (((i + 1 : Nat) : Int) + 1 ≤ x)) ≤
      l.countP (fun x => decide ((i : Int) + 1 ≤ x)) := by
    apply List.countP_mono_left
    intro x _ hx
    simp at *; omega
  exact_mod_cast this

theorem partConj_reduced {l : List Int} (h : IsPartition l) : ReducedPart (partConj l) := by
  have hp : IsPartition (partConj l) := (partConj_isConjugate h).isPartition
  refine ⟨hp.1, ?_⟩
  intro x hx
  obtain ⟨i, hi, rfl⟩ := List.getElem_of_mem hx
  rw [← part_of_lt hi, partConj_isConjugate h i]
  rw [partConj_length h] at hi
  have : 0 < l.countP (fun x => decide ((i : Int) + 1 ≤ x)) := by
    rw [lt_countP_iff h _ (by omega)]
    omega
  exact_mod_cast this

theorem partConj_partConj {l : List Int} (h : IsPartition l) : partConj (partConj l) = partClip l := by
  have hr := partConj_reduced h
  apply eq_of_part_eq (partConj_reduced hr.isPartition).noTrailing (partClip_noTrailing l)
  intro i
  rw [part_partClip, partConj_isConjugate hr.isPartition i]
  rw [countP_of_initial (N := (part l i).toNat)]
  · have := h.part_nonneg i
    omega
  · simp
  · intro j
    rw [partConj_isConjugate h j]
    have := lt_countP_iff h ((j : Int) + 1) (by omega) i
    have h2 : decide ((i : Int) + 1 ≤ ((l.countP (fun x => decide ((j : Int) + 1 ≤ x)) : Nat) : Int)) = true
        ↔ i < l.countP (fun x => decide ((j : Int) + 1 ≤ x)) := by
      simp; omega
    rw [h2, this]
    omega

theorem partConjLoop_sum (m : Nat) (l : List Int) (h : ReducedPart l) (hm : ∀ x ∈ l, x ≤ m) :
    (partConjLoop m l).sum = l.sum := by
  induction m generalizing l with
  | zero =>
    have : l = [] := by
      cases l with
      | nil => rfl
      | cons a l =>
        have h1 := h.2 a (by simp)
        have h2 := hm a (by simp)
        simp at h2; omega
    subst this
    simp [partConjLoop]
  | succ m ih =>
    simp only [partConjLoop, List.sum_cons]
    rw [ih _ (reduced_map_pred h), partClip_sum]
    · have : (l.map (fun x => x - 1)).sum = l.sum - l.length := by
        clear ih h hm
        induction l with
        | nil => simp
        | cons a l ih => simp [ih]; omega
      omega
    · intro x hx
      have hx' := (partClip_sublist _).mem hx
      rw [List.mem_map] at hx'
      obtain ⟨y, hy, rfl⟩ := hx'
      have := hm y hy
      push_cast at this; omega

theorem partConj_sum {l : List Int} (h : IsPartition l) : (partConj l).sum = l.sum := by
  rw [← partConj_partClip, partConj_eq_of_reduced h.partClip,
    partConjLoop_sum _ _ h.partClip (reduced_le_head h.partClip), partClip_sum]

end Verif
