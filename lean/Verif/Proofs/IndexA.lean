import Verif.Model.SpaceMaps
import Verif.Proofs.Partition
/-! Type A index maps. -/

namespace Verif
open Spec

theorem part_map_range (f : Nat → Int) (m j : Nat) (h : j < m) :
    part ((List.range m).map f) j = f j := by
  rw [part_of_lt (by simpa using h)]; simp

theorem part_map_range_ge (f : Nat → Int) (m j : Nat) (h : m ≤ j) :
    part ((List.range m).map f) j = 0 := part_of_ge (by simpa using h)

theorem at'_pad (l : List Int) (c : Int) (j : Nat) : at' (l ++ rep 0 c) j = part l j :=
  part_append_zeros l _ j

theorem map_part_range {l : List Int} {m : Nat} (h : l.length ≤ m) :
    partClip ((List.range m).map (fun j => part l j)) = partClip l := by
  rw [partClip_eq_iff]
  intro i
  by_cases hi : i < m
  · rw [part_map_range _ _ _ hi]
  · rw [part_map_range_ge _ _ _ (by omega), part_of_ge (by omega)]

theorem list_eq_map_part (l : List Int) : l = (List.range l.length).map (fun j => part l j) := by
  apply List.ext_getElem
  · simp
  · intro i h1 h2
    simp [part_of_lt h1]

theorem pairwise_map_range {R : Int → Int → Prop} {f : Nat → Int} {m : Nat} :
    ((List.range m).map f).Pairwise R ↔ ∀ i j, i < j → j < m → R (f i) (f j) := by
  rw [List.pairwise_iff_getElem]
  constructor
  · intro h i j hij hj
    have := h i j (by simp; omega) (by simpa using hj) hij
    simpa using this
  · intro h i j hi hj hij
    simp at hi hj
    simpa using h i j hij hj

theorem pairwise_iff_part {R : Int → Int → Prop} {l : List Int} :
    l.Pairwise R ↔ ∀ i j, i < j → j < l.length → R (part l i) (part l j) := by
  conv_lhs => rw [list_eq_map_part l]
  exact pairwise_map_range

theorem forall_mem_iff_part {P : Int → Prop} {l : List Int} :
    (∀ x ∈ l, P x) ↔ ∀ j < l.length, P (part l j) := by
  constructor
  · intro h j hj
    rw [part_of_lt hj]; exact h _ (List.getElem_mem hj)
  · intro h x hx
    obtain ⟨i, hi, rfl⟩ := List.getElem_of_mem hx
    rw [← part_of_lt hi]; exact h i hi

theorem InRect.part_le {l : List Int} {r : Nat} {c : Int} (h : InRect l r c) (hc : 0 ≤ c) (i : Nat) :
    part l i ≤ c := by
  by_cases hi : i < l.length
  · rw [part_of_lt hi]; exact h.2 _ (List.getElem_mem hi)
  · rw [part_of_ge (by omega)]; exact hc

theorem InRect.part_ge {l : List Int} {r : Nat} {c : Int} (h : InRect l r c) (i : Nat) (hi : r ≤ i) :
    part l i = 0 := part_of_ge (le_trans h.1 hi)

/-- Index lists: strictly increasing, in `1..N`. -/
theorem strict_mono_gap {f : Nat → Int} {m : Nat} (h : ∀ i j, i < j → j < m → f i < f j)
    {i j : Nat} (hij : i ≤ j) (hj : j < m) : f i + (j - i : Nat) ≤ f j := by
  induction j with
  | zero =>
    have : i = 0 := by omega
    subst this; simp
  | succ j ih =>
    by_cases hi : i = j + 1
    · subst hi; simp
    · have h1 := ih (by omega) (by omega)
      have h2 := h j (j + 1) (by omega) hj
      push_cast [Nat.sub_add_comm (show i ≤ j by omega)] at *
      omega

end Verif
