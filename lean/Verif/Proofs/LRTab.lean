import Verif.Spec.LR
import Verif.Proofs.LRPat
import Verif.Proofs.SchurSym
/-!
# Tableaux and patterns
-/

namespace Verif.LR
open Finset Spec

/-- Number of entries at most `i` in row `s`. -/
def patT (T : List (List Nat)) (i s : ℕ) : ℕ := ((row T s).filter (· ≤ i)).length

theorem sorted_count {r : List ℕ} (h : r.Pairwise (· ≤ ·)) (i j : ℕ) :
    j < (r.filter (· ≤ i)).length ↔ j < r.length ∧ r.getD j 0 ≤ i := by
  induction r generalizing j with
  | nil => simp
  | cons a r ih =>
    rw [List.pairwise_cons] at h
    by_cases ha : a ≤ i
    · rw [List.filter_cons_of_pos (by simpa using ha)]
      cases j with
      | zero => simp [ha]
      | succ j =>
        rw [List.length_cons, List.length_cons, Nat.succ_lt_succ_iff, Nat.succ_lt_succ_iff, ih h.2, List.getD_cons_succ]
    · have h0 : r.filter (· ≤ i) = [] := by
        rw [List.filter_eq_nil_iff]
        intro b hb
        have := h.1 b hb
        simp; omega
      rw [List.filter_cons_of_neg (by simpa using ha), h0]
      simp only [List.length_nil, Nat.not_lt_zero, false_iff, not_and, not_le]
      intro hj
      cases j with
      | zero => simp; omega
      | succ j =>
        rw [List.getD_cons_succ]
        have hj' : j < r.length := by simpa using hj
        rw [List.getD_eq_getElem _ _ hj']
        have := h.1 _ (List.getElem_mem hj')
        omega

theorem drop_count {r : List ℕ} (h : r.Pairwise (· ≤ ·)) (c i : ℕ) :
    ((r.drop c).filter (· ≤ i)).length = (r.filter (· ≤ i)).length - c := by
  induction c generalizing r with
  | zero => simp
  | succ c ih =>
    cases r with
    | nil => simp
    | cons a r =>
      rw [List.pairwise_cons] at h
      rw [List.drop_succ_cons, ih h.2]
      by_cases ha : a ≤ i
      · rw [List.filter_cons_of_pos (by simpa using ha), List.length_cons]
        omega
      · have h0 : r.filter (· ≤ i) = [] := by
          rw [List.filter_eq_nil_iff]
          intro b hb
          have := h.1 b hb
          simp; omega
        rw [List.filter_cons_of_neg (by simpa using ha), h0]
        simp

theorem count_eq (r : List ℕ) (i : ℕ) :
    (r.filter (· ≤ i + 1)).length = (r.filter (· ≤ i)).length + r.count (i + 1) := by
  induction r with
  | nil => simp
  | cons a r ih =>
    rcases Nat.lt_trichotomy a (i + 1) with h | h | h
    · rw [List.filter_cons_of_pos (by simp; omega), List.filter_cons_of_pos (by simp; omega), List.count_cons_of_ne (by omega)]
      simp only [List.length_cons]; omega
    · subst h
      rw [List.filter_cons_of_pos (by simp), List.filter_cons_of_neg (by simp), List.count_cons_self]
      simp only [List.length_cons]; omega
    · rw [List.filter_cons_of_neg (by simp; omega), List.filter_cons_of_neg (by simp; omega), List.count_cons_of_ne (by omega)]
      exact ih

theorem map_sum_range {f : List ℕ → ℕ} (hf : f [] = 0) (T : List (List ℕ)) : ∀ N, T.length ≤ N →
    (T.map f).sum = ∑ s ∈ range N, f (row T s) := by
  induction T with
  | nil => intro N _; simp [row, hf]
  | cons a T ih =>
    intro N hN
    cases N with
    | zero => simp at hN
    | succ N =>
      rw [Finset.sum_range_succ', List.map_cons, List.sum_cons, ih N (by simpa using hN)]
      simp [row, add_comm]

section
variable {M : ℕ} {mu : List Int} {T : List (List ℕ)}

theorem entry_le_iff (hT : Tableau M mu T) (i s j : ℕ) :
    j < patT T i s ↔ j < (row T s).length ∧ entry T s j ≤ i := sorted_count (hT.2.2.1 s) i j

theorem patT_pat (hmu : IsPartition mu) (hT : Tableau M mu T) : Pat M (patT T) := by
  obtain ⟨h1, h2, h3, h4, h5⟩ := hT
  refine ⟨fun s => ?_, fun i s => ?_, fun i s => ?_, fun i hi s => ?_⟩
  · unfold patT
    rw [List.length_eq_zero_iff, List.filter_eq_nil_iff]
    intro e he
    have := h4 s e he
    simp; omega
  · unfold patT
    rw [count_eq]; omega
  · by_contra hlt
    rw [not_le] at hlt
    have hT : Tableau M mu T := ⟨h1, h2, h3, h4, h5⟩
    obtain ⟨a1, a2⟩ := (entry_le_iff hT (i + 1) (s + 1) (patT T i s)).1 hlt
    have a3 := h5 s _ a1
    have a4 : (row T (s + 1)).length ≤ (row T s).length := by
      have b1 := h2 s
      have b2 := h2 (s + 1)
      have := hmu.part_anti (show s ≤ s + 1 by omega)
      omega
    have := (entry_le_iff hT i s (patT T i s)).2 ⟨by omega, by omega⟩
    omega
  · have : ∀ i, M ≤ i → (row T s).filter (· ≤ i) = row T s := by
      intro i hi
      rw [List.filter_eq_self]
      intro e he
      have := h4 s e he
      simp; omega
    unfold patT
    rw [this i hi, this M (le_refl _)]

theorem patT_top (hT : Tableau M mu T) (s : ℕ) : (patT T M s : ℤ) = part mu s := by
  rw [← hT.2.1 s]
  unfold patT
  rw [List.filter_eq_self.2]
  intro e he
  have := hT.2.2.2.1 s e he
  simp; omega

theorem patT_inj {T' : List (List ℕ)} (hT : Tableau M mu T) (hT' : Tableau M mu T') (h : patT T = patT T') : T = T' := by
  apply List.ext_getElem (by rw [hT.1, hT'.1])
  intro s hs hs'
  have e1 : T[s] = row T s := by unfold row; rw [List.getD_eq_getElem _ _ hs]
  have e2 : T'[s] = row T' s := by unfold row; rw [List.getD_eq_getElem _ _ hs']
  rw [e1, e2]
  have hlen : (row T s).length = (row T' s).length := by
    have := hT.2.1 s
    have := hT'.2.1 s
    omega
  apply List.ext_getElem hlen
  intro j hj hj'
  have f1 : (row T s)[j] = entry T s j := by unfold entry; rw [List.getD_eq_getElem _ _ hj]
  have f2 : (row T' s)[j] = entry T' s j := by unfold entry; rw [List.getD_eq_getElem _ _ hj']
  rw [f1, f2]
  apply le_antisymm
  · have := (entry_le_iff hT' (entry T' s j) s j).2 ⟨hj', le_refl _⟩
    rw [← h] at this
    exact ((entry_le_iff hT _ s j).1 this).2
  · have := (entry_le_iff hT (entry T s j) s j).2 ⟨hj, le_refl _⟩
    rw [h] at this
    exact ((entry_le_iff hT' _ s j).1 this).2

/-- The content of the columns from `c` on. -/
theorem colContent_W (hmu : IsPartition mu) (hT : Tableau M mu T) (c i : ℕ) : (colContent T c (i + 1) : ℤ) = W M (patT T) c i := by
  have hP := patT_pat hmu hT
  unfold colContent W
  rw [map_sum_range (by simp) T (max M T.length) (le_max_right _ _)]
  push_cast
  symm
  have hz : ∀ s ∈ range (max M T.length), s ∉ range M →
      ((max (patT T (i + 1) s) c : ℤ) - (max (patT T i s) c : ℤ)) = 0 := by
    intro s _ hs
    rw [Finset.mem_range, not_lt] at hs
    rw [hP.row_zero' _ s hs, hP.row_zero' _ s hs]
    omega
  rw [Finset.sum_subset (Finset.range_subset_range.2 (le_max_left M T.length)) hz]
  refine Finset.sum_congr rfl (fun s _ => ?_)
  have h1 := drop_count (hT.2.2.1 s) c i
  have h2 := drop_count (hT.2.2.1 s) c (i + 1)
  have h3 := count_eq ((row T s).drop c) i
  unfold patT
  omega

end

/-! ### From patterns to tableaux -/

theorem length_filter_lt (n t : ℕ) : ((List.range n).filter (· < t)).length = min n t := by
  induction n with
  | zero => simp
  | succ n ih =>
    rw [List.range_succ, List.filter_append, List.length_append, ih]
    by_cases h : n < t
    · simp [h]; omega
    · simp [h]; omega

/-- The entry in column `j` of a row with `f i` entries at most `i`. -/
def entryOf (M : ℕ) (f : ℕ → ℕ) (j : ℕ) : ℕ := ((List.range (M + 1)).filter (fun i => f i ≤ j)).length

theorem entryOf_le {M : ℕ} {f : ℕ → ℕ} (hf : ∀ i, f i ≤ f (i + 1)) {j : ℕ} (hj : j < f M) (i : ℕ) :
    entryOf M f j ≤ i ↔ j < f i := by
  have hmono : Monotone f := monotone_nat_of_le_succ hf
  have hex : ∃ t, j < f t := ⟨M, hj⟩
  have hiff : ∀ i, f i ≤ j ↔ i < Nat.find hex := by
    intro i
    rw [Nat.lt_find_iff]
    constructor
    · intro h t ht
      have := hmono ht
      omega
    · intro h
      have := h i (le_refl _)
      omega
  have he : entryOf M f j = Nat.find hex := by
    unfold entryOf
    have : (List.range (M + 1)).filter (fun i => f i ≤ j) = (List.range (M + 1)).filter (· < Nat.find hex) := by
      apply List.filter_congr
      intro i _
      simp only [decide_eq_decide]
      exact hiff i
    rw [this, length_filter_lt]
    have : Nat.find hex ≤ M := Nat.find_min' hex hj
    omega
  rw [he]
  have := hiff i
  omega

/-- The tableau of a pattern. -/
def tabOf (M L : ℕ) (p : ℕ → ℕ → ℕ) : List (List ℕ) :=
  (List.range L).map fun s => (List.range (p M s)).map (entryOf M (fun i => p i s))

section
variable {M : ℕ} {mu : List Int} {p : ℕ → ℕ → ℕ} (hp : Pat M p) (htop : ∀ s, (p M s : ℤ) = part mu s)
include hp htop

omit hp in
theorem row_tabOf (s : ℕ) : row (tabOf M mu.length p) s = (List.range (p M s)).map (entryOf M (fun i => p i s)) := by
  unfold row tabOf
  by_cases hs : s < mu.length
  · rw [List.getD_eq_getElem _ _ (by simpa using hs)]
    simp
  · rw [List.getD_eq_default _ _ (by simpa using hs)]
    have := htop s
    rw [part_of_ge (by omega)] at this
    rw [show p M s = 0 by omega]
    simp

omit hp in
theorem entry_tabOf {s j : ℕ} (hj : j < p M s) : entry (tabOf M mu.length p) s j = entryOf M (fun i => p i s) j := by
  unfold entry
  rw [row_tabOf htop, List.getD_eq_getElem _ _ (by simpa using hj)]
  simp

theorem tabOf_tableau : Tableau M mu (tabOf M mu.length p) := by
  have hmono : ∀ s i, p i s ≤ p (i + 1) s := fun s i => hp.mono i s
  refine ⟨by simp [tabOf], fun s => ?_, fun s => ?_, fun s e he => ?_, fun s j hj => ?_⟩
  · rw [row_tabOf htop]
    simpa using htop s
  · rw [row_tabOf htop, List.pairwise_map]
    refine List.Pairwise.imp_of_mem ?_ (List.pairwise_lt_range)
    intro a b ha hb hab
    rw [List.mem_range] at ha hb
    rw [entryOf_le (hmono s) ha]
    have := (entryOf_le (hmono s) hb (entryOf M (fun i => p i s) b)).1 (le_refl _)
    omega
  · rw [row_tabOf htop, List.mem_map] at he
    obtain ⟨j, hj, rfl⟩ := he
    rw [List.mem_range] at hj
    refine ⟨?_, (entryOf_le (hmono s) hj M).2 hj⟩
    by_contra hn
    have := (entryOf_le (hmono s) hj 0).1 (by omega)
    rw [hp.zero] at this
    omega
  · rw [row_tabOf htop, List.length_map, List.length_range] at hj
    have hj' : j < p M s := lt_of_lt_of_le hj (hp.anti M s)
    rw [entry_tabOf htop hj, entry_tabOf htop hj']
    have h1 := (entryOf_le (hmono (s + 1)) hj _).1 (le_refl (entryOf M (fun i => p i (s + 1)) j))
    generalize entryOf M (fun i => p i (s + 1)) j = e at h1
    cases e with
    | zero => rw [hp.zero] at h1; omega
    | succ e =>
      have h2 := hp.inter e s
      have := (entryOf_le (hmono s) hj' e).2 (by omega)
      omega

theorem patT_tabOf : patT (tabOf M mu.length p) = p := by
  have hT := tabOf_tableau hp htop
  funext i s
  have hle : p i s ≤ p M s := by
    by_cases hi : M ≤ i
    · rw [hp.fin i hi]
    · have h2 : ∀ j, i ≤ j → p i s ≤ p j s := by
        intro j hj
        induction hj with
        | refl => exact le_refl _
        | step _ ih => exact ih.trans (hp.mono _ _)
      exact h2 M (by omega)
  have key : ∀ j, j < patT (tabOf M mu.length p) i s ↔ j < p i s := by
    intro j
    rw [entry_le_iff hT, row_tabOf htop, List.length_map, List.length_range]
    constructor
    · rintro ⟨h1, h2⟩
      rw [entry_tabOf htop h1] at h2
      exact (entryOf_le (fun i => hp.mono i s) h1 i).1 h2
    · intro h1
      have h3 : j < p M s := by omega
      refine ⟨h3, ?_⟩
      rw [entry_tabOf htop h3]
      exact (entryOf_le (fun i => hp.mono i s) h3 i).2 h1
  have h1 := key (p i s)
  have h2 := key (patT (tabOf M mu.length p) i s)
  omega

end

end Verif.LR
