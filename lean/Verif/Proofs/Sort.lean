import Verif.Model.Spaces
import Verif.Proofs.Enum
import Mathlib.Data.List.Perm.Basic
/-! Python's list order, `sorted`, `unique_schur_list`. -/

namespace Verif

theorem listLt_trans {a b c : List Int} (h1 : listLt a b = true) (h2 : listLt b c = true) :
    listLt a c = true := by
  induction a generalizing b c with
  | nil =>
    cases b with
    | nil => simp [listLt] at h1
    | cons y b => cases c with
      | nil => simp [listLt] at h2
      | cons z c => rfl
  | cons x a ih =>
    cases b with
    | nil => simp [listLt] at h1
    | cons y b => cases c with
      | nil => simp [listLt] at h2
      | cons z c =>
        rw [listLt] at h1 h2 ⊢
        by_cases h : x < y
        · by_cases h' : y < z
          · have : x < z := by omega
            simp [this]
          · by_cases h'' : z < y
            · simp [h', h''] at h2
            · have : x < z := by omega
              simp [this]
        · by_cases hh : y < x
          · simp [h, hh] at h1
          · have hxy : x = y := by omega
            subst hxy
            simp only [lt_irrefl, if_false] at h1
            by_cases h' : x < z
            · simp [h']
            · by_cases h'' : z < x
              · simp [h', h''] at h2
              · simp only [h', h'', if_false] at h2 ⊢
                exact ih h1 h2

theorem listLt_asymm {a b : List Int} (h : listLt a b = true) : listLt b a = false := by
  by_contra h'
  have h' : listLt b a = true := by simpa using h'
  have := listLt_trans h h'
  rw [listLt_irrefl] at this
  cases this

theorem listLt_total (a b : List Int) : listLt a b = true ∨ a = b ∨ listLt b a = true := by
  induction a generalizing b with
  | nil => cases b <;> simp [listLt]
  | cons x a ih =>
    cases b with
    | nil => simp [listLt]
    | cons y b =>
      unfold listLt
      rcases lt_trichotomy x y with h | h | h
      · simp [h]
      · subst h
        rcases ih b with h | h | h <;> simp [h]
      · have : ¬ x < y := by omega
        simp [h]

/-- `≤` on lists as used by `sorted`. -/
def listLe (a b : List Int) : Bool := !listLt b a

theorem listLe_iff (a b : List Int) : listLe a b = true ↔ listLt a b = true ∨ a = b := by
  unfold listLe
  constructor
  · intro h
    rcases listLt_total a b with h' | h' | h'
    · exact Or.inl h'
    · exact Or.inr h'
    · simp [h'] at h
  · rintro (h | rfl)
    · simp [listLt_asymm h]
    · simp [listLt_irrefl]

theorem listLe_trans (a b c : List Int) (h1 : listLe a b = true) (h2 : listLe b c = true) :
    listLe a c = true := by
  rw [listLe_iff] at *
  rcases h1 with h1 | rfl
  · rcases h2 with h2 | rfl
    · exact Or.inl (listLt_trans h1 h2)
    · exact Or.inl h1
  · exact h2

theorem listLe_total (a b : List Int) : (listLe a b || listLe b a) = true := by
  rw [Bool.or_eq_true, listLe_iff, listLe_iff]
  rcases listLt_total a b with h | h | h
  · exact Or.inl (Or.inl h)
  · exact Or.inl (Or.inr h)
  · exact Or.inr (Or.inl h)

theorem uniqueSchurList_sorted (xs : List (List Int)) :
    (uniqueSchurList xs).Pairwise (fun a b => listLt a b = true) := by
  have h1 : (uniqueSchurList xs).Pairwise (fun a b => listLe a b = true) :=
    List.pairwise_mergeSort (le := listLe) listLe_trans listLe_total xs.dedup
  have h2 : (uniqueSchurList xs).Nodup :=
    (List.mergeSort_perm xs.dedup _).nodup_iff.2 (List.nodup_dedup xs)
  refine (h1.and h2).imp ?_
  rintro a b ⟨h, hne⟩
  rcases (listLe_iff a b).1 h with h | h
  · exact h
  · exact absurd h hne

theorem mem_uniqueSchurList (xs : List (List Int)) (x : List Int) :
    x ∈ uniqueSchurList xs ↔ x ∈ xs := by
  unfold uniqueSchurList
  rw [List.mem_mergeSort, List.mem_dedup]

/-- a strictly increasing list is determined by its members -/
theorem sorted_ext {l m : List (List Int)} (hl : l.Pairwise (fun a b => listLt a b = true))
    (hm : m.Pairwise (fun a b => listLt a b = true)) (h : ∀ x, x ∈ l ↔ x ∈ m) : l = m := by
  have nd : ∀ {l : List (List Int)}, l.Pairwise (fun a b => listLt a b = true) → l.Nodup := by
    intro l hl
    exact hl.imp (by rintro a b hab rfl; rw [listLt_irrefl] at hab; cases hab)
  have hp : l.Perm m := (List.perm_ext_iff_of_nodup (nd hl) (nd hm)).2 h
  refine hp.eq_of_pairwise ?_ hl hm
  intro a b _ _ h1 h2
  rw [listLt_asymm h1] at h2
  cases h2

theorem uniqueSchurList_length_of_nodup {xs : List (List Int)} (h : xs.Nodup) :
    (uniqueSchurList xs).length = xs.length := by
  unfold uniqueSchurList
  rw [List.length_mergeSort, h.dedup]

end Verif
