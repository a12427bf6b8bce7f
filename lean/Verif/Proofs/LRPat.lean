import Mathlib.Algebra.BigOperators.Intervals
import Mathlib.Algebra.BigOperators.Ring.Finset
import Mathlib.Algebra.Order.BigOperators.Group.Finset
import Mathlib.Data.Int.Basic
import Mathlib.Tactic.Ring
import Mathlib.Tactic.Linarith
import Mathlib.Tactic.Push
/-!
# Gelfand-Tsetlin patterns and the reflection behind the Littlewood-Richardson rule

`p i s` is the number of entries at most `i` in row `s` of a tableau.
-/

namespace Verif.LR
open Finset

/-- A pattern with `M` levels. -/
structure Pat (M : ℕ) (p : ℕ → ℕ → ℕ) : Prop where
  zero : ∀ s, p 0 s = 0
  mono : ∀ i s, p i s ≤ p (i + 1) s
  inter : ∀ i s, p (i + 1) (s + 1) ≤ p i s
  fin : ∀ i, M ≤ i → ∀ s, p i s = p M s

variable {M : ℕ} {p : ℕ → ℕ → ℕ}

theorem Pat.anti (h : Pat M p) (i s : ℕ) : p i (s + 1) ≤ p i s := (h.mono i (s + 1)).trans (h.inter i s)

theorem Pat.anti' (h : Pat M p) (i : ℕ) {s t : ℕ} (hst : s ≤ t) : p i t ≤ p i s := by
  induction hst with
  | refl => exact le_refl _
  | step _ ih => exact (h.anti i _).trans ih

theorem Pat.row_zero (h : Pat M p) : ∀ i s, i ≤ s → p i s = 0 := by
  intro i
  induction i with
  | zero => intro s _; exact h.zero s
  | succ i ih =>
    intro s hs
    obtain ⟨s, rfl⟩ : ∃ t, s = t + 1 := ⟨s - 1, by omega⟩
    have := h.inter i s
    rw [ih s (by omega)] at this
    omega

theorem Pat.row_zero' (h : Pat M p) (i s : ℕ) (hs : M ≤ s) : p i s = 0 := by
  by_cases hi : i ≤ s
  · exact h.row_zero i s hi
  · rw [h.fin i (by omega)]
    exact h.row_zero M s hs

/-- Number of letters `i + 1` in the columns from `c` on. -/
def W (M : ℕ) (p : ℕ → ℕ → ℕ) (c i : ℕ) : ℤ := ∑ s ∈ range M, ((max (p (i + 1) s) c : ℤ) - (max (p i s) c : ℤ))

/-- The weight of the columns from `c` on, added to `l`, increases from place `k` to place `k + 1`. -/
def Bad (M : ℕ) (l : ℕ → ℤ) (p : ℕ → ℕ → ℕ) (c k : ℕ) : Prop := k + 1 < M ∧ l k + W M p c k < l (k + 1) + W M p c (k + 1)

/-- Row `s` has the letter `i + 1` in column `c`. -/
def Has (p : ℕ → ℕ → ℕ) (c i s : ℕ) : Prop := p i s ≤ c ∧ c < p (i + 1) s

theorem Pat.has_unique (h : Pat M p) {c i s t : ℕ} (hs : Has p c i s) (ht : Has p c i t) : s = t := by
  by_contra hne
  rcases Nat.lt_or_gt_of_ne hne with hlt | hlt
  · have h1 := h.inter i (t - 1)
    rw [show t - 1 + 1 = t by omega] at h1
    have h2 := h.anti' i (show s ≤ t - 1 by omega)
    have := hs.1
    have := ht.2
    omega
  · have h1 := h.inter i (s - 1)
    rw [show s - 1 + 1 = s by omega] at h1
    have h2 := h.anti' i (show t ≤ s - 1 by omega)
    have := ht.1
    have := hs.2
    omega

open Classical in
theorem W_step (h : Pat M p) (c i : ℕ) :
    W M p c i = W M p (c + 1) i + ∑ s ∈ range M, (if Has p c i s then (1 : ℤ) else 0) := by
  unfold W
  rw [← Finset.sum_add_distrib]
  refine Finset.sum_congr rfl (fun s _ => ?_)
  have := h.mono i s
  unfold Has
  split <;> omega

open Classical in
theorem has_sum_one (h : Pat M p) {c i s : ℕ} (hs : Has p c i s) :
    ∑ s ∈ range M, (if Has p c i s then (1 : ℤ) else 0) = 1 := by
  have hsM : s < M := by
    by_contra hn
    have h1 := h.row_zero' (i + 1) s (by omega)
    have h2 := hs.2
    omega
  rw [Finset.sum_eq_single s]
  · rw [if_pos hs]
  · intro t _ ht
    rw [if_neg (fun h' => ht (h.has_unique h' hs))]
  · intro hn
    exact absurd (Finset.mem_range.2 hsM) hn

open Classical in
theorem has_sum_zero {c i : ℕ} (hs : ∀ s, ¬ Has p c i s) :
    ∑ s ∈ range M, (if Has p c i s then (1 : ℤ) else 0) = 0 :=
  Finset.sum_eq_zero (fun s _ => if_neg (hs s))

/-- At the last bad column the letter `k + 2` occurs, the letter `k + 1` does not, and the difference is one. -/
theorem bad_last (h : Pat M p) {l : ℕ → ℤ} {c k : ℕ} (hb : Bad M l p c k) (hn : ¬ Bad M l p (c + 1) k) :
    (∃ r, Has p c (k + 1) r) ∧ (∀ s, ¬ Has p c k s) ∧ l k + W M p c k + 1 = l (k + 1) + W M p c (k + 1) := by
  classical
  have hb2 := hb.2
  have hn2 : l (k + 1) + W M p (c + 1) (k + 1) ≤ l k + W M p (c + 1) k := by
    by_contra hlt
    exact hn ⟨hb.1, by omega⟩
  rw [W_step h, W_step h c (k + 1)] at hb2
  by_cases h1 : ∃ r, Has p c (k + 1) r
  · obtain ⟨r, hr⟩ := h1
    rw [has_sum_one h hr] at hb2
    by_cases h2 : ∃ s, Has p c k s
    · obtain ⟨s, hs⟩ := h2
      rw [has_sum_one h hs] at hb2
      omega
    · have h2' : ∀ s, ¬ Has p c k s := fun s hs => h2 ⟨s, hs⟩
      rw [has_sum_zero h2'] at hb2
      refine ⟨⟨r, hr⟩, h2', ?_⟩
      rw [W_step h, W_step h c (k + 1), has_sum_one h hr, has_sum_zero h2']
      omega
  · have h1' : ∀ s, ¬ Has p c (k + 1) s := fun s hs => h1 ⟨s, hs⟩
    rw [has_sum_zero h1'] at hb2
    have h3 : 0 ≤ ∑ s ∈ range M, (if Has p c k s then (1 : ℤ) else 0) :=
      Finset.sum_nonneg (fun s _ => by split <;> omega)
    omega

/-! ### The reflection -/

/-- Smallest value of level `k + 1` in row `s`. -/
def lo (p : ℕ → ℕ → ℕ) (k s : ℕ) : ℕ := max (p k s) (p (k + 2) (s + 1))

/-- Largest value of level `k + 1` in row `s`, for `s ≥ 1`. -/
def hi (p : ℕ → ℕ → ℕ) (k s : ℕ) : ℕ := min (p (k + 2) s) (p k (s - 1))

/-- Exchange the free letters `k + 1` and `k + 2` in the columns before `c`. -/
def flip (p : ℕ → ℕ → ℕ) (c k r : ℕ) (i s : ℕ) : ℕ :=
  if i = k + 1 then
    if s < r then p (k + 1) s else if s = r then lo p k r + c - p (k + 1) r else lo p k s + hi p k s - p (k + 1) s
  else p i s

theorem flip_mid (p : ℕ → ℕ → ℕ) (c k r s : ℕ) : flip p c k r (k + 1) s =
    if s < r then p (k + 1) s else if s = r then lo p k r + c - p (k + 1) r else lo p k s + hi p k s - p (k + 1) s := by
  unfold flip
  rw [if_pos rfl]

theorem flip_ne {p : ℕ → ℕ → ℕ} {c k r i : ℕ} (hi : i ≠ k + 1) (s : ℕ) : flip p c k r i s = p i s := by
  unfold flip
  rw [if_neg hi]

/-- The data of a reflection. -/
structure Sel0 (M : ℕ) (p : ℕ → ℕ → ℕ) (c k r : ℕ) : Prop where
  km : k + 1 < M
  has : Has p c (k + 1) r
  nohas : ∀ s, ¬ Has p c k s

section
variable (h : Pat M p) {c k r : ℕ} (hs : Sel0 M p c k r)
include h

theorem lo_le (s : ℕ) : lo p k s ≤ p (k + 1) s := by
  unfold lo
  have h1 := h.mono k s
  have h2 := h.inter (k + 1) s
  exact max_le h1 h2

theorem le_hi {s : ℕ} (hs : 1 ≤ s) : p (k + 1) s ≤ hi p k s := by
  unfold hi
  have h1 := h.mono (k + 1) s
  have h2 := h.inter k (s - 1)
  rw [show s - 1 + 1 = s by omega] at h2
  exact le_min h1 h2

include hs

/-- Rows above `r` have level `k` beyond column `c`. -/
theorem above {s : ℕ} (hsr : s < r) : c < p k s := by
  have h1 := h.inter (k + 1) (r - 1)
  rw [show r - 1 + 1 = r by omega] at h1
  have h2 := hs.has.2
  have h3 := hs.nohas (r - 1)
  unfold Has at h3
  have h4 := h.anti' k (show s ≤ r - 1 by omega)
  rw [show k + 1 + 1 = k + 2 by omega] at h2
  rw [show k + 1 + 1 = k + 2 by omega] at h1
  omega

theorem below {s : ℕ} (hsr : r ≤ s) : p (k + 1) s ≤ c := (h.anti' (k + 1) hsr).trans hs.has.1

theorem flip_bounds (s : ℕ) : p k s ≤ flip p c k r (k + 1) s ∧ p (k + 2) (s + 1) ≤ flip p c k r (k + 1) s ∧
    flip p c k r (k + 1) s ≤ p (k + 2) s ∧ flip p c k r (k + 1) (s + 1) ≤ p k s := by
  have key : lo p k s ≤ flip p c k r (k + 1) s ∧ flip p c k r (k + 1) s ≤ p (k + 2) s := by
    rw [flip_mid]
    have h1 := lo_le h (k := k) s
    have h2 := h.mono (k + 1) s
    have h3 := hs.has
    unfold Has at h3
    rw [show k + 1 + 1 = k + 2 from rfl] at h3
    split_ifs with a b
    · exact ⟨h1, h2⟩
    · subst b; omega
    · have h4 := le_hi h (k := k) (show 1 ≤ s by omega)
      have h5 : hi p k s ≤ p (k + 2) s := by unfold hi; exact min_le_left _ _
      omega
  have key2 : flip p c k r (k + 1) (s + 1) ≤ p k s := by
    rw [flip_mid]
    split_ifs with a b
    · exact h.inter k s
    · have h1 := lo_le h (k := k) r
      have h2 := above h hs (show s < r by omega)
      have h3 := hs.has.1
      omega
    · have h1 := lo_le h (k := k) (s + 1)
      have h4 := le_hi h (k := k) (show 1 ≤ s + 1 by omega)
      have h5 : hi p k (s + 1) ≤ p k s := by unfold hi; exact min_le_right _ _
      omega
  have h6 : p k s ≤ lo p k s ∧ p (k + 2) (s + 1) ≤ lo p k s := ⟨le_max_left _ _, le_max_right _ _⟩
  omega

theorem flip_pat : Pat M (flip p c k r) := by
  have hb := flip_bounds h hs
  have hkm := hs.km
  refine ⟨fun s => ?_, fun i s => ?_, fun i s => ?_, fun i hi s => ?_⟩
  · rw [flip_ne (by omega)]; exact h.zero s
  · by_cases h1 : i = k + 1
    · subst h1
      rw [flip_ne (show k + 1 + 1 ≠ k + 1 by omega)]
      exact (hb s).2.2.1
    · by_cases h2 : i = k
      · subst h2
        rw [flip_ne (show i ≠ i + 1 by omega)]
        exact (hb s).1
      · rw [flip_ne h1, flip_ne (by omega)]
        exact h.mono i s
  · by_cases h1 : i = k + 1
    · subst h1
      rw [flip_ne (show k + 1 + 1 ≠ k + 1 by omega)]
      exact (hb s).2.1
    · by_cases h2 : i = k
      · subst h2
        rw [flip_ne (show i ≠ i + 1 by omega)]
        exact (hb s).2.2.2
      · rw [flip_ne h1, flip_ne (by omega)]
        exact h.inter i s
  · rw [flip_ne (by omega), flip_ne (by omega)]
    exact h.fin i hi s

theorem flip_trunc (i s : ℕ) : max (flip p c k r i s) c = max (p i s) c := by
  by_cases h1 : i = k + 1
  · subst h1
    by_cases h2 : s < r
    · rw [flip_mid, if_pos h2]
    · have h3 := below h hs (show r ≤ s by omega)
      rw [max_eq_right h3]
      apply max_eq_right
      rw [flip_mid, if_neg h2]
      have h5 := lo_le h (k := k) s
      split_ifs with a
      · subst a; omega
      · have h4 := (flip_bounds h hs (s - 1)).2.2.2
        have h6 : hi p k s ≤ p k (s - 1) := by unfold hi; exact min_le_right _ _
        have h7 := h.mono k (s - 1)
        have h8 := below h hs (show r ≤ s - 1 by omega)
        omega
  · rw [flip_ne h1]

theorem flip_sel0 : Sel0 M (flip p c k r) c k r := by
  have hiff : ∀ i s, flip p c k r i s ≤ c ↔ p i s ≤ c := by
    intro i s
    have := flip_trunc h hs i s
    omega
  refine ⟨hs.km, ?_, fun s => ?_⟩
  · unfold Has
    rw [hiff, ← not_le, hiff, not_le]
    exact hs.has
  · unfold Has
    rw [hiff, ← not_le, hiff, not_le]
    exact hs.nohas s

theorem flip_flip : flip (flip p c k r) c k r = p := by
  funext i s
  by_cases h1 : i = k + 1
  · subst h1
    have e1 : ∀ s, lo (flip p c k r) k s = lo p k s := by
      intro s
      unfold lo
      rw [flip_ne (by omega), flip_ne (by omega)]
    have e2 : ∀ s, hi (flip p c k r) k s = hi p k s := by
      intro s
      unfold hi
      rw [flip_ne (by omega), flip_ne (by omega)]
    rw [flip_mid, e1, e2, e1]
    have h5 := lo_le h (k := k) s
    by_cases h2 : s < r
    · rw [if_pos h2]
      rw [flip_mid, if_pos h2]
    · rw [if_neg h2]
      by_cases h3 : s = r
      · rw [if_pos h3]
        subst h3
        have h4 := hs.has.1
        rw [flip_mid, if_neg h2, if_pos rfl]
        omega
      · rw [if_neg h3]
        have h4 := le_hi h (k := k) (show 1 ≤ s by omega)
        rw [flip_mid, if_neg h2, if_neg h3]
        omega
  · rw [flip_ne h1, flip_ne h1]

/-- The sum of level `k + 1` before and after the reflection. -/
theorem flip_sum {l : ℕ → ℤ} (heq : l k + W M p c k + 1 = l (k + 1) + W M p c (k + 1)) :
    ∑ s ∈ range M, (flip p c k r (k + 1) s : ℤ) + ∑ s ∈ range M, (p (k + 1) s : ℤ) =
      l (k + 1) - l k - 1 + ∑ s ∈ range M, (p (k + 2) s : ℤ) + ∑ s ∈ range M, (p k s : ℤ) := by
  have key : ∀ s ∈ range M, ((flip p c k r (k + 1) s : ℤ) + p (k + 1) s - p (k + 2) s - p k s) +
      (((max (p (k + 1 + 1) s) c : ℤ) - (max (p (k + 1) s) c : ℤ)) - ((max (p (k + 1) s) c : ℤ) - (max (p k s) c : ℤ))) =
      (fun s => if s ≤ r then (0 : ℤ) else lo p k (s - 1) - p k (s - 1)) (s + 1) -
      (fun s => if s ≤ r then (0 : ℤ) else lo p k (s - 1) - p k (s - 1)) s := by
    intro s _
    have h1 := h.mono k s
    have h2 := h.mono (k + 1) s
    rw [show k + 1 + 1 = k + 2 from rfl] at h2 ⊢
    have h5 := lo_le h (k := k) s
    simp only [Nat.add_sub_cancel]
    rw [flip_mid]
    by_cases a : s < r
    · rw [if_pos a, if_pos (by omega), if_pos (by omega)]
      have h3 := above h hs a
      omega
    · rw [if_neg a]
      have h6 := below h hs (show r ≤ s by omega)
      by_cases b : s = r
      · subst b
        rw [if_pos rfl, if_neg (by omega), if_pos (le_refl _)]
        have h7 := hs.has
        unfold Has at h7
        rw [show k + 1 + 1 = k + 2 from rfl] at h7
        omega
      · rw [if_neg b, if_neg (by omega), if_neg (by omega)]
        have h4 := le_hi h (k := k) (show 1 ≤ s by omega)
        have h7 := h.inter (k + 1) (s - 1)
        rw [show s - 1 + 1 = s by omega, show k + 1 + 1 = k + 2 from rfl] at h7
        have h8 := below h hs (show r ≤ s - 1 by omega)
        have h9 : hi p k s + lo p k (s - 1) = p (k + 2) s + p k (s - 1) := by
          unfold hi lo
          rw [show s - 1 + 1 = s by omega]
          omega
        omega
  have h1 := Finset.sum_congr rfl key
  rw [Finset.sum_range_sub (fun s => if s ≤ r then (0 : ℤ) else lo p k (s - 1) - p k (s - 1))] at h1
  have hr : r < M := by
    by_contra hn
    have h1 := h.row_zero' (k + 1 + 1) r (by omega)
    have h2 := hs.has.2
    omega
  have h2 : lo p k (M - 1) = p k (M - 1) := by
    unfold lo
    rw [show M - 1 + 1 = M by omega, h.row_zero' _ M (le_refl _)]
    simp
  simp only [Nat.zero_le, if_true] at h1
  rw [if_neg (by omega), h2] at h1
  simp only [Finset.sum_sub_distrib, Finset.sum_add_distrib] at h1
  have h3 : W M p c (k + 1) = ∑ s ∈ range M, (max (p (k + 1 + 1) s) c : ℤ) - ∑ s ∈ range M, (max (p (k + 1) s) c : ℤ) := by
    unfold W; rw [Finset.sum_sub_distrib]
  have h4 : W M p c k = ∑ s ∈ range M, (max (p (k + 1) s) c : ℤ) - ∑ s ∈ range M, (max (p k s) c : ℤ) := by
    unfold W; rw [Finset.sum_sub_distrib]
  linarith

end

theorem W_zero (p : ℕ → ℕ → ℕ) (i : ℕ) : W M p 0 i = ∑ s ∈ range M, (p (i + 1) s : ℤ) - ∑ s ∈ range M, (p i s : ℤ) := by
  unfold W
  rw [← Finset.sum_sub_distrib]
  refine Finset.sum_congr rfl (fun s _ => ?_)
  simp

/-- The reflection exchanges two entries of the weight. -/
theorem flip_weight (h : Pat M p) {c k r : ℕ} (hs : Sel0 M p c k r) {l : ℕ → ℤ}
    (heq : l k + W M p c k + 1 = l (k + 1) + W M p c (k + 1)) :
    (l k + W M (flip p c k r) 0 k + 1 = l (k + 1) + W M p 0 (k + 1)) ∧
    (l (k + 1) + W M (flip p c k r) 0 (k + 1) = l k + W M p 0 k + 1) ∧
    ∀ i, i ≠ k → i ≠ k + 1 → W M (flip p c k r) 0 i = W M p 0 i := by
  have hsum := flip_sum h hs heq
  have e : ∀ i, i ≠ k + 1 → ∑ s ∈ range M, (flip p c k r i s : ℤ) = ∑ s ∈ range M, (p i s : ℤ) := fun i hi =>
    Finset.sum_congr rfl (fun s _ => by rw [flip_ne hi])
  simp only [W_zero]
  refine ⟨?_, ?_, fun i h1 h2 => ?_⟩
  · rw [e k (by omega)]
    rw [show k + 1 + 1 = k + 2 from rfl]
    linarith
  · rw [e (k + 1 + 1) (by omega), show k + 1 + 1 = k + 2 from rfl]
    linarith
  · rw [e i h2, e (i + 1) (by omega)]

/-! ### The choice of the reflection -/

/-- The last bad column, the first bad place in it, and the row of the letter. -/
structure Sel (M : ℕ) (l : ℕ → ℤ) (p : ℕ → ℕ → ℕ) (c k r : ℕ) : Prop where
  bad : Bad M l p c k
  last : ∀ c', c < c' → ∀ k', ¬ Bad M l p c' k'
  first : ∀ k', k' < k → ¬ Bad M l p c k'
  has : Has p c (k + 1) r

theorem Sel.sel0 (h : Pat M p) {l : ℕ → ℤ} {c k r : ℕ} (hs : Sel M l p c k r) : Sel0 M p c k r :=
  ⟨hs.bad.1, hs.has, (bad_last h hs.bad (hs.last _ (by omega) _)).2.1⟩

theorem Sel.eq (h : Pat M p) {l : ℕ → ℤ} {c k r : ℕ} (hs : Sel M l p c k r) :
    l k + W M p c k + 1 = l (k + 1) + W M p c (k + 1) :=
  (bad_last h hs.bad (hs.last _ (by omega) _)).2.2

theorem Sel.unique (h : Pat M p) {l : ℕ → ℤ} {c k r c' k' r' : ℕ} (hs : Sel M l p c k r) (hs' : Sel M l p c' k' r') :
    c = c' ∧ k = k' ∧ r = r' := by
  have hc : c = c' := by
    rcases Nat.lt_trichotomy c c' with h1 | h1 | h1
    · exact absurd hs'.bad (hs.last _ h1 _)
    · exact h1
    · exact absurd hs.bad (hs'.last _ h1 _)
  subst hc
  have hk : k = k' := by
    rcases Nat.lt_trichotomy k k' with h1 | h1 | h1
    · exact absurd hs.bad (hs'.first _ h1)
    · exact h1
    · exact absurd hs'.bad (hs.first _ h1)
  subst hk
  exact ⟨rfl, rfl, h.has_unique hs.has hs'.has⟩

theorem W_trunc {p p' : ℕ → ℕ → ℕ} {c : ℕ} (h : ∀ i s, max (p' i s) c = max (p i s) c) {c' : ℕ} (hc : c ≤ c') (i : ℕ) :
    W M p' c' i = W M p c' i := by
  unfold W
  refine Finset.sum_congr rfl (fun s _ => ?_)
  have h1 := h i s
  have h2 := h (i + 1) s
  omega

theorem Sel.flip (h : Pat M p) {l : ℕ → ℤ} {c k r : ℕ} (hs : Sel M l p c k r) : Sel M l (flip p c k r) c k r := by
  have ht := flip_trunc h (hs.sel0 h)
  have hb : ∀ c', c ≤ c' → ∀ k', Bad M l (LR.flip p c k r) c' k' ↔ Bad M l p c' k' := by
    intro c' hc k'
    unfold Bad
    rw [W_trunc ht hc, W_trunc ht hc]
  refine ⟨(hb c (le_refl _) k).2 hs.bad, fun c' hc k' hb' => ?_, fun k' hk hb' => ?_, (flip_sel0 h (hs.sel0 h)).has⟩
  · exact hs.last c' hc k' ((hb c' (by omega) k').1 hb')
  · exact hs.first k' hk ((hb c (le_refl _) k').1 hb')

theorem Pat.le_top (h : Pat M p) (i s : ℕ) : p i s ≤ p M 0 := by
  have h1 := h.anti' i (Nat.zero_le s)
  by_cases hi : M ≤ i
  · rw [h.fin i hi] at h1 ⊢
    rw [h.fin i hi] at h1
    exact h1
  · have h2 : ∀ j, i ≤ j → p i 0 ≤ p j 0 := by
      intro j hj
      induction hj with
      | refl => exact le_refl _
      | step _ ih => exact ih.trans (h.mono _ _)
    exact h1.trans (h2 M (by omega))

theorem not_bad_far (h : Pat M p) {l : ℕ → ℤ} (hl : ∀ k, k + 1 < M → l (k + 1) ≤ l k) {c : ℕ} (hc : p M 0 ≤ c) (k : ℕ) :
    ¬ Bad M l p c k := by
  rintro ⟨h1, h2⟩
  have h3 : ∀ i, W M p c i = 0 := by
    intro i
    unfold W
    apply Finset.sum_eq_zero
    intro s _
    have := h.le_top i s
    have := h.le_top (i + 1) s
    omega
  rw [h3, h3] at h2
  have := hl k h1
  omega

theorem exists_sel (h : Pat M p) {l : ℕ → ℤ} (hl : ∀ k, k + 1 < M → l (k + 1) ≤ l k) (hb : ∃ c k, Bad M l p c k) :
    ∃ c k r, Sel M l p c k r := by
  classical
  obtain ⟨c0, k0, h0⟩ := hb
  have hc0 : c0 ≤ p M 0 := by
    by_contra hlt
    exact not_bad_far h hl (by omega) k0 h0
  have hspec := Nat.findGreatest_spec (P := fun c => ∃ k, Bad M l p c k) hc0 ⟨k0, h0⟩
  set c := Nat.findGreatest (fun c => ∃ k, Bad M l p c k) (p M 0) with hc
  have hlast : ∀ c', c < c' → ∀ k', ¬ Bad M l p c' k' := by
    intro c' hc' k' hb'
    by_cases hle : c' ≤ p M 0
    · exact Nat.findGreatest_is_greatest (P := fun c => ∃ k, Bad M l p c k) hc' hle ⟨k', hb'⟩
    · exact not_bad_far h hl (by omega) k' hb'
  have hk := Nat.find_spec hspec
  obtain ⟨r, hr⟩ := (bad_last h hk (hlast _ (by omega) _)).1
  exact ⟨c, Nat.find hspec, r, hk, hlast, fun k' hk' => Nat.find_min hspec hk', hr⟩

end Verif.LR
