import Verif.Proofs.RelRing
import Verif.Proofs.RingQB
/-!
# Words with a single row

For `k = n - 1` the words contain one letter `a` or `b`; the operators have closed forms.
-/

namespace Verif
open Spec

/-- `o ... o` -/
def os (m : ℕ) : List L3 := List.replicate m .o

theorem os_succ (m : ℕ) : os (m + 1) = .o :: os m := rfl

theorem os_add (a b : ℕ) : os (a + b) = os a ++ os b := List.replicate_add ..

section
variable {R : Type*} [CommRing R] (c x : R)

theorem wt_os_z (m : ℕ) (u w : List L3) : wt c x .z (os m ++ u) (os m ++ w) = wt c x .z u w := by
  induction m with
  | zero => rfl
  | succ m ih => simp only [os_succ, List.cons_append, wt, step, ih]; simp

theorem wt_os_l (m : ℕ) (u w : List L3) : wt c x .l (os m ++ u) (os m ++ w) = x ^ m * wt c x .l u w := by
  induction m with
  | zero => simp [os]
  | succ m ih => simp only [os_succ, List.cons_append, wt, step, ih]; ring

theorem wt_os_r (m : ℕ) (u w : List L3) : wt c x .r (os m ++ u) (os m ++ w) = x ^ m * wt c x .r u w := by
  induction m with
  | zero => simp [os]
  | succ m ih => simp only [os_succ, List.cons_append, wt, step, ih]; ring

theorem wt_os_lr (m : ℕ) (u w : List L3) : wt c x .lr (os m ++ u) (os m ++ w) = x ^ (2 * m) * wt c x .lr u w := by
  induction m with
  | zero => simp [os]
  | succ m ih => simp only [os_succ, List.cons_append, wt, step, ih]; ring

theorem wt_end_z (m : ℕ) : wt c x .z (os m) (os m) = 1 := by
  have := wt_os_z c x m [] []
  simpa [wt, endW] using this

theorem wt_end_lr (m : ℕ) : wt c x .lr (os m) (os m) = c * x ^ (2 * m + 1) := by
  have := wt_os_lr c x m [] []
  rw [List.append_nil] at this
  rw [this, wt, endW]; ring

/-- the letter of the first word comes first -/
theorem wt_lt (s : St) (i d j : ℕ) (p q : L3) :
    wt c x s (os i ++ p :: os (d + 1 + j)) (os (i + 1 + d) ++ q :: os j) =
      wt c x s (os i ++ p :: (os d ++ .o :: os j)) (os i ++ .o :: (os d ++ q :: os j)) := by
  rw [add_assoc d, os_add d, add_comm 1 j, os_succ, add_assoc i, os_add i, add_comm 1 d, os_succ]
  simp

theorem wt_gt (s : St) (i d j : ℕ) (p q : L3) :
    wt c x s (os (i + 1 + d) ++ p :: os j) (os i ++ q :: os (d + 1 + j)) =
      wt c x s (os i ++ .o :: (os d ++ p :: os j)) (os i ++ q :: (os d ++ .o :: os j)) := by
  rw [add_assoc d, os_add d, add_comm 1 j, os_succ, add_assoc i, os_add i, add_comm 1 d, os_succ]
  simp

end

/-- the word of the class `S[u]`, for `n = N + 1` and `k = N` -/
def rowW (N u : ℕ) : List L3 := if u ≤ N then os u ++ .b :: os (N - u) else os (2 * N + 1 - u) ++ .a :: os (u - N - 1)

section
variable {R : Type*} [CommRing R] (c x : R)

theorem wt_z_row {N u w : ℕ} (hu : u ≤ 2 * N + 1) (hw : w ≤ 2 * N + 1) :
    wt c x .z (rowW N u) (rowW N w) = if u ≤ w then (if u ≤ N ∧ N < w then c else 1) * x ^ (w - u) else 0 := by
  unfold rowW
  by_cases h1 : u ≤ N <;> by_cases h2 : w ≤ N
  · rw [if_pos h1, if_pos h2]
    rcases lt_trichotomy u w with h | h | h
    · obtain ⟨d, rfl⟩ : ∃ d, w = u + 1 + d := ⟨w - u - 1, by omega⟩
      obtain ⟨j, rfl⟩ : ∃ j, N = u + 1 + d + j := ⟨N - (u + 1 + d), by omega⟩
      rw [show u + 1 + d + j - u = d + 1 + j by omega, Nat.add_sub_cancel_left, wt_lt, wt_os_z, wt]
      simp only [step, wt_os_r, wt, wt_end_z]
      rw [if_pos (by omega), if_neg (by omega), show u + 1 + d - u = d + 1 by omega]; ring
    · subst h
      rw [wt_os_z, wt]
      simp only [step, wt_end_z]
      simp
    · obtain ⟨d, rfl⟩ : ∃ d, u = w + 1 + d := ⟨u - w - 1, by omega⟩
      obtain ⟨j, rfl⟩ : ∃ j, N = w + 1 + d + j := ⟨N - (w + 1 + d), by omega⟩
      rw [show w + 1 + d + j - w = d + 1 + j by omega, Nat.add_sub_cancel_left, wt_gt, wt_os_z, wt]
      simp only [step]
      rw [if_neg (by omega)]
  · rw [if_pos h1, if_neg h2, if_pos (by omega), if_pos (by omega)]
    obtain ⟨v, hv⟩ : ∃ v, w = 2 * N + 1 - v ∧ v ≤ N := ⟨2 * N + 1 - w, by omega⟩
    obtain ⟨rfl, hvN⟩ := hv
    rw [show 2 * N + 1 - (2 * N + 1 - v) = v by omega, show 2 * N + 1 - v - N - 1 = N - v by omega]
    rcases lt_trichotomy u v with h | h | h
    · obtain ⟨d, rfl⟩ : ∃ d, v = u + 1 + d := ⟨v - u - 1, by omega⟩
      obtain ⟨j, rfl⟩ : ∃ j, N = u + 1 + d + j := ⟨N - (u + 1 + d), by omega⟩
      rw [show u + 1 + d + j - u = d + 1 + j by omega, Nat.add_sub_cancel_left, wt_lt, wt_os_z, wt]
      simp only [step, wt_os_r, wt, wt_end_lr]
      rw [show 2 * (u + 1 + d + j) + 1 - (u + 1 + d) - u = d + 1 + (2 * j + 1) by omega]; ring
    · subst h
      rw [wt_os_z, wt]
      simp only [step, wt_end_lr]
      rw [show 2 * N + 1 - u - u = 2 * (N - u) + 1 by omega]; ring
    · obtain ⟨d, rfl⟩ : ∃ d, u = v + 1 + d := ⟨u - v - 1, by omega⟩
      obtain ⟨j, rfl⟩ : ∃ j, N = v + 1 + d + j := ⟨N - (v + 1 + d), by omega⟩
      rw [show v + 1 + d + j - v = d + 1 + j by omega, Nat.add_sub_cancel_left, wt_gt, wt_os_z, wt]
      simp only [step, wt_os_l, wt, wt_end_lr]
      rw [show 2 * (v + 1 + d + j) + 1 - v - (v + 1 + d) = d + 1 + (2 * j + 1) by omega]; ring
  · rw [if_neg h1, if_pos h2, if_neg (by omega)]
    obtain ⟨v, hv⟩ : ∃ v, u = 2 * N + 1 - v ∧ v ≤ N := ⟨2 * N + 1 - u, by omega⟩
    obtain ⟨rfl, hvN⟩ := hv
    rw [show 2 * N + 1 - (2 * N + 1 - v) = v by omega, show 2 * N + 1 - v - N - 1 = N - v by omega]
    rcases lt_trichotomy v w with h | h | h
    · obtain ⟨d, rfl⟩ : ∃ d, w = v + 1 + d := ⟨w - v - 1, by omega⟩
      obtain ⟨j, rfl⟩ : ∃ j, N = v + 1 + d + j := ⟨N - (v + 1 + d), by omega⟩
      rw [show v + 1 + d + j - v = d + 1 + j by omega, Nat.add_sub_cancel_left, wt_lt, wt_os_z, wt]
      simp only [step]
    · subst h
      rw [wt_os_z, wt]
      simp only [step]
    · obtain ⟨d, rfl⟩ : ∃ d, v = w + 1 + d := ⟨v - w - 1, by omega⟩
      obtain ⟨j, rfl⟩ : ∃ j, N = w + 1 + d + j := ⟨N - (w + 1 + d), by omega⟩
      rw [show w + 1 + d + j - w = d + 1 + j by omega, Nat.add_sub_cancel_left, wt_gt, wt_os_z, wt]
      simp only [step]
  · rw [if_neg h1, if_neg h2]
    obtain ⟨v, hv⟩ : ∃ v, u = 2 * N + 1 - v ∧ v ≤ N := ⟨2 * N + 1 - u, by omega⟩
    obtain ⟨rfl, hvN⟩ := hv
    obtain ⟨y, hy⟩ : ∃ y, w = 2 * N + 1 - y ∧ y ≤ N := ⟨2 * N + 1 - w, by omega⟩
    obtain ⟨rfl, hyN⟩ := hy
    rw [show 2 * N + 1 - (2 * N + 1 - v) = v by omega, show 2 * N + 1 - v - N - 1 = N - v by omega,
      show 2 * N + 1 - (2 * N + 1 - y) = y by omega, show 2 * N + 1 - y - N - 1 = N - y by omega]
    rcases lt_trichotomy v y with h | h | h
    · obtain ⟨d, rfl⟩ : ∃ d, y = v + 1 + d := ⟨y - v - 1, by omega⟩
      obtain ⟨j, rfl⟩ : ∃ j, N = v + 1 + d + j := ⟨N - (v + 1 + d), by omega⟩
      rw [show v + 1 + d + j - v = d + 1 + j by omega, Nat.add_sub_cancel_left, wt_lt, wt_os_z, wt]
      simp only [step]
      rw [if_neg (by omega)]
    · subst h
      rw [wt_os_z, wt]
      simp only [step, wt_end_z]
      simp
    · obtain ⟨d, rfl⟩ : ∃ d, v = y + 1 + d := ⟨v - y - 1, by omega⟩
      obtain ⟨j, rfl⟩ : ∃ j, N = y + 1 + d + j := ⟨N - (y + 1 + d), by omega⟩
      rw [show y + 1 + d + j - y = d + 1 + j by omega, Nat.add_sub_cancel_left, wt_gt, wt_os_z, wt]
      simp only [step, wt_os_l, wt, wt_end_z]
      rw [if_pos (by omega), if_neg (by omega),
        show 2 * (y + 1 + d + j) + 1 - y - (2 * (y + 1 + d + j) + 1 - (y + 1 + d)) = d + 1 by omega]; ring

theorem wt_lr_row {N u w : ℕ} (hu : u ≤ 2 * N + 1) (hw : w ≤ 2 * N + 1) :
    wt c x .lr (rowW N u) (rowW N w) =
      if u < w then 0 else if u = w then c * x ^ (2 * N + 2)
      else (if N < u ∧ w ≤ N then 2 else 2 * c) * x ^ (2 * N + 2 + w - u) := by
  unfold rowW
  by_cases h1 : u ≤ N <;> by_cases h2 : w ≤ N
  · rw [if_pos h1, if_pos h2]
    rcases lt_trichotomy u w with h | h | h
    · obtain ⟨d, rfl⟩ : ∃ d, w = u + 1 + d := ⟨w - u - 1, by omega⟩
      obtain ⟨j, rfl⟩ : ∃ j, N = u + 1 + d + j := ⟨N - (u + 1 + d), by omega⟩
      rw [show u + 1 + d + j - u = d + 1 + j by omega, Nat.add_sub_cancel_left, wt_lt, wt_os_lr, wt]
      simp only [step]
      rw [if_pos h, mul_zero]
    · subst h
      rw [wt_os_lr, wt]
      simp only [step, wt_end_lr]
      rw [if_neg (by omega), if_pos trivial]
      obtain ⟨j, rfl⟩ : ∃ j, N = u + j := ⟨N - u, by omega⟩
      rw [Nat.add_sub_cancel_left]; ring
    · obtain ⟨d, rfl⟩ : ∃ d, u = w + 1 + d := ⟨u - w - 1, by omega⟩
      obtain ⟨j, rfl⟩ : ∃ j, N = w + 1 + d + j := ⟨N - (w + 1 + d), by omega⟩
      rw [show w + 1 + d + j - w = d + 1 + j by omega, Nat.add_sub_cancel_left, wt_gt, wt_os_lr, wt]
      simp only [step, wt_os_l, wt, wt_end_lr]
      rw [if_neg (by omega), if_neg (by omega), if_neg (by omega),
        show 2 * (w + 1 + d + j) + 2 + w - (w + 1 + d) = 2 * w + 1 + (d + 1) + (2 * j + 1) by omega]; ring
  · rw [if_pos h1, if_neg h2, if_pos (by omega)]
    obtain ⟨v, hv⟩ : ∃ v, w = 2 * N + 1 - v ∧ v ≤ N := ⟨2 * N + 1 - w, by omega⟩
    obtain ⟨rfl, hvN⟩ := hv
    rw [show 2 * N + 1 - (2 * N + 1 - v) = v by omega, show 2 * N + 1 - v - N - 1 = N - v by omega]
    rcases lt_trichotomy u v with h | h | h
    · obtain ⟨d, rfl⟩ : ∃ d, v = u + 1 + d := ⟨v - u - 1, by omega⟩
      obtain ⟨j, rfl⟩ : ∃ j, N = u + 1 + d + j := ⟨N - (u + 1 + d), by omega⟩
      rw [show u + 1 + d + j - u = d + 1 + j by omega, Nat.add_sub_cancel_left, wt_lt, wt_os_lr, wt]
      simp only [step, mul_zero]
    · subst h
      rw [wt_os_lr, wt]
      simp only [step, mul_zero]
    · obtain ⟨d, rfl⟩ : ∃ d, u = v + 1 + d := ⟨u - v - 1, by omega⟩
      obtain ⟨j, rfl⟩ : ∃ j, N = v + 1 + d + j := ⟨N - (v + 1 + d), by omega⟩
      rw [show v + 1 + d + j - v = d + 1 + j by omega, Nat.add_sub_cancel_left, wt_gt, wt_os_lr, wt]
      simp only [step, mul_zero]
  · rw [if_neg h1, if_pos h2, if_neg (by omega), if_neg (by omega), if_pos (by omega)]
    obtain ⟨v, hv⟩ : ∃ v, u = 2 * N + 1 - v ∧ v ≤ N := ⟨2 * N + 1 - u, by omega⟩
    obtain ⟨rfl, hvN⟩ := hv
    rw [show 2 * N + 1 - (2 * N + 1 - v) = v by omega, show 2 * N + 1 - v - N - 1 = N - v by omega,
      show 2 * N + 2 + w - (2 * N + 1 - v) = v + w + 1 by omega]
    rcases lt_trichotomy v w with h | h | h
    · obtain ⟨d, rfl⟩ : ∃ d, w = v + 1 + d := ⟨w - v - 1, by omega⟩
      obtain ⟨j, rfl⟩ : ∃ j, N = v + 1 + d + j := ⟨N - (v + 1 + d), by omega⟩
      rw [show v + 1 + d + j - v = d + 1 + j by omega, Nat.add_sub_cancel_left, wt_lt, wt_os_lr, wt]
      simp only [step, wt_os_r, wt, wt_end_z]
      ring
    · subst h
      rw [wt_os_lr, wt]
      simp only [step, wt_end_z]
      ring
    · obtain ⟨d, rfl⟩ : ∃ d, v = w + 1 + d := ⟨v - w - 1, by omega⟩
      obtain ⟨j, rfl⟩ : ∃ j, N = w + 1 + d + j := ⟨N - (w + 1 + d), by omega⟩
      rw [show w + 1 + d + j - w = d + 1 + j by omega, Nat.add_sub_cancel_left, wt_gt, wt_os_lr, wt]
      simp only [step, wt_os_l, wt, wt_end_z]
      ring
  · rw [if_neg h1, if_neg h2]
    obtain ⟨v, hv⟩ : ∃ v, u = 2 * N + 1 - v ∧ v ≤ N := ⟨2 * N + 1 - u, by omega⟩
    obtain ⟨rfl, hvN⟩ := hv
    obtain ⟨y, hy⟩ : ∃ y, w = 2 * N + 1 - y ∧ y ≤ N := ⟨2 * N + 1 - w, by omega⟩
    obtain ⟨rfl, hyN⟩ := hy
    rw [show 2 * N + 1 - (2 * N + 1 - v) = v by omega, show 2 * N + 1 - v - N - 1 = N - v by omega,
      show 2 * N + 1 - (2 * N + 1 - y) = y by omega, show 2 * N + 1 - y - N - 1 = N - y by omega]
    rcases lt_trichotomy v y with h | h | h
    · obtain ⟨d, rfl⟩ : ∃ d, y = v + 1 + d := ⟨y - v - 1, by omega⟩
      obtain ⟨j, rfl⟩ : ∃ j, N = v + 1 + d + j := ⟨N - (v + 1 + d), by omega⟩
      rw [show v + 1 + d + j - v = d + 1 + j by omega, Nat.add_sub_cancel_left, wt_lt, wt_os_lr, wt]
      simp only [step, wt_os_r, wt, wt_end_lr]
      rw [if_neg (by omega), if_neg (by omega), if_neg (by omega),
        show 2 * (v + 1 + d + j) + 2 + (2 * (v + 1 + d + j) + 1 - (v + 1 + d)) - (2 * (v + 1 + d + j) + 1 - v) =
          2 * v + 1 + (d + 1) + (2 * j + 1) by omega]; ring
    · subst h
      rw [wt_os_lr, wt]
      simp only [step, wt_end_lr]
      rw [if_neg (by omega), if_pos trivial]
      obtain ⟨j, rfl⟩ : ∃ j, N = v + j := ⟨N - v, by omega⟩
      rw [Nat.add_sub_cancel_left]; ring
    · obtain ⟨d, rfl⟩ : ∃ d, v = y + 1 + d := ⟨v - y - 1, by omega⟩
      obtain ⟨j, rfl⟩ : ∃ j, N = y + 1 + d + j := ⟨N - (y + 1 + d), by omega⟩
      rw [show y + 1 + d + j - y = d + 1 + j by omega, Nat.add_sub_cancel_left, wt_gt, wt_os_lr, wt]
      simp only [step, mul_zero]
      rw [if_pos (by omega)]

/-! ### The other two states -/

theorem rowW_zero (N : ℕ) : rowW N 0 = .b :: os N := by simp [rowW, os]

theorem rowW_top (N : ℕ) : rowW N (2 * N + 1) = .a :: os N := by
  rw [rowW, if_neg (by omega), Nat.sub_self, show 2 * N + 1 - N - 1 = N by omega]; rfl

theorem rowW_succ {N u : ℕ} (hu : u ≤ 2 * N + 1) : rowW (N + 1) (u + 1) = .o :: rowW N u := by
  unfold rowW
  by_cases h : u ≤ N
  · rw [if_pos (by omega), if_pos h, Nat.add_sub_add_right]; rfl
  · rw [if_neg (by omega), if_neg h, show 2 * (N + 1) + 1 - (u + 1) = 2 * N + 1 - u + 1 by omega,
      show u + 1 - (N + 1) - 1 = u - N - 1 by omega]; rfl

theorem rowW_length {N u : ℕ} (hu : u ≤ 2 * N + 1) : (rowW N u).length = N + 1 := by
  unfold rowW
  split <;> simp [os] <;> omega

theorem wt_l_row {N u : ℕ} (hu : u ≤ 2 * N + 1) :
    wt c x .l (rowW N u) (os (N + 1)) = (if u ≤ N then c else 1) * x ^ (2 * N + 2 - u) := by
  unfold rowW
  by_cases h : u ≤ N
  · rw [if_pos h, if_pos h]
    obtain ⟨j, rfl⟩ : ∃ j, N = u + j := ⟨N - u, by omega⟩
    rw [add_assoc, os_add, Nat.add_sub_cancel_left, os_succ, wt_os_l, wt]
    simp only [step, wt_end_lr]
    rw [show 2 * (u + j) + 2 - u = u + 1 + (2 * j + 1) by omega]; ring
  · rw [if_neg h, if_neg h]
    obtain ⟨v, rfl, hvN⟩ : ∃ v, u = 2 * N + 1 - v ∧ v ≤ N := ⟨2 * N + 1 - u, by omega⟩
    obtain ⟨j, rfl⟩ : ∃ j, N = v + j := ⟨N - v, by omega⟩
    rw [show 2 * (v + j) + 1 - (2 * (v + j) + 1 - v) = v by omega, show 2 * (v + j) + 1 - v - (v + j) - 1 = j by omega, add_assoc,
      os_add, os_succ, wt_os_l, wt]
    simp only [step, wt_end_z]
    rw [show 2 * (v + j) + 2 - (2 * (v + j) + 1 - v) = v + 1 by omega]; ring

theorem wt_r_row {N w : ℕ} (hw : w ≤ 2 * N + 1) :
    wt c x .r (os (N + 1)) (rowW N w) = (if w ≤ N then 1 else c) * x ^ (w + 1) := by
  unfold rowW
  by_cases h : w ≤ N
  · rw [if_pos h, if_pos h]
    obtain ⟨j, rfl⟩ : ∃ j, N = w + j := ⟨N - w, by omega⟩
    rw [add_assoc, os_add, Nat.add_sub_cancel_left, os_succ, wt_os_r, wt]
    simp only [step, wt_end_z]
    ring
  · rw [if_neg h, if_neg h]
    obtain ⟨v, rfl, hvN⟩ : ∃ v, w = 2 * N + 1 - v ∧ v ≤ N := ⟨2 * N + 1 - w, by omega⟩
    obtain ⟨j, rfl⟩ : ∃ j, N = v + j := ⟨N - v, by omega⟩
    rw [show 2 * (v + j) + 1 - (2 * (v + j) + 1 - v) = v by omega, show 2 * (v + j) + 1 - v - (v + j) - 1 = j by omega, add_assoc,
      os_add, os_succ, wt_os_r, wt]
    simp only [step, wt_end_lr]
    rw [show 2 * (v + j) + 1 - v + 1 = v + 1 + (2 * j + 1) by omega]; ring

/-! ### The quantum operator of type B -/

theorem opQ_bot (h h' : R) {N w : ℕ} (hw : w ≤ 2 * N + 3) :
    opQ c h h' x (rowW (N + 1) 0) (rowW (N + 1) w) = (if N + 1 < w then c else 1) * x ^ w := by
  rw [rowW_zero]
  rcases Nat.eq_zero_or_pos w with rfl | hw0
  · rw [rowW_zero, opQ, wt_end_z]; simp
  · rcases Nat.lt_or_ge w (2 * N + 3) with hw1 | hw1
    · obtain ⟨w, rfl⟩ : ∃ v, w = v + 1 := ⟨w - 1, by omega⟩
      rw [rowW_succ (by omega), opQ, wt_r_row c x (by omega)]
      split_ifs <;> first | rfl | (exfalso; omega)
    · obtain rfl : w = 2 * (N + 1) + 1 := by omega
      rw [rowW_top, opQ, wt_end_lr, if_pos (by omega)]

theorem opQ_mid (h h' : R) {N u w : ℕ} (hu0 : 1 ≤ u) (hu : u ≤ 2 * N + 2) (hw0 : 1 ≤ w) (hw : w ≤ 2 * N + 2) :
    opQ c h h' x (rowW (N + 1) u) (rowW (N + 1) w) =
      (if u ≤ w then (if u ≤ N + 1 ∧ N + 1 < w then c else 1) * x ^ (w - u) else 0) +
      h * (if u < w then 0 else if u = w then c * x ^ (2 * N + 3)
        else (if N + 1 < u ∧ w ≤ N + 1 then 2 else 2 * c) * x ^ (2 * N + 3 + w - u)) := by
  obtain ⟨u, rfl⟩ : ∃ v, u = v + 1 := ⟨u - 1, by omega⟩
  obtain ⟨w, rfl⟩ : ∃ v, w = v + 1 := ⟨w - 1, by omega⟩
  rw [rowW_succ (by omega), rowW_succ (by omega), opQ, wt_z_row c x (by omega) (by omega), wt_lr_row c x (by omega) (by omega)]
  simp only [Nat.add_sub_add_right, Nat.add_le_add_iff_right, Nat.add_lt_add_iff_right, Nat.add_right_cancel_iff]
  congr 2
  rcases lt_trichotomy u w with h1 | h1 | h1
  · rw [if_pos h1, if_pos h1, mul_zero]
  · rw [if_neg h1.not_lt, if_pos h1, if_neg h1.not_lt, if_pos h1]; ring
  · rw [if_neg h1.le.not_gt, if_neg h1.ne', if_neg h1.le.not_gt, if_neg h1.ne',
      show 2 * N + 3 + (w + 1) - (u + 1) = 2 * N + 2 + w - u + 1 by omega]
    ring

theorem opQ_mid_bot (h h' : R) {N u : ℕ} (hu0 : 1 ≤ u) (hu : u ≤ 2 * N + 2) :
    opQ c h h' x (rowW (N + 1) u) (rowW (N + 1) 0) = h * ((if u ≤ N + 1 then c else 1) * x ^ (2 * N + 3 - u)) := by
  obtain ⟨u, rfl⟩ : ∃ v, u = v + 1 := ⟨u - 1, by omega⟩
  rw [rowW_succ (by omega), rowW_zero, opQ, wt_l_row c x (by omega), show 2 * N + 3 - (u + 1) = 2 * N + 2 - u by omega]
  simp only [Nat.add_le_add_iff_right]

theorem opQ_mid_top (h h' : R) {N u : ℕ} (hu0 : 1 ≤ u) (hu : u ≤ 2 * N + 2) :
    opQ c h h' x (rowW (N + 1) u) (rowW (N + 1) (2 * N + 3)) = (if u ≤ N + 1 then c else 1) * x ^ (2 * N + 3 - u) := by
  obtain ⟨u, rfl⟩ : ∃ v, u = v + 1 := ⟨u - 1, by omega⟩
  rw [rowW_succ (by omega), show 2 * N + 3 = 2 * (N + 1) + 1 by ring, rowW_top, opQ, wt_l_row c x (by omega),
    show 2 * (N + 1) + 1 - (u + 1) = 2 * N + 2 - u by omega]
  simp only [Nat.add_le_add_iff_right]

theorem opQ_top_bot (h h' : R) {N : ℕ} :
    opQ c h h' x (rowW (N + 1) (2 * N + 3)) (rowW (N + 1) 0) = h' * (c * x ^ (2 * N + 3)) := by
  rw [rowW_zero, show 2 * N + 3 = 2 * (N + 1) + 1 by ring, rowW_top, opQ, wt_end_lr]

theorem opQ_top_mid (h h' : R) {N w : ℕ} (hw0 : 1 ≤ w) (hw : w ≤ 2 * N + 2) :
    opQ c h h' x (rowW (N + 1) (2 * N + 3)) (rowW (N + 1) w) = h * ((if w ≤ N + 1 then 1 else c) * x ^ w) := by
  obtain ⟨w, rfl⟩ : ∃ v, w = v + 1 := ⟨w - 1, by omega⟩
  rw [rowW_succ (u := w) (by omega), show 2 * N + 3 = 2 * (N + 1) + 1 by ring, rowW_top, opQ, wt_r_row c x (by omega)]
  simp only [Nat.add_le_add_iff_right]

theorem opQ_top_top (h h' : R) {N : ℕ} : opQ c h h' x (rowW (N + 1) (2 * N + 3)) (rowW (N + 1) (2 * N + 3)) = 1 := by
  rw [show 2 * N + 3 = 2 * (N + 1) + 1 by ring, rowW_top, opQ, wt_end_z]

end

/-! ### Labels -/

theorem colsW_os (m : ℕ) (v : List L3) : colsW 0 (os m ++ v) = colsW 0 v + m := by
  induction m with
  | zero => simp [os]
  | succ m ih => rw [os_succ, List.cons_append, colsW, ih]; omega

theorem shapeW_os (m : ℕ) (v : List L3) : shapeW 0 0 (os m ++ v) = (shapeW 0 0 v).map (· + (m : Int)) := by
  induction m with
  | zero => simp [os]
  | succ m ih =>
    rw [os_succ, List.cons_append, shapeW, ih, List.map_map]
    refine List.map_congr_left fun x _ => ?_
    simp; ring

theorem shapeW_os' (m : ℕ) : shapeW 0 0 (os m) = [] := by
  have := shapeW_os m []
  simpa [shapeW] using this

theorem labW_row {N u : ℕ} (hu : u ≤ 2 * N + 1) : labW (rowW N u) = rowS u := by
  have h : shapeW 0 0 (rowW N u) = [(u : Int)] := by
    unfold rowW
    split
    · rw [shapeW_os, shapeW, shapeW_os']; simp
    · have : colsW 0 (os (u - N - 1)) = u - N - 1 := by
        have := colsW_os (u - N - 1) []
        simpa [colsW] using this
      rw [shapeW_os, shapeW, shapeW_os', this]
      simp [os]
      omega
  rw [labW, h]
  unfold Spec.rowS
  split
  · rename_i h0; subst h0; rfl
  · rename_i h0
    apply partClip_of_noTrailing
    intro h; exact h0 (by simpa using h)

theorem rowW_mem {N u : ℕ} (hu : u ≤ 2 * N + 1) : rowW N u ∈ Wd (N + 1) N := by
  rw [mem_Wd]
  refine ⟨rowW_length hu, ?_⟩
  have h : ∀ m, colsW 0 (os m) = m := fun m => by
    have := colsW_os m []
    simpa [colsW] using this
  unfold rowW
  split
  · rw [colsW_os, colsW, h]
    · omega
    · simp
  · rw [colsW_os, colsW, h]
    · omega
    · simp

theorem mem_rowW {N : ℕ} {w : List L3} (hw : w ∈ Wd (N + 1) N) : ∃ u ≤ 2 * N + 1, rowW N u = w := by
  have hc : clsBC (N + 1) N (labW w) := (Wd_cls (by omega) _).2 ⟨w, hw, rfl⟩
  obtain ⟨⟨h1, h2⟩, -, h3, h4⟩ := (clsBC_eq (by omega) _).1 hc
  have hl : ∃ u ≤ 2 * N + 1, labW w = rowS u := by
    match hl : labW w with
    | [] => exact ⟨0, by omega, rfl⟩
    | [a] =>
      rw [hl] at h1 h2 h4
      have h5 := h4 a (by simp)
      have h6 : 0 < a := h2 a (by simp)
      refine ⟨a.toNat, by push_cast at h5; omega, ?_⟩
      unfold Spec.rowS
      rw [if_neg (by omega)]
      simp; omega
    | a :: b :: r =>
      rw [hl] at h3
      simp at h3
  obtain ⟨u, hu, e⟩ := hl
  exact ⟨u, hu, Wd_inj _ (rowW_mem hu) _ hw (by rw [labW_row hu, e])⟩

/-- sums over the words -/
theorem sum_rowW {M : Type*} [AddCommMonoid M] (N : ℕ) (f : List L3 → M) :
    ∑ w ∈ Wd (N + 1) N, f w = ∑ u ∈ Finset.range (2 * N + 2), f (rowW N u) := by
  symm
  refine Finset.sum_bij (fun u _ => rowW N u) (fun u hu => rowW_mem (by simp at hu; omega)) ?_ ?_ (fun _ _ => rfl)
  · intro a ha b hb h
    simp at ha hb
    have := congrArg labW h
    rw [labW_row (by omega), labW_row (by omega)] at this
    unfold Spec.rowS at this
    split at this <;> split at this <;> simp at this <;> omega
  · intro w hw
    obtain ⟨u, hu, h⟩ := mem_rowW hw
    exact ⟨u, by simp; omega, h⟩

end Verif
