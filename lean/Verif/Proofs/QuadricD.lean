import Verif.Proofs.Quadric
import Verif.Proofs.RelRingD
/-!
# Words with a single row, type D

For `k = n` the words of type D have one letter `a` or `b`, possibly the inner one; the operators have closed forms.
-/

namespace Verif
open Spec

section
variable {R : Type*} [CommRing R] (e : St → R) (x : R)

theorem wtE_os_z (m : ℕ) (u w : List L3) : wtE e x .z (os m ++ u) (os m ++ w) = wtE e x .z u w := by
  induction m with
  | zero => rfl
  | succ m ih => simp only [os_succ, List.cons_append, wtE, step, ih]; simp

theorem wtE_os_l (m : ℕ) (u w : List L3) : wtE e x .l (os m ++ u) (os m ++ w) = x ^ m * wtE e x .l u w := by
  induction m with
  | zero => simp [os]
  | succ m ih => simp only [os_succ, List.cons_append, wtE, step, ih]; ring

theorem wtE_os_r (m : ℕ) (u w : List L3) : wtE e x .r (os m ++ u) (os m ++ w) = x ^ m * wtE e x .r u w := by
  induction m with
  | zero => simp [os]
  | succ m ih => simp only [os_succ, List.cons_append, wtE, step, ih]; ring

theorem wtE_os_lr (m : ℕ) (u w : List L3) : wtE e x .lr (os m ++ u) (os m ++ w) = x ^ (2 * m) * wtE e x .lr u w := by
  induction m with
  | zero => simp [os]
  | succ m ih => simp only [os_succ, List.cons_append, wtE, step, ih]; ring

theorem wtE_end_z (m : ℕ) : wtE e x .z (os m) (os m) = e .z := by
  have := wtE_os_z e x m [] []
  simpa [wtE] using this

theorem wtE_end_l (m : ℕ) : wtE e x .l (os m) (os m) = x ^ m * e .l := by
  have := wtE_os_l e x m [] []
  simpa [wtE] using this

theorem wtE_end_r (m : ℕ) : wtE e x .r (os m) (os m) = x ^ m * e .r := by
  have := wtE_os_r e x m [] []
  simpa [wtE] using this

theorem wtE_end_lr (m : ℕ) : wtE e x .lr (os m) (os m) = x ^ (2 * m) * e .lr := by
  have := wtE_os_lr e x m [] []
  simpa [wtE] using this

/-- the letter of the first word comes first -/
theorem wtE_lt (s : St) (i d j : ℕ) (p q : L3) :
    wtE e x s (os i ++ p :: os (d + 1 + j)) (os (i + 1 + d) ++ q :: os j) =
      wtE e x s (os i ++ p :: (os d ++ .o :: os j)) (os i ++ .o :: (os d ++ q :: os j)) := by
  rw [add_assoc d, os_add d, add_comm 1 j, os_succ, add_assoc i, os_add i, add_comm 1 d, os_succ]
  simp

theorem wtE_gt (s : St) (i d j : ℕ) (p q : L3) :
    wtE e x s (os (i + 1 + d) ++ p :: os j) (os i ++ q :: os (d + 1 + j)) =
      wtE e x s (os i ++ .o :: (os d ++ p :: os j)) (os i ++ q :: (os d ++ .o :: os j)) := by
  rw [add_assoc d, os_add d, add_comm 1 j, os_succ, add_assoc i, os_add i, add_comm 1 d, os_succ]
  simp

theorem wtE_one_r (s : St) (i j : ℕ) (p : L3) :
    wtE e x s (os i ++ p :: os j) (os (i + 1 + j)) = wtE e x s (os i ++ p :: os j) (os i ++ .o :: os j) := by
  rw [add_assoc i, os_add i, add_comm 1 j, os_succ]

theorem wtE_one_l (s : St) (i j : ℕ) (q : L3) :
    wtE e x s (os (i + 1 + j)) (os i ++ q :: os j) = wtE e x s (os i ++ .o :: os j) (os i ++ q :: os j) := by
  rw [add_assoc i, os_add i, add_comm 1 j, os_succ]

end

/-- the letters after the first of a word with one row: `b` or `a` at place `v`, or the inner letter -/
inductive Kd
  | lo (v : ℕ)
  | mid (t : Bool)
  | hi (v : ℕ)

/-- the inner letter of a type -/
def tyL (t : Bool) : L3 := if t then .b else .a

def Kd.wd (N : ℕ) : Kd → WordD
  | .lo v => (os v ++ .b :: os (N - 1 - v), .o)
  | .mid t => (os N, tyL t)
  | .hi v => (os v ++ .a :: os (N - 1 - v), .o)

def Kd.ok (N : ℕ) : Kd → Prop
  | .lo v => v < N
  | .mid _ => True
  | .hi v => v < N

section
variable {R : Type*} [CommRing R] (x : R) {N : ℕ}

/-- the entries of the first matrix that keep the state -/
def cz (N : ℕ) : Kd → Kd → ℕ × ℕ
  | .lo v, .lo y => (if v ≤ y then 1 else 0, y - v)
  | .lo v, .mid _ => (1, N - v)
  | .lo v, .hi y => (2, 2 * N - v - y)
  | .mid s, .mid t => (if s = t then 1 else 0, 0)
  | .mid _, .hi y => (1, N - y)
  | .hi v, .hi y => (if y ≤ v then 1 else 0, v - y)
  | _, _ => (0, 0)

/-- the entries of the first matrix that begin in the double state -/
def clr (N : ℕ) : Kd → Kd → ℕ × ℕ
  | .lo v, .lo y => (if v < y then 0 else if v = y then 2 else 4, 2 * N + 1 + y - v)
  | .mid _, .lo y => (2, N + 1 + y)
  | .mid s, .mid t => (if s = t then 2 else 0, 2 * N + 1)
  | .hi v, .lo y => (2, v + y + 1)
  | .hi v, .mid _ => (2, v + N + 1)
  | .hi v, .hi y => (if y < v then 0 else if v = y then 2 else 4, 2 * N + 1 + v - y)
  | _, _ => (0, 0)

theorem gD_z_kd {U W : Kd} (hU : U.ok N) (hW : W.ok N) : gD x .z (U.wd N) (W.wd N) = ((cz N U W).1 : R) * x ^ (cz N U W).2 := by
  unfold gD
  rcases U with v | s | v <;> rcases W with y | t | y <;> simp only [Kd.ok] at hU hW <;> simp only [Kd.wd, cz]
  · rcases lt_trichotomy v y with h | h | h
    · obtain ⟨d, rfl⟩ : ∃ d, y = v + 1 + d := ⟨y - v - 1, by omega⟩
      obtain ⟨j, rfl⟩ : ∃ j, N = v + 1 + d + 1 + j := ⟨N - (v + 1 + d + 1), by omega⟩
      rw [show v + 1 + d + 1 + j - 1 - v = d + 1 + j by omega, show v + 1 + d + 1 + j - 1 - (v + 1 + d) = j by omega, wtE_lt, wtE_os_z, wtE]
      simp only [step, wtE_os_r, wtE, wtE_end_z, endG]
      rw [if_pos (by omega), show v + 1 + d - v = d + 1 by omega]; push_cast; ring
    · subst h
      rw [wtE_os_z, wtE]
      simp only [step, wtE_end_z, endG]
      simp
    · obtain ⟨d, rfl⟩ : ∃ d, v = y + 1 + d := ⟨v - y - 1, by omega⟩
      obtain ⟨j, rfl⟩ : ∃ j, N = y + 1 + d + 1 + j := ⟨N - (y + 1 + d + 1), by omega⟩
      rw [show y + 1 + d + 1 + j - 1 - y = d + 1 + j by omega, show y + 1 + d + 1 + j - 1 - (y + 1 + d) = j by omega, wtE_gt, wtE_os_z, wtE]
      simp only [step]
      rw [if_neg (by omega), Nat.cast_zero, zero_mul]
  · obtain ⟨j, rfl⟩ : ∃ j, N = v + 1 + j := ⟨N - (v + 1), by omega⟩
    rw [show v + 1 + j - 1 - v = j by omega, wtE_one_r, wtE_os_z, wtE]
    simp only [step, wtE_end_r]
    rw [show v + 1 + j - v = j + 1 by omega]
    cases t <;> simp only [tyL, endG] <;> simp <;> ring
  · rcases lt_trichotomy v y with h | h | h
    · obtain ⟨d, rfl⟩ : ∃ d, y = v + 1 + d := ⟨y - v - 1, by omega⟩
      obtain ⟨j, rfl⟩ : ∃ j, N = v + 1 + d + 1 + j := ⟨N - (v + 1 + d + 1), by omega⟩
      rw [show v + 1 + d + 1 + j - 1 - v = d + 1 + j by omega, show v + 1 + d + 1 + j - 1 - (v + 1 + d) = j by omega, wtE_lt, wtE_os_z, wtE]
      simp only [step, wtE_os_r, wtE, wtE_end_lr, endG]
      rw [show 2 * (v + 1 + d + 1 + j) - v - (v + 1 + d) = d + 1 + 2 * j + 2 by omega]; push_cast; ring
    · subst h
      obtain ⟨j, rfl⟩ : ∃ j, N = v + 1 + j := ⟨N - (v + 1), by omega⟩
      rw [wtE_os_z, wtE]
      simp only [step, wtE_end_lr, endG]
      rw [show 2 * (v + 1 + j) - v - v = 2 * j + 2 by omega, show v + 1 + j - 1 - v = j by omega]; push_cast; ring
    · obtain ⟨d, rfl⟩ : ∃ d, v = y + 1 + d := ⟨v - y - 1, by omega⟩
      obtain ⟨j, rfl⟩ : ∃ j, N = y + 1 + d + 1 + j := ⟨N - (y + 1 + d + 1), by omega⟩
      rw [show y + 1 + d + 1 + j - 1 - y = d + 1 + j by omega, show y + 1 + d + 1 + j - 1 - (y + 1 + d) = j by omega, wtE_gt, wtE_os_z, wtE]
      simp only [step, wtE_os_l, wtE, wtE_end_lr, endG]
      rw [show 2 * (y + 1 + d + 1 + j) - (y + 1 + d) - y = d + 1 + 2 * j + 2 by omega]; push_cast; ring
  · obtain ⟨j, rfl⟩ : ∃ j, N = y + 1 + j := ⟨N - (y + 1), by omega⟩
    rw [show y + 1 + j - 1 - y = j by omega, wtE_one_l, wtE_os_z, wtE]
    simp [step]
  · rw [wtE_end_z]
    cases s <;> cases t <;> simp [tyL, endG]
  · obtain ⟨j, rfl⟩ : ∃ j, N = y + 1 + j := ⟨N - (y + 1), by omega⟩
    rw [show y + 1 + j - 1 - y = j by omega, wtE_one_l, wtE_os_z, wtE]
    simp only [step, wtE_end_l]
    rw [show y + 1 + j - y = j + 1 by omega]
    cases s <;> simp only [tyL, endG] <;> simp <;> ring
  · rcases lt_trichotomy v y with h | h | h
    · obtain ⟨d, rfl⟩ : ∃ d, y = v + 1 + d := ⟨y - v - 1, by omega⟩
      obtain ⟨j, rfl⟩ : ∃ j, N = v + 1 + d + 1 + j := ⟨N - (v + 1 + d + 1), by omega⟩
      rw [show v + 1 + d + 1 + j - 1 - v = d + 1 + j by omega, show v + 1 + d + 1 + j - 1 - (v + 1 + d) = j by omega, wtE_lt, wtE_os_z, wtE]
      simp [step]
    · subst h
      rw [wtE_os_z, wtE]
      simp [step]
    · obtain ⟨d, rfl⟩ : ∃ d, v = y + 1 + d := ⟨v - y - 1, by omega⟩
      obtain ⟨j, rfl⟩ : ∃ j, N = y + 1 + d + 1 + j := ⟨N - (y + 1 + d + 1), by omega⟩
      rw [show y + 1 + d + 1 + j - 1 - y = d + 1 + j by omega, show y + 1 + d + 1 + j - 1 - (y + 1 + d) = j by omega, wtE_gt, wtE_os_z, wtE]
      simp [step]
  · obtain ⟨j, rfl⟩ : ∃ j, N = v + 1 + j := ⟨N - (v + 1), by omega⟩
    rw [show v + 1 + j - 1 - v = j by omega, wtE_one_r, wtE_os_z, wtE]
    simp [step]
  · rcases lt_trichotomy v y with h | h | h
    · obtain ⟨d, rfl⟩ : ∃ d, y = v + 1 + d := ⟨y - v - 1, by omega⟩
      obtain ⟨j, rfl⟩ : ∃ j, N = v + 1 + d + 1 + j := ⟨N - (v + 1 + d + 1), by omega⟩
      rw [show v + 1 + d + 1 + j - 1 - v = d + 1 + j by omega, show v + 1 + d + 1 + j - 1 - (v + 1 + d) = j by omega, wtE_lt, wtE_os_z, wtE]
      simp only [step]
      rw [if_neg (by omega), Nat.cast_zero, zero_mul]
    · subst h
      rw [wtE_os_z, wtE]
      simp only [step, wtE_end_z, endG]
      simp
    · obtain ⟨d, rfl⟩ : ∃ d, v = y + 1 + d := ⟨v - y - 1, by omega⟩
      obtain ⟨j, rfl⟩ : ∃ j, N = y + 1 + d + 1 + j := ⟨N - (y + 1 + d + 1), by omega⟩
      rw [show y + 1 + d + 1 + j - 1 - y = d + 1 + j by omega, show y + 1 + d + 1 + j - 1 - (y + 1 + d) = j by omega, wtE_gt, wtE_os_z, wtE]
      simp only [step, wtE_os_l, wtE, wtE_end_z, endG]
      rw [if_pos (by omega), show y + 1 + d - y = d + 1 by omega]; push_cast; ring

theorem gD_lr_kd {U W : Kd} (hU : U.ok N) (hW : W.ok N) : gD x .lr (U.wd N) (W.wd N) = ((clr N U W).1 : R) * x ^ (clr N U W).2 := by
  unfold gD
  rcases U with v | s | v <;> rcases W with y | t | y <;> simp only [Kd.ok] at hU hW <;> simp only [Kd.wd, clr]
  · rcases lt_trichotomy v y with h | h | h
    · obtain ⟨d, rfl⟩ : ∃ d, y = v + 1 + d := ⟨y - v - 1, by omega⟩
      obtain ⟨j, rfl⟩ : ∃ j, N = v + 1 + d + 1 + j := ⟨N - (v + 1 + d + 1), by omega⟩
      rw [show v + 1 + d + 1 + j - 1 - v = d + 1 + j by omega, show v + 1 + d + 1 + j - 1 - (v + 1 + d) = j by omega, wtE_lt, wtE_os_lr, wtE]
      simp only [step]
      rw [if_pos (by omega), Nat.cast_zero, zero_mul, mul_zero]
    · subst h
      obtain ⟨j, rfl⟩ : ∃ j, N = v + 1 + j := ⟨N - (v + 1), by omega⟩
      rw [wtE_os_lr, wtE]
      simp only [step, wtE_end_lr, endG]
      rw [if_neg (by omega), if_pos trivial, show v + 1 + j - 1 - v = j by omega, show 2 * (v + 1 + j) + 1 + v - v = 2 * v + 1 + 2 * j + 2 by omega]; push_cast; ring
    · obtain ⟨d, rfl⟩ : ∃ d, v = y + 1 + d := ⟨v - y - 1, by omega⟩
      obtain ⟨j, rfl⟩ : ∃ j, N = y + 1 + d + 1 + j := ⟨N - (y + 1 + d + 1), by omega⟩
      rw [show y + 1 + d + 1 + j - 1 - y = d + 1 + j by omega, show y + 1 + d + 1 + j - 1 - (y + 1 + d) = j by omega, wtE_gt, wtE_os_lr, wtE]
      simp only [step, wtE_os_l, wtE, wtE_end_lr, endG]
      rw [if_neg (by omega), if_neg (by omega),
        show 2 * (y + 1 + d + 1 + j) + 1 + y - (y + 1 + d) = 2 * y + 1 + d + 1 + 2 * j + 2 by omega]; push_cast; ring
  · obtain ⟨j, rfl⟩ : ∃ j, N = v + 1 + j := ⟨N - (v + 1), by omega⟩
    rw [show v + 1 + j - 1 - v = j by omega, wtE_one_r, wtE_os_lr, wtE]
    simp [step]
  · rcases lt_trichotomy v y with h | h | h
    · obtain ⟨d, rfl⟩ : ∃ d, y = v + 1 + d := ⟨y - v - 1, by omega⟩
      obtain ⟨j, rfl⟩ : ∃ j, N = v + 1 + d + 1 + j := ⟨N - (v + 1 + d + 1), by omega⟩
      rw [show v + 1 + d + 1 + j - 1 - v = d + 1 + j by omega, show v + 1 + d + 1 + j - 1 - (v + 1 + d) = j by omega, wtE_lt, wtE_os_lr, wtE]
      simp [step]
    · subst h
      rw [wtE_os_lr, wtE]
      simp [step]
    · obtain ⟨d, rfl⟩ : ∃ d, v = y + 1 + d := ⟨v - y - 1, by omega⟩
      obtain ⟨j, rfl⟩ : ∃ j, N = y + 1 + d + 1 + j := ⟨N - (y + 1 + d + 1), by omega⟩
      rw [show y + 1 + d + 1 + j - 1 - y = d + 1 + j by omega, show y + 1 + d + 1 + j - 1 - (y + 1 + d) = j by omega, wtE_gt, wtE_os_lr, wtE]
      simp [step]
  · obtain ⟨j, rfl⟩ : ∃ j, N = y + 1 + j := ⟨N - (y + 1), by omega⟩
    rw [show y + 1 + j - 1 - y = j by omega, wtE_one_l, wtE_os_lr, wtE]
    simp only [step, wtE_end_l]
    cases s <;> simp only [tyL, endG] <;> simp <;> ring
  · rw [wtE_end_lr]
    cases s <;> cases t <;> simp [tyL, endG] <;> ring
  · obtain ⟨j, rfl⟩ : ∃ j, N = y + 1 + j := ⟨N - (y + 1), by omega⟩
    rw [show y + 1 + j - 1 - y = j by omega, wtE_one_l, wtE_os_lr, wtE]
    simp [step]
  · rcases lt_trichotomy v y with h | h | h
    · obtain ⟨d, rfl⟩ : ∃ d, y = v + 1 + d := ⟨y - v - 1, by omega⟩
      obtain ⟨j, rfl⟩ : ∃ j, N = v + 1 + d + 1 + j := ⟨N - (v + 1 + d + 1), by omega⟩
      rw [show v + 1 + d + 1 + j - 1 - v = d + 1 + j by omega, show v + 1 + d + 1 + j - 1 - (v + 1 + d) = j by omega, wtE_lt, wtE_os_lr, wtE]
      simp only [step, wtE_os_r, wtE, wtE_end_z, endG]; push_cast; ring
    · subst h
      rw [wtE_os_lr, wtE]
      simp only [step, wtE_end_z, endG]; push_cast; ring
    · obtain ⟨d, rfl⟩ : ∃ d, v = y + 1 + d := ⟨v - y - 1, by omega⟩
      obtain ⟨j, rfl⟩ : ∃ j, N = y + 1 + d + 1 + j := ⟨N - (y + 1 + d + 1), by omega⟩
      rw [show y + 1 + d + 1 + j - 1 - y = d + 1 + j by omega, show y + 1 + d + 1 + j - 1 - (y + 1 + d) = j by omega, wtE_gt, wtE_os_lr, wtE]
      simp only [step, wtE_os_l, wtE, wtE_end_z, endG]; push_cast; ring
  · obtain ⟨j, rfl⟩ : ∃ j, N = v + 1 + j := ⟨N - (v + 1), by omega⟩
    rw [show v + 1 + j - 1 - v = j by omega, wtE_one_r, wtE_os_lr, wtE]
    simp only [step, wtE_end_r]
    cases t <;> simp only [tyL, endG] <;> simp <;> ring
  · rcases lt_trichotomy v y with h | h | h
    · obtain ⟨d, rfl⟩ : ∃ d, y = v + 1 + d := ⟨y - v - 1, by omega⟩
      obtain ⟨j, rfl⟩ : ∃ j, N = v + 1 + d + 1 + j := ⟨N - (v + 1 + d + 1), by omega⟩
      rw [show v + 1 + d + 1 + j - 1 - v = d + 1 + j by omega, show v + 1 + d + 1 + j - 1 - (v + 1 + d) = j by omega, wtE_lt, wtE_os_lr, wtE]
      simp only [step, wtE_os_r, wtE, wtE_end_lr, endG]
      rw [if_neg (by omega), if_neg (by omega),
        show 2 * (v + 1 + d + 1 + j) + 1 + v - (v + 1 + d) = 2 * v + 1 + d + 1 + 2 * j + 2 by omega]; push_cast; ring
    · subst h
      obtain ⟨j, rfl⟩ : ∃ j, N = v + 1 + j := ⟨N - (v + 1), by omega⟩
      rw [wtE_os_lr, wtE]
      simp only [step, wtE_end_lr, endG]
      rw [if_neg (by omega), if_pos trivial, show v + 1 + j - 1 - v = j by omega, show 2 * (v + 1 + j) + 1 + v - v = 2 * v + 1 + 2 * j + 2 by omega]; push_cast; ring
    · obtain ⟨d, rfl⟩ : ∃ d, v = y + 1 + d := ⟨v - y - 1, by omega⟩
      obtain ⟨j, rfl⟩ : ∃ j, N = y + 1 + d + 1 + j := ⟨N - (y + 1 + d + 1), by omega⟩
      rw [show y + 1 + d + 1 + j - 1 - y = d + 1 + j by omega, show y + 1 + d + 1 + j - 1 - (y + 1 + d) = j by omega, wtE_gt, wtE_os_lr, wtE]
      simp only [step]
      rw [if_pos (by omega), Nat.cast_zero, zero_mul, mul_zero]

/-- the entries of the first matrix for the words without a letter -/
def cl (N : ℕ) : Kd → ℕ × ℕ
  | .lo v => (2, 2 * N + 1 - v)
  | .mid _ => (1, N + 1)
  | .hi v => (1, v + 1)

theorem gD_l_kd {U : Kd} (hU : U.ok N) : gD x .l (U.wd N) (os N, .o) = ((cl N U).1 : R) * x ^ (cl N U).2 := by
  unfold gD
  rcases U with v | s | v <;> simp only [Kd.ok] at hU <;> simp only [Kd.wd, cl]
  · obtain ⟨j, rfl⟩ : ∃ j, N = v + 1 + j := ⟨N - (v + 1), by omega⟩
    rw [show v + 1 + j - 1 - v = j by omega, wtE_one_r, wtE_os_l, wtE]
    simp only [step, wtE_end_lr, endG]
    rw [show 2 * (v + 1 + j) + 1 - v = v + 1 + 2 * j + 2 by omega]; push_cast; ring
  · rw [wtE_end_l]
    cases s <;> simp [tyL, endG] <;> ring
  · obtain ⟨j, rfl⟩ : ∃ j, N = v + 1 + j := ⟨N - (v + 1), by omega⟩
    rw [show v + 1 + j - 1 - v = j by omega, wtE_one_r, wtE_os_l, wtE]
    simp only [step, wtE_end_z, endG]; push_cast; ring

theorem wtS_end_l (e : St → R) (m : ℕ) : wtS e .l (os m) (os m) = (-1) ^ m * e .l := by
  induction m with
  | zero => simp [os, wtS]
  | succ m ih => simp only [os_succ, wtS, stepSg, ih]; push_cast; ring

theorem wtS_bo (e : St → R) (i j : ℕ) : wtS e .l (os i ++ .b :: os j) (os (i + 1 + j)) = 0 := by
  induction i with
  | zero =>
    rw [show 0 + 1 + j = j + 1 by omega]
    show wtS e .l (.b :: os j) (.o :: os j) = 0
    simp [wtS, stepSg]
  | succ i ih =>
    rw [show i + 1 + 1 + j = i + 1 + j + 1 by omega]
    simp only [os_succ, List.cons_append, wtS, stepSg, ih]; simp

theorem wtS_zoo (e : St → R) (he : e .z = 0) (j : ℕ) : wtS e .z (os j) (os j) = 0 := by
  cases j with
  | zero => simp [os, wtS, he]
  | succ j => simp [os_succ, wtS, stepSg]

theorem wtS_ao (e : St → R) (he : e .z = 0) (i j : ℕ) : wtS e .l (os i ++ .a :: os j) (os (i + 1 + j)) = 0 := by
  induction i with
  | zero =>
    rw [show 0 + 1 + j = j + 1 by omega]
    show wtS e .l (.a :: os j) (.o :: os j) = 0
    simp [wtS, stepSg, wtS_zoo e he j]
  | succ i ih =>
    rw [show i + 1 + 1 + j = i + 1 + j + 1 by omega]
    simp only [os_succ, List.cons_append, wtS, stepSg, ih]; simp

/-- the entries of the second matrix for the words without a letter -/
def cs (N : ℕ) : Kd → R
  | .mid t => if t then (-1) ^ N else (-1) ^ (N + 1)
  | _ => 0

theorem sD_l_kd {U : Kd} (hU : U.ok N) : (sD .l (U.wd N) (os N, .o) : R) = cs N U := by
  unfold sD
  rcases U with v | s | v <;> simp only [Kd.ok] at hU <;> simp only [Kd.wd, cs]
  · obtain ⟨j, rfl⟩ : ∃ j, N = v + 1 + j := ⟨N - (v + 1), by omega⟩
    rw [show v + 1 + j - 1 - v = j by omega, wtS_bo]
  · rw [wtS_end_l]
    cases s <;> simp [tyL, endSg, pow_succ]
  · obtain ⟨j, rfl⟩ : ∃ j, N = v + 1 + j := ⟨N - (v + 1), by omega⟩
    rw [show v + 1 + j - 1 - v = j by omega, wtS_ao _ rfl]

end

/-! ### the words by degree -/

def Kd.sw : Kd → Kd
  | .mid t => .mid (!t)
  | U => U

theorem Kd.swD_wd (N : ℕ) (U : Kd) : swD (U.wd N) = U.sw.wd N := by
  rcases U with v | t | v
  · rfl
  · cases t <;> rfl
  · rfl

theorem Kd.sw_ok {N : ℕ} {U : Kd} (h : U.ok N) : U.sw.ok N := by cases U <;> exact h

def kd (N c : ℕ) (t : Bool) : Kd := if c ≤ N then .lo (c - 1) else if c = N + 1 then .mid t else .hi (2 * N + 1 - c)

theorem kd_ok {N c : ℕ} (t : Bool) (h1 : 0 < c) (h2 : c < 2 * N + 2) : (kd N c t).ok N := by
  unfold kd
  split
  · simp only [Kd.ok]; omega
  · split
    · trivial
    · simp only [Kd.ok]; omega

/-- the word of the class of degree `c` of the quadric, for `n = N + 1`; `t` is the type for `c = n` -/
def qwd (N c : ℕ) (t : Bool) : WordD :=
  if c = 0 then (.b :: os N, .o) else if c = 2 * N + 2 then (.a :: os N, .o) else (.o :: ((kd N c t).wd N).1, ((kd N c t).wd N).2)

open Polynomial in
theorem coeff_num (k e p : ℕ) : ((k : (Polynomial ℚ)[X]) * X ^ e).coeff p = if p = e then (k : Polynomial ℚ) else 0 := by
  rw [← map_natCast (C : Polynomial ℚ →+* (Polynomial ℚ)[X]), coeff_C_mul, coeff_X_pow]
  split <;> simp

theorem cz_val {N u w : ℕ} (s t : Bool) {p : ℕ} (hu : 0 < u ∧ u < 2 * N + 2) (hw : 0 < w ∧ w < 2 * N + 2) :
    (if p = (cz N (kd N u s) (kd N w t)).2 then (cz N (kd N u s) (kd N w t)).1 else 0) =
      (if w = u + p then (if u ≤ N ∧ N + 1 < w then 2 else if u = N + 1 ∧ w = N + 1 ∧ s ≠ t then 0 else 1) else 0) := by
  have key : ∀ K : ℕ × ℕ, cz N (kd N u s) (kd N w t) = K → (if p = K.2 then K.1 else 0) =
      (if w = u + p then (if u ≤ N ∧ N + 1 < w then 2 else if u = N + 1 ∧ w = N + 1 ∧ s ≠ t then 0 else 1) else 0) := by
    rintro ⟨k1, k2⟩ hK
    unfold kd at hK
    split_ifs at hK <;> simp only [cz, Prod.mk.injEq] at hK <;> obtain ⟨rfl, rfl⟩ := hK <;> (try split_ifs) <;> first | omega | simp_all
  exact key _ rfl

set_option maxHeartbeats 1000000 in
theorem clr_val {N u w : ℕ} (s t : Bool) {p : ℕ} (hu : 0 < u ∧ u < 2 * N + 2) (hw : 0 < w ∧ w < 2 * N + 2) (hp : p ≤ 2 * N + 2) :
    (if p = (clr N (kd N u s) (kd N w t).sw).2 + 1 then (clr N (kd N u s) (kd N w t).sw).1 else 0) =
      (if w + (2 * N + 2) = u + p then
        (if w = 0 then (if u ≤ N then 2 else 1) else if u = N + 1 ∧ w = N + 1 then (if s = t then 0 else 2)
          else if w = u then 2 else if (u ≤ N ∧ w ≤ N) ∨ (N + 1 < u ∧ N + 1 < w) then 4 else 2) else 0) := by
  have key : ∀ K : ℕ × ℕ, clr N (kd N u s) (kd N w t).sw = K → (if p = K.2 + 1 then K.1 else 0) =
      (if w + (2 * N + 2) = u + p then
        (if w = 0 then (if u ≤ N then 2 else 1) else if u = N + 1 ∧ w = N + 1 then (if s = t then 0 else 2)
          else if w = u then 2 else if (u ≤ N ∧ w ≤ N) ∨ (N + 1 < u ∧ N + 1 < w) then 4 else 2) else 0) := by
    rintro ⟨k1, k2⟩ hK
    rw [if_neg (c := w = 0) (by omega)]
    unfold kd at hK
    split_ifs at hK <;> simp only [Kd.sw, clr, Prod.mk.injEq] at hK <;> obtain ⟨rfl, rfl⟩ := hK <;> (try split_ifs) <;> first | omega | simp_all
  exact key _ rfl

open Polynomial in
theorem NG_row {N u w p : ℕ} (h h' : Polynomial ℚ) (s t : Bool) (hu0 : 0 < u) (hu : u < 2 * N + 2) (hw : w ≤ 2 * N + 2) (hp : p ≤ 2 * N + 2) :
    NG h h' p (qwd N u s) (qwd N w t) =
      (if w = u + p then (if u ≤ N ∧ N + 1 < w then 2 else if u = N + 1 ∧ w = N + 1 ∧ s ≠ t then 0 else 1) else 0) +
      h * (if w + (2 * N + 2) = u + p then
        (if w = 0 then (if u ≤ N then 2 else 1) else if u = N + 1 ∧ w = N + 1 then (if s = t then 0 else 2)
          else if w = u then 2 else if (u ≤ N ∧ w ≤ N) ∨ (N + 1 < u ∧ N + 1 < w) then 4 else 2) else 0) := by
  have hU := kd_ok s hu0 hu
  have el : (gD (X : (Polynomial ℚ)[X]) .l ((kd N u s).wd N) (os N, .o)) = ((if u ≤ N then 2 else 1 : ℕ) : (Polynomial ℚ)[X]) * X ^ (2 * N + 2 - u) := by
    rw [gD_l_kd _ hU]
    unfold kd
    by_cases h1 : u ≤ N
    · rw [if_pos h1, if_pos h1]
      simp only [cl]
      rw [show 2 * N + 1 - (u - 1) = 2 * N + 2 - u by omega]
    · rw [if_neg h1, if_neg h1]
      by_cases h2 : u = N + 1
      · rw [if_pos h2]
        simp only [cl]
        rw [show 2 * N + 2 - u = N + 1 by omega]
      · rw [if_neg h2]
        simp only [cl]
        rw [show 2 * N + 2 - u = 2 * N + 1 - u + 1 by omega]
  unfold NG opG
  rw [qwd, if_neg (by omega), if_neg (by omega)]
  have e1 : ∀ k : ℕ, k = (if u ≤ N then 2 else 1) → (k : Polynomial ℚ) = if u ≤ N then 2 else 1 := by
    rintro k rfl; split_ifs <;> rfl
  by_cases h0 : w = 0
  · subst h0
    rw [qwd, if_pos rfl]
    simp only [opGE, kerE, opGO, kerO, swD, L3.sw]
    rw [el, zero_add, coeff_C_mul, coeff_num, if_neg (c := 0 = u + p) (by omega), zero_add, e1 _ rfl]
    congr 1
    split_ifs <;> first | omega | rfl
  by_cases h2 : w = 2 * N + 2
  · subst h2
    rw [qwd, if_neg (by omega), if_pos rfl]
    simp only [opGE, kerE, opGO, kerO, swD, L3.sw]
    rw [el, add_zero, coeff_num, if_neg (c := 2 * N + 2 + (2 * N + 2) = u + p) (by omega), mul_zero, add_zero, e1 _ rfl]
    split_ifs <;> first | omega | rfl
  have hW := kd_ok (N := N) t (Nat.pos_of_ne_zero h0) (by omega)
  rw [qwd, if_neg h0, if_neg h2]
  have esw : ∀ V : WordD, swD (L3.o :: V.1, V.2) = (L3.o :: (swD V).1, (swD V).2) := fun V => rfl
  rw [esw, Kd.swD_wd]
  simp only [opGE, kerE, opGO, kerO]
  rw [gD_z_kd _ hU hW, gD_lr_kd _ hU (Kd.sw_ok hW), coeff_add, coeff_num, coeff_C_mul, mul_left_comm X, ← pow_succ', coeff_num]
  have cast : ∀ (c : Prop) [Decidable c] (a : ℕ), (if c then (a : Polynomial ℚ) else 0) = ((if c then a else 0 : ℕ) : Polynomial ℚ) := by
    intro c _ a; split <;> simp
  rw [cast, cast, cz_val s t (by omega) (by omega), clr_val s t (by omega) (by omega) hp]
  push_cast
  rfl

/-- the sign of a type -/
noncomputable def sgT (t : Bool) : Polynomial ℚ := if t then -1 else 1

theorem opS_row {N u w : ℕ} (h : Polynomial ℚ) (s t : Bool) (hu0 : 0 < u) (hu : u < 2 * N + 2) (hw : w ≤ 2 * N + 2) :
    opS h (qwd N u s) (qwd N w t) = if u = N + 1 then (-1) ^ (N + 1) * sgT s * ((if w = 2 * N + 2 then 1 else 0) - h * (if w = 0 then 1 else 0)) else 0 := by
  have hU := kd_ok s hu0 hu
  have el : (sD .l ((kd N u s).wd N) (os N, .o) : Polynomial ℚ) = if u = N + 1 then (-1) ^ (N + 1) * sgT s else 0 := by
    rw [sD_l_kd hU]
    unfold kd
    by_cases h1 : u ≤ N
    · rw [if_pos h1, if_neg (by omega)]; rfl
    · rw [if_neg h1]
      by_cases h2 : u = N + 1
      · rw [if_pos h2, if_pos h2]
        cases s <;> simp [cs, sgT, pow_succ]
      · rw [if_neg h2, if_neg h2]; rfl
  unfold opS
  rw [qwd, if_neg (by omega), if_neg (by omega)]
  by_cases h0 : w = 0
  · subst h0
    rw [qwd, if_pos rfl]
    simp only [opSE, kerSE, opSO, kerSO, swD, L3.sw]
    rw [el, if_neg (c := 0 = 2 * N + 2) (by omega), if_pos trivial]
    split <;> ring
  by_cases h2 : w = 2 * N + 2
  · subst h2
    rw [qwd, if_neg (by omega), if_pos rfl]
    simp only [opSE, kerSE, opSO, kerSO, swD, L3.sw]
    rw [el, if_neg h0]
    split <;> simp
  rw [qwd, if_neg h0, if_neg h2]
  have esw : ∀ V : WordD, swD (L3.o :: V.1, V.2) = (L3.o :: (swD V).1, (swD V).2) := fun V => rfl
  rw [esw]
  simp only [opSE, kerSE, opSO, kerSO]
  rw [if_neg h0, if_neg h2]
  simp

end Verif
