import Verif.Proofs.StableBC
import Verif.Props.CompareBD
import Verif.Proofs.Pfaff
import Verif.Proofs.RelationsQ
import Verif.Spec.QPieri
/-!
# From OG(n+1,2n+2) to OG(n,2n+2)

A maximal isotropic subspace contains many subspaces of dimension one less. The map of the rings on words: the first letter `a` becomes `o`.
-/

namespace Verif
open Spec

/-- the image of a word of a maximal isotropic subspace -/
def phiU : List L3 → WordD
  | [] => ([], .o)
  | .b :: u => bD (phiU u)
  | _ :: u => (.o :: u, .a)

section weights
variable {R : Type*} [CommRing R]

/-- `1` if the second word is the image of the first -/
def indU : List L3 → WordD → R
  | [], ([], .o) => 1
  | .b :: v, (.b :: w, i) => indU v (w, i)
  | .a :: v, (.o :: w, .a) => if v = w then 1 else 0
  | _, _ => 0

/-- `sD .r (phiU v) W` -/
def rU : List L3 → WordD → R
  | [], ([], .a) => 1
  | [], ([], .b) => -1
  | .a :: v, (.b :: w, .a) => if v = w then 1 else 0
  | _, _ => 0

/-- `sD .z (phiU v) W` -/
def dU : List L3 → WordD → R
  | .b :: v, (.b :: w, i) => dU v (w, i)
  | .b :: v, (.o :: w, i) => rU v (w, i)
  | .a :: v, (.a :: w, i) => -indU v (w, i)
  | _, _ => 0

theorem wtS_diag (e : St → R) : ∀ {v w : List L3}, colsW 0 v = 0 → colsW 0 w = 0 → wtS e .z v w = if v = w then e .z else 0 := by
  intro v
  induction v with
  | nil => intro w _ _; cases w <;> simp [wtS]
  | cons p v ih =>
    intro w hv hw
    cases w with
    | nil => simp [wtS]
    | cons q w =>
      have h1 := cols0_cons hv
      have h2 := cols0_cons hw
      cases p <;> cases q <;> simp_all [wtS, stepSg]

theorem sD_l {v : List L3} (hv : colsW 0 v = 0) : ∀ {w : List L3} {i : L3}, colsD (w, i) = 1 → (sD .l (v, .a) (w, i) : R) = -indU v (w, i) := by
  induction v with
  | nil =>
    intro w i hw
    cases w with
    | nil => cases i <;> simp_all [sD, wtS, endSg, indU, colsD, colsW, L3.k0]
    | cons q w => simp [sD, wtS, indU]
  | cons p v ih =>
    intro w i hw
    have h1 := cols0_cons hv
    cases w with
    | nil => cases p <;> simp [sD, wtS, indU]
    | cons q w =>
      have ih := ih h1.2 (w := w) (i := i)
      cases p
      · exact absurd rfl h1.1
      · cases q
        · have hw0 : colsD (w, i) = 0 := by simpa [colsD, colsW] using hw
          have hi : i ≠ .o := by
            rintro rfl
            have : ∀ w, 1 ≤ colsW 1 w := by
              intro w
              induction w with
              | nil => simp [colsW]
              | cons q w ih => cases q <;> simp [colsW] <;> omega
            have := this w
            simp only [colsD, L3.k0] at hw0
            omega
          have hw1 : colsW 0 w = 0 := by cases i <;> simp_all [colsD, L3.k0]
          have := wtS_diag (fun t => (endSg t .a i : R)) h1.2 hw1
          cases i
          · exact absurd rfl hi
          · simp only [sD, wtS, stepSg, indU]; rw [this]; split <;> simp [endSg]
          · simp only [sD, wtS, stepSg, indU]; rw [this]; simp [endSg]
        · simp [sD, wtS, stepSg, indU]
        · simp [sD, wtS, stepSg, indU]
      · cases q
        · simp [sD, wtS, stepSg, indU]
        · simp [sD, wtS, stepSg, indU]
        · simp only [sD, wtS, stepSg, indU]
          rw [← ih (by simpa [colsD, colsW] using hw)]
          simp [sD]

theorem sD_r {v : List L3} (hv : colsW 0 v = 0) {w : List L3} {i : L3} (hw : colsW 0 w = 0) (hi : i ≠ .o) :
    (sD .r (phiU v) (w, i) : R) = rU v (w, i) := by
  cases v with
  | nil => cases w <;> cases i <;> simp_all [phiU, sD, wtS, endSg, rU]
  | cons p v =>
    have h1 := cols0_cons hv
    cases w with
    | nil => cases p <;> simp_all [phiU, bD, sD, wtS, rU]
    | cons q w =>
      have h2 := cols0_cons hw
      cases p
      · exact absurd rfl h1.1
      · cases q
        · exact absurd rfl h2.1
        · simp [phiU, sD, wtS, stepSg, rU]
        · have := wtS_diag (fun t => (endSg t .a i : R)) h1.2 h2.2
          cases i
          · exact absurd rfl hi
          · simp only [phiU, sD, wtS, stepSg, rU]; rw [this]; simp [endSg]
          · simp only [phiU, sD, wtS, stepSg, rU]; rw [this]; simp [endSg]
      · cases q <;> simp [phiU, bD, sD, wtS, stepSg, rU]

/-- the two conditions on the remaining letters after an `o` -/
theorem after_o {w : List L3} {i : L3} (h : colsD (.o :: w, i) = 1) : colsW 0 w = 0 ∧ i ≠ .o := by
  have hw0 : colsW i.k0 w = 0 := by simpa [colsD, colsW] using h
  have hi : i ≠ .o := by
    rintro rfl
    have : ∀ w, 1 ≤ colsW 1 w := by
      intro w
      induction w with
      | nil => simp [colsW]
      | cons q w ih => cases q <;> simp [colsW] <;> omega
    have := this w
    simp only [L3.k0] at hw0
    omega
  refine ⟨?_, hi⟩
  cases i <;> simp_all [L3.k0]

theorem sD_phiU {v : List L3} (hv : colsW 0 v = 0) : ∀ {w : List L3} {i : L3}, colsD (w, i) = 1 → (sD .z (phiU v) (w, i) : R) = dU v (w, i) := by
  induction v with
  | nil => intro w i hw; cases w <;> cases i <;> simp_all [phiU, sD, wtS, endSg, dU, colsD, colsW, L3.k0]
  | cons p v ih =>
    intro w i hw
    have h1 := cols0_cons hv
    cases w with
    | nil => cases p <;> simp_all [phiU, bD, sD, wtS, dU]
    | cons q w =>
      cases p
      · exact absurd rfl h1.1
      · cases q
        · simp [phiU, sD, wtS, stepSg, dU]
        · simp only [dU]
          rw [← sD_l h1.2 (by simpa [colsD, colsW] using hw)]
          simp [phiU, sD, wtS, stepSg]
        · simp [phiU, sD, wtS, stepSg, dU]
      · cases q
        · have h3 := after_o hw
          simp only [dU]
          rw [← sD_r h1.2 h3.1 h3.2]
          simp [phiU, bD, sD, wtS, stepSg]
        · simp [phiU, bD, sD, wtS, stepSg, dU]
        · simp only [dU]
          rw [← ih h1.2 (by simpa [colsD, colsW] using hw)]
          simp [phiU, bD, sD, wtS, stepSg]

/-! ### The first matrix on images -/

theorem gD_ab (x : R) {u : List L3} (hu : colsW 0 u = 0) : ∀ {w : List L3}, colsW 0 w = 0 → ∀ {s : St}, s = .z ∨ s = .lr → gD x s (u, .a) (w, .b) = 0 := by
  induction u with
  | nil =>
    intro w hw s hs
    cases w with
    | nil => rcases hs with rfl | rfl <;> simp [gD, wtE, endG]
    | cons q w => simp [gD, wtE]
  | cons p u ih =>
    intro w hw s hs
    have h1 := cols0_cons hu
    cases w with
    | nil => simp [gD, wtE]
    | cons q w =>
      have h2 := cols0_cons hw
      have iz := ih h1.2 h2.2 (Or.inl rfl)
      have il := ih h1.2 h2.2 (Or.inr rfl)
      simp only [gD] at iz il
      rcases hs with rfl | rfl <;> cases p <;> cases q <;> simp_all [gD, wtE, step]

/-- the weight for the first matrix after an `o` -/
theorem gD_ai (x : R) {u w : List L3} (hu : colsW 0 u = 0) (hw : colsW 0 w = 0) {i : L3} (hi : i ≠ .o) {s : St} (hs : s = .z ∨ s = .lr) :
    gD x s (u, .a) (w, i) = if i = .a then wt 2 x s u w else 0 := by
  cases i
  · exact absurd rfl hi
  · rw [gD_aa, if_pos rfl]
  · rw [gD_ab x hu hw hs, if_neg (by simp)]

/-- a sum over all words with the letter `a` replaced -/
noncomputable def sI (x : R) (s : St) (u : List L3) (W : WordD) : R := sumW u.length (fun v => wt 2 x s u v * indU v W)

theorem sumW_ite (n : ℕ) (f : List L3 → R) {w : List L3} (hw : w.length = n) : sumW n (fun v => f v * if v = w then 1 else 0) = f w := by
  induction n generalizing f w with
  | zero =>
    obtain rfl := List.length_eq_zero_iff.1 hw
    simp [sumW]
  | succ n ih =>
    cases w with
    | nil => simp at hw
    | cons q w =>
      have hw : w.length = n := by simpa using hw
      have z : ∀ p : L3, p ≠ q → sumW n (fun v => f (p :: v) * if (p :: v) = (q :: w) then 1 else 0) = 0 := by
        intro p hp
        refine (sumW_congr (g := fun _ => 0) (fun v _ => by simp [hp])).trans (sumW_zero n)
      have y : sumW n (fun v => f (q :: v) * if (q :: v) = (q :: w) then 1 else 0) = f (q :: w) := by
        rw [← ih (fun v => f (q :: v)) hw]
        exact sumW_congr (fun v _ => by simp)
      unfold sumW
      cases q
      · rw [y, z .a (by simp), z .b (by simp)]; ring
      · rw [y, z .o (by simp), z .b (by simp)]; ring
      · rw [y, z .o (by simp), z .a (by simp)]; ring

theorem gD_l (x : R) {u : List L3} (hu : colsW 0 u = 0) : ∀ {w : List L3} {i : L3}, w.length = u.length → colsD (w, i) = 1 →
    gD x .l (u, .a) (w, i) = x * sI x .z u (w, i) := by
  induction u with
  | nil =>
    intro w i hl hw
    obtain rfl := List.length_eq_zero_iff.1 hl
    cases i <;> simp_all [gD, wtE, endG, sI, sumW, wt, endW, indU, colsD, colsW, L3.k0]
  | cons p u ih =>
    intro w i hl hw
    have h1 := cols0_cons hu
    cases w with
    | nil => simp at hl
    | cons q w =>
      have hl' : w.length = u.length := by simpa using hl
      cases p
      · exact absurd rfl h1.1
      · cases q
        · have h3 := after_o hw
          have e := gD_ai x h1.2 h3.1 h3.2 (Or.inl rfl)
          cases i
          · exact absurd rfl h3.2
          · simp only [sI, List.length_cons, sumW, wt, step, indU, pow_zero, one_mul, mul_zero, zero_mul, sumW_zero, zero_add, add_zero, sumW_ite _ _ hl']
            rw [if_pos rfl] at e
            rw [← e]
            simp [gD, wtE, step]
          · simp only [sI, List.length_cons, sumW, wt, step, indU, pow_zero, one_mul, mul_zero, zero_mul, sumW_zero, zero_add, add_zero]
            rw [if_neg (by simp)] at e
            simp only [gD] at e
            simp [gD, wtE, step, e]
        · simp [gD, wtE, sI, sumW, wt, step, indU, sumW_zero]
        · simp [gD, wtE, sI, sumW, wt, step, indU, sumW_zero]
      · cases q
        · have h3 := after_o hw
          have e := gD_ai x h1.2 h3.1 h3.2 (Or.inr rfl)
          cases i
          · exact absurd rfl h3.2
          · simp only [sI, List.length_cons, sumW, wt, step, indU, pow_zero, one_mul, mul_zero, zero_mul, sumW_zero, zero_add, add_zero, sumW_ite _ _ hl']
            rw [if_pos rfl] at e
            rw [← e]
            simp [gD, wtE, step]
          · simp only [sI, List.length_cons, sumW, wt, step, indU, pow_zero, one_mul, mul_zero, zero_mul, sumW_zero, zero_add, add_zero]
            rw [if_neg (by simp)] at e
            simp only [gD] at e
            simp [gD, wtE, step, e]
        · simp [gD, wtE, sI, sumW, wt, step, indU, sumW_zero]
        · have e := ih h1.2 hl' (i := i) (by simpa [colsD, colsW] using hw)
          simp only [sI, List.length_cons, sumW, wt, step, indU, pow_zero, one_mul, mul_zero, zero_mul, sumW_zero, zero_add, add_zero]
          simp only [sI] at e
          rw [← e]
          simp [gD, wtE, step]

theorem gD_lr (x : R) {u : List L3} (hu : colsW 0 u = 0) : ∀ {w : List L3} {i : L3}, w.length = u.length → colsD (w, i) = 1 →
    gD x .lr (phiU u) (w, i) = x * sI x .lr u (w, i) := by
  induction u with
  | nil =>
    intro w i hl hw
    obtain rfl := List.length_eq_zero_iff.1 hl
    cases i <;> simp_all [phiU, gD, wtE, endG, sI, sumW, wt, endW, indU, colsD, colsW, L3.k0]
    ring
  | cons p u ih =>
    intro w i hl hw
    have h1 := cols0_cons hu
    cases w with
    | nil => simp at hl
    | cons q w =>
      have hl' : w.length = u.length := by simpa using hl
      cases p
      · exact absurd rfl h1.1
      · cases q
        · have h3 := after_o hw
          have e := gD_ai x h1.2 h3.1 h3.2 (Or.inr rfl)
          cases i
          · exact absurd rfl h3.2
          · simp only [sI, List.length_cons, sumW, wt, step, indU, pow_zero, pow_one, one_mul, mul_zero, zero_mul, sumW_zero, zero_add, add_zero, sumW_ite _ _ hl']
            rw [if_pos rfl] at e
            rw [← e]
            simp [phiU, gD, wtE, step]
            ring
          · simp only [sI, List.length_cons, sumW, wt, step, indU, pow_zero, one_mul, mul_zero, zero_mul, sumW_zero, zero_add, add_zero]
            rw [if_neg (by simp)] at e
            simp only [gD] at e
            simp [phiU, gD, wtE, step, e]
        · simp [phiU, gD, wtE, sI, sumW, wt, step, indU, sumW_zero]
        · have e := gD_l x h1.2 hl' (i := i) (by simpa [colsD, colsW] using hw)
          simp only [sI, List.length_cons, sumW, wt, step, indU, pow_zero, pow_one, one_mul, mul_zero, zero_mul, sumW_zero, zero_add, add_zero, mul_assoc, sumW_mul]
          simp only [sI] at e
          simp only [phiU, gD, wtE, step, pow_one] at e ⊢
          rw [e]
          ring
      · cases q
        · simp [phiU, bD, gD, wtE, sI, sumW, wt, step, indU, sumW_zero]
        · simp [phiU, bD, gD, wtE, sI, sumW, wt, step, indU, sumW_zero]
        · have e := ih h1.2 hl' (i := i) (by simpa [colsD, colsW] using hw)
          simp only [sI, List.length_cons, sumW, wt, step, indU, pow_zero, pow_one, one_mul, mul_zero, zero_mul, sumW_zero, zero_add, add_zero, mul_assoc, sumW_mul]
          simp only [sI] at e
          simp only [phiU, bD, gD, wtE, step, pow_one, pow_zero, one_mul] at e ⊢
          rw [e]

theorem gD_r (x : R) {u : List L3} (hu : colsW 0 u = 0) {w : List L3} {i : L3} (hl : w.length = u.length) (hw : colsW 0 w = 0) (hi : i ≠ .o) :
    gD x .r (phiU u) (w, i) = (if i = .a then wt 2 x .lr u w else 0) - x * sumW u.length (fun v => wt 2 x .z u v * rU v (w, i)) := by
  cases u with
  | nil =>
    obtain rfl := List.length_eq_zero_iff.1 hl
    cases i
    · exact absurd rfl hi
    · simp [phiU, gD, wtE, endG, sumW, wt, endW, rU]; ring
    · simp [phiU, gD, wtE, endG, sumW, wt, endW, rU]
  | cons p u =>
    have h1 := cols0_cons hu
    cases w with
    | nil => simp at hl
    | cons q w =>
      have h2 := cols0_cons hw
      have hl' : w.length = u.length := by simpa using hl
      cases p
      · exact absurd rfl h1.1
      · cases q
        · exact absurd rfl h2.1
        · have e := gD_ai x h1.2 h2.2 hi (Or.inr rfl)
          simp only [gD] at e
          cases i <;> simp_all [phiU, gD, wtE, sumW, wt, step, rU, sumW_zero]
        · have e := gD_ai x h1.2 h2.2 hi (Or.inl rfl)
          simp only [gD] at e
          cases i
          · exact absurd rfl hi
          · simp only [List.length_cons, sumW, wt, step, rU, pow_zero, pow_one, one_mul, mul_zero, zero_mul, sumW_zero, zero_add, add_zero, sumW_ite _ _ hl', phiU, gD, wtE]
            rw [e]
            simp only [if_true]
            ring
          · simp_all [phiU, gD, wtE, sumW, wt, step, rU, sumW_zero]
      · cases q
        · exact absurd rfl h2.1
        · cases i <;> simp_all [phiU, bD, gD, wtE, sumW, wt, step, rU, sumW_zero]
        · cases i
          · exact absurd rfl hi
          · simp only [List.length_cons, sumW, wt, step, rU, pow_zero, pow_one, one_mul, mul_zero, zero_mul, sumW_zero, zero_add, add_zero, sumW_ite _ _ hl', phiU, bD, gD, wtE]
            simp
          · simp_all [phiU, bD, gD, wtE, sumW, wt, step, rU, sumW_zero]

/-- **The first matrix on images.** -/
theorem gD_phiU (x : R) {u : List L3} (hu : colsW 0 u = 0) : ∀ {w : List L3} {i : L3}, w.length = u.length → colsD (w, i) = 1 →
    gD x .z (phiU u) (w, i) = sI x .z u (w, i) - x * sumW u.length (fun v => wt 2 x .z u v * dU v (w, i)) := by
  induction u with
  | nil =>
    intro w i hl hw
    obtain rfl := List.length_eq_zero_iff.1 hl
    cases i <;> simp_all [phiU, gD, wtE, endG, sI, sumW, wt, endW, indU, dU, colsD, colsW, L3.k0]
  | cons p u ih =>
    intro w i hl hw
    have h1 := cols0_cons hu
    cases w with
    | nil => simp at hl
    | cons q w =>
      have hl' : w.length = u.length := by simpa using hl
      cases p
      · exact absurd rfl h1.1
      · cases q
        · have h3 := after_o hw
          have e := gD_ai x h1.2 h3.1 h3.2 (Or.inl rfl)
          simp only [gD] at e
          cases i
          · exact absurd rfl h3.2
          · simp only [sI, List.length_cons, sumW, wt, step, indU, dU, pow_zero, pow_one, one_mul, mul_zero, zero_mul, sumW_zero, zero_add, add_zero, sumW_ite _ _ hl', phiU, gD, wtE, sub_zero]
            rw [e, if_pos rfl]
          · simp only [sI, List.length_cons, sumW, wt, step, indU, dU, pow_zero, pow_one, one_mul, mul_zero, zero_mul, sumW_zero, zero_add, add_zero, phiU, gD, wtE, sub_zero]
            rw [e, if_neg (by simp)]
        · have e := gD_l x h1.2 hl' (i := i) (by simpa [colsD, colsW] using hw)
          simp only [sI, gD] at e
          have n1 : sumW u.length (fun v => wt 2 x .z u v * -indU v (w, i)) = -sumW u.length (fun v => wt 2 x .z u v * indU v (w, i)) := by
            rw [neg_eq_neg_one_mul, ← sumW_mul]
            exact sumW_congr (fun v _ => by ring)
          simp only [sI, List.length_cons, sumW, wt, step, indU, dU, pow_zero, pow_one, one_mul, mul_zero, zero_mul, sumW_zero, zero_add, add_zero, phiU, gD, wtE]
          rw [e, n1]
          ring
        · simp [phiU, gD, wtE, sI, sumW, wt, step, indU, dU, sumW_zero]
      · cases q
        · have h3 := after_o hw
          have e := gD_r x h1.2 hl' h3.1 h3.2
          simp only [gD] at e
          cases i
          · exact absurd rfl h3.2
          · simp only [sI, List.length_cons, sumW, wt, step, indU, dU, pow_zero, pow_one, one_mul, mul_zero, zero_mul, sumW_zero, zero_add, add_zero, sumW_ite _ _ hl', phiU, bD, gD, wtE]
            rw [e, if_pos rfl]
          · simp only [sI, List.length_cons, sumW, wt, step, indU, dU, pow_zero, pow_one, one_mul, mul_zero, zero_mul, sumW_zero, zero_add, add_zero, phiU, bD, gD, wtE]
            rw [e, if_neg (by simp)]
        · have e := gD_lr x h1.2 hl' (i := i) (by simpa [colsD, colsW] using hw)
          simp only [sI, gD] at e
          have n1 : sumW u.length (fun v => wt 2 x .lr u v * -indU v (w, i)) = -sumW u.length (fun v => wt 2 x .lr u v * indU v (w, i)) := by
            rw [neg_eq_neg_one_mul, ← sumW_mul]
            exact sumW_congr (fun v _ => by ring)
          simp only [sI, List.length_cons, sumW, wt, step, indU, dU, pow_zero, pow_one, one_mul, mul_zero, zero_mul, sumW_zero, zero_add, add_zero, phiU, bD, gD, wtE]
          rw [e, n1]
          ring
        · have e := ih h1.2 hl' (i := i) (by simpa [colsD, colsW] using hw)
          simp only [sI, gD] at e
          simp only [sI, List.length_cons, sumW, wt, step, indU, dU, pow_zero, pow_one, one_mul, mul_zero, zero_mul, sumW_zero, zero_add, add_zero, phiU, bD, gD, wtE]
          rw [e]

end weights

theorem indU_eq {R : Type*} [CommRing R] {v : List L3} (hv : colsW 0 v = 0) : ∀ {w : List L3} {i : L3}, (indU v (w, i) : R) = if phiU v = (w, i) then 1 else 0 := by
  induction v with
  | nil => intro w i; cases w <;> cases i <;> simp [indU, phiU]
  | cons p v ih =>
    intro w i
    have h1 := cols0_cons hv
    cases p
    · exact absurd rfl h1.1
    · cases w with
      | nil => simp [indU, phiU]
      | cons q w => cases q <;> cases i <;> simp [indU, phiU]
    · cases w with
      | nil => simp [indU, phiU, bD]
      | cons q w =>
        cases q
        · simp [indU, phiU, bD]
        · simp [indU, phiU, bD]
        · simp only [indU, ih h1.2, phiU, bD]
          congr 1
          simp [Prod.ext_iff]

theorem phiU_mem {n : ℕ} {u : List L3} (hu : u ∈ Wd n 0) : phiU u ∈ WdD n 1 := by
  induction u generalizing n with
  | nil =>
    rw [mem_Wd] at hu
    rw [mem_WdD]
    exact ⟨hu.1, rfl, by simp⟩
  | cons p u ih =>
    rw [mem_Wd] at hu
    obtain ⟨h1, h2⟩ := cols0_cons hu.2
    cases n with
    | zero => simp at hu
    | succ n =>
      have hl : u.length = n := by simpa using hu.1
      cases p
      · exact absurd rfl h1
      · rw [mem_WdD]
        exact ⟨by simpa [phiU] using hl, by simp [phiU, colsD, colsW, L3.k0, h2], by simp⟩
      · exact bD_mem (ih (mem_Wd.2 ⟨hl, h2⟩))

theorem labW_len (u : List L3) : (labW u).length ≤ u.length := by
  induction u with
  | nil => simp [labW, shapeW]
  | cons p u ih =>
    cases p
    · have h1 := partClip_length_le (shapeW 0 0 (.o :: u))
      have h2 : ∀ u : List L3, (shapeW 0 0 u).length ≤ u.length := by
        intro u
        induction u with
        | nil => simp [shapeW]
        | cons p u ih => cases p <;> simp [shapeW] <;> omega
      exact h1.trans (h2 _)
    · rw [labW_a]; simpa using ih
    · rw [labW_b]; simp; omega

theorem shapeW_lab {u : List L3} (hu : colsW 0 u = 0) : shapeW 0 0 u = labW u ++ List.replicate (u.length - (labW u).length) 0 := by
  induction u with
  | nil => rfl
  | cons p u ih =>
    obtain ⟨h1, h2⟩ := cols0_cons hu
    cases p
    · exact absurd rfl h1
    · rw [labW_a]
      simp only [shapeW, ih h2, List.length_cons, List.cons_append, Nat.add_sub_add_right]
    · have := labW_len u
      rw [labW_b]
      simp only [shapeW, ih h2, List.length_cons, List.append_assoc]
      rw [show u.length + 1 - (labW u).length = (u.length - (labW u).length) + 1 by omega, List.replicate_succ']

/-- the class of the image -/
theorem labD_phiU {u : List L3} (hu : colsW 0 u = 0) : labD (phiU u) = rowToColumn (labW u) := by
  induction u with
  | nil => rfl
  | cons p u ih =>
    obtain ⟨h1, h2⟩ := cols0_cons hu
    cases p
    · exact absurd rfl h1
    · have := labW_len u
      rw [labW_a, h2]
      simp only [phiU, labD, clD, shD, L3.k0, L3.r0, reduceCtorEq, if_false, List.append_nil, shapeW, rowToColumn]
      rw [shapeW_one h2, shapeW_lab h2, List.append_assoc, ← List.replicate_succ', List.map_append, List.map_replicate,
        show ((u.length : ℤ) + ((0 : ℕ) : ℤ) + 1 - ((labW u).length : ℤ)).toNat = u.length - (labW u).length + 1 by omega,
        List.replicate_succ', ← List.append_assoc, zero_add, partClip_concat_ne _ _ (by simp), List.replicate_succ', ← List.append_assoc]
    · rw [labW_b]
      exact (labD_bD _).trans (ih h2)

section matrices
open Polynomial
variable {n : ℕ}

/-- the matrix of twice the special class of a maximal orthogonal Grassmannian -/
noncomputable def Mt (p : ℕ) (u v : List L3) : Polynomial ℚ := (wt 2 (X : (Polynomial ℚ)[X]) .z u v).coeff p

theorem Mt_zero {u v : List L3} (hl : u.length = v.length) : Mt 0 u v = if u = v then 1 else 0 := by
  unfold Mt
  rw [show (2 : (Polynomial ℚ)[X]) = C 2 from (map_ofNat _ 2).symm, wt_zero _ _ _ _ hl]
  simp

theorem MB_Mt (p : ℕ) (hp : p ≠ 0) (u v : List L3) : MB 0 p u v = C (1 / 2) * Mt p u v := by
  unfold MB Mt opW
  rw [if_neg (by omega), show (2 : (Polynomial ℚ)[X]) = C 2 from (map_ofNat _ 2).symm]
  simp

theorem Mt_succ {p : ℕ} {u : List L3} (hu : u ∈ Wd n 0) {W : WordD} (hW : W ∈ WdD n 1) :
    C (gcD 1 (p + 1) (phiU u) W) + ∑ v ∈ Wd n 0, Mt p u v * C (sD .z (phiU v) W) =
      ∑ v ∈ Wd n 0, Mt (p + 1) u v * if phiU v = W then 1 else 0 := by
  rw [gcD_coeff (p + 1) (phiU_mem hu) hW]
  have hu' := mem_Wd.1 hu
  have hW' := mem_WdD.1 hW
  rcases W with ⟨w, i⟩
  have key := gD_phiU (X : (Polynomial ℚ)[X]) hu'.2 (w := w) (i := i) (by have := hW'.1; simp only at this; omega) hW'.2.1
  have z : ∀ v : List L3, v.length = n → colsW 0 v ≠ 0 → wt 2 (X : (Polynomial ℚ)[X]) .z u v = 0 :=
    fun v h1 h2 => (wt_cols _ _ (by omega) (by omega)).1
  rw [sI, hu'.1, sumW_Wd (k := 0) _ (fun v h1 h2 => by rw [z v h1 h2, zero_mul]),
    sumW_Wd (k := 0) _ (fun v h1 h2 => by rw [z v h1 h2, zero_mul])] at key
  rw [key, coeff_sub, coeff_X_mul, finsetSum_coeff, finsetSum_coeff]
  have e1 : ∀ v ∈ Wd n 0, (wt 2 (X : (Polynomial ℚ)[X]) .z u v * indU v (w, i)).coeff (p + 1) = Mt (p + 1) u v * if phiU v = (w, i) then 1 else 0 := by
    intro v hv
    rw [indU_eq (mem_Wd.1 hv).2]
    unfold Mt
    split <;> simp
  have e2 : ∀ v ∈ Wd n 0, (wt 2 (X : (Polynomial ℚ)[X]) .z u v * dU v (w, i)).coeff p = Mt p u v * C (sD .z (phiU v) (w, i)) := by
    intro v hv
    rw [← sD_phiU (mem_Wd.1 hv).2 hW'.2.1, ← sD_map C, coeff_mul_C, ← sD_map C]
    rfl
  rw [Finset.sum_congr rfl e1, Finset.sum_congr rfl e2]
  ring

/-- the image of twice the product with a special class -/
noncomputable def fSpin (n p : ℕ) (u : List L3) : LMod := ∑ v ∈ Wd n 0, Finsupp.single (labD (phiU v)) (Mt p u v)

theorem fSpin_zero {u : List L3} (hu : u ∈ Wd n 0) : fSpin n 0 u = Finsupp.single (labD (phiU u)) 1 := by
  unfold fSpin
  rw [Finset.sum_eq_single u]
  · rw [Mt_zero rfl, if_pos rfl]
  · intro v hv h
    rw [Mt_zero (by rw [(mem_Wd.1 hu).1, (mem_Wd.1 hv).1]), if_neg (Ne.symm h), Finsupp.single_zero]
  · exact fun h => absurd hu h

theorem cfD_one {p : ℤ} (hp : p ≠ 0) (U W : WordD) : cfD 1 p U W = 1 / 2 * (gcD 1 p.natAbs U W + beD 1 p * sD .z U W) := by
  rw [cfD_eq, alD, if_neg (by omega)]

/-- the operator of the difference of the two classes of degree one -/
theorem t_sub {U : WordD} (hU : U ∈ WdD n 1) :
    tDD 0 0 n 1 1 (labD U) - tDD 0 0 n 1 (-1) (labD U) = ∑ W ∈ WdD n 1, Finsupp.single (labD W) (C (sD .z U W)) := by
  rw [tDD_lab 0 0 _ hU, tDD_lab 0 0 _ hU, ← Finset.sum_sub_distrib]
  refine Finset.sum_congr rfl (fun W hW => ?_)
  rw [MDc_eq 1 hU hW, MDc_eq (-1) hU hW, ← Finsupp.single_sub, ← C_sub]
  congr 2
  rw [cfD_one (by omega), cfD_one (by omega)]
  simp [beD, sgD]
  ring

/-- the operators of the sums of the classes of one degree -/
theorem t_add {p : ℕ} {U : WordD} (hU : U ∈ WdD n 1) :
    (if p = 0 then tDD 0 0 n 1 1 (labD U) + tDD 0 0 n 1 (-1) (labD U) else (2 : Polynomial ℚ) • tDD 0 0 n 1 ((p + 1 : ℕ) : ℤ) (labD U)) =
      ∑ W ∈ WdD n 1, Finsupp.single (labD W) (C (gcD 1 (p + 1) U W)) := by
  by_cases hp : p = 0
  · subst hp
    rw [if_pos rfl, tDD_lab 0 0 _ hU, tDD_lab 0 0 _ hU, ← Finset.sum_add_distrib]
    refine Finset.sum_congr rfl (fun W hW => ?_)
    rw [MDc_eq 1 hU hW, MDc_eq (-1) hU hW, ← Finsupp.single_add, ← C_add]
    congr 2
    rw [cfD_one (by omega), cfD_one (by omega)]
    simp [beD, sgD]
    ring
  · rw [if_neg hp, tDD_lab 0 0 _ hU, Finset.smul_sum]
    refine Finset.sum_congr rfl (fun W hW => ?_)
    rw [MDc_eq _ hU hW, Finsupp.smul_single, smul_eq_mul, show (2 : Polynomial ℚ) = C 2 from (map_ofNat _ 2).symm, ← C_mul]
    congr 2
    rw [cfD_one (by omega)]
    have : beD 1 ((p + 1 : ℕ) : ℤ) = 0 := by
      unfold beD
      rw [if_neg (by omega)]
    rw [this, Int.natAbs_natCast]
    ring

theorem fSpin_succ {p : ℕ} {u : List L3} (hu : u ∈ Wd n 0) :
    fSpin n (p + 1) u = (if p = 0 then tDD 0 0 n 1 1 (labD (phiU u)) + tDD 0 0 n 1 (-1) (labD (phiU u))
        else (2 : Polynomial ℚ) • tDD 0 0 n 1 ((p + 1 : ℕ) : ℤ) (labD (phiU u))) +
      (lin (tDD 0 0 n 1 1) (fSpin n p u) - lin (tDD 0 0 n 1 (-1)) (fSpin n p u)) := by
  have e : ∀ t : List Int → LMod, lin t (fSpin n p u) = ∑ v ∈ Wd n 0, Mt p u v • t (labD (phiU v)) := by
    intro t
    unfold fSpin
    rw [map_sum]
    refine Finset.sum_congr rfl (fun v _ => ?_)
    simp [lin]
  rw [t_add (phiU_mem hu), e, e, ← Finset.sum_sub_distrib]
  have e2 : ∀ v ∈ Wd n 0, Mt p u v • tDD 0 0 n 1 1 (labD (phiU v)) - Mt p u v • tDD 0 0 n 1 (-1) (labD (phiU v)) =
      ∑ W ∈ WdD n 1, Finsupp.single (labD W) (Mt p u v * C (sD .z (phiU v) W)) := by
    intro v hv
    rw [← smul_sub, t_sub (phiU_mem hv), Finset.smul_sum]
    refine Finset.sum_congr rfl (fun W _ => ?_)
    rw [Finsupp.smul_single, smul_eq_mul]
  rw [Finset.sum_congr rfl e2, Finset.sum_comm, ← Finset.sum_add_distrib]
  have e3 : ∀ W ∈ WdD n 1, Finsupp.single (labD W) (C (gcD 1 (p + 1) (phiU u) W)) +
      ∑ v ∈ Wd n 0, Finsupp.single (labD W) (Mt p u v * C (sD .z (phiU v) W)) =
      ∑ v ∈ Wd n 0, Finsupp.single (labD W) (Mt (p + 1) u v * if phiU v = W then 1 else 0) := by
    intro W hW
    rw [← Finsupp.single_finsetSum, ← Finsupp.single_finsetSum, ← Finsupp.single_add, Mt_succ hu hW]
  rw [Finset.sum_congr rfl e3, Finset.sum_comm]
  unfold fSpin
  refine Finset.sum_congr rfl (fun v hv => ?_)
  rw [Finset.sum_eq_single (phiU v)]
  · rw [if_pos rfl, mul_one]
  · intro W _ h
    rw [if_neg (Ne.symm h), mul_zero, Finsupp.single_zero]
  · exact fun h => absurd (phiU_mem hv) h

/-- the map of the modules -/
noncomputable def phiCol : LMod →ₗ[Polynomial ℚ] LMod := lin (fun l => Finsupp.single (rowToColumn l) 1)

theorem phiCol_single (l : List Int) (a : Polynomial ℚ) : phiCol (Finsupp.single l a) = Finsupp.single (rowToColumn l) a := by
  simp [phiCol, lin]

theorem cls_col {l : List Int} (hl : clsBC n 0 l) : clsD n 1 (rowToColumn l) := by
  obtain ⟨u, hu, rfl⟩ := (Wd_cls (Nat.zero_le n) l).1 hl
  rw [← labD_phiU (mem_Wd.1 hu).2]
  exact clsD_labD (phiU_mem hu)

theorem col_inj {l mu : List Int} (hl : clsBC n 0 l) (hmu : clsBC n 0 mu) (h : rowToColumn l = rowToColumn mu) : l = mu := by
  obtain ⟨u, hu, rfl⟩ := (Wd_cls (Nat.zero_le n) l).1 hl
  obtain ⟨v, hv, rfl⟩ := (Wd_cls (Nat.zero_le n) mu).1 hmu
  rw [← labD_phiU (mem_Wd.1 hu).2, ← labD_phiU (mem_Wd.1 hv).2] at h
  have h1 := WdD_inj _ (phiU_mem hu) _ (phiU_mem hv) h
  have inj : ∀ u v : List L3, colsW 0 u = 0 → colsW 0 v = 0 → u.length = v.length → phiU u = phiU v → u = v := by
    intro u
    induction u with
    | nil => intro v _ _ hl _; exact (List.length_eq_zero_iff.1 hl.symm).symm
    | cons p u ih =>
      intro v hu hv hl h
      cases v with
      | nil => simp at hl
      | cons q v =>
        obtain ⟨h1, h2⟩ := cols0_cons hu
        obtain ⟨h3, h4⟩ := cols0_cons hv
        cases p <;> cases q <;> simp_all [phiU, bD]
        exact ih v h4 rfl (Prod.ext h.1 h.2)
  rw [inj u v (mem_Wd.1 hu).2 (mem_Wd.1 hv).2 (by rw [(mem_Wd.1 hu).1, (mem_Wd.1 hv).1]) h1]

/-- **The map respects products.** -/
theorem phiCol_prod {x y : LMod} (hx : ∀ l ∈ x.support, clsBC n 0 l) (hy : ∀ l ∈ y.support, clsBC n 0 l) :
    phiCol ((ringOG n 0 (Nat.zero_le n)).Y.prod x y) = (ringD n 1 (by omega)).Y.prod (phiCol x) (phiCol y) := by
  have e1 : ∀ p l, (ringOG n 0 (Nat.zero_le n)).Y.t p l = tM (Wd n 0) labW (MB 0) p.toNat l := fun _ _ => rfl
  have e2 : ∀ p, (ringD n 1 (by omega)).Y.t p = tDD 0 0 n 1 p := fun _ => rfl
  generalize (ringOG n 0 (Nat.zero_le n)).Y = Y at e1 ⊢
  generalize (ringD n 1 (by omega)).Y = Z at e2 ⊢
  have key : ∀ p : ℕ, p ≤ n → ∃ s : LMod, (∀ nu ∈ s.support, clsD n 1 nu) ∧
      ∀ u ∈ Wd n 0, fSpin n p u = Z.prod s (Finsupp.single (labD (phiU u)) 1) := by
    intro p
    induction p with
    | zero =>
      intro _
      refine ⟨Finsupp.single [] 1, supp_single (clsD_nil (by omega)) 1, fun u hu => ?_⟩
      rw [fSpin_zero hu, GiamSys.one_prod]
    | succ p ih =>
      intro hp
      obtain ⟨s, hs, h⟩ := ih (by omega)
      have s1 : spcD n 1 1 := Or.inl ⟨le_rfl, by push_cast; omega⟩
      have s2 : spcD n 1 (-1) := Or.inr ⟨by omega, by simp⟩
      have s3 : spcD n 1 ((p + 1 : ℕ) : ℤ) := Or.inl ⟨by push_cast; omega, by push_cast; omega⟩
      have cn := clsD_nil (n := n) (k := 1) (by omega)
      have hcl : ∀ q, ∀ nu ∈ (Z.t q []).support, clsD n 1 nu := fun q => Z.closed q []
      have one : ∀ q, spcD n 1 q → ∀ u ∈ Wd n 0, tDD 0 0 n 1 q (labD (phiU u)) = Z.prod (Z.t q []) (Finsupp.single (labD (phiU u)) 1) := by
        intro q hq u hu
        rw [← lin_single_one (Z.t q) [], Z.prod_lin hq (supp_single cn 1) (supp_single (clsD_labD (phiU_mem hu)) 1), GiamSys.one_prod,
          lin_single_one, e2]
      have two : ∀ q, spcD n 1 q → ∀ u ∈ Wd n 0, lin (tDD 0 0 n 1 q) (fSpin n p u) = Z.prod (lin (Z.t q) s) (Finsupp.single (labD (phiU u)) 1) := by
        intro q hq u hu
        rw [h u hu, Z.prod_lin hq hs (supp_single (clsD_labD (phiU_mem hu)) 1), e2]
      have hsub : ∀ nu ∈ (lin (Z.t 1) s - lin (Z.t (-1)) s).support, clsD n 1 nu := by
        intro nu hnu
        rcases Finset.mem_union.1 (Finsupp.support_sub hnu) with h | h
        · exact lin_support (Z.closed 1) s nu h
        · exact lin_support (Z.closed (-1)) s nu h
      by_cases hp0 : p = 0
      · refine ⟨Z.t 1 [] + Z.t (-1) [] + (lin (Z.t 1) s - lin (Z.t (-1)) s), ?_, fun u hu => ?_⟩
        · intro nu hnu
          rcases Finset.mem_union.1 (Finsupp.support_add hnu) with h | h
          · rcases Finset.mem_union.1 (Finsupp.support_add h) with h | h
            · exact hcl _ nu h
            · exact hcl _ nu h
          · exact hsub nu h
        · rw [fSpin_succ hu, if_pos hp0, one _ s1 u hu, one _ s2 u hu, two _ s1 u hu, two _ s2 u hu, GiamSys.prod_add_left,
            GiamSys.prod_add_left, GiamSys.prod_sub_left]
      · refine ⟨(2 : Polynomial ℚ) • Z.t ((p + 1 : ℕ) : ℤ) [] + (lin (Z.t 1) s - lin (Z.t (-1)) s), ?_, fun u hu => ?_⟩
        · intro nu hnu
          rcases Finset.mem_union.1 (Finsupp.support_add hnu) with h | h
          · exact hcl _ nu (Finsupp.support_smul h)
          · exact hsub nu h
        · rw [fSpin_succ hu, if_neg hp0, one _ s3 u hu, two _ s1 u hu, two _ s2 u hu, GiamSys.prod_add_left,
            GiamSys.prod_smul_left, GiamSys.prod_sub_left]
  refine GiamSys.hom Y Z phiCol (fun l hl => ?_) ?_ (fun p hp => ?_) hx hy
  · rw [phiCol_single]
    exact supp_single (cls_col hl) 1
  · rw [phiCol_single]
    rfl
  · obtain ⟨h1, h2⟩ := hp
    obtain ⟨p, rfl⟩ : ∃ p' : ℕ, p = p' := ⟨p.toNat, by omega⟩
    obtain ⟨s, hs, h⟩ := key p (by push_cast at h2; omega)
    refine ⟨(C (1 / 2) : Polynomial ℚ) • s, fun nu hnu => hs nu (Finsupp.support_smul hnu), fun l hl => ?_⟩
    obtain ⟨u, hu, rfl⟩ := (Wd_cls (Nat.zero_le n) l).1 hl
    rw [e1, phiCol_single, ← labD_phiU (mem_Wd.1 hu).2, GiamSys.prod_smul_left, ← h u hu, Int.toNat_natCast, tM_lab _ Wd_inj _ hu,
      map_sum, fSpin, Finset.smul_sum]
    refine Finset.sum_congr rfl (fun v hv => ?_)
    rw [phiCol_single, ← labD_phiU (mem_Wd.1 hv).2, MB_Mt p (by omega), Finsupp.smul_single, smul_eq_mul]

end matrices

end Verif
