import Mathlib.Algebra.BigOperators.Group.List.Basic
import Mathlib.Algebra.Ring.Defs
import Mathlib.Tactic.Ring
import Mathlib.Tactic.LinearCombination
/-!
# A transfer matrix for the Pieri operators of types B and C

A class of an isotropic Grassmannian is a word: for every pair of coordinates `c, N+1-c` one letter that says which of the
two belongs to the index set. The Pieri coefficients are products of local weights along a path through four states, and
the operators for two special classes commute because the two composite transfer matrices are intertwined.
-/

namespace Verif

/-- neither coordinate of the pair, the first one, the second one -/
inductive L3 where
  | o | a | b
deriving DecidableEq, Repr

/-- The state between two letters: whether an interval of the first half and one of the second half is open. -/
inductive St where
  | z | lr | l | r
deriving DecidableEq, Repr

/-- the next state, the exponent of `2` and the exponent of `x` -/
def step : St → L3 → L3 → Option (St × Nat × Nat)
  | .z, .o, .o => some (.z, 0, 0)
  | .z, .o, .a => some (.l, 0, 0)
  | .z, .a, .a => some (.z, 0, 0)
  | .z, .b, .o => some (.r, 0, 0)
  | .z, .b, .a => some (.lr, 0, 0)
  | .z, .b, .b => some (.z, 0, 0)
  | .lr, .o, .o => some (.lr, 0, 2)
  | .lr, .o, .b => some (.l, 1, 1)
  | .lr, .a, .o => some (.r, 1, 1)
  | .lr, .a, .a => some (.lr, 0, 1)
  | .lr, .a, .b => some (.z, 1, 1)
  | .lr, .b, .b => some (.lr, 0, 1)
  | .l, .o, .o => some (.l, 0, 1)
  | .l, .a, .o => some (.z, 0, 1)
  | .l, .b, .o => some (.lr, 0, 1)
  | .l, .b, .b => some (.l, 0, 0)
  | .r, .o, .o => some (.r, 0, 1)
  | .r, .o, .a => some (.lr, 0, 1)
  | .r, .o, .b => some (.z, 0, 1)
  | .r, .a, .a => some (.r, 0, 0)
  | _, _, _ => none

section
variable {R : Type*} [CommRing R]

/-- the weight at the end of the words -/
def endW (c x : R) : St → R
  | .z => 1
  | .lr => c * x
  | _ => 0

/-- the weight of a pair of words, beginning in a state -/
def wt (c x : R) : St → List L3 → List L3 → R
  | s, [], [] => endW c x s
  | s, p :: u, q :: w =>
    match step s p q with
    | some (t, i, j) => 2 ^ i * x ^ j * wt c x t u w
    | none => 0
  | _, _, _ => 0

/-- the sum over all words of length `n` -/
def sumW : Nat → (List L3 → R) → R
  | 0, f => f []
  | n + 1, f => sumW n (fun w => f (.o :: w)) + sumW n (fun w => f (.a :: w)) + sumW n (fun w => f (.b :: w))

theorem sumW_congr {n : Nat} {f g : List L3 → R} (h : ∀ w, w.length = n → f w = g w) : sumW n f = sumW n g := by
  induction n generalizing f g with
  | zero => exact h [] rfl
  | succ n ih =>
    unfold sumW
    rw [ih (fun w hw => h (.o :: w) (by simp [hw])), ih (fun w hw => h (.a :: w) (by simp [hw])),
      ih (fun w hw => h (.b :: w) (by simp [hw]))]

theorem sumW_add (n : Nat) (f g : List L3 → R) : sumW n (fun w => f w + g w) = sumW n f + sumW n g := by
  induction n generalizing f g with
  | zero => rfl
  | succ n ih => unfold sumW; rw [ih, ih, ih]; ring

theorem sumW_mul (n : Nat) (k : R) (f : List L3 → R) : sumW n (fun w => k * f w) = k * sumW n f := by
  induction n generalizing f with
  | zero => rfl
  | succ n ih => unfold sumW; rw [ih, ih, ih]; ring

theorem sumW_zero (n : Nat) : sumW n (fun _ => (0 : R)) = 0 := by
  induction n with
  | zero => rfl
  | succ n ih => unfold sumW; rw [ih]; ring

/-- the composition of two operators, as a matrix entry for every pair of states -/
def comp2 (c x y : R) (s t : St) (u v : List L3) : R :=
  sumW u.length (fun w => wt c x s u w * wt c y t w v)

/-- the contribution of one letter of the middle word -/
def via (c x y : R) (s t : St) (p m q : L3) (u v : List L3) : R :=
  match step s p m, step t m q with
  | some (s', i, j), some (t', i', j') => 2 ^ i * x ^ j * (2 ^ i' * y ^ j') * comp2 c x y s' t' u v
  | _, _ => 0

theorem comp2_nil (c x y : R) (s t : St) : comp2 c x y s t [] [] = endW c x s * endW c y t := rfl

theorem via_eq (c x y : R) (s t : St) (p m q : L3) (u v : List L3) :
    sumW u.length (fun w => wt c x s (p :: u) (m :: w) * wt c y t (m :: w) (q :: v)) = via c x y s t p m q u v := by
  unfold via
  simp only [wt]
  rcases h1 : step s p m with _ | ⟨s', i, j⟩
  · simp only [zero_mul]; exact sumW_zero _
  · rcases h2 : step t m q with _ | ⟨t', i', j'⟩
    · simp only [mul_zero]; exact sumW_zero _
    · simp only
      unfold comp2
      rw [← sumW_mul]
      exact sumW_congr (fun w _ => by ring)

theorem comp2_cons (c x y : R) (s t : St) (p q : L3) (u v : List L3) :
    comp2 c x y s t (p :: u) (q :: v) =
      via c x y s t p .o q u v + via c x y s t p .a q u v + via c x y s t p .b q u v := by
  rw [← via_eq, ← via_eq, ← via_eq]
  rfl

/-- The matrix that intertwines the two compositions, times `(x+y)xy`. -/
def inter (x y : R) (f : St → St → R) : St → St → R
  | .z, .z => (x + y) * x * y * f .z .z
  | .z, .lr => x * y * (2 * x * f .z .lr - (y - x) * f .lr .z - 2 * (y - x) * f .r .l)
  | .z, .l => (x + y) * x * (x * f .z .l)
  | .z, .r => (x + y) * y * (x * f .z .r - (y - x) * f .r .z)
  | .lr, .z => x * y * ((y - x) * f .z .lr + 2 * y * f .lr .z + 2 * (y - x) * f .r .l)
  | .lr, .lr => (x + y) * x * y * f .lr .lr
  | .lr, .l => x * (2 * x * y * f .lr .l + (y - x) * f .l .lr)
  | .lr, .r => x * y * (2 * y * f .lr .r + (y - x) * y * f .r .lr)
  | .l, .z => (x + y) * x * ((y - x) * f .z .l + y * f .l .z)
  | .l, .lr => x * y * (2 * x * f .l .lr - (y - x) * x * f .lr .l)
  | .l, .l => (x + y) * x * (x * f .l .l)
  | .l, .r => x * y * ((y - x) * x * f .z .lr - (y - x) * y * f .lr .z + (x + y) * f .l .r - (y - x) ^ 2 * f .r .l)
  | .r, .z => (x + y) * y * (y * f .r .z)
  | .r, .lr => y * (2 * x * y * f .r .lr - (y - x) * f .lr .r)
  | .r, .l => (x + y) * x * y * f .r .l
  | .r, .r => (x + y) * y * (y * f .r .r)

theorem via_inter {c x y : R} {u v : List L3}
    (ih : ∀ s t, (x + y) * x * y * comp2 c y x s t u v = inter x y (fun s t => comp2 c x y s t u v) s t)
    (s t : St) (p m q : L3) : (x + y) * x * y * via c y x s t p m q u v =
      match step s p m, step t m q with
      | some (s', i, j), some (t', i', j') =>
        2 ^ i * y ^ j * (2 ^ i' * x ^ j') * inter x y (fun s t => comp2 c x y s t u v) s' t'
      | _, _ => 0 := by
  unfold via
  rcases step s p m with _ | ⟨s', i, j⟩
  · simp
  · rcases step t m q with _ | ⟨t', i', j'⟩
    · simp
    · simp only
      rw [← ih]; ring

theorem comp2_inter (c x y : R) : ∀ (u v : List L3), u.length = v.length → ∀ s t,
    (x + y) * x * y * comp2 c y x s t u v = inter x y (fun s t => comp2 c x y s t u v) s t := by
  intro u
  induction u with
  | nil =>
    intro v hv s t
    obtain rfl : v = [] := List.length_eq_zero_iff.1 (by simpa using hv.symm)
    cases s <;> cases t <;> simp only [comp2_nil, inter, endW] <;> ring
  | cons p u ih =>
    intro v hv s t
    cases v with
    | nil => simp at hv
    | cons q v =>
      have ih := ih v (by simpa using hv)
      simp only [comp2_cons]
      rw [mul_add, mul_add, via_inter ih, via_inter ih, via_inter ih]
      generalize hF : (fun s t => comp2 c x y s t u v) = F
      have hF : ∀ s t, comp2 c x y s t u v = F s t := fun s t => by rw [← hF]
      cases p <;> cases q <;> cases s <;> cases t <;>
        simp only [inter, via, step, hF] <;> ring

/-- the sum of the weights of all words is the matrix entry of an operator with two boundary terms -/
def opW (c h x : R) (u w : List L3) : R := wt c x .z u w + h * wt c x .lr u w

/-- **Commutation.** -/
theorem opW_comm [IsDomain R] (c h : R) {x y : R} (hx : x ≠ 0) (hy : y ≠ 0) (hxy : x + y ≠ 0) {u v : List L3}
    (hl : u.length = v.length) :
    sumW u.length (fun w => opW c h x u w * opW c h y w v) = sumW u.length (fun w => opW c h y u w * opW c h x w v) := by
  have e : ∀ x y : R, sumW u.length (fun w => opW c h x u w * opW c h y w v) =
      comp2 c x y .z .z u v + h * (comp2 c x y .z .lr u v + comp2 c x y .lr .z u v) + h ^ 2 * comp2 c x y .lr .lr u v := by
    intro x y
    unfold comp2
    rw [← sumW_add, ← sumW_mul, ← sumW_add, ← sumW_mul, ← sumW_add]
    exact sumW_congr (fun w _ => by unfold opW; ring)
  rw [e, e]
  have hD : (x + y) * x * y ≠ 0 := mul_ne_zero (mul_ne_zero hxy hx) hy
  apply mul_left_cancel₀ hD
  have h1 := comp2_inter c x y u v hl .z .z
  have h2 := comp2_inter c x y u v hl .z .lr
  have h3 := comp2_inter c x y u v hl .lr .z
  have h4 := comp2_inter c x y u v hl .lr .lr
  simp only [inter] at h1 h2 h3 h4
  linear_combination -h1 - h * h2 - h * h3 - h ^ 2 * h4

end

end Verif
