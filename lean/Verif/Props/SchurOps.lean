import Verif.Spec.Dec
import Verif.Model.SchurOps
import Verif.Props.Expr
/-!
# C85: arithmetic with mixed operands
-/

namespace Verif
open Spec MvPolynomial Op

/-- The polynomial an object stands for. -/
noncomputable def Spec.valDen : Op.Val → Option P
  | .num c => some (C c)
  | .expr e => some (exprDen e)
  | .schur p => some (X (.S p))
  | .lc e => some (exprDen e)
  | .other => none

/-- **C85**: if `a + b` returns, it stands for the sum. -/
theorem C85_plus (a b : Val) {x : Val} (h : plus a b = .ok x) :
    ∃ u v, valDen a = some u ∧ valDen b = some v ∧ valDen x = some (u + v) := by
  cases a <;> cases b <;>
    simp only [plus, LC.add, LC.radd, toOperand, ofRes, schurOp, Except.ok.injEq, reduceCtorEq] at h <;>
    first
    | (subst h; exact ⟨_, _, rfl, rfl, by simp [valDen, exprDen, add_comm]⟩)
    | (split at h
       · rw [Except.ok.injEq] at h; subst h; exact ⟨_, _, rfl, rfl, by simp [valDen, exprDen, add_comm]⟩
       · simp at h)

example : plus (.schur [2]) (.num 3) = .ok (.expr (.add (.sym (.S [2])) (.num 3))) ∧
    plus (.num 3) (.lc (.sym .q)) = .ok (.lc (.add (.sym .q) (.num 3))) := ⟨rfl, rfl⟩

/-- **C85**: if `a * b` returns, it stands for the product. -/
theorem C85_times (a b : Val) {x : Val} (h : times a b = .ok x) :
    ∃ u v, valDen a = some u ∧ valDen b = some v ∧ valDen x = some (u * v) := by
  cases a <;> cases b <;>
    simp only [times, LC.mul, LC.rmul, toOperand, ofRes, schurOp, Except.ok.injEq, reduceCtorEq] at h <;>
    first
    | (subst h; exact ⟨_, _, rfl, rfl, by simp [valDen, exprDen, mul_comm]⟩)
    | (split at h
       · rw [Except.ok.injEq] at h; subst h; exact ⟨_, _, rfl, rfl, by simp [valDen, exprDen, mul_comm]⟩
       · simp at h)

example : times (.schur [2]) (.lc (.sym .q)) = .ok (.expr (.mul (.sym (.S [2])) (.sym .q))) ∧
    times (.schur [2]) (.schur [1, 1]) = .ok (.expr (.mul (.sym (.S [2])) (.sym (.S [1, 1])))) := ⟨rfl, rfl⟩

/-- **C85**: if `a - b` returns, it stands for the difference. -/
theorem C85_minus (a b : Val) {x : Val} (h : minus a b = .ok x) :
    ∃ u v, valDen a = some u ∧ valDen b = some v ∧ valDen x = some (u - v) := by
  cases a <;> cases b <;>
    simp only [minus, LC.sub, LC.rsub, toOperand, ofRes, Except.ok.injEq, reduceCtorEq] at h <;>
    (subst h; exact ⟨_, _, rfl, rfl, by simp [valDen, exprDen, LC.minus, sub_eq_add_neg]⟩)

example : ∃ e, minus (.lc (.sym .q)) (.lc (.sym (.S [2]))) = .ok (.lc e) ∧ e.expand = [([.S [2]], -1), ([.q], 1)] :=
  ⟨_, rfl, by decide +kernel⟩

/-- **C85**: powers. -/
theorem C85_power (a : Val) (n : Nat) {x : Val} (h : power a n = .ok x) : ∃ u, valDen a = some u ∧ valDen x = some (u ^ n) := by
  cases a <;> simp only [power, LC.pow, ofRes, Except.ok.injEq, reduceCtorEq] at h <;>
    (subst h; exact ⟨_, rfl, by simp [valDen, exprDen]⟩)

example : power (.schur [2]) 3 = .ok (.expr (.pow (.sym (.S [2])) 3)) ∧
    power (.lc (.sym (.S [2]))) 3 = .ok (.lc (.pow (.sym (.S [2])) 3)) := ⟨rfl, rfl⟩

/-- Operands on which `+` and `*` raise although both stand for polynomials: a `Schur` after a `LinearCombination`, and a
`Schur` before the `LinearCombination` zero. -/
def Spec.Clash : Val → Val → Prop
  | .lc _, .schur _ => True
  | .schur _, .lc e => e = .num 0
  | _, _ => False

theorem truthy_iff (e : Expr) : truthy e = false ↔ e = .num 0 := by
  cases e <;> simp [truthy]

/-- **C85**: `a + b` and `a * b` return exactly if both operands stand for polynomials and do not clash. -/
theorem C85_returns (a b : Val) :
    ((∃ x, plus a b = .ok x) ↔ ((valDen a).isSome ∧ (valDen b).isSome ∧ ¬ Clash a b)) ∧
    ((∃ x, times a b = .ok x) ↔ ((valDen a).isSome ∧ (valDen b).isSome ∧ ¬ Clash a b)) := by
  have ht : ∀ e, truthy e = true ↔ ¬ e = .num 0 := fun e => by rw [← truthy_iff]; simp
  cases a <;> cases b <;>
    simp [plus, times, LC.add, LC.radd, LC.mul, LC.rmul, toOperand, ofRes, schurOp, valDen, Clash, ← ht] <;>
    (rename_i p e; cases truthy e <;> simp)

example : plus (.lc (.sym .q)) (.schur [2]) = .error .valueError ∧ times (.schur [2]) .other = .error .attributeError ∧
    plus (.num 3) (.schur [2]) = .ok (.expr (.add (.sym (.S [2])) (.num 3))) := ⟨rfl, rfl, rfl⟩

/-- **C85**: `a - b` returns exactly if both operands are numbers, expressions or linear combinations. -/
theorem C85_minus_returns (a b : Val) : (∃ x, minus a b = .ok x) ↔
    ((valDen a).isSome ∧ (valDen b).isSome ∧ (∀ p, a ≠ .schur p) ∧ ∀ p, b ≠ .schur p) := by
  cases a <;> cases b <;> simp [minus, LC.sub, LC.rsub, toOperand, ofRes, valDen]

example : minus (.schur [2]) (.num 3) = .error .typeError ∧ minus (.num 3) (.num 5) = .ok (.num (3 - 5)) := ⟨rfl, rfl⟩

/-- **C85**: `+` and `*` do not depend on the order of the operands when both orders return. -/
theorem C85_order (a b : Val) {x y : Val} :
    (plus a b = .ok x → plus b a = .ok y → valDen x = valDen y) ∧
    (times a b = .ok x → times b a = .ok y → valDen x = valDen y) := by
  constructor
  · intro h1 h2
    obtain ⟨u, v, hu, hv, h⟩ := C85_plus a b h1
    obtain ⟨v', u', hv', hu', h'⟩ := C85_plus b a h2
    rw [hu] at hu'; rw [hv] at hv'
    cases hu'; cases hv'
    rw [h, h', add_comm]
  · intro h1 h2
    obtain ⟨u, v, hu, hv, h⟩ := C85_times a b h1
    obtain ⟨v', u', hv', hu', h'⟩ := C85_times b a h2
    rw [hu] at hu'; rw [hv] at hv'
    cases hu'; cases hv'
    rw [h, h', mul_comm]

example : ∃ x y, plus (.num 3) (.schur [2]) = .ok x ∧ plus (.schur [2]) (.num 3) = .ok y ∧
    times (.num 3) (.lc (.sym .q)) = .ok (.lc (.mul (.sym .q) (.num 3))) ∧
    times (.lc (.sym .q)) (.num 3) = .ok (.lc (.mul (.sym .q) (.num 3))) := ⟨_, _, rfl, rfl, rfl, rfl⟩

/-- The class of the result of an operation that returns: is it a `LinearCombination`? -/
def Spec.IsLC : Val → Prop
  | .lc _ => True
  | _ => False

def Spec.IsSchur : Val → Prop
  | .schur _ => True
  | _ => False

/-- **C85**: the class of the result.  `+` and `*` give a `LinearCombination` exactly if one operand is one and no operand
is a `Schur` object, `-` only if both operands are linear combinations (`lc - 3` and `3 - lc` are bare expressions),
`**` if the base is a linear combination.  No operation returns a `Schur` object. -/
theorem C85_kind (a b : Val) (n : Nat) {x : Val} :
    ((plus a b = .ok x ∨ times a b = .ok x) → (IsLC x ↔ (IsLC a ∨ IsLC b) ∧ ¬ IsSchur a ∧ ¬ IsSchur b) ∧ ¬ IsSchur x) ∧
    (minus a b = .ok x → (IsLC x ↔ IsLC a ∧ IsLC b) ∧ ¬ IsSchur x) ∧
    (power a n = .ok x → (IsLC x ↔ IsLC a) ∧ ¬ IsSchur x) := by
  refine ⟨?_, ?_, ?_⟩
  · rintro (h | h) <;> cases a <;> cases b <;>
      simp only [plus, times, LC.add, LC.radd, LC.mul, LC.rmul, toOperand, ofRes, schurOp, Except.ok.injEq, reduceCtorEq] at h <;>
      first
      | (subst h; simp [IsLC, IsSchur])
      | (split at h
         · rw [Except.ok.injEq] at h; subst h; simp [IsLC, IsSchur]
         · simp at h)
  · intro h
    cases a <;> cases b <;>
      simp only [minus, LC.sub, LC.rsub, toOperand, ofRes, Except.ok.injEq, reduceCtorEq] at h <;>
      (subst h; simp [IsLC, IsSchur])
  · intro h
    cases a <;> simp only [power, LC.pow, ofRes, Except.ok.injEq, reduceCtorEq] at h <;>
      (subst h; simp [IsLC, IsSchur])

/-- `LinearCombination(q) - 3` is a bare expression, `LinearCombination(q) + 3` a linear combination. -/
example : minus (.lc (.sym .q)) (.num 3) = .ok (.expr (LC.minus (.sym .q) (.num 3))) ∧
    plus (.lc (.sym .q)) (.num 3) = .ok (.lc (.add (.sym .q) (.num 3))) := ⟨rfl, rfl⟩

/-- **C85**, asymmetry: `Schur([1]) + lc` returns and `lc + Schur([1])` raises; `Schur([1]) + LinearCombination(0)`
raises as well. -/
theorem C85_asymmetry (e : Expr) (he : e ≠ .num 0) (p : List Int) :
    (∃ x, plus (.schur p) (.lc e) = .ok x) ∧ plus (.lc e) (.schur p) = .error .valueError ∧
    times (.lc e) (.schur p) = .error .typeError ∧ plus (.schur p) (.lc (.num 0)) = .error .valueError ∧
    (∃ x, plus (.lc (.num 0)) (.lc e) = .ok x) ∧ minus (.schur p) (.lc e) = .error .typeError := by
  have := truthy_iff e
  refine ⟨⟨.expr (.add (.sym (.S p)) e), ?_⟩, rfl, rfl, rfl, ⟨_, rfl⟩, rfl⟩
  have h : truthy e = true := by
    cases h : truthy e
    · exact absurd (this.1 h) he
    · rfl
  simp [plus, schurOp, h]

/-- `Schur([2]) * 3 + LinearCombination(q)`, and the same with the summands exchanged. -/
example : (∃ x, (do let a ← times (.schur [2]) (.num 3); plus a (.lc (.sym .q))) = .ok x) ∧
    (∃ x, (do let a ← times (.schur [2]) (.num 3); plus (.lc (.sym .q)) a) = .ok x) := ⟨⟨_, rfl⟩, ⟨_, rfl⟩⟩

end Verif
