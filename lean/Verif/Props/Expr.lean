import Verif.Spec.Dec
import Verif.Proofs.Poly
import Verif.Model.LC
/-!
# C17 and C46: applying a function to a linear combination; arithmetic of linear combinations
-/

namespace Verif
open Spec MvPolynomial

/-- `f` always returns an expanded expression. -/
def Spec.Total (f : List Int → Except PyErr Poly) : Prop := ∀ l, ∃ w, f l = .ok w ∧ WF w

/-- The polynomial `f` returns on `l` (`0` if it raises). -/
noncomputable def Spec.valueOf (f : List Int → Except PyErr Poly) (l : List Int) : P :=
  match f l with
  | .ok w => den w
  | .error _ => 0

theorem returns_valueOf {f : List Int → Except PyErr Poly} (hf : Total f) (l : List Int) :
    Returns (f l) (valueOf f l) := by
  obtain ⟨w, hw, hw'⟩ := hf l
  exact ⟨w, hw, hw', by rw [valueOf, hw]⟩

/-- **C17.** `apply_lc(f, e)` replaces every Schubert symbol of the polynomial that `e` denotes by
`f` of its partition, leaving numbers and `q`s alone. -/
theorem C17_value {f : List Int → Except PyErr Poly} (hf : Total f) (e : Expr) :
    ∃ w, e.apply f = .ok w ∧ WF w ∧ den w = subst (valueOf f) (exprDen e) :=
  expr_apply_spec e (fun l _ => returns_valueOf hf l)

/-- **C17.** The same on expanded expressions. -/
theorem C17_value_poly {f : List Int → Except PyErr Poly} (hf : Total f) (p : Poly) :
    ∃ w, Poly.apply f p = .ok w ∧ WF w ∧ den w = subst (valueOf f) (den p) :=
  apply_spec p (fun _ _ l _ => returns_valueOf hf l)

example :
    Poly.apply (fun l => .ok (Poly.sym (.S (l ++ [1])))) [([.q, .S [2]], 3), ([.S [2], .S [2]], 1)] =
      .ok [([.S [2, 1], .S [2, 1]], 1), ([.q, .S [2, 1]], 3)] := by decide +kernel

/-- **C17.** Two ways to write the same polynomial give the same result (up to the order of terms);
in particular expanding first makes no difference. -/
theorem C17_tree_independent {f : List Int → Except PyErr Poly} (hf : Total f) (e e' : Expr)
    (h : exprDen e = exprDen e') :
    ∃ w w', e.apply f = .ok w ∧ e'.apply f = .ok w' ∧ w.Perm w' := by
  obtain ⟨w, hw, hw', hw''⟩ := C17_value hf e
  obtain ⟨v, hv, hv', hv''⟩ := C17_value hf e'
  exact ⟨w, v, hw, hv, perm_of_den_eq hw' hv' (by rw [hw'', hv'', h])⟩

/-- `(S[2] + q)*2` and `2*q + 2*S[2]` -/
example :
    (Expr.mul (.add (.sym (.S [2])) (.sym .q)) (.num 2)).apply (fun l => .ok (Poly.sym (.S (l ++ [1])))) =
      .ok [([.S [2, 1]], 2), ([.q], 2)] ∧
    (Expr.add (.mul (.num 2) (.sym .q)) (.mul (.num 2) (.sym (.S [2])))).apply (fun l => .ok (Poly.sym (.S (l ++ [1])))) =
      .ok [([.S [2, 1]], 2), ([.q], 2)] := by decide +kernel

theorem C17_expand {f : List Int → Except PyErr Poly} (hf : Total f) (e : Expr) :
    ∃ w w', e.apply f = .ok w ∧ Poly.apply f e.expand = .ok w' ∧ w.Perm w' := by
  obtain ⟨w, hw, hw', hw''⟩ := C17_value hf e
  obtain ⟨v, hv, hv', hv''⟩ := C17_value_poly hf e.expand
  exact ⟨w, v, hw, hv, perm_of_den_eq hw' hv' (by rw [hw'', hv'', den_expand])⟩

example :
    (Expr.pow (.add (.sym (.S [2])) (.sym .q)) 2).expand = [([.S [2], .S [2]], 1), ([.q, .S [2]], 2), ([.q, .q], 1)] ∧
    (Expr.pow (.add (.sym (.S [2])) (.sym .q)) 2).apply (fun _ => .ok (Poly.sym .q)) = .ok [([.q, .q], 4)] := by
  decide +kernel

/-- **C17.** `apply_lc` is additive and commutes with multiplication by numbers and by `q`. -/
theorem C17_linear {f : List Int → Except PyErr Poly} (hf : Total f) (a b : Expr) (c : Rat) (j : Nat) :
    ∃ w wa wb, (Expr.add (.mul (.mul (.num c) (.pow (.sym .q) j)) a) b).apply f = .ok w ∧
      a.apply f = .ok wa ∧ b.apply f = .ok wb ∧
      den w = C c * X .q ^ j * den wa + den wb := by
  obtain ⟨w, hw, _, hw''⟩ := C17_value hf (Expr.add (.mul (.mul (.num c) (.pow (.sym .q) j)) a) b)
  obtain ⟨wa, ha, _, ha''⟩ := C17_value hf a
  obtain ⟨wb, hb, _, hb''⟩ := C17_value hf b
  exact ⟨w, wa, wb, hw, ha, hb, by rw [hw'', ha'', hb'']; simp [exprDen]⟩

example :
    (Expr.add (.mul (.mul (.num 3) (.pow (.sym .q) 2)) (.sym (.S [1]))) (.sym (.S [2]))).apply (fun l => .ok (Poly.sym (.S (l ++ [1])))) =
      .ok [([.S [2, 1]], 1), ([.q, .q, .S [1, 1]], 3)] := by decide +kernel

/-- A constant is not multiplied by `f(S[])`: `apply_lc(f, 1) = 1` whatever `f` is. Hence
`pieri(i, 1) = 1`, although `S[]` is the unit of the ring. -/
theorem C17_constants_untouched (f : List Int → Except PyErr Poly) (c : Rat) :
    (Expr.num c).apply f = .ok (Poly.const c) := rfl

/-- A function satisfying the hypotheses: `S[l] ↦ S[l ++ [1]] + q`. -/
example : Total (fun l => .ok (Poly.add (Poly.sym (.S (l ++ [1]))) (Poly.sym .q))) :=
  fun _ => ⟨_, rfl, wf_add (wf_sym _).sorted (wf_sym _)⟩

example : (Expr.mul (.sym .q) (.add (.sym (.S [2])) (.num 3))).apply
      (fun l => .ok (Poly.add (Poly.sym (.S (l ++ [1]))) (Poly.sym .q))) =
    .ok [([.q], 3), ([.q, .S [2, 1]], 1), ([.q, .q], 1)] := by decide +kernel

/-! ### C46 -/

/-- The polynomial of a result. -/
noncomputable def Spec.resDen : LC.Res → P
  | .lc e => exprDen e
  | .raw e => exprDen e

/-- The polynomial of an operand that takes part in arithmetic. -/
noncomputable def Spec.opDen : LC.Operand → Option P
  | .lc e => some (exprDen e)
  | .num c => some (C c)
  | .expr e => some (exprDen e)
  | .other => none

/-- **C46.** `+` denotes the sum; the result is a `LinearCombination`. -/
theorem C46_add (a : Expr) (b : LC.Operand) (v : P) (hv : opDen b = some v) :
    ∃ e, LC.add a b = .ok (.lc e) ∧ exprDen e = exprDen a + v := by
  cases b <;> simp [opDen] at hv <;> subst hv <;> exact ⟨_, rfl, rfl⟩

/-- **C46.** `*` denotes the product; the result is a `LinearCombination`. -/
theorem C46_mul (a : Expr) (b : LC.Operand) (v : P) (hv : opDen b = some v) :
    ∃ e, LC.mul a b = .ok (.lc e) ∧ exprDen e = exprDen a * v := by
  cases b <;> simp [opDen] at hv <;> subst hv <;> exact ⟨_, rfl, rfl⟩

/-- **C46.** `**` denotes the power. -/
theorem C46_pow (a : Expr) (n : Nat) :
    ∃ e, LC.pow a n = .ok (.lc e) ∧ exprDen e = exprDen a ^ n := ⟨_, rfl, rfl⟩

/-- **C46.** `-` denotes the difference, and its reflection the opposite difference. -/
theorem C46_sub (a : Expr) (b : LC.Operand) (v : P) (hv : opDen b = some v) :
    ∃ r r', LC.sub a b = .ok r ∧ LC.rsub a b = .ok r' ∧ resDen r = exprDen a - v ∧
      resDen r' = v - exprDen a := by
  cases b <;> simp [opDen] at hv <;> subst hv <;>
    refine ⟨_, _, rfl, rfl, ?_, ?_⟩ <;> simp [resDen, LC.minus, exprDen] <;> ring

/-- **C46.** The reflected `+` and `*` agree with the direct ones when both operands are
`LinearCombination`s: `a + b` and `b + a` denote the same polynomial, and so do `a*b`, `b*a`. -/
theorem C46_reflected (a b : Expr) :
    ∃ r r' s s', LC.add a (.lc b) = .ok r ∧ LC.radd b (.lc a) = .ok r' ∧
      LC.mul a (.lc b) = .ok s ∧ LC.rmul b (.lc a) = .ok s' ∧
      resDen r = resDen r' ∧ resDen s = resDen s' :=
  ⟨_, _, _, _, rfl, rfl, rfl, rfl, by simp [resDen, exprDen]; ring, by simp [resDen, exprDen]; ring⟩

/-- **C46.** `+` and `*` are associative and distributive after expansion: the expanded forms are equal
up to the order of the terms. -/
theorem C46_ring_laws (a b c : Expr) :
    (Expr.add (.add a b) c).expand.Perm (Expr.add a (.add b c)).expand ∧
    (Expr.mul (.mul a b) c).expand.Perm (Expr.mul a (.mul b c)).expand ∧
    (Expr.mul a (.add b c)).expand.Perm (Expr.add (.mul a b) (.mul a c)).expand ∧
    (Expr.add a b).expand.Perm (Expr.add b a).expand ∧
    (Expr.mul a b).expand.Perm (Expr.mul b a).expand := by
  refine ⟨?_, ?_, ?_, ?_, ?_⟩ <;>
    exact perm_of_den_eq (wf_expand _) (wf_expand _) (by rw [den_expand, den_expand]; simp only [exprDen]; ring)

example : (Expr.mul (.sym (.S [1])) (.add (.sym .q) (.num 2))).expand = [([.S [1]], 2), ([.q, .S [1]], 1)] ∧
    (Expr.add (.mul (.sym (.S [1])) (.sym .q)) (.mul (.sym (.S [1])) (.num 2))).expand =
      [([.S [1]], 2), ([.q, .S [1]], 1)] := by decide +kernel

/-- Other operands are rejected: `ValueError` for `+`, `TypeError` for `*` and `-`. -/
theorem C46_other (a : Expr) : LC.add a .other = .error .valueError ∧
    LC.mul a .other = .error .typeError ∧ LC.sub a .other = .error .typeError ∧
    LC.rsub a .other = .error .typeError := ⟨rfl, rfl, rfl, rfl⟩

/-- Unlike `+` and `*`, subtracting a number or an expression returns a bare sympy expression. -/
theorem C46_sub_not_closed (a : Expr) (c : Rat) : ∃ e, LC.sub a (.num c) = .ok (.raw e) := ⟨_, rfl⟩

example : opDen (.num 3) = some (C 3) := rfl
example : (LC.minus (.sym (.S [1])) (.num 3)).expand = [([], -3), ([.S [1]], 1)] := by decide +kernel

end Verif
