import Verif.Spec.RingLaws
/-!
# Linear combinations with the parameters `q`, `q1` and `q2`
-/

namespace Verif.Spec

/-- `p` is an expanded linear combination: every term is a number times a product of `q`, `q1`, `q2` times `S[l]` with `l` a class. -/
def LinComb2 (cls : List Int → Prop) (p : Poly) : Prop :=
  WF p ∧ ∀ t ∈ p, ∃ qs l, t.1 = qs ++ [Sym.S l] ∧ (∀ s ∈ qs, s = .q ∨ s = .q1 ∨ s = .q2) ∧ cls l

/-- Ring action of polynomials (`good`) on linear combinations with the parameters `q`, `q1`, `q2`. -/
structure RingAction2 (good : Poly → Prop) (cls : List Int → Prop) (act : Poly → Poly → Except PyErr Poly) : Prop where
  closed : ∀ e x, good e → LinComb2 cls x → ∃ w, act e x = .ok w ∧ LinComb2 cls w
  mul : ∀ e f x, good e → good f → LinComb2 cls x →
    SameResult (act (Poly.mul e f) x) (andThen (act f x) (fun y => act e y))
  add : ∀ e f x, good e → good f → LinComb2 cls x → ∃ u v, act e x = .ok u ∧ act f x = .ok v ∧
    SameResult (act (Poly.add e f) x) (.ok (Poly.add u v))
  addRight : ∀ e x y, good e → LinComb2 cls x → LinComb2 cls y → ∃ u v, act e x = .ok u ∧ act e y = .ok v ∧
    SameResult (act e (Poly.add x y)) (.ok (Poly.add u v))
  param : ∀ e x c, good e → LinComb2 cls x → c = Sym.q ∨ c = Sym.q1 ∨ c = Sym.q2 → ∃ u, act e x = .ok u ∧
    SameResult (act e (Poly.mul (Poly.sym c) x)) (.ok (Poly.mul (Poly.sym c) u))
  one : ∀ x, LinComb2 cls x → SameResult (act (Poly.const 1) x) (.ok x)

end Verif.Spec
