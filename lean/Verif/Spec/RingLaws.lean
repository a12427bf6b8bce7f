import Verif.Spec.Ring
/-!
# Laws of a product of linear combinations of classes

The arguments `mul`, `act` are any functions that may fail; every law includes that the calls return.
-/

namespace Verif.Spec

/-- The first call, followed by the second one on its result. -/
def andThen (r : Except PyErr Poly) (f : Poly → Except PyErr Poly) : Except PyErr Poly :=
  match r with
  | .ok w => f w
  | .error e => .error e

/-- Products of linear combinations are linear combinations. -/
def ClosedUnder (cls : List Int → Prop) (mul : Poly → Poly → Except PyErr Poly) : Prop :=
  ∀ a b, LinComb cls a → LinComb cls b → ∃ w, mul a b = .ok w ∧ LinComb cls w

/-- `a * b = b * a`. -/
def Commutative (cls : List Int → Prop) (mul : Poly → Poly → Except PyErr Poly) : Prop :=
  ∀ a b, LinComb cls a → LinComb cls b → SameResult (mul a b) (mul b a)

/-- `(a * b) * c = a * (b * c)`. -/
def Associative (cls : List Int → Prop) (mul : Poly → Poly → Except PyErr Poly) : Prop :=
  ∀ a b c, LinComb cls a → LinComb cls b → LinComb cls c →
    SameResult (andThen (mul a b) (fun ab => mul ab c)) (andThen (mul b c) (fun bc => mul a bc))

/-- `S[] * a = a = a * S[]`. -/
def HasUnit (cls : List Int → Prop) (mul : Poly → Poly → Except PyErr Poly) : Prop :=
  ∀ a, LinComb cls a → SameResult (mul (Poly.sym (.S [])) a) (.ok a) ∧ SameResult (mul a (Poly.sym (.S []))) (.ok a)

/-- `(c q^d a + b) * e = c q^d (a * e) + b * e`. -/
def Linear (cls : List Int → Prop) (mul : Poly → Poly → Except PyErr Poly) : Prop :=
  ∀ (c : Rat) (d : Nat) (a b e : Poly), LinComb cls a → LinComb cls b → LinComb cls e →
    ∃ u v, mul a e = .ok u ∧ mul b e = .ok v ∧
      SameResult (mul (Poly.add (Poly.mul (Poly.mul (Poly.const c) (Poly.pow (Poly.sym .q) d)) a) b) e)
        (.ok (Poly.add (Poly.mul (Poly.mul (Poly.const c) (Poly.pow (Poly.sym .q) d)) u) v))

/-- Ring action of polynomials (`good`) on linear combinations: `(e f) x = e (f x)`, `(e + f) x = e x + f x`,
`e (x + y) = e x + e y`, `1 x = x`, and results are linear combinations. -/
structure RingAction (good : Poly → Prop) (cls : List Int → Prop) (act : Poly → Poly → Except PyErr Poly) : Prop where
  closed : ∀ e x, good e → LinComb cls x → ∃ w, act e x = .ok w ∧ LinComb cls w
  mul : ∀ e f x, good e → good f → LinComb cls x →
    SameResult (act (Poly.mul e f) x) (andThen (act f x) (fun y => act e y))
  add : ∀ e f x, good e → good f → LinComb cls x → ∃ u v, act e x = .ok u ∧ act f x = .ok v ∧
    SameResult (act (Poly.add e f) x) (.ok (Poly.add u v))
  addRight : ∀ e x y, good e → LinComb cls x → LinComb cls y → ∃ u v, act e x = .ok u ∧ act e y = .ok v ∧
    SameResult (act e (Poly.add x y)) (.ok (Poly.add u v))
  one : ∀ x, LinComb cls x → SameResult (act (Poly.const 1) x) (.ok x)

/-- All products of two classes are homogeneous, with `q` of degree `n`. -/
def Graded (cls : List Int → Prop) (n : Int) (mul : Poly → Poly → Except PyErr Poly) : Prop :=
  ∀ l mu, cls l → cls mu → ∃ w, mul (Poly.sym (.S l)) (Poly.sym (.S mu)) = .ok w ∧
    ∀ t ∈ w, ∃ (d : Nat) (nu : List Int), t.1 = List.replicate d Sym.q ++ [Sym.S nu] ∧ cls nu ∧
      nu.sum + d * n = l.sum + mu.sum

/-- The same without `q`. -/
def GradedClassical (cls : List Int → Prop) (mul : Poly → Poly → Except PyErr Poly) : Prop :=
  ∀ l mu, cls l → cls mu → ∃ w, mul (Poly.sym (.S l)) (Poly.sym (.S mu)) = .ok w ∧
    ∀ t ∈ w, ∃ nu, t.1 = [Sym.S nu] ∧ cls nu ∧ nu.sum = l.sum + mu.sum

/-- All structure constants are integers. -/
def Integral (cls : List Int → Prop) (mul : Poly → Poly → Except PyErr Poly) : Prop :=
  ∀ l mu, cls l → cls mu → ∃ w, mul (Poly.sym (.S l)) (Poly.sym (.S mu)) = .ok w ∧ ∀ t ∈ w, ∃ z : Int, t.2 = z

/-- The terms without `q` of the quantum product of expressions without `q` are the classical product. -/
def ClassicalLimit (cls : List Int → Prop) (qmul mul : Poly → Poly → Except PyErr Poly) : Prop :=
  ∀ a b, LinComb cls a → LinComb cls b → QFree a → QFree b → ∃ w w', qmul a b = .ok w ∧ mul a b = .ok w' ∧
    (w.filter (fun t => decide (Sym.q ∉ t.1))).Perm w'

end Verif.Spec
