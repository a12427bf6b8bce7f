import Verif.Spec.Partition
/-! # Specification: rim hooks -/

namespace Verif.Spec

/-- `l / x` is a rim hook (a connected skew shape without `2 × 2` square) occupying the rows `a ≤ b`
(0-based): other rows are equal, each row above the last one ends exactly one box inside the row
below it (so neighbouring rows share exactly one column), and the last row loses at least one box.
Row `j` of `l / x` has the contents `x_j - j, …, l_j - j - 1`; those of a hook tile an interval. -/
def RimHook (l x : List Int) (a b : Nat) : Prop :=
  a ≤ b ∧ (∀ j, j < a ∨ b < j → part x j = part l j) ∧
    (∀ j, a ≤ j → j < b → part x j = part l (j + 1) - 1) ∧ part x b < part l b

/-- `x` (written without trailing zeros) is `l` with one rim hook of `r` boxes removed that starts
in the first row. -/
def TopHook (r : Int) (l x : List Int) : Prop :=
  ReducedPart x ∧ (∃ b, RimHook l x 0 b) ∧ x.sum = l.sum - r

/-- `x` arises from `l` by removing `c` hooks of size `r`, each starting in the first row; the shapes
strictly between `l` and `x` do not fit into the grid. -/
inductive HookChain (r : Int) (rows : Nat) (cols : Int) (l : List Int) : Nat → List Int → Prop
  | start : HookChain r rows cols l 0 l
  | snoc {c y x} : HookChain r rows cols l c y → (c = 0 ∨ ¬ InRect y rows cols) → TopHook r y x →
      HookChain r rows cols l (c + 1) x

/-- The rim hook rule: `HookRed n rows cols l r` says that reducing the shape `l` modulo `n` gives `r`, either `none` (zero)
or a sign, the number of hooks and a shape inside the grid. A shape that does not fit loses the hook of `n` boxes that starts
in its first row; a hook in `b + 1` rows contributes the sign `(-1)^(rows - (b + 1))`. Without such a hook the result is zero. -/
inductive HookRed (n : Int) (rows : Nat) (cols : Int) : List Int → Option (Rat × Nat × List Int) → Prop
  | fits {l} : InRect l rows cols → HookRed n rows cols l (some (1, 0, l))
  | stop {l} : ¬ InRect l rows cols → (¬ ∃ x, TopHook n l x) → HookRed n rows cols l none
  | zero {l x} : ¬ InRect l rows cols → TopHook n l x → HookRed n rows cols x none → HookRed n rows cols l none
  | hook {l x b s d y} : ¬ InRect l rows cols → TopHook n l x → RimHook l x 0 b →
      HookRed n rows cols x (some (s, d, y)) → HookRed n rows cols l (some ((-1) ^ (rows - (b + 1)) * s, d + 1, y))

end Verif.Spec
