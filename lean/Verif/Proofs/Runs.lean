/-!
# Iterating a step function until it returns `none`

The enumeration loops of the code (`part_gen`, `all_kstrict`, the Pieri iterations) all repeat a
"next" function until it yields `None`.  `Runs step x L` says that the visited elements,
starting from `x`, are exactly `L` and that the iteration stops.
-/

namespace Verif

variable {α β : Type}

inductive Runs (step : α → Option α) : α → List α → Prop
  | last {x : α} (h : step x = none) : Runs step x [x]
  | cons {x y : α} {L : List α} (h : step x = some y) (r : Runs step y L) : Runs step x (x :: L)

theorem Runs.ne_nil {step : α → Option α} {x : α} {L : List α} (r : Runs step x L) : L ≠ [] := by
  cases r <;> simp

/-- Embedding a run in another iteration and continuing from `z` when the inner one stops. -/
theorem Runs.map_append {step : α → Option α} {step' : β → Option β} (f : α → β) {x : α}
    {L : List α} (r : Runs step x L) {z : β} {M : List β} (rz : Runs step' z M)
    (h1 : ∀ u v, step u = some v → step' (f u) = some (f v))
    (h2 : ∀ u ∈ L, step u = none → step' (f u) = some z) : Runs step' (f x) (L.map f ++ M) := by
  induction r with
  | last h => exact Runs.cons (h2 _ (by simp) h) rz
  | cons h _ ih => exact Runs.cons (h1 _ _ h) (ih (fun u hu => h2 u (by simp [hu])))

/-- Embedding a run in another iteration that stops when the inner one stops. -/
theorem Runs.map_last {step : α → Option α} {step' : β → Option β} (f : α → β) {x : α}
    {L : List α} (r : Runs step x L)
    (h1 : ∀ u v, step u = some v → step' (f u) = some (f v))
    (h2 : ∀ u ∈ L, step u = none → step' (f u) = none) : Runs step' (f x) (L.map f) := by
  induction r with
  | last h => exact Runs.last (h2 _ (by simp) h)
  | cons h _ ih => exact Runs.cons (h1 _ _ h) (ih (fun u hu => h2 u (by simp [hu])))

end Verif
