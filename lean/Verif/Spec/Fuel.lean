/-! # Termination of fuelled loops -/

namespace Verif.Spec

/-- The loop `f` (as a function of its fuel) terminates with value `v`: with enough fuel it always
returns `v`. -/
def Terminates {α : Type} (f : Nat → Option α) (v : α) : Prop := ∃ N, ∀ fuel, N ≤ fuel → f fuel = some v

theorem Terminates.unique {α : Type} {f : Nat → Option α} {v w : α} (hv : Terminates f v)
    (hw : Terminates f w) : v = w := by
  obtain ⟨N, hN⟩ := hv
  obtain ⟨M, hM⟩ := hw
  have h1 := hN (max N M) (by omega)
  have h2 := hM (max N M) (by omega)
  rw [h1] at h2
  exact Option.some.inj h2

theorem Terminates.map {α β : Type} {f : Nat → Option α} {v : α} (g : α → β) (h : Terminates f v) :
    Terminates (fun n => (f n).map g) (g v) := by
  obtain ⟨N, hN⟩ := h
  exact ⟨N, fun n hn => by simp [hN n hn]⟩

end Verif.Spec
