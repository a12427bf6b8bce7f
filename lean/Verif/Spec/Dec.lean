import Verif.Spec.Ring
import Verif.Spec.Index
import Verif.Spec.TwoParam
/-!
# The hypotheses of the theorems can be checked on concrete data

Decidability of the predicates of the specification; it is used only by the examples beside the theorems.
-/

namespace Verif
namespace Spec

instance (l : List Int) : Decidable (IsPartition l) := by unfold IsPartition; infer_instance
instance (l : List Int) : Decidable (NoTrailingZero l) := by unfold NoTrailingZero; infer_instance
instance (l : List Int) : Decidable (ReducedPart l) := by unfold ReducedPart; infer_instance
instance (l : List Int) (r : Nat) (c : Int) : Decidable (InRect l r c) := by unfold InRect; infer_instance
instance (k : Int) (l : List Int) : Decidable (KStrict k l) := by unfold KStrict; infer_instance

/-- A typed class is a partition, perhaps followed by one zero. -/
theorem typedClass_iff (k : Int) (m : Nat) (c : Int) (x : List Int) :
    TypedClass k m c x ↔ (ReducedPart x ∧ KStrict k x ∧ InRect x m c) ∨
      (x = x.dropLast ++ [0] ∧ k ∈ x.dropLast ∧ ReducedPart x.dropLast ∧ KStrict k x.dropLast ∧ InRect x.dropLast m c) := by
  constructor
  · rintro ⟨mu, h1, h2, h3, rfl | ⟨h4, rfl⟩⟩
    · exact Or.inl ⟨h1, h2, h3⟩
    · right
      rw [List.dropLast_concat]
      exact ⟨rfl, h4, h1, h2, h3⟩
  · rintro (⟨h1, h2, h3⟩ | ⟨h0, h4, h1, h2, h3⟩)
    · exact ⟨x, h1, h2, h3, Or.inl rfl⟩
    · exact ⟨_, h1, h2, h3, Or.inr ⟨h4, h0⟩⟩

instance (k : Int) (m : Nat) (c : Int) (x : List Int) : Decidable (TypedClass k m c x) :=
  decidable_of_iff' _ (typedClass_iff k m c x)

instance (p : Poly) : Decidable (WF p) := by unfold WF; infer_instance

/-- The class in a monomial `q^d * S[l]`. -/
def classOf (t : Mono) : Option (List Int) :=
  match t.getLast? with
  | some (.S l) => some l
  | _ => none

theorem lincomb_term (cls : List Int → Prop) (t : Mono) :
    (∃ d l, t = List.replicate d Sym.q ++ [Sym.S l] ∧ cls l) ↔
      ∃ l ∈ (classOf t).toList, t = List.replicate (t.length - 1) Sym.q ++ [Sym.S l] ∧ cls l := by
  constructor
  · rintro ⟨d, l, rfl, h⟩
    exact ⟨l, by simp [classOf], by simp, h⟩
  · rintro ⟨l, -, h, h'⟩
    exact ⟨_, l, h, h'⟩

instance (cls : List Int → Prop) [DecidablePred cls] (p : Poly) : Decidable (LinComb cls p) :=
  decidable_of_iff (WF p ∧ ∀ t ∈ p, ∃ l ∈ (classOf t.1).toList,
      t.1 = List.replicate (t.1.length - 1) Sym.q ++ [Sym.S l] ∧ cls l)
    (and_congr Iff.rfl (forall₂_congr fun t _ => (lincomb_term cls t.1).symm))

/-- The number of a special class. -/
def specialOf : Sym → Option Int
  | .S [i] => some i
  | _ => none

theorem special_sym (K : Nat) (s : Sym) :
    (s = .q ∨ ∃ i : Int, 1 ≤ i ∧ i ≤ K ∧ s = .S [i]) ↔ (s = .q ∨ ∃ i ∈ (specialOf s).toList, 1 ≤ i ∧ i ≤ K ∧ s = .S [i]) := by
  constructor
  · rintro (h | ⟨i, h1, h2, rfl⟩)
    · exact Or.inl h
    · exact Or.inr ⟨i, by simp [specialOf], h1, h2, rfl⟩
  · rintro (h | ⟨i, -, h⟩)
    · exact Or.inl h
    · exact Or.inr ⟨i, h⟩

instance (K : Nat) (p : Poly) : Decidable (SpecialPoly K p) :=
  decidable_of_iff (WF p ∧ ∀ t ∈ p, ∀ s ∈ t.1, s = .q ∨ ∃ i ∈ (specialOf s).toList, 1 ≤ i ∧ i ≤ K ∧ s = .S [i])
    (and_congr Iff.rfl (forall₂_congr fun _ _ => forall₂_congr fun s _ => (special_sym K s).symm))

instance (p : Poly) : Decidable (QFree p) := by unfold QFree; infer_instance

end Spec
end Verif
