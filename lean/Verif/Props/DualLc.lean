import Verif.Spec.Dec
import Verif.Model.RingBCD
import Verif.Props.Dual
import Verif.Props.SchurRing
/-!
# C75: `dualize` on whole expressions

`dualize` replaces every class of an expanded expression by its dual and nothing else, and twice gives the
expression back; all four families of spaces.
-/

namespace Verif
open Spec MvPolynomial

/-- All classes in the expression satisfy `cls`. -/
def Spec.ClassesIn (cls : List Int → Prop) (p : Poly) : Prop := ∀ t ∈ p, ∀ l, Sym.S l ∈ t.1 → cls l

/-- Replace the class in a symbol. -/
def Spec.mapClass (d : List Int → List Int) : Sym → Sym
  | .S l => .S (d l)
  | s => s

/-- What `dualize` does to expanded expressions in the classes `cls`. -/
def Spec.DualizesLc (cls : List Int → Prop) (one : List Int → Except PyErr (List Int)) (lc : Poly → Except PyErr Poly) : Prop :=
  ∀ p, WF p → ClassesIn cls p → ∃ d p', (∀ l, cls l → one l = .ok (d l)) ∧ lc p = .ok p' ∧ WF p' ∧ ClassesIn cls p' ∧
    (∀ (R : Type) [CommRing R] [Algebra ℚ R] (f : Sym → R), valueAt f p' = valueAt (f ∘ mapClass d) p) ∧
    ∃ p'', lc p' = .ok p'' ∧ p''.Perm p

theorem hom_den_congr {A : Type} [CommRing A] [Algebra ℚ A] (φ ψ : P →ₐ[ℚ] A) {p : Poly}
    (h : ∀ t ∈ p, ∀ s ∈ t.1, φ (X s) = ψ (X s)) : φ (den p) = ψ (den p) := by
  unfold den
  rw [map_list_sum, map_list_sum, List.map_map, List.map_map]
  congr 1
  apply List.map_congr_left
  intro t ht
  simp only [Function.comp_apply, map_mul]
  congr 1
  · rw [← algebraMap_eq, AlgHom.commutes, AlgHom.commutes]
  · unfold monoDen
    rw [map_list_prod, map_list_prod, List.map_map, List.map_map]
    congr 1
    apply List.map_congr_left
    intro s hs
    exact h t ht s hs

theorem hom_den_mem {A : Type} [CommRing A] [Algebra ℚ A] (φ : P →ₐ[ℚ] A) (S : Subalgebra ℚ A) {p : Poly}
    (h : ∀ t ∈ p, ∀ s ∈ t.1, φ (X s) ∈ S) : φ (den p) ∈ S := by
  unfold den
  rw [map_list_sum]
  apply Subalgebra.list_sum_mem
  intro y hy
  simp only [List.map_map] at hy
  obtain ⟨t, ht, rfl⟩ := List.mem_map.1 hy
  simp only [Function.comp_apply, map_mul]
  refine Subalgebra.mul_mem _ ?_ ?_
  · rw [← algebraMap_eq, AlgHom.commutes]; exact Subalgebra.algebraMap_mem _ _
  · unfold monoDen
    rw [map_list_prod]
    apply Subalgebra.list_prod_mem
    intro z hz
    simp only [List.map_map] at hz
    obtain ⟨s, hs, rfl⟩ := List.mem_map.1 hz
    exact h t ht s hs

theorem subst_mapClass (d : List Int → List Int) (s : Sym) :
    subst (fun l => MvPolynomial.X (.S (d l))) (X s) = X (mapClass d s) := by
  cases s <;> simp [subst, mapClass]

theorem dualLc_general (Y : Space) {cls : List Int → Prop}
    (h : ∀ l, cls l → ∃ l', Y.dualize l = .ok l' ∧ cls l' ∧ Y.dualize l' = .ok l) : DualizesLc cls Y.dualize Y.dualizeLc := by
  classical
  have h' : ∀ l, ∃ l', cls l → Y.dualize l = .ok l' ∧ cls l' ∧ Y.dualize l' = .ok l := by
    intro l
    by_cases hl : cls l
    · obtain ⟨l', h1⟩ := h l hl
      exact ⟨l', fun _ => h1⟩
    · exact ⟨l, fun h => absurd h hl⟩
  choose d hd using h'
  have hdd : ∀ l, cls l → d (d l) = l := by
    intro l hl
    have h1 := (hd (d l) (hd l hl).2.1).1
    rw [(hd l hl).2.2] at h1
    injection h1 with h1
    exact h1.symm
  have hret : ∀ p, ClassesIn cls p → Returns (Y.dualizeLc p) (subst (fun l => MvPolynomial.X (.S (d l))) (den p)) := by
    intro p hp
    apply apply_spec
    intro t ht l hl
    refine ⟨Poly.sym (.S (d l)), ?_, wf_sym _, by simp⟩
    rw [(hd l (hp t ht l hl)).1]
    rfl
  intro p hw hp
  obtain ⟨p', h1, h2, h3⟩ := hret p hp
  have hin : ClassesIn cls p' := by
    intro t ht l hl
    have hm : den p' ∈ supported ℚ ({s | ∀ l, s = Sym.S l → cls l} : Set Sym) := by
      rw [h3]
      apply hom_den_mem
      intro t ht s hs
      rw [subst_mapClass, X_mem_supported]
      intro l hl
      cases s with
      | S l' =>
        injection hl with hl
        rw [← hl]
        exact (hd l' (hp t ht l' hs)).2.1
      | q => cases hl
      | q1 => cases hl
      | q2 => cases hl
    exact sym_mem_supported h2 hm ht hl l rfl
  refine ⟨d, p', fun l hl => (hd l hl).1, h1, h2, hin, ?_, ?_⟩
  · intro R _ _ f
    rw [valueAt_den, valueAt_den, h3]
    refine hom_den_congr ((aeval f : P →ₐ[ℚ] R).comp (subst (fun l => MvPolynomial.X (.S (d l))))) _ (fun t _ s _ => ?_)
    rw [AlgHom.comp_apply, subst_mapClass, aeval_X, aeval_X, Function.comp_apply]
  · obtain ⟨p'', h1', h2', h3'⟩ := hret p' hin
    refine ⟨p'', h1', perm_of_den_eq h2' hw ?_⟩
    rw [h3', h3]
    refine hom_den_congr ((subst (fun l => MvPolynomial.X (.S (d l)))).comp (subst (fun l => MvPolynomial.X (.S (d l)))))
      (AlgHom.id ℚ P) (fun t ht s hs => ?_)
    rw [AlgHom.comp_apply, subst_mapClass, subst_mapClass, AlgHom.id_apply]
    cases s with
    | S l => simp only [mapClass]; rw [hdd l (hp t ht l hs)]
    | q => rfl
    | q1 => rfl
    | q2 => rfl

/-- C75 for `Gr(m,n)`. -/
theorem C75_dualize_A (m n : Int) (X : Space) (hX : mkGr m n = .ok X) :
    DualizesLc (fun l => ReducedPart l ∧ InRect l m.toNat (n - m)) X.dualize X.dualizeLc :=
  dualLc_general X (fun l hl => by
    obtain ⟨l', h1, h2, h3, _, h4, _⟩ := C12_dualize_A m n X hX l hl.1 hl.2
    exact ⟨l', h1, ⟨h2, h3⟩, h4⟩)

/-- C75 for `IG(m,2n)`. -/
theorem C75_dualize_C (m n : Int) (X : Space) (hX : mkIG m (2 * n) = .ok X) :
    DualizesLc (fun l => ReducedPart l ∧ KStrict (n - m) l ∧ InRect l m.toNat (2 * n - m)) X.dualize X.dualizeLc :=
  dualLc_general X (fun l hl => by
    obtain ⟨l', h1, h2, h3, h4, h5, _⟩ := C12_dualize_C m n X hX l hl.1 hl.2.1 hl.2.2
    exact ⟨l', h1, ⟨h2, h3, h4⟩, h5⟩)

example :
    (Space.mk .C 1 3).dualizeLc [([.q, .S [2, 1]], 1), ([.S [4]], 2)] = .ok [([.S [3]], 2), ([.q, .S [3, 1]], 1)] := by
  decide +kernel

/-- C75 for `OG(m,2n+1)`. -/
theorem C75_dualize_B (m n : Int) (hmn : m ≤ n) (X : Space) (hX : mkOG m (2 * n + 1) = .ok X) :
    DualizesLc (fun l => ReducedPart l ∧ KStrict (n - m) l ∧ InRect l m.toNat (2 * n - m)) X.dualize X.dualizeLc :=
  dualLc_general X (fun l hl => by
    obtain ⟨l', h1, h2, h3, h4, h5, _⟩ := C12_dualize_B m n hmn X hX l hl.1 hl.2.1 hl.2.2
    exact ⟨l', h1, ⟨h2, h3, h4⟩, h5⟩)

example :
    (Space.mk .B 1 3).dualizeLc [([.q, .S [2, 1]], 1), ([.S [4]], 2)] = .ok [([.S [3]], 2), ([.q, .S [3, 1]], 1)] := by
  decide +kernel

/-- C75 for `OG(m,2n+2)`. -/
theorem C75_dualize_D (m n : Int) (hmn : m ≤ n + 1) (X : Space) (hX : mkOG m (2 * n + 2) = .ok X) :
    DualizesLc (TypedClass (n + 1 - m) m.toNat (2 * n + 1 - m)) X.dualize X.dualizeLc :=
  dualLc_general X (fun l hl => by
    obtain ⟨l', h1, h2, h3, _⟩ := C12_dualize_D m n hmn X hX l hl
    exact ⟨l', h1, h2, h3⟩)

example :
    (Space.mk .D 2 3).dualizeLc [([.q, .S [2, 1, 0]], 1), ([.S [4]], 2)] = .ok [([.S [5]], 2), ([.q, .S [4, 2, 0]], 1)] := by
  decide +kernel

/-- On `Gr(2,4)`: `2*S[1] + q*S[2,1]` becomes `2*S[2,1] + q*S[1]`. -/
example : Space.dualizeLc ⟨.A, 2, 4⟩ [([.q, .S [2, 1]], 1), ([.S [1]], 2)] = .ok [([.S [2, 1]], 2), ([.q, .S [1]], 1)] := by
  decide +kernel

example : mkOG 2 (2 * 3 + 2) = .ok ⟨.D, 2, 3⟩ ∧ TypedClass (3 + 1 - 2) (2 : Int).toNat (2 * 3 + 1 - 2) [2, 1, 0] := by
  refine ⟨rfl, [2, 1], ?_⟩
  unfold ReducedPart KStrict InRect
  decide

end Verif
