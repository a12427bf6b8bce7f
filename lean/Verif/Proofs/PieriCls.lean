import Verif.Proofs.PolySum
import Verif.Proofs.PieriArrow
import Verif.Proofs.Comps
import Verif.Props.IndexA
import Verif.Spec.Index
/-!
# Classes and the boxes of `pieri_set`
-/

namespace Verif
open Spec MvPolynomial

theorem reduced_isPart {l : List Int} (h : ReducedPart l) : IsPartition l :=
  ⟨h.1, fun x hx => by have := h.2 x hx; omega⟩

theorem part_pos_of_lt {l : List Int} (h : ReducedPart l) {i : Nat} (hi : i < l.length) : 0 < part l i := by
  rw [part_of_lt hi]; exact h.2 _ (List.getElem_mem hi)

theorem inBox_of_class {k : Nat} {n d c : Int} {m : Nat} {l : List Int} (hm : (m : Int) = n + d - k) (hc : c = n + k)
    (hn : 0 ≤ n) (h : ReducedPart l) (hs : KStrict k l) (hr : InRect l m c) : InBox k n d l := by
  refine ⟨reduced_isPart h, hs, ?_, ?_⟩
  · intro r hr'
    exact part_of_ge (by have := hr.1; omega)
  · cases l with
    | nil => simp [part]; omega
    | cons x l => have := hr.2 x (by simp); simp [part]; omega

theorem class_of_inBox {k : Nat} {n d c : Int} {m : Nat} {l : List Int} (hm : (m : Int) = n + d - k) (hc : c = n + k)
    (h : ReducedPart l) (hb : InBox k n d l) : KStrict k l ∧ InRect l m c := by
  refine ⟨hb.kstrict, ?_, ?_⟩
  · by_contra hlt
    have h1 := hb.rows m (by omega)
    have h2 := part_pos_of_lt h (i := m) (by omega)
    omega
  · intro x hx
    cases l with
    | nil => cases hx
    | cons y l =>
      have h1 : y ≤ n + k := hb.cols
      rcases List.mem_cons.1 hx with rfl | hx
      · omega
      · have := (List.pairwise_cons.1 h.1).1 x hx
        omega

theorem inBox_of_typed {k : Nat} {n c : Int} {m : Nat} {l : List Int} (hm : (m : Int) = n + 1 - k) (hc : c = n + k)
    (hn : 0 ≤ n) (h : TypedClass k m c l) : InBox k n 1 l := by
  obtain ⟨mu, h1, h2, h3, h4⟩ := h
  have hb := inBox_of_class (d := 1) hm hc hn h1 h2 h3
  rcases h4 with rfl | ⟨hk, rfl⟩
  · exact hb
  · have hp : ∀ r, part (mu ++ [0]) r = part mu r := part_append_zeros mu 1
    refine ⟨⟨?_, ?_⟩, ?_, ?_, ?_⟩
    · rw [List.pairwise_append]
      refine ⟨h1.1, by simp, ?_⟩
      intro a ha b hb
      have := h1.2 a ha
      simp at hb; omega
    · intro x hx
      rw [List.mem_append] at hx
      rcases hx with hx | hx
      · have := h1.2 x hx; omega
      · simp at hx; omega
    · unfold KStrict
      rw [List.pairwise_append]
      refine ⟨h2, by simp, ?_⟩
      intro a ha b hb hka
      simp at hb; omega
    · intro r hr; rw [hp]; exact hb.rows r hr
    · rw [hp]; exact hb.cols

/-- `pieri_set` on a class -/
theorem pieriSet_arrow (p : Int) {k : Nat} {n d : Int} {lam : List Int} (h : InBox k n d lam) (hd : d = 0 ∨ d = 1)
    (hn : 0 ≤ n) (hr : 0 ≤ n + d - k) : ∃ R, pieriSet p lam k n d = .ok R ∧ R.Nodup ∧
      ∀ mu, mu ∈ R ↔ ReducedPart mu ∧ InBox k n d mu ∧ mu.sum = lam.sum + p ∧ PieriArrow k d lam mu := by
  obtain ⟨R, h1, h2, h3⟩ := pieriSet_shape p h hd hn hr
  refine ⟨R, h1, h2, ?_⟩
  intro mu
  rw [h3]
  constructor
  · rintro ⟨a, b, c, e⟩
    exact ⟨a, b, c, (shapeRel_iff h b hd hn hr).1 e⟩
  · rintro ⟨a, b, c, e⟩
    exact ⟨a, b, c, (shapeRel_iff h b hd hn hr).2 e⟩

theorem pow2_pos (e : Int) : 0 < pow2 e := by
  unfold pow2
  split
  · exact pow_pos (by norm_num) _
  · exact div_pos one_pos (pow_pos (by norm_num) _)

theorem pow2_ne (e : Int) : pow2 e ≠ 0 := (pow2_pos e).ne'

/-- `pieriC_inner` on a class -/
theorem pieriC_terms (p : Int) {k : Nat} {n : Int} {lam : List Int} (h : InBox k n 0 lam) (hn : 0 ≤ n)
    (hr : 0 ≤ n - k) : ∃ w R, pieriC p lam k n = .ok w ∧ WF w ∧ R.Nodup ∧
      (∀ mu, mu ∈ R ↔ ReducedPart mu ∧ InBox k n 0 mu ∧ mu.sum = lam.sum + p ∧ PieriArrow k 0 lam mu) ∧
      w.Perm (termsOf (fun mu => 2 ^ countComps lam mu true k 0) R) := by
  obtain ⟨R, h1, h2, h3⟩ := pieriSet_arrow p h (Or.inl rfl) hn (by omega)
  have := sumPoly_terms (c := fun x => pow2 (countComps lam x true k 0)) h2 (fun x _ => pow2_ne _)
  refine ⟨_, R, ?_, this.1, h2, h3, ?_⟩
  · unfold pieriC
    rw [h1]; rfl
  · have e : (fun x => pow2 (countComps lam x true k 0)) = fun x => (2 : ℚ) ^ countComps lam x true k 0 := by
      funext x; unfold pow2; rw [if_pos (by omega)]; simp
    rw [← e]
    exact this.2

/-- the exponent of the type B rule -/
def expB (k : Nat) (p : Int) (lam mu : List Int) : Nat := countComps lam mu false k 0 - (if p ≤ k then 0 else 1)

/-- `pieriB_inner` on a class -/
theorem pieriB_terms (p : Int) {k : Nat} {n : Int} {lam : List Int} (h : InBox k n 0 lam) (hn : 0 ≤ n)
    (hr : 0 ≤ n - k) : ∃ w R, pieriB p lam k n = .ok w ∧ WF w ∧ R.Nodup ∧
      (∀ mu, mu ∈ R ↔ ReducedPart mu ∧ InBox k n 0 mu ∧ mu.sum = lam.sum + p ∧ PieriArrow k 0 lam mu) ∧
      (∀ mu ∈ R, k < p → 1 ≤ countComps lam mu false k 0) ∧
      w.Perm (termsOf (fun mu => 2 ^ expB k p lam mu) R) := by
  obtain ⟨R, h1, h2, h3⟩ := pieriSet_shape p h (Or.inl rfl) hn (by omega)
  have := sumPoly_terms (c := fun x => pow2 (countComps lam x false k 0 - (if p ≤ k then (0 : Int) else 1))) h2
    (fun x _ => pow2_ne _)
  have hpos : ∀ mu ∈ R, (k : Int) < p → 1 ≤ countComps lam mu false k 0 := by
    intro mu hmu hp
    obtain ⟨_, hb, hsum, hsh⟩ := (h3 mu).1 hmu
    obtain ⟨e, he⟩ := free_exists h hb hsh (by omega)
    exact countComps_pos h hb (Or.inl rfl) hn (by omega) hsh false he (by simp)
  refine ⟨_, R, ?_, this.1, h2, ?_, hpos, ?_⟩
  · unfold pieriB
    rw [h1]; rfl
  · intro mu
    rw [h3]
    constructor
    · rintro ⟨a, b, c, e⟩
      exact ⟨a, b, c, (shapeRel_iff h b (Or.inl rfl) hn (by omega)).1 e⟩
    · rintro ⟨a, b, c, e⟩
      exact ⟨a, b, c, (shapeRel_iff h b (Or.inl rfl) hn (by omega)).2 e⟩
  · refine this.2.trans (List.Perm.of_eq ?_)
    unfold termsOf
    apply List.map_congr_left
    intro mu hmu
    have h4 := hpos mu hmu
    congr 1
    unfold expB pow2
    dsimp only
    by_cases hp : p ≤ k
    · rw [if_pos hp, if_pos hp, if_pos (by omega)]
      congr 1
    · rw [if_neg hp, if_neg hp, if_pos (by have := h4 (by omega); omega)]
      congr 1
      omega

end Verif
