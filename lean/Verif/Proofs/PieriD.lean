import Verif.Proofs.PieriCls
/-!
# The Pieri rule of type D on a class
-/

namespace Verif
open Spec MvPolynomial

theorem den_flatMap (f : List Int → Poly) (s : List (List Int)) :
    den (s.flatMap f) = (s.map (fun x => den (f x))).sum := by
  induction s with
  | nil => rfl
  | cons x s ih => rw [List.flatMap_cons, den_append, ih, List.map_cons, List.sum_cons]

theorem wf_append {a b : Poly} (ha : WF a) (hb : WF b) (h : ∀ t ∈ a, ∀ u ∈ b, t.1 ≠ u.1) : WF (a ++ b) := by
  refine ⟨?_, ?_⟩
  · rw [List.map_append, List.nodup_append]
    refine ⟨ha.1, hb.1, ?_⟩
    intro x hx y hy
    obtain ⟨t, ht, rfl⟩ := List.mem_map.1 hx
    obtain ⟨u, hu, rfl⟩ := List.mem_map.1 hy
    exact h t ht u hu
  · intro t ht
    rcases List.mem_append.1 ht with ht | ht
    · exact ha.2 t ht
    · exact hb.2 t ht

theorem wf_flatMap {f : List Int → Poly} {s : List (List Int)} (hs : s.Nodup) (hf : ∀ x ∈ s, WF (f x))
    (hd : ∀ x ∈ s, ∀ y ∈ s, x ≠ y → ∀ t ∈ f x, ∀ u ∈ f y, t.1 ≠ u.1) : WF (s.flatMap f) := by
  induction s with
  | nil => exact wf_nil
  | cons x s ih =>
    rw [List.flatMap_cons]
    rw [List.nodup_cons] at hs
    refine wf_append (hf x (by simp)) (ih hs.2 (fun y hy => hf y (by simp [hy]))
      (fun y hy z hz => hd y (by simp [hy]) z (by simp [hz]))) ?_
    intro t ht u hu
    obtain ⟨y, hy, hu⟩ := List.mem_flatMap.1 hu
    exact hd x (by simp) y (by simp [hy]) (fun e => hs.1 (e ▸ hy)) t ht u hu

theorem sumPoly_flatMap {f : List Int → Poly} {s : List (List Int)} (hs : s.Nodup) (hf : ∀ x ∈ s, WF (f x))
    (hd : ∀ x ∈ s, ∀ y ∈ s, x ≠ y → ∀ t ∈ f x, ∀ u ∈ f y, t.1 ≠ u.1) :
    WF (sumPoly f s) ∧ (sumPoly f s).Perm (s.flatMap f) := by
  refine ⟨wf_sumPoly hf, perm_of_den_eq (wf_sumPoly hf) (wf_flatMap hs hf hd) ?_⟩
  rw [den_sumPoly hf, den_flatMap]

/-- the possible terms for a shape `mu` in type D -/
theorem dcoef_terms (p : Int) (lam mu : List Int) (t : Int) (k : Nat) :
    WF (dcoef p lam mu t k) ∧ ∀ u ∈ dcoef p lam mu t k, (∃ e : Nat, u.2 = 2 ^ e) ∧
      (u.1 = [Sym.S mu] ∨ ((k : Int) ∈ mu ∧ u.1 = [Sym.S (mu ++ [0])])) := by
  have hs : ∀ l : List Int, WF (Poly.sym (.S l)) := fun l => wf_sym _
  have h2 : WF (Poly.add (Poly.sym (.S mu)) (Poly.sym (.S (mu ++ [0])))) := wf_add (hs _).sorted (hs _)
  have e2 : Poly.add (Poly.sym (.S mu)) (Poly.sym (.S (mu ++ [0]))) =
      [([.S (mu ++ [0])], 1), ([.S mu], 1)] := by
    unfold Poly.add Poly.sym
    simp [Poly.addTerm]
  unfold dcoef
  dsimp only
  generalize (countComps lam mu false k 1 : Int) - (if (p.natAbs : Int) < k then (0 : Int) else 1) = cc
  split
  · rename_i hcc
    have hp : pow2 cc = 2 ^ cc.toNat := by
      unfold pow2; rw [if_pos hcc]
    rw [hp]
    generalize cc.toNat = e
    have hne : (2 : ℚ) ^ e ≠ 0 := pow_ne_zero _ (by norm_num)
    split
    · refine ⟨wf_scale _ (hs _), ?_⟩
      intro u hu
      unfold Poly.scale at hu
      rw [if_neg hne] at hu
      simp [Poly.sym] at hu
      subst hu
      exact ⟨⟨e, rfl⟩, Or.inl rfl⟩
    · rename_i hk
      have hk : (k : Int) ∈ mu := by tauto
      split
      · refine ⟨wf_scale _ (hs _), ?_⟩
        intro u hu
        unfold Poly.scale at hu
        rw [if_neg hne] at hu
        simp [Poly.sym] at hu
        subst hu
        exact ⟨⟨e, rfl⟩, Or.inr ⟨hk, rfl⟩⟩
      · refine ⟨wf_scale _ h2, ?_⟩
        intro u hu
        unfold Poly.scale at hu
        rw [if_neg hne, e2] at hu
        simp at hu
        rcases hu with rfl | rfl
        · exact ⟨⟨e, rfl⟩, Or.inr ⟨hk, rfl⟩⟩
        · exact ⟨⟨e, rfl⟩, Or.inl rfl⟩
  · generalize tieLoop lam mu k mu.length (k + t + (if p < 0 then 1 else 0)) 0 % 2 = h
    have one : ∀ l : List Int, ∀ u ∈ Poly.sym (.S l), (∃ e : Nat, u.2 = 2 ^ e) ∧ u.1 = [Sym.S l] := by
      intro l u hu
      simp [Poly.sym] at hu
      subst hu
      exact ⟨⟨0, by simp⟩, rfl⟩
    split
    · rename_i hk
      split
      · exact ⟨hs _, fun u hu => ⟨(one _ u hu).1, Or.inl (one _ u hu).2⟩⟩
      · exact ⟨hs _, fun u hu => ⟨(one _ u hu).1, Or.inr ⟨hk.2, (one _ u hu).2⟩⟩⟩
    · split
      · exact ⟨wf_nil, by simp⟩
      · split
        · rename_i hk
          exact ⟨hs _, fun u hu => ⟨(one _ u hu).1, Or.inr ⟨hk.2, (one _ u hu).2⟩⟩⟩
        · exact ⟨hs _, fun u hu => ⟨(one _ u hu).1, Or.inl (one _ u hu).2⟩⟩

theorem append_zero_inj {a b : List Int} (ha : ReducedPart a) (hb : ReducedPart b) {x y : List Int}
    (hx : x = a ∨ x = a ++ [0]) (hy : y = b ∨ y = b ++ [0]) (h : x = y) : a = b := by
  rcases hx with rfl | rfl <;> rcases hy with rfl | rfl
  · exact h
  · subst h; have := ha.2 0 (by simp); omega
  · subst h; have := hb.2 0 (by simp); omega
  · exact List.append_cancel_right h

/-- `pieriD_inner` on a class -/
theorem pieriD_terms (p : Int) {k : Nat} {n : Int} {lam : List Int} (h : InBox k n 1 lam) (hn : 0 ≤ n)
    (hr : 0 ≤ n + 1 - k) : ∃ (w : Poly) (R : List (List Int)), pieriD p lam k n = .ok w ∧ WF w ∧ R.Nodup ∧
      (∀ mu, mu ∈ R ↔ ReducedPart mu ∧ InBox k n 1 mu ∧ mu.sum = lam.sum + p.natAbs ∧ PieriArrow k 1 lam mu) ∧
      w.Perm (R.flatMap (fun mu => dcoef p lam mu (typeOf lam k) k)) := by
  obtain ⟨R, h1, h2, h3⟩ := pieriSet_arrow p.natAbs h (Or.inr rfl) hn hr
  have := sumPoly_flatMap (f := fun mu => dcoef p lam mu (typeOf lam k) k) h2 (fun x _ => (dcoef_terms _ _ _ _ _).1) (by
    intro x hx y hy hxy t ht u hu htu
    apply hxy
    have ht := ((dcoef_terms _ _ _ _ _).2 t ht).2
    have hu := ((dcoef_terms _ _ _ _ _).2 u hu).2
    have hx := ((h3 x).1 hx).1
    have hy := ((h3 y).1 hy).1
    rcases ht with ht | ⟨_, ht⟩ <;> rcases hu with hu | ⟨_, hu⟩ <;> rw [ht, hu] at htu <;> simp at htu <;>
      refine append_zero_inj hx hy ?_ ?_ htu <;> simp)
  refine ⟨_, R, ?_, this.1, h2, h3, this.2⟩
  unfold pieriD
  rw [h1]; rfl

end Verif
