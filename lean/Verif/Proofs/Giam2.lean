import Verif.Spec.Giam2
import Verif.Spec.RowRow
import Verif.Proofs.RowRow
import Verif.Proofs.RingHom
import Mathlib.Tactic.Ring
import Mathlib.Tactic.LinearCombination
/-!
# Giambelli polynomials of two rows
-/

namespace Verif
open Spec MvPolynomial

namespace Giam2

/-- the coefficient of all terms but the first -/
noncomputable def cf (k s : ℕ) : P := if s ≤ 2 * k + 1 then 1 else 2

theorem twoRow_zero (k : ℕ) (θ : ℕ → P) (h0 : θ 0 = 1) (a : ℕ) : twoRow k θ a 0 = θ a := by
  unfold twoRow; rw [if_pos rfl]; split_ifs <;> simp [h0]

theorem twoRow_succ {k : ℕ} (θ : ℕ → P) {a b : ℕ} (h : ¬ a + (b + 1) ≤ 2 * k + 1) :
    twoRow k θ a (b + 1) = θ a * θ (b + 1) - θ (a + 1) * θ b - twoRow k θ (a + 1) b := by
  unfold twoRow
  rw [if_neg h, if_neg (by omega), Finset.sum_range_succ']
  have : ∀ i, a + (i + 1 + 1) = a + 1 + (i + 1) := fun i => by omega
  simp only [this, Nat.add_sub_add_right, pow_succ (-1 : P) (_ + 1)]
  simp only [mul_neg, mul_one, neg_mul, Finset.sum_neg_distrib]
  simp
  ring

/-- the identity behind the recursion -/
theorem twoRow_sum (k : ℕ) (θ : ℕ → P) (h0 : θ 0 = 1) : ∀ b a : ℕ,
    twoRow k θ a b + cf k (a + b) * ∑ i ∈ Finset.range b, twoRow k θ (a + (i + 1)) (b - (i + 1)) = θ a * θ b := by
  intro b
  induction b with
  | zero => intro a; rw [twoRow_zero k θ h0]; simp [h0]
  | succ b ih =>
    intro a
    have ih := ih (a + 1)
    rw [Finset.sum_range_succ']
    have : ∀ i, a + (i + 1 + 1) = a + 1 + (i + 1) := fun i => by omega
    simp only [this, Nat.add_sub_add_right, zero_add, Nat.add_sub_cancel]
    rw [show a + 1 + b = a + (b + 1) by omega] at ih
    by_cases h : a + (b + 1) ≤ 2 * k + 1
    · have e : twoRow k θ a (b + 1) = θ a * θ (b + 1) - θ (a + 1) * θ b := by
        unfold twoRow; rw [if_pos h]; simp
      have c : cf k (a + (b + 1)) = 1 := if_pos h
      rw [e, c]
      rw [c] at ih
      linear_combination ih
    · have c : cf k (a + (b + 1)) = 2 := if_neg h
      rw [twoRow_succ θ h, c]
      rw [c] at ih
      linear_combination ih

/-- the recursion determines the polynomials -/
theorem twoRow_unique {θ : ℕ → P} (h0 : θ 0 = 1) {k N : ℕ} {H : ℕ → ℕ → P} (H0 : ∀ a ≤ N, H a 0 = θ a)
    (Hrec : ∀ a b, 1 ≤ b → b ≤ a → a ≤ N → ¬ (a = b ∧ k < b) →
      H a b + cf k (a + b) * (∑ i ∈ Finset.range b, if a + (i + 1) ≤ N then H (a + (i + 1)) (b - (i + 1)) else
        twoRow k θ (a + (i + 1)) (b - (i + 1))) = θ a * θ b) :
    ∀ b a, b ≤ a → a ≤ N → ¬ (a = b ∧ k < b) → H a b = twoRow k θ a b := by
  intro b
  induction b using Nat.strong_induction_on with
  | _ b ih =>
    intro a hba ha hne
    rcases Nat.eq_zero_or_pos b with rfl | hb
    · rw [H0 a ha, twoRow_zero k θ h0]
    · have h := Hrec a b hb hba ha hne
      have e : (∑ i ∈ Finset.range b, if a + (i + 1) ≤ N then H (a + (i + 1)) (b - (i + 1)) else
          twoRow k θ (a + (i + 1)) (b - (i + 1))) = ∑ i ∈ Finset.range b, twoRow k θ (a + (i + 1)) (b - (i + 1)) := by
        refine Finset.sum_congr rfl (fun i hi => ?_)
        rw [Finset.mem_range] at hi
        split_ifs with hN
        · exact ih _ (by omega) _ (by omega) hN (by omega)
        · rfl
      rw [e, ← twoRow_sum k θ h0 b a] at h
      exact add_right_cancel h

/-- beyond the last class -/
theorem twoRow_big {θ : ℕ → P} {N : ℕ} (hN : ∀ p, N < p → θ p = 0) (k : ℕ) {a : ℕ} (b : ℕ) (ha : N < a) : twoRow k θ a b = 0 := by
  unfold twoRow
  rw [hN a ha, hN (a + 1) (by omega)]
  split_ifs
  · simp
  · simp
  · rw [Finset.sum_eq_zero (fun i _ => by rw [hN _ (by omega)]; ring)]
    simp

theorem twoRow_top {θ : ℕ → P} {N : ℕ} (hN : ∀ p, N < p → θ p = 0) (k : ℕ) (b : ℕ) : twoRow k θ N b = θ N * θ b := by
  unfold twoRow
  rw [hN (N + 1) (by omega)]
  split_ifs
  · simp
  · simp
  · rw [Finset.sum_eq_zero (fun i _ => by rw [hN _ (by omega)]; ring)]
    simp

theorem G_row {X : Space} {pieri : Int → List Int → Except PyErr Poly} {K : ℕ} {cls : List Int → Prop} {B : ℕ}
    (Z : RingOn X pieri (stdSpc K) cls B) {c : ℕ} (h1 : 1 ≤ c) (h2 : c ≤ K) (hc : cls [(c : Int)]) :
    Z.Y.G [(c : Int)] = MvPolynomial.X (.S [(c : Int)]) := by
  have hs : stdSpc K (c : Int) := ⟨by omega, by omega⟩
  have hn : num2spec (c : Int) = [(c : Int)] := num2spec_pos (by omega)
  have hu := Z.unit c hs (by rw [hn]; exact hc)
  have red : ReducedPart [(c : Int)] := by simp [ReducedPart]; omega
  obtain ⟨e1, e2⟩ := hdK_red (k := X.k) red
  rw [Z.Y.G_cons hc (by simp), GiamSys.rest, e1, e2, hu, hn, sub_self, GiamSys.G_nil]
  simp

/-- the Giambelli polynomials turn the product of two special classes into the product of two variables -/
theorem G_prod {X : Space} {pieri : Int → List Int → Except PyErr Poly} {K : ℕ} {cls : List Int → Prop} {B : ℕ}
    (Z : RingOn X pieri (stdSpc K) cls B) {a b : ℕ} (hb : 1 ≤ b) (hba : b ≤ a) (ha : a ≤ K) (ca : cls [(a : Int)]) (cb : cls [(b : Int)])
    (cab : cls [(a : Int), b]) {L : Poly} (hL : ∃ w, gmult X pieri B (Poly.sym (.S [(a : Int)])) (Poly.sym (.S [(b : Int)])) = .ok w ∧ w.Perm L) :
    subst Z.Y.G (den L) = MvPolynomial.X (.S [(a : Int)]) * MvPolynomial.X (.S [(b : Int)]) := by
  obtain ⟨w, h1, h2⟩ := hL
  obtain ⟨w', h3, -, h4⟩ := Z.mult (le_refl B) (wf_sym (.S [(a : Int)])) (x := Finsupp.single [(a : Int)] 1) (by simp [inq])
    (supp_single ca 1) (wf_sym (.S [(b : Int)])) (y := Finsupp.single [(b : Int)] 1) (by simp [inq]) (supp_single cb 1)
  rw [h1] at h3
  obtain rfl : w = w' := by simpa using h3
  have hp : Z.Y.prod (Finsupp.single [(a : Int)] 1) (Finsupp.single [(b : Int)] 1) = Z.Y.t a [(b : Int)] := by
    have hs : stdSpc K (a : Int) := ⟨by omega, by omega⟩
    have hn : num2spec (a : Int) = [(a : Int)] := num2spec_pos (by omega)
    have hu := Z.unit a hs (by rw [hn]; exact ca)
    have := Z.Y.prod_special hs (by rw [hn]; exact ca) Z.nil hu (y := Finsupp.single [(b : Int)] 1) (supp_single cb 1)
    rw [hn] at this
    rw [this]
    simp [lin]
  have red : ReducedPart [(a : Int), b] := by simp [ReducedPart]; omega
  obtain ⟨e1, e2⟩ := hdK_red (k := X.k) red
  have hG := Z.Y.G_cons cab (by simp)
  rw [GiamSys.rest, e1, e2, num2spec_pos (by omega), G_row Z hb (by omega) cb, map_sub, ← hp, ← h4, den_perm h2,
    map_sub, ev_single] at hG
  simp only [inq, map_one, one_mul, subst_S] at hG
  linear_combination hG

open RowRow in
/-- the sum over the classes in the product of two rows -/
theorem sum_rowIdx {m k a b : ℕ} (hm : 2 ≤ m) (hba : b ≤ a) (ha : a ≤ m + 2 * k) (hne : ¬ (a = b ∧ k < b)) (f : ℕ → P) :
    ((rowIdx m k a b).map f).sum = f 0 + ∑ i ∈ Finset.range b, if a + (i + 1) ≤ m + 2 * k then f (i + 1) else 0 := by
  have hlen : ∀ c d : ℕ, d ≤ c → (two c d).length ≤ m := by
    intro c d h; rw [length_two h]; split_ifs <;> omega
  have e : ∀ L : List ℕ, ((L.filter (fun i => a + i ≤ m + 2 * k ∧ (two (a + i) (b - i)).length ≤ m ∧ ¬ (a + i = b - i ∧ k < b - i))).map f).sum =
      (L.map (fun i => if a + i ≤ m + 2 * k ∧ (two (a + i) (b - i)).length ≤ m ∧ ¬ (a + i = b - i ∧ k < b - i) then f i else 0)).sum := by
    intro L
    induction L with
    | nil => rfl
    | cons x L ih =>
      rw [List.filter_cons]
      by_cases hx : a + x ≤ m + 2 * k ∧ (two (a + x) (b - x)).length ≤ m ∧ ¬ (a + x = b - x ∧ k < b - x)
      · rw [if_pos (decide_eq_true hx), List.map_cons, List.map_cons, List.sum_cons, List.sum_cons, ih, if_pos hx]
      · rw [if_neg (by simpa using hx), List.map_cons, List.sum_cons, ih, if_neg hx, zero_add]
  unfold rowIdx
  rw [e, ← List.sum_toFinset _ List.nodup_range, List.toFinset_range, Finset.sum_range_succ', add_comm]
  congr 1
  · rw [if_pos ⟨by omega, hlen _ _ (by omega), by omega⟩]
  · refine Finset.sum_congr rfl (fun i hi => ?_)
    rw [Finset.mem_range] at hi
    by_cases h : a + (i + 1) ≤ m + 2 * k
    · rw [if_pos ⟨h, hlen _ _ (by omega), by omega⟩, if_pos h]
    · rw [if_neg (fun h' => h h'.1), if_neg h]

theorem subst_terms (σ : List Int → P) (L : List ℕ) (f : ℕ → List Int) (c : ℕ → ℚ) :
    subst σ (den (L.map (fun i => ([Sym.S (f i)], c i)))) = (L.map (fun i => C (c i) * σ (f i))).sum := by
  induction L with
  | nil => simp
  | cons x L ih =>
    rw [List.map_cons, den_cons, map_add, ih, List.map_cons, List.sum_cons]
    simp [monoDen]

theorem den_app (L M : Poly) : den (L ++ M) = den L + den M := by
  unfold den; rw [List.map_append, List.sum_append]

end Giam2
end Verif
