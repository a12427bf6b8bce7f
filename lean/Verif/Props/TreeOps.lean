import Verif.Spec.Dec
import Verif.Props.Tree
/-!
# C96: `is_operator` and `len`
-/

namespace Verif
open Spec MvPolynomial

/-- An expanded expression has as many terms as the polynomial has monomials. -/
theorem support_card {p : Poly} (hp : WF p) : (den p).support.card = p.length := by
  have h1 : (den p).support = (p.map (fun t => expo t.1)).toFinset := by
    ext d
    rw [List.mem_toFinset, List.mem_map]
    constructor
    · intro hd
      clear hp
      induction p with
      | nil => simp [den] at hd
      | cons t p ih =>
        rw [den_cons] at hd
        rcases Finset.mem_union.mp (support_add hd) with hd | hd
        · refine ⟨t, by simp, ?_⟩
          rw [monoDen_eq, C_mul_monomial] at hd
          exact (Finset.mem_singleton.mp (support_monomial_subset hd)).symm
        · obtain ⟨u, hu, h⟩ := ih hd
          exact ⟨u, by simp [hu], h⟩
    · rintro ⟨t, ht, rfl⟩
      rw [mem_support_iff, coeff_den_mem hp (m := t.1) (c := t.2) ht]
      exact (hp.2 t ht).1
  rw [h1, List.toFinset_card_of_nodup, List.length_map]
  refine List.Nodup.of_map (fun d => d) ?_
  rw [List.map_id']
  have h2 : p.map (fun t => expo t.1) = (p.map Prod.fst).map expo := by rw [List.map_map]; rfl
  rw [h2]
  refine List.Nodup.map_on ?_ hp.1
  intro a ha b hb hab
  obtain ⟨t, ht, rfl⟩ := List.mem_map.mp ha
  obtain ⟨u, hu, rfl⟩ := List.mem_map.mp hb
  exact expo_inj (hp.2 t ht).2 (hp.2 u hu).2 hab

/-- The number of different symbols of a monomial. -/
theorem expo_support_card (m : Mono) : (expo m).support.card = m.dedup.length := by
  unfold expo
  rw [Multiset.toFinsupp_support]
  rfl

theorem den_single (m : Mono) (c : ℚ) : den [(m, c)] = monomial (expo m) c := by
  simp [den, monoDen_eq, C_mul_monomial]

/-- The arguments of the product of a single term. -/
theorem ofTerm_args (m : Mono) (c : ℚ) : (if c = 1 then Tree.ofMono m else .num c :: Tree.ofMono m).length =
    m.dedup.length + if c = 1 then 0 else 1 := by
  split <;> simp [Tree.ofMono]

theorem wf_single {p : Poly} (hp : WF p) {d : Sym →₀ ℕ} {c : ℚ} (hc : c ≠ 0) (h : den p = monomial d c) :
    ∃ m, p = [(m, c)] ∧ expo m = d := by
  have h1 : p.length = 1 := by rw [← support_card hp, h, support_monomial, if_neg hc]; rfl
  obtain ⟨⟨m, c'⟩, rfl⟩ := List.length_eq_one_iff.mp h1
  rw [den_single] at h
  have := hp.2 _ (by simp : (m, c') ∈ [(m, c')])
  rcases (monomial_eq_monomial_iff _ _ _ _).mp h with h | h
  · exact ⟨m, by rw [h.2], h.1⟩
  · exact absurd h.2 hc

/-- **C96.** `is_operator('+')`: the polynomial has at least two terms. -/
theorem C96_sum {p : Poly} (hp : WF p) :
    (Tree.ofPoly p).isOperator '+' = .ok (decide (2 ≤ (den p).support.card)) := by
  rw [support_card hp]
  match p with
  | [] => rfl
  | [(m, c)] =>
    have : ∀ l : List Tree, (∀ t ∈ l, t.isOperator '+' = .ok false) → (Tree.mulOf l).isOperator '+' = .ok false := by
      intro l hl
      match l with
      | [] => rfl
      | [t] => exact hl t (by simp)
      | a :: b :: r => rfl
    refine this _ ?_
    intro t ht
    have h2 : ∀ t ∈ Tree.ofMono m, t.isOperator '+' = .ok false := by
      intro t ht
      obtain ⟨s, -, rfl⟩ := List.mem_map.mp ht
      split <;> rfl
    split at ht
    · exact h2 t ht
    · rcases List.mem_cons.mp ht with rfl | ht
      · rfl
      · exact h2 t ht
  | a :: b :: r => simp [Tree.ofPoly, Tree.isOperator]

example : (Tree.ofPoly [([.S [1]], -2), ([], 5)]).isOperator '+' = .ok true ∧
    (Tree.ofPoly [([.S [1], .q], -2)]).isOperator '+' = .ok false := by decide +kernel

/-- **C96.** `is_operator('*')`: a single term with at least two factors, where a coefficient other than one counts as a
factor and a power of a symbol counts once. -/
theorem C96_product {p : Poly} (hp : WF p) : ∃ b, (Tree.ofPoly p).isOperator '*' = .ok b ∧
    (b = true ↔ ∃ (d : Sym →₀ ℕ) (c : ℚ), c ≠ 0 ∧ den p = monomial d c ∧
      2 ≤ d.support.card + if c = 1 then 0 else 1) := by
  match p, hp with
  | [], _ =>
    refine ⟨false, rfl, ?_⟩
    simp only [Bool.false_eq_true, false_iff, not_exists]
    rintro d c ⟨hc, h, -⟩
    have : (monomial d c : P) = 0 := by rw [← h]; simp [den]
    exact hc (monomial_eq_zero.mp this)
  | [(m, c)], hp =>
    have hc := (hp.2 _ (by simp : (m, c) ∈ [(m, c)])).1
    have hr : (∃ (d : Sym →₀ ℕ) (c' : ℚ), c' ≠ 0 ∧ den [(m, c)] = monomial d c' ∧
        2 ≤ d.support.card + if c' = 1 then 0 else 1) ↔ 2 ≤ m.dedup.length + if c = 1 then 0 else 1 := by
      constructor
      · rintro ⟨d, c', hc', h, h2⟩
        obtain ⟨m', h3, h4⟩ := wf_single hp hc' h
        simp only [List.cons.injEq, Prod.mk.injEq, and_true] at h3
        rw [← h4, expo_support_card, ← h3.1, ← h3.2] at h2
        exact h2
      · intro h
        exact ⟨expo m, c, hc, den_single m c, by rw [expo_support_card]; exact h⟩
    rw [hr, ← ofTerm_args]
    change ∃ b, (Tree.mulOf (if c = 1 then Tree.ofMono m else .num c :: Tree.ofMono m)).isOperator '*' = _ ∧ _
    have h2 : ∀ t ∈ (if c = 1 then Tree.ofMono m else .num c :: Tree.ofMono m), t.isOperator '*' = .ok false := by
      have h2 : ∀ t ∈ Tree.ofMono m, t.isOperator '*' = .ok false := by
        intro t ht
        obtain ⟨s, -, rfl⟩ := List.mem_map.mp ht
        split <;> rfl
      intro t ht
      split at ht
      · exact h2 t ht
      · rcases List.mem_cons.mp ht with rfl | ht
        · rfl
        · exact h2 t ht
    generalize (if c = 1 then Tree.ofMono m else .num c :: Tree.ofMono m) = l at h2
    match l, h2 with
    | [], _ => exact ⟨false, rfl, by simp⟩
    | [t], h2 => exact ⟨false, h2 t (by simp), by simp⟩
    | a :: b :: r, _ => exact ⟨true, rfl, by simp⟩
  | a :: b :: r, hp =>
    refine ⟨false, rfl, ?_⟩
    simp only [Bool.false_eq_true, false_iff, not_exists]
    rintro d c ⟨hc, h, -⟩
    obtain ⟨m, h, -⟩ := wf_single hp hc h
    simp at h

example : (Tree.ofPoly [([.q, .S [1]], 1)]).isOperator '*' = .ok true ∧
    (Tree.ofPoly [([.S [1], .S [1]], 1)]).isOperator '*' = .ok false ∧
    (Tree.ofPoly [([.S [1], .S [1]], 3)]).isOperator '*' = .ok true := by decide +kernel

theorem monomial_single_eq (s : Sym) (k : ℕ) : (monomial (Finsupp.single s k) 1 : P) = X s ^ k :=
  (X_pow_eq_monomial ..).symm

theorem expo_replicate (s : Sym) (k : ℕ) : expo (List.replicate k s) = Finsupp.single s k := by
  classical
  ext t
  rw [expo, Multiset.toFinsupp_apply, Finsupp.single_apply, Multiset.coe_count, List.count_replicate]
  simp

/-- **C96.** `is_operator('^')`: a power of a single symbol with exponent at least two. -/
theorem C96_power {p : Poly} (hp : WF p) : ∃ b, (Tree.ofPoly p).isOperator '^' = .ok b ∧
    (b = true ↔ ∃ (s : Sym) (k : ℕ), 2 ≤ k ∧ den p = X s ^ k) := by
  match p, hp with
  | [], _ =>
    refine ⟨false, rfl, ?_⟩
    simp only [Bool.false_eq_true, false_iff, not_exists]
    rintro s k ⟨-, h⟩
    have : (X s : P) ^ k = 0 := by rw [← h]; simp [den]
    rw [X_pow_eq_monomial] at this
    exact one_ne_zero (monomial_eq_zero.mp this)
  | [(m, c)], hp =>
    have hr : (∃ (s : Sym) (k : ℕ), 2 ≤ k ∧ den [(m, c)] = X s ^ k) ↔ c = 1 ∧ ∃ s k, 2 ≤ k ∧ m = List.replicate k s := by
      constructor
      · rintro ⟨s, k, hk, h⟩
        rw [X_pow_eq_monomial] at h
        obtain ⟨m', h3, h4⟩ := wf_single hp one_ne_zero h
        simp only [List.cons.injEq, Prod.mk.injEq, and_true] at h3
        refine ⟨h3.2, s, k, hk, ?_⟩
        rw [← h3.1] at h4
        rw [← expo_replicate] at h4
        refine expo_inj (hp.2 _ (by simp : (m, c) ∈ [(m, c)])).2 ?_ h4
        refine List.pairwise_replicate.mpr (Or.inr ?_)
        exact (by
          have : ∀ l : List Int, listLt l l = false := by
            intro l
            induction l with
            | nil => rfl
            | cons a l ih => simp [listLt, ih]
          exact this _)
      · rintro ⟨rfl, s, k, hk, rfl⟩
        exact ⟨s, k, hk, by rw [den_single, expo_replicate, monomial_single_eq]⟩
    rw [hr]
    change ∃ b, (Tree.mulOf (if c = 1 then Tree.ofMono m else .num c :: Tree.ofMono m)).isOperator '^' = _ ∧ _
    by_cases hc : c = 1
    · rw [if_pos hc]
      unfold Tree.ofMono
      match hd : m.dedup with
      | [] =>
        have : m = [] := by
          cases m with
          | nil => rfl
          | cons a m =>
            have : a ∈ (a :: m).dedup := List.mem_dedup.mpr (by simp)
            rw [hd] at this
            simp at this
        refine ⟨false, rfl, ?_⟩
        simp only [Bool.false_eq_true, false_iff]
        rintro ⟨-, s, k, hk, h⟩
        rw [this] at h
        obtain ⟨k, rfl⟩ : ∃ j, k = j + 1 := ⟨k - 1, by omega⟩
        simp [List.replicate_succ] at h
      | [s] =>
        have hm : m = List.replicate (m.count s) s := by
          refine List.eq_replicate_iff.mpr ⟨?_, ?_⟩
          · refine (List.count_eq_length.mpr ?_).symm
            intro t ht
            have := List.mem_dedup.mpr ht
            rw [hd] at this
            exact (List.mem_singleton.mp this).symm
          · intro t ht
            have := List.mem_dedup.mpr ht
            rw [hd] at this
            exact List.mem_singleton.mp this
        have hpos : 0 < m.count s := List.count_pos_iff.mpr (List.mem_dedup.mp (by rw [hd]; simp))
        by_cases h1 : m.count s = 1
        · refine ⟨false, by simp [Tree.mulOf, h1, Tree.isOperator], ?_⟩
          simp only [Bool.false_eq_true, false_iff]
          rintro ⟨-, t, k, hk, h⟩
          have := congrArg List.length h
          rw [hm] at this
          simp at this
          omega
        · refine ⟨true, by simp [Tree.mulOf, h1, Tree.isOperator], ?_⟩
          simp only [true_iff]
          exact ⟨hc, s, _, by omega, hm⟩
      | a :: b :: r =>
        refine ⟨false, rfl, ?_⟩
        simp only [Bool.false_eq_true, false_iff]
        rintro ⟨-, s, k, hk, h⟩
        have h3 : m.dedup.length = 1 := by
          rw [h, List.replicate_dedup (by omega)]; rfl
        rw [hd] at h3
        simp at h3
    · refine ⟨false, ?_, by simp [hc]⟩
      rw [if_neg hc]
      cases Tree.ofMono m <;> rfl
  | a :: b :: r, hp =>
    refine ⟨false, rfl, ?_⟩
    simp only [Bool.false_eq_true, false_iff, not_exists]
    rintro s k ⟨-, h⟩
    rw [X_pow_eq_monomial] at h
    obtain ⟨m, h, -⟩ := wf_single hp one_ne_zero h
    simp at h

example : (Tree.ofPoly [([.q, .q, .q], 1)]).isOperator '^' = .ok true ∧
    (Tree.ofPoly [([.q, .S [1]], 1)]).isOperator '^' = .ok false := by decide +kernel

/-- **C96.** Any other operator is refused. -/
theorem C96_invalid (t : Tree) (op : Char) (h1 : op ≠ '+') (h2 : op ≠ '*') (h3 : op ≠ '^') :
    t.isOperator op = .error .valueError := by
  unfold Tree.isOperator
  rw [if_neg h1, if_neg h2, if_neg h3]

example : (Tree.ofPoly [([.q, .S [1]], 1)]).isOperator '-' = .error .valueError := by decide +kernel

/-- **C96.** `len`: the number of terms of a sum; of a single term the number of its factors (one for a number or a
symbol). -/
theorem C96_len {p : Poly} (hp : WF p) : (2 ≤ (den p).support.card → (Tree.ofPoly p).len = (den p).support.card) ∧
    ∀ (d : Sym →₀ ℕ) (c : ℚ), c ≠ 0 → den p = monomial d c →
      (Tree.ofPoly p).len = max 1 (d.support.card + if c = 1 then 0 else 1) := by
  constructor
  · rw [support_card hp]; exact C84_len
  · intro d c hc h
    obtain ⟨m, rfl, rfl⟩ := wf_single hp hc h
    rw [expo_support_card, ← ofTerm_args]
    change (Tree.mulOf (if c = 1 then Tree.ofMono m else .num c :: Tree.ofMono m)).len = _
    have h2 : ∀ t ∈ (if c = 1 then Tree.ofMono m else .num c :: Tree.ofMono m), t.len = 1 := by
      have h2 : ∀ t ∈ Tree.ofMono m, t.len = 1 := by
        intro t ht
        obtain ⟨s, -, rfl⟩ := List.mem_map.mp ht
        split <;> rfl
      intro t ht
      split at ht
      · exact h2 t ht
      · rcases List.mem_cons.mp ht with rfl | ht
        · rfl
        · exact h2 t ht
    generalize (if c = 1 then Tree.ofMono m else .num c :: Tree.ofMono m) = l at h2
    match l, h2 with
    | [], _ => rfl
    | [t], h2 => simpa [Tree.mulOf] using h2 t (by simp)
    | a :: b :: r, _ => simp [Tree.mulOf, Tree.len]

example : (Tree.ofPoly [([.S [1]], -2), ([.q], 1/2)]).isOperator '+' = .ok true ∧
    (Tree.ofPoly [([.S [1]], -2)]).isOperator '*' = .ok true ∧ (Tree.ofPoly [([.S [1], .S [1]], 1)]).isOperator '^' = .ok true ∧
    (Tree.ofPoly [([.S [1], .S [1]], 3)]).isOperator '^' = .ok false ∧ (Tree.ofPoly [([.q, .S [1], .S [1]], 3)]).len = 3 := by
  decide +kernel

end Verif
