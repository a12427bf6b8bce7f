import Verif.Proofs.WordC
import Verif.Spec.TwoRow
/-!
# The Pieri rule for two rows (types B and C)
-/

namespace Verif
open Spec

namespace RowRow

variable {b c d : ℕ}

theorem part_two (h : d ≤ c) : part (two c d) 0 = c ∧ part (two c d) 1 = d ∧ ∀ r, part (two c d) (r + 2) = 0 := by
  unfold two
  rcases Nat.eq_zero_or_pos d with rfl | hd
  · rcases Nat.eq_zero_or_pos c with rfl | hc
    · simp [part]
    · simp [part, hc]
  · have hc : 0 < c := by omega
    simp [part, hd, hc]

theorem part_row (b : ℕ) : part (two b 0) 0 = b ∧ ∀ r, part (two b 0) (r + 1) = 0 := by
  obtain ⟨h1, h2, h3⟩ := part_two (Nat.zero_le b)
  refine ⟨h1, ?_⟩
  rintro (_ | r)
  · simpa using h2
  · exact h3 r

theorem reduced_two (h : d ≤ c) : ReducedPart (two c d) := by
  unfold two
  rcases Nat.eq_zero_or_pos d with rfl | hd
  · rcases Nat.eq_zero_or_pos c with rfl | hc
    · simp [ReducedPart]
    · simp [ReducedPart, hc]
  · have hc : 0 < c := by omega
    simp [ReducedPart, hd, hc, h]

theorem sum_two (h : d ≤ c) : (two c d).sum = c + d := by
  unfold two
  rcases Nat.eq_zero_or_pos d with rfl | hd
  · rcases Nat.eq_zero_or_pos c with rfl | hc
    · simp
    · simp [hc]
  · have hc : 0 < c := by omega
    simp [hd, hc]

theorem length_two (h : d ≤ c) : (two c d).length = (if 0 < c then 1 else 0) + (if 0 < d then 1 else 0) := by
  unfold two
  rcases Nat.eq_zero_or_pos d with rfl | hd
  · rcases Nat.eq_zero_or_pos c with rfl | hc
    · simp
    · simp [hc]
  · have hc : 0 < c := by omega
    simp [hd, hc]

theorem two_eq (c d : ℕ) : two c d = (if 0 < c then [(c : Int)] else []) ++ (if 0 < d then [(d : Int)] else []) := by
  unfold two
  rcases Nat.eq_zero_or_pos d with rfl | hd <;> rcases Nat.eq_zero_or_pos c with rfl | hc <;> simp [*]

theorem mem_two {x : Int} : x ∈ two c d ↔ (0 < c ∧ x = c) ∨ (0 < d ∧ x = d) := by
  rw [two_eq, List.mem_append]
  split_ifs <;> simp [*]

theorem col_two (j : ℕ) : col (two c d) j = (if j < c then 1 else 0) + (if j < d then 1 else 0) := by
  have key : ∀ c : ℕ, col (if 0 < c then [(c : Int)] else []) j = if j < c then 1 else 0 := by
    intro c
    split_ifs with h1 h2 h2
    · simp only [col, List.countP_cons, List.countP_nil]; rw [if_pos (by simp; omega)]
    · simp only [col, List.countP_cons, List.countP_nil]; rw [if_neg (by simp; omega)]
    · omega
    · rfl
  rw [two_eq, ← key c, ← key d]
  exact List.countP_append

theorem eq_two {mu : List Int} (h : ReducedPart mu) (h2 : part mu 2 ≤ 0) :
    ∃ c d : ℕ, d ≤ c ∧ part mu 0 = c ∧ part mu 1 = d ∧ mu = two c d := by
  have h0 := h.isPartition.part_nonneg 0
  have h1 := h.isPartition.part_nonneg 1
  have h3 := h.isPartition.part_anti (show 0 ≤ 1 by omega)
  refine ⟨(part mu 0).toNat, (part mu 1).toNat, by omega, by omega, by omega, ?_⟩
  obtain ⟨e1, e2, e3⟩ := part_two (c := (part mu 0).toNat) (d := (part mu 1).toNat) (by omega)
  apply eq_of_part_eq h.noTrailing (reduced_two (by omega)).noTrailing
  rintro (_ | _ | i)
  · rw [e1]; omega
  · show part mu 1 = part _ 1
    rw [e2]; omega
  · show part mu (i + 2) = part _ (i + 2)
    rw [e3]
    have := h.isPartition.part_anti (show 2 ≤ i + 2 by omega)
    have := h.isPartition.part_nonneg (i + 2)
    omega

/-- the terms in the product of two rows have at most two rows -/
theorem arrow_two {k : ℕ} {δ : Int} {mu : List Int} (hm : ReducedPart mu) (h : PieriArrow k δ (two b 0) mu) :
    ∃ c d : ℕ, d ≤ c ∧ d ≤ b ∧ mu = two c d := by
  obtain ⟨nu, hnu, h1, h2⟩ := h.strips
  obtain ⟨e1, e2⟩ := part_row b
  have a1 : part mu 2 ≤ part nu 1 := (h2 1).2
  have a2 := (h1 1).1
  have a3 : part mu 1 ≤ part nu 0 := (h2 0).2
  have a4 := (h1 0).1
  rw [e2 0] at a2
  rw [e1] at a4
  obtain ⟨c, d, q1, q2, q3, q4⟩ := eq_two hm (by omega)
  exact ⟨c, d, q1, by omega, q4⟩

theorem two_arrow {k : ℕ} {δ : Int} (hδ : δ = 0 ∨ δ = 1) (hdb : d ≤ b) (hbc : b ≤ c) : PieriArrow k δ (two b 0) (two c d) := by
  obtain ⟨e1, e2⟩ := part_row b
  obtain ⟨f1, f2, f3⟩ := part_two (show d ≤ c by omega)
  have hcol : ∀ j, colHeight (two c d) j = (if j < c then 1 else 0) + (if j < d then 1 else 0) := by
    intro j; rw [← col_two]; unfold col colHeight; congr 1
  have hcol' : ∀ j, colHeight (two b 0) j = (if j < b then 1 else 0) := by
    intro j
    have := col_two (c := b) (d := 0) j
    simp only [Nat.not_lt_zero, if_false, add_zero] at this
    rw [← this]; unfold col colHeight; congr 1
  have hadd : ∀ s e, Added (two b 0) (two c d) s e → (s = 0 ∧ b ≤ e ∧ e < c) ∨ (s = 1 ∧ e < d) := by
    rintro (_ | _ | s) e ⟨h1, h2⟩
    · unfold InShape at h1 h2; rw [e1] at h1; rw [f1] at h2; left; omega
    · unfold InShape at h1 h2; rw [f2] at h2; right; omega
    · unfold InShape at h1 h2; rw [f3] at h2; omega
  refine ⟨⟨two b 0, (reduced_two (Nat.zero_le b)).isPartition, fun r => ⟨le_refl _, by omega, by omega⟩, ?_⟩, ?_, ?_⟩
  · rintro (_ | _ | i)
    · rw [e1, f1, f2]; omega
    · rw [e2, f2, f3]; omega
    · rw [e2, f3, f3]; omega
  · intro j hj h1 r h2 s e s' e' ha hr ha' hr'
    rw [hcol, hcol'] at h1
    rw [hcol'] at h2
    have h3 : j < b ∧ r = 0 ∧ d ≤ j := by
      split_ifs at h1 h2 <;> omega
    unfold Related at hr hr'
    rcases hadd s e ha with h | h <;> rcases hadd s' e' ha' with h' | h' <;> omega
  · intro j h1
    rw [hcol, hcol'] at h1
    exfalso
    split_ifs at h1 <;> omega

theorem freeCol_two {k : ℕ} {δ : Int} (hdb : d ≤ b) (hbc : b ≤ c) (e : ℕ) :
    FreeCol k δ (two b 0) (two c d) e ↔
      (b ≤ k + e ∧ k + e < c ∧ ¬ ((k : Int) < e + δ + b ∧ 0 < e + δ ∧ e + δ + d ≤ k)) ∨ k + e < d := by
  obtain ⟨e1, e2⟩ := part_row b
  obtain ⟨f1, f2, f3⟩ := part_two (show d ≤ c by omega)
  unfold FreeCol
  constructor
  · rintro ⟨_ | _ | s, h1, h2, h3⟩
    · unfold ex at h1 h2
      rw [e1] at h1
      rw [f1] at h2
      by_cases hd : k + e < d
      · exact Or.inr hd
      · left
        refine ⟨by omega, by omega, ?_⟩
        rintro ⟨g1, g2, g3⟩
        have := h3 ((k : Int) - e - δ).toNat (by omega) 1
        rw [col_two, col_two] at this
        simp only [Nat.not_lt_zero, if_false, add_zero] at this
        refine this ?_ ?_ ?_
        · split_ifs <;> omega
        · split_ifs <;> omega
        · unfold dg; omega
    · unfold ex at h2
      rw [f2] at h2
      right; omega
    · unfold ex at h2
      rw [f3] at h2
      omega
  · rintro (⟨h1, h2, h3⟩ | h)
    · refine ⟨0, ?_, ?_, ?_⟩
      · unfold ex; rw [e1]; omega
      · unfold ex; rw [f1]; omega
      · intro j hj x hx1 hx2 hx
        rw [col_two] at hx1 hx2
        simp only [Nat.not_lt_zero, if_false, add_zero] at hx2
        unfold dg at hx
        apply h3
        split_ifs at hx1 hx2 <;> omega
    · refine ⟨1, ?_, ?_, ?_⟩
      · unfold ex; rw [e2]; omega
      · unfold ex; rw [f2]; omega
      · intro j hj x hx1 hx2 hx
        rw [col_two] at hx1 hx2
        split_ifs at hx1 hx2 <;> omega

/-- the number of components for two rows -/
theorem comps_two {k : ℕ} {n : Int} (hb : InBox k n 0 (two b 0)) (hm : InBox k n 0 (two c d)) (hn : 0 ≤ n) (hr : 0 ≤ n - k)
    (hdb : d ≤ b) (hbc : b ≤ c) (hs : 2 * b ≤ c + d) (skip : Bool) :
    countComps (two b 0) (two c d) skip k 0 =
      (if d < b ∧ 2 * k + 2 ≤ c + d then 1 else 0) + (if skip = false ∧ ((b ≤ k ∧ k < c) ∨ k < d) then 1 else 0) := by
  classical
  have hr' : (0 : Int) ≤ n + 0 - k := by omega
  rw [countComps_eq hb hm (Or.inl rfl) hn hr'
    ((shapeRel_iff hb hm (Or.inl rfl) hn hr').2 (two_arrow (Or.inl rfl) hdb hbc))]
  have hf := fun e => freeCol_two (k := k) (δ := 0) hdb hbc e
  have hex : ex (two c d) k 0 = max 0 ((c : Int) - k) := by unfold ex; rw [(part_two (show d ≤ c by omega)).1]
  simp only [hf]
  set A : Finset ℕ := if d < b ∧ 2 * k + 2 ≤ c + d then {max (b - k) (k + 1 - d)} else ∅ with hA
  set B : Finset ℕ := if skip = false ∧ ((b ≤ k ∧ k < c) ∨ k < d) then {0} else ∅ with hB
  have hdis : Disjoint A B := by
    rw [Finset.disjoint_left]
    intro e h1 h2
    rw [hA] at h1
    rw [hB] at h2
    split_ifs at h1 h2 <;> simp at h1 h2
    omega
  have hAB : A.card + B.card = (if d < b ∧ 2 * k + 2 ≤ c + d then 1 else 0) + (if skip = false ∧ ((b ≤ k ∧ k < c) ∨ k < d) then 1 else 0) := by
    rw [hA, hB]
    congr 1 <;> split <;> simp
  rw [← hAB, ← Finset.card_union_of_disjoint hdis]
  congr 1
  ext e
  rw [Finset.mem_filter, Finset.mem_range, Finset.mem_union, hex]
  have mA : e ∈ A ↔ (d < b ∧ 2 * k + 2 ≤ c + d) ∧ e = max (b - k) (k + 1 - d) := by
    rw [hA]; split <;> simp_all
  have mB : e ∈ B ↔ (skip = false ∧ ((b ≤ k ∧ k < c) ∨ k < d)) ∧ e = 0 := by
    rw [hB]; split <;> simp_all
  rw [mA, mB]
  cases skip
  · simp only [true_and, implies_true]
    constructor
    · rintro ⟨h1, h2, h3⟩
      rcases Nat.eq_zero_or_pos e with rfl | he
      · right; omega
      · left
        have h3 := h3 he
        have : (((e - 1 : ℕ) : Int)) = (e : Int) - 1 := by omega
        omega
    · rintro (⟨h1, rfl⟩ | ⟨h1, rfl⟩)
      · refine ⟨by omega, ?_, ?_⟩
        · omega
        · intro he
          omega
      · omega
  · simp only [Bool.true_eq_false, false_and, or_false, imp_false]
    constructor
    · rintro ⟨h1, h2, h4, h3⟩
      have h3 := h3 (by omega)
      have : (((e - 1 : ℕ) : Int)) = (e : Int) - 1 := by omega
      omega
    · rintro ⟨h1, rfl⟩
      refine ⟨by omega, ?_, ?_, ?_⟩
      · omega
      · omega
      · intro he
        omega

end RowRow
end Verif
