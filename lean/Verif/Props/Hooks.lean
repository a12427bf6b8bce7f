import Verif.Props.Transpose
import Verif.Proofs.RelRing
/-!
# C91: products of a row and a column, the relations of the quantum ring of Gr(m,n)
-/

namespace Verif
open Spec Cyl Finset Alt

/-- the hook with first row `j` and `i` further rows of length one -/
def Spec.hook (j i : ℕ) : List Int := (j : Int) :: List.replicate i 1

theorem part_hook (j i x : ℕ) : part (hook j i) x = if x = 0 then (j : Int) else if x ≤ i then 1 else 0 := by
  unfold Spec.hook
  cases x with
  | zero => rfl
  | succ x =>
    have := part_ones i x
    unfold part at this ⊢
    rw [List.getD_cons_succ, this]
    simp [Nat.succ_le_iff]

theorem reduced_hook {j : ℕ} (hj : 1 ≤ j) (i : ℕ) : ReducedPart (hook j i) := by
  unfold Spec.hook
  refine ⟨List.pairwise_cons.2 ⟨fun x hx => ?_, List.pairwise_replicate.2 (Or.inr le_rfl)⟩, fun x hx => ?_⟩
  · rw [List.eq_of_mem_replicate hx]; omega
  · rcases List.mem_cons.1 hx with rfl | hx
    · omega
    · rw [List.eq_of_mem_replicate hx]; omega

theorem hook_sum (j i : ℕ) : (hook j i).sum = j + i := by
  unfold Spec.hook
  simp

theorem part_one (j : ℕ) (x : ℕ) : part [(j : Int)] x = if x = 0 then (j : Int) else 0 := by
  cases x <;> simp [part]

theorem vertStrip_row {i j : ℕ} (hi : 1 ≤ i) (hj : 1 ≤ j) {nu : List Int} (hnu : ReducedPart nu) :
    VertStrip i [(j : Int)] nu ↔ nu = hook j i ∨ nu = hook (j + 1) (i - 1) := by
  constructor
  · rintro ⟨h1, h2⟩
    cases nu with
    | nil =>
      have := (h1 0).1
      simp [part] at this
      omega
    | cons a t =>
      have h0 := h1 0
      simp only [part, List.getD_cons_zero] at h0
      have ht : t = List.replicate t.length 1 := by
        refine List.eq_replicate_iff.2 ⟨rfl, fun x hx => ?_⟩
        obtain ⟨y, hy, rfl⟩ := List.mem_iff_getElem.1 hx
        have h3 := (h1 (y + 1)).2
        rw [part_one, if_neg (by omega)] at h3
        have h4 : part (a :: t) (y + 1) = t[y] := by
          unfold part; rw [List.getD_cons_succ, List.getD_eq_getElem _ _ hy]
        have h5 := hnu.2 t[y] (List.mem_cons_of_mem _ hx)
        omega
      have hs : a + t.length = j + i := by
        have e : t.sum = t.length := by rw [ht]; simp
        simp only [List.sum_cons, List.sum_nil] at h2
        omega
      unfold Spec.hook
      rcases (show a = j ∨ a = j + 1 by omega) with rfl | rfl
      · left
        have : t.length = i := by omega
        rw [ht, this]
      · right
        have : t.length = i - 1 := by omega
        rw [ht, this]
        push_cast
        rfl
  · rintro (rfl | rfl)
    · refine ⟨fun x => ?_, by rw [hook_sum]; simp⟩
      rw [part_hook, part_one]
      split_ifs <;> omega
    · refine ⟨fun x => ?_, by rw [hook_sum]; simp; omega⟩
      rw [part_hook, part_one]
      push_cast
      split_ifs <;> omega

theorem qVertStrip_row {m n : ℤ} {i j : ℕ} {nu : List Int} (hnu : ReducedPart nu) :
    QVertStrip m n i [(j : Int)] nu ↔ nu = [] ∧ (j : ℤ) = n - m ∧ (i : ℤ) = m := by
  constructor
  · rintro ⟨⟨h1, h2⟩, h3⟩
    have h4 : nu = [] := by
      cases nu with
      | nil => rfl
      | cons a t =>
        have := (h2 0).1
        rw [part_one, if_neg (by omega)] at this
        have h5 := hnu.2 a (by simp)
        simp [part] at this
        omega
    subst h4
    simp [part] at h1 h3
    exact ⟨rfl, h1, by omega⟩
  · rintro ⟨rfl, h1, h2⟩
    refine ⟨⟨by simpa [part] using h1, fun x => ?_⟩, ?_⟩
    · rw [part_one, if_neg (by omega)]
      simp [part]
    · simp; omega

theorem hook_inj {j i j' i' : ℕ} : hook j i = hook j' i' ↔ j = j' ∧ i = i' := by
  unfold Spec.hook
  constructor
  · intro h
    obtain ⟨h1, h2⟩ := List.cons.inj h
    have := congrArg List.length h2
    simp at this
    exact ⟨by exact_mod_cast h1, this⟩
  · rintro ⟨rfl, rfl⟩; rfl

theorem hook_cls {m k : ℕ} {n : ℤ} (hc : n = m + k) {i j : ℕ} (hj : 1 ≤ j) (_hm : 1 ≤ m) :
    GrClass m n (hook j i) ↔ i < m ∧ j ≤ k := by
  rw [grClass_clsA hc]
  unfold clsA InRect
  constructor
  · rintro ⟨h1, h2, h3⟩
    have := h3 j (by simp [Spec.hook])
    simp [Spec.hook] at h2
    exact ⟨by omega, by exact_mod_cast this⟩
  · rintro ⟨h1, h2⟩
    refine ⟨reduced_hook hj i, by simp [Spec.hook]; omega, fun x hx => ?_⟩
    unfold Spec.hook at hx
    rcases List.mem_cons.1 hx with rfl | hx
    · exact_mod_cast h2
    · rw [List.eq_of_mem_replicate hx]; omega

/-- The hook class, or zero when the hook does not fit. -/
noncomputable def hk (m k j i : ℕ) : LMod := if i < m ∧ 1 ≤ j ∧ j ≤ k then Finsupp.single (hook j i) 1 else 0

theorem row_col_prod {m k : ℕ} {n : ℤ} {X : Space} (hm : 1 ≤ m) (hk1 : 1 ≤ k) (hc : n = m + k) (hX : mkGr m n = .ok X) {i j : ℕ}
    (hi : 1 ≤ i) (hi' : i ≤ m) (hj : 1 ≤ j) (hj' : j ≤ k) :
    (ringQ hm hX).on.Y.prod (Finsupp.single (List.replicate i 1) 1) (Finsupp.single [(j : Int)] 1) =
      hk m k j i + hk m k (j + 1) (i - 1) + if i = m ∧ j = k then Finsupp.single [] Polynomial.X else 0 := by
  classical
  have hl : GrClass m n [(j : Int)] := (hook_cls hc hj hm (i := 0)).2 ⟨by omega, hj'⟩
  have hnil : GrClass m n [] := by rw [grClass_clsA hc]; exact clsA_nil'
  ext1 nu
  by_cases hnu : GrClass m n nu
  · have hr : ReducedPart nu := by rw [grClass_clsA hc] at hnu; exact hnu.1
    rw [column_coeff hm (by omega) hX hi' hl hnu, Finsupp.add_apply, Finsupp.add_apply]
    refine congrArg₂ (· + ·) ?_ ?_
    · rw [if_congr (vertStrip_row hi hj hr) rfl rfl]
      unfold hk
      by_cases h1 : nu = hook j i
      · subst h1
        rw [hook_cls hc hj hm] at hnu
        rw [if_pos (Or.inl rfl), if_pos ⟨hnu.1, hj, hj'⟩, Finsupp.single_eq_same]
        have : ¬ hook (j + 1) (i - 1) = hook j i := by rw [hook_inj]; omega
        split
        · rw [Finsupp.single_eq_of_ne' this, add_zero]
        · simp
      · have e1 : (if i < m ∧ 1 ≤ j ∧ j ≤ k then Finsupp.single (hook j i) (1 : Polynomial ℚ) else 0) nu = 0 := by
          split
          · exact Finsupp.single_eq_of_ne h1
          · rfl
        rw [e1, zero_add]
        by_cases h2 : nu = hook (j + 1) (i - 1)
        · subst h2
          rw [hook_cls hc (by omega) hm] at hnu
          rw [if_pos (Or.inr rfl), if_pos ⟨hnu.1, by omega, hnu.2⟩, Finsupp.single_eq_same]
        · rw [if_neg (by tauto)]
          split
          · rw [Finsupp.single_eq_of_ne h2]
          · rfl
    · rw [if_congr (qVertStrip_row hr) rfl rfl]
      by_cases h1 : i = m ∧ j = k
      · rw [if_pos h1]
        by_cases h2 : nu = []
        · subst h2
          rw [if_pos ⟨rfl, by omega, by omega⟩, Finsupp.single_eq_same]
        · rw [if_neg (by tauto), Finsupp.single_eq_of_ne h2]
      · rw [if_neg h1, if_neg (by rintro ⟨-, h2, h3⟩; exact h1 ⟨by omega, by omega⟩)]
        rfl
  · have e0 : ∀ x : LMod, (∀ l ∈ x.support, GrClass m n l) → x nu = 0 := fun x hx => by
      by_contra h
      exact hnu (hx _ (Finsupp.mem_support_iff.2 h))
    have hh : ∀ a b, 1 ≤ a → hk m k a b nu = 0 := by
      intro a b ha
      unfold hk
      split
      · exact Finsupp.single_eq_of_ne (fun h => hnu (h ▸ (hook_cls hc ha hm).2 ⟨by omega, by omega⟩))
      · rfl
    rw [e0 _ ((ringQ hm hX).on.Y.prod_support _ (supp_single hl 1)), Finsupp.add_apply, Finsupp.add_apply, hh _ _ hj, hh _ _ (by omega)]
    split
    · rw [Finsupp.single_eq_of_ne (fun h : nu = [] => hnu (h ▸ hnil)), add_zero, add_zero]
    · simp

/-- **C91**: the quantum product of a column and a row is the sum of the two hooks, those that do not fit being left out, and of `q` if
the row and the column both have maximal length. -/
theorem C91_hooks {m k : ℕ} {n : ℤ} {X : Space} (hm : 1 ≤ m) (hk1 : 1 ≤ k) (hc : n = m + k) (hX : mkGr m n = .ok X) {fuel : ℕ}
    (hf : giamBound m n ≤ fuel) {i j : ℕ} (hi : 1 ≤ i) (hi' : i ≤ m) (hj : 1 ≤ j) (hj' : j ≤ k) :
    Returns (Gr.qmult X fuel (Poly.sym (.S (List.replicate i 1))) (Poly.sym (.S [(j : Int)])))
      ((if i < m then MvPolynomial.X (.S (hook j i)) else 0) + (if j < k then MvPolynomial.X (.S (hook (j + 1) (i - 1))) else 0) +
        if i = m ∧ j = k then MvPolynomial.X .q * MvPolynomial.X (.S []) else 0) := by
  have hl : GrClass m n [(j : Int)] := (hook_cls hc hj hm (i := 0)).2 ⟨by omega, hj'⟩
  have h1 : GrClass m n (List.replicate i 1) := by
    obtain ⟨m, rfl⟩ : ∃ a, m = a + 1 := ⟨m - 1, by omega⟩
    rw [grClass_clsA (k := k) hc]
    exact clsA_ones hi' (by omega)
  obtain ⟨w, b1, b2, b3⟩ := (ringQ hm hX).on.mult hf (wf_sym (.S (List.replicate i 1))) (x := Finsupp.single (List.replicate i 1) 1)
      (by simp [inq]) (supp_single h1 1) (wf_sym (.S [(j : Int)])) (y := Finsupp.single [(j : Int)] 1) (by simp [inq]) (supp_single hl 1)
  refine ⟨w, b1, b2, ?_⟩
  rw [b3, row_col_prod hm hk1 hc hX hi hi' hj hj', map_add, map_add]
  have e : ∀ a b, 1 ≤ a → ev (hk m k a b) = if b < m ∧ a ≤ k then MvPolynomial.X (.S (hook a b)) else 0 := by
    intro a b ha
    unfold hk
    by_cases h : b < m ∧ a ≤ k
    · rw [if_pos ⟨h.1, ha, h.2⟩, if_pos h]
      simp [inq]
    · rw [if_neg (by tauto), if_neg h, map_zero]
  rw [e _ _ hj, e _ _ (by omega)]
  refine congrArg₂ (· + ·) (congrArg₂ (· + ·) (if_congr ⟨fun h => h.1, fun h => ⟨h, hj'⟩⟩ rfl rfl)
    (if_congr ⟨fun h => by omega, fun h => by omega⟩ rfl rfl)) ?_
  split
  · simp [inq]
  · simp

theorem hk_row {m k j : ℕ} (hm : 1 ≤ m) (hj : 1 ≤ j) (hj' : j ≤ k) : hk m k j 0 = Finsupp.single [(j : Int)] 1 := by
  unfold hk
  rw [if_pos ⟨hm, hj, hj'⟩]
  rfl

theorem hk_col {m k i : ℕ} (hk1 : 1 ≤ k) (hi : 1 ≤ i) (hi' : i ≤ m) : hk m k 1 (i - 1) = Finsupp.single (List.replicate i 1) 1 := by
  unfold hk
  rw [if_pos ⟨by omega, le_rfl, hk1⟩]
  obtain ⟨i, rfl⟩ : ∃ a, i = a + 1 := ⟨i - 1, by omega⟩
  rfl

/-- all products of a column and a row, with the empty ones -/
theorem row_col_prod' {m k : ℕ} {n : ℤ} {X : Space} (hm : 1 ≤ m) (hk1 : 1 ≤ k) (hc : n = m + k) (hX : mkGr m n = .ok X) {i j : ℕ}
    (hi' : i ≤ m) (hj' : j ≤ k) (h0 : 1 ≤ i + j) :
    (ringQ hm hX).on.Y.prod (Finsupp.single (List.replicate i 1) 1) (Finsupp.single (rowS j) 1) =
      hk m k j i + (if i = 0 then 0 else hk m k (j + 1) (i - 1)) + if i = m ∧ j = k then Finsupp.single [] Polynomial.X else 0 := by
  have hnil : GrClass m n [] := by rw [grClass_clsA hc]; exact clsA_nil'
  unfold Spec.rowS
  by_cases hj : j = 0
  · subst hj
    have h1 : GrClass m n (List.replicate i 1) := by
      obtain ⟨m, rfl⟩ : ∃ a, m = a + 1 := ⟨m - 1, by omega⟩
      rw [grClass_clsA (k := k) hc]
      exact clsA_ones hi' (by omega)
    have e : (ringQ hm hX).on.Y.prod (Finsupp.single (List.replicate i 1) 1) (Finsupp.single [] 1) = Finsupp.single (List.replicate i 1) 1 :=
      (ringQ hm hX).on.Y.prod_one hnil (supp_single h1 1)
    rw [if_pos rfl, e, if_neg (by omega : ¬ i = 0), if_neg (by omega : ¬ (i = m ∧ 0 = k)),
      hk_col hk1 (by omega) hi']
    unfold hk
    rw [if_neg (by omega), zero_add, add_zero]
  · rw [if_neg hj]
    by_cases hi : i = 0
    · subst hi
      rw [if_pos rfl, if_neg (by omega : ¬ (0 = m ∧ j = k)), hk_row hm (by omega) hj', List.replicate_zero, (ringQ hm hX).on.Y.one_prod, add_zero, add_zero]
    · rw [if_neg hi]
      exact row_col_prod hm hk1 hc hX (by omega) hi' (by omega) hj'

theorem telescope {M : Type*} [AddCommGroup M] (A : ℕ → M) (r : ℕ) :
    ∑ i ∈ range (r + 1), (-1 : ℤ) ^ i • (A i + if i = 0 then 0 else A (i - 1)) = (-1 : ℤ) ^ r • A r := by
  induction r with
  | zero => simp
  | succ r ih =>
    rw [sum_range_succ, ih, if_neg (by omega), Nat.add_sub_cancel, smul_add, pow_succ]
    simp

/-- The relation between the operators. -/
theorem row_col_relation {m k : ℕ} {n : ℤ} {X : Space} (hm : 1 ≤ m) (hk1 : 1 ≤ k) (hc : n = m + k) (hX : mkGr m n = .ok X) {r : ℕ}
    (hr : 1 ≤ r) :
    ∑ i ∈ (range (r + 1)).filter (fun i => i ≤ m ∧ r - i ≤ k), (-1 : ℤ) ^ i •
      (ringQ hm hX).on.Y.prod (Finsupp.single (List.replicate i 1) 1) (Finsupp.single (rowS (r - i)) 1) =
    if r = m + k then (-1 : ℤ) ^ m • Finsupp.single [] Polynomial.X else 0 := by
  have h1 := telescope (fun i => hk m k (r - i) i) r
  have h2 : hk m k (r - r) r = 0 := by
    unfold hk
    rw [if_neg (by omega)]
  rw [h2, smul_zero] at h1
  have h3 : ∑ i ∈ (range (r + 1)).filter (fun i => i ≤ m ∧ r - i ≤ k), (-1 : ℤ) ^ i •
      (ringQ hm hX).on.Y.prod (Finsupp.single (List.replicate i 1) 1) (Finsupp.single (rowS (r - i)) 1) =
    ∑ i ∈ range (r + 1), ((-1 : ℤ) ^ i • (hk m k (r - i) i + if i = 0 then 0 else hk m k (r - (i - 1)) (i - 1)) +
      if i = m ∧ r - i = k then (-1 : ℤ) ^ m • Finsupp.single [] Polynomial.X else 0) := by
    rw [sum_filter]
    refine sum_congr rfl (fun i hi => ?_)
    rw [mem_range] at hi
    by_cases h4 : i ≤ m ∧ r - i ≤ k
    · rw [if_pos h4, row_col_prod' hm hk1 hc hX h4.1 h4.2 (by omega)]
      have e : (if i = 0 then 0 else hk m k (r - i + 1) (i - 1)) = if i = 0 then 0 else hk m k (r - (i - 1)) (i - 1) := by
        split
        · rfl
        · rw [show r - (i - 1) = r - i + 1 by omega]
      rw [e, smul_add]
      refine congrArg₂ (· + ·) rfl ?_
      split
      · rename_i h; rw [h.1]
      · rw [smul_zero]
    · have e1 : hk m k (r - i) i = 0 := by
        unfold hk
        rw [if_neg (by omega)]
      have e2 : (if i = 0 then 0 else hk m k (r - (i - 1)) (i - 1)) = 0 := by
        split
        · rfl
        · unfold hk
          rw [if_neg (by omega)]
      rw [if_neg h4, e1, e2, if_neg (by omega : ¬ (i = m ∧ r - i = k))]
      simp
  rw [h3, sum_add_distrib, h1, zero_add]
  by_cases h5 : r = m + k
  · rw [if_pos h5, sum_eq_single m]
    · rw [if_pos ⟨rfl, by omega⟩]
    · intro b _ hb
      rw [if_neg (by tauto)]
    · intro h
      exact absurd (mem_range.2 (by omega)) h
  · rw [if_neg h5]
    refine sum_eq_zero (fun i hi => ?_)
    rw [mem_range] at hi
    rw [if_neg (by omega)]

/-- **C91**: the alternating sum of the products `S[1^i] * S[r-i]` vanishes for `0 < r < n` and is `(-1)^m * q` for `r = n`; these are the
relations of the quantum ring. -/
theorem C91_relations {m k : ℕ} {n : ℤ} {X : Space} (hm : 1 ≤ m) (hk1 : 1 ≤ k) (hc : n = m + k) (hX : mkGr m n = .ok X) {fuel : ℕ}
    (hf : giamBound m n ≤ fuel) {r : ℕ} (hr : 1 ≤ r) :
    ∃ v : ℕ → P, (∀ i ≤ r, i ≤ m → r - i ≤ k →
        Returns (Gr.qmult X fuel (Poly.sym (.S (List.replicate i 1))) (Poly.sym (.S (rowS (r - i))))) (v i)) ∧
      ∑ i ∈ (range (r + 1)).filter (fun i => i ≤ m ∧ r - i ≤ k), (-1) ^ i * v i =
        if (r : ℤ) = n then (-1) ^ m * (MvPolynomial.X .q * MvPolynomial.X (.S [])) else 0 := by
  refine ⟨fun i => ev ((ringQ hm hX).on.Y.prod (Finsupp.single (List.replicate i 1) 1) (Finsupp.single (rowS (r - i)) 1)),
    fun i _ hi hj => ?_, ?_⟩
  · have h1 : GrClass m n (List.replicate i 1) := by
      obtain ⟨m, rfl⟩ : ∃ a, m = a + 1 := ⟨m - 1, by omega⟩
      rw [grClass_clsA (k := k) hc]
      exact clsA_ones hi (by omega)
    have h2 : GrClass m n (rowS (r - i)) := by
      unfold Spec.rowS
      split
      · rw [grClass_clsA hc]; exact clsA_nil'
      · exact (hook_cls hc (by omega) hm (i := 0)).2 ⟨by omega, hj⟩
    exact (ringQ hm hX).on.mult hf (wf_sym _) (by simp [inq]) (supp_single h1 1) (wf_sym _) (by simp [inq]) (supp_single h2 1)
  · have key := congrArg ev (row_col_relation hm hk1 hc hX hr)
    rw [map_sum] at key
    have e : ∀ (z : ℤ) (x : LMod), ev (z • x) = (z : P) * ev x := fun z x => by rw [map_zsmul, zsmul_eq_mul]
    simp only [e] at key
    push_cast at key
    rw [key]
    by_cases h : r = m + k
    · rw [if_pos h, if_pos (by omega), e]
      simp [inq]
    · rw [if_neg h, if_neg (by omega), map_zero]

/-! ### examples -/

/-- `S[1,1] * S[2]` in the quantum ring of Gr(3,6), and `S[1,1,1] * S[3]`, where only `q` remains. -/
example : (do let X ← mkGr 3 6; Gr.qmult X 20 (Poly.sym (.S [1, 1])) (Poly.sym (.S [2]))) =
      .ok [([.S [3, 1]], 1), ([.S [2, 1, 1]], 1)] ∧
    (do let X ← mkGr 3 6; Gr.qmult X 20 (Poly.sym (.S [1, 1, 1])) (Poly.sym (.S [3]))) = .ok [([.q, .S []], 1)] ∧
    (do let X ← mkGr 3 6; Gr.qmult X 20 (Poly.sym (.S [1, 1, 1])) (Poly.sym (.S [2]))) = .ok [([.S [3, 1, 1]], 1)] := by
  refine ⟨?_, ?_, ?_⟩ <;> decide +kernel

example : hook 3 2 = [3, 1, 1] ∧ hook 2 1 = [2, 1] ∧ rowS 0 = [] ∧ rowS 3 = [3] := by decide

end Verif
