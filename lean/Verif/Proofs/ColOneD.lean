import Verif.Proofs.ColRingD
/-!
# Columns on `OG(m, 2m+2)`

For `k = 1` the column with `s ≥ 1` boxes is the sum of the two classes `S[1,...,1]` and `S[1,...,1,0]`, the words `b..b o b..b` with
inner letters `a` and `b`.
-/

namespace Verif
open Spec

section
variable {R : Type*} [CommRing R] {e e' : St → R}

/-- the word `b..b o b..b` of a column -/
def colO (m s : ℕ) : List L3 := List.replicate (m - s) .b ++ .o :: List.replicate (s - 1) .b

/-- alternating sum over the columns, beginning in a state -/
def colSumO (e e' : St → R) (x : R) (s : St) (m : ℕ) (w : List L3) : R :=
  wtE e x s (List.replicate m .b) w + ∑ i ∈ Finset.range m, (-x) ^ (i + 1) * wtE e' x s (colO m (i + 1)) w

theorem colSumO_zero (x : R) (s : St) (w : List L3) : colSumO e e' x s 0 w = wtE e x s [] w := by simp [colSumO]

theorem colSumO_nil (x : R) (s : St) (m : ℕ) : colSumO e e' x s (m + 1) [] = 0 := by
  unfold colSumO
  rw [List.replicate_succ, wtE, zero_add]
  · refine Finset.sum_eq_zero fun i _ => ?_
    unfold colO
    cases h : m + 1 - (i + 1) <;> simp [List.replicate_succ, wtE]
  · simp
  · simp

theorem colO_self (m : ℕ) : colO (m + 1) (m + 1) = .o :: List.replicate m .b := by simp [colO]

theorem colO_succ {m i : ℕ} (h : i ≤ m) : colO (m + 1) i = .b :: colO m i := by
  unfold colO
  rw [show m + 1 - i = (m - i) + 1 by omega, List.replicate_succ, List.cons_append]

theorem colSumO_succ (x : R) (s : St) (m : ℕ) (q : L3) (w : List L3) :
    colSumO e e' x s (m + 1) (q :: w) = (match step s .b q with
      | some (t, i, j) => 2 ^ i * x ^ j * colSumO e e' x t m w
      | none => 0) + (-x) ^ (m + 1) * wtE e' x s (.o :: List.replicate m .b) (q :: w) := by
  unfold colSumO
  rw [Finset.sum_range_succ, colO_self, ← add_assoc]
  congr 1
  rw [List.replicate_succ, wtE]
  rcases h : step s .b q with _ | ⟨t, i, j⟩
  · rw [Finset.sum_eq_zero, add_zero]
    intro i hi
    rw [Finset.mem_range] at hi
    rw [colO_succ (by omega), wtE, h]
    simp
  · show _ = 2 ^ i * x ^ j * _
    rw [mul_add, Finset.mul_sum]
    congr 1
    refine Finset.sum_congr rfl fun i hi => ?_
    rw [Finset.mem_range] at hi
    rw [colO_succ (by omega), wtE, h]
    ring

theorem colSumO_r (x : R) (hr : e .r = x * e' .z) (m : ℕ) (w : List L3) :
    colSumO e e' x .r m w + (-x) ^ (m + 1) * wtE e' x .z (List.replicate m .b) w = 0 := by
  cases m with
  | zero =>
    rw [colSumO_zero, List.replicate_zero]
    cases w with
    | nil => rw [wtE, wtE, hr]; ring
    | cons q w => simp [wtE]
  | succ m =>
    cases w with
    | nil => rw [colSumO_nil, List.replicate_succ]; simp [wtE]
    | cons q w =>
      rw [colSumO_succ, List.replicate_succ, wtE, wtE]
      cases q <;> simp [step] <;> ring

theorem colSumO_lr (x : R) (hl : e .lr = x * e' .l) : ∀ (m : ℕ) (w : List L3),
    colSumO e e' x .lr m w + (-x) ^ (m + 1) * wtE e' x .l (List.replicate m .b) w = 0
  | 0, [] => by rw [colSumO_zero, List.replicate_zero, wtE, wtE, hl]; ring
  | 0, q :: w => by rw [colSumO_zero, List.replicate_zero]; simp [wtE]
  | m + 1, [] => by rw [colSumO_nil, List.replicate_succ]; simp [wtE]
  | m + 1, q :: w => by
    have ih := colSumO_lr x hl m w
    rw [colSumO_succ, List.replicate_succ, wtE, wtE]
    cases q <;> simp [step]
    · ring
    · linear_combination x * ih

/-- The rows, applied to the alternating sum of the columns. -/
theorem colSumO_z (x : R) (hr : e .r = x * e' .z) (hl : e .lr = x * e' .l) : ∀ (m : ℕ) (w : List L3),
    colSumO e e' x .z m w = if w = List.replicate m .b then e .z else 0
  | 0, [] => by rw [colSumO_zero]; simp [wtE]
  | 0, q :: w => by rw [colSumO_zero]; simp [wtE]
  | m + 1, [] => by rw [colSumO_nil, List.replicate_succ]; simp
  | m + 1, q :: w => by
    have ih := colSumO_z x hr hl m w
    have h1 := colSumO_r x hr m w
    have h2 := colSumO_lr x hl m w
    rw [colSumO_succ, wtE, List.replicate_succ]
    cases q <;> simp only [step, pow_zero, one_mul, mul_zero, add_zero, List.cons.injEq, reduceCtorEq, false_and, true_and, if_false]
    · exact h1
    · exact h2
    · exact ih

theorem wtE_add (f g : St → R) (x : R) (s : St) (u w : List L3) :
    wtE (fun t => f t + g t) x s u w = wtE f x s u w + wtE g x s u w := by
  induction u generalizing s w with
  | nil => cases w <;> simp [wtE]
  | cons p u ih =>
    cases w with
    | nil => simp [wtE]
    | cons q w =>
      rw [wtE, wtE, wtE]
      rcases step s p q with _ | ⟨t, i, j⟩
      · simp
      · simp only [ih, mul_add]

theorem wtS_l_b {f : St → R} (hf : f .l = 0) : ∀ (i : ℕ) (w : List L3), wtS f .l (List.replicate i .b) w = 0
  | 0, [] => hf
  | 0, _ :: _ => rfl
  | i + 1, [] => rfl
  | i + 1, q :: w => by
    have ih := wtS_l_b hf i w
    rw [List.replicate_succ, wtS]
    cases q <;> simp [stepSg, ih]

theorem wtS_add (f g : St → R) (s : St) (u w : List L3) :
    wtS (fun t => f t + g t) s u w = wtS f s u w + wtS g s u w := by
  induction u generalizing s w with
  | nil => cases w <;> simp [wtS]
  | cons p u ih =>
    cases w with
    | nil => simp [wtS]
    | cons q w =>
      rw [wtS, wtS, wtS]
      rcases stepSg s p q with _ | ⟨t, i⟩
      · simp
      · simp only [ih, mul_add]

theorem opG_cl (x : R) (U W : WordD) : opG 0 0 x U W = gD x .z U W := by
  rcases U with ⟨u, i⟩
  rcases W with ⟨w, j⟩
  rcases u with _ | ⟨p, u⟩ <;> rcases w with _ | ⟨q, w⟩
  · simp [opG, opGE, opGO, swD]
  · simp [opG, opGE, opGO, swD]
  · simp [opG, opGE, opGO, swD]
  · cases p <;> cases q <;> simp [opG, opGE, opGO, kerE, kerO, gD, swD, wtE, step]

/-- the second operator vanishes on the sum of the longest columns -/
theorem opS_colO (m : ℕ) (W : WordD) :
    opS (0 : R) (colO (m + 1) (m + 1), .a) W + opS 0 (colO (m + 1) (m + 1), .b) W = 0 := by
  rcases W with ⟨w, j⟩
  have h : ∀ w, (sD .l (List.replicate m .b, .a) (w, j) : R) + sD .l (List.replicate m .b, .b) (w, j) = 0 := by
    intro w
    show wtS _ _ _ _ + wtS _ _ _ _ = 0
    rw [← wtS_add]
    refine wtS_l_b ?_ m w
    cases j <;> simp [endSg]
  rw [colO_self]
  rcases w with _ | ⟨q, w⟩
  · simp [opS, opSE, opSO, sD, swD, wtS]
  · cases q <;> simp [opS, opSE, opSO, kerSE, kerSO, swD, h]

end

section
open Polynomial
variable {S : Type*} [CommRing S]

/-- the matrix elements of a row on a column -/
noncomputable def colN (m p s : ℕ) (W : WordD) : S :=
  if s = 0 then (opG (C 0) (C 0) X (List.replicate m .b, .o) W).coeff p
  else (opG (C 0) (C 0) X (colO m s, .a) W).coeff p + (opG (C 0) (C 0) X (colO m s, .b) W).coeff p

/-- The alternating sums of the products of rows and columns. -/
theorem col_opO (m r : ℕ) (W : WordD) :
    ∑ s ∈ Finset.range (m + 1), (if s ≤ r then (-1) ^ s * (colN m (r - s) s W : S) else 0) =
      if W = (List.replicate m .b, .o) then (if r = 0 then 1 else 0) else 0 := by
  obtain ⟨f, f0, f1⟩ : ∃ f : ℕ → S[X], f 0 = gD X .z (List.replicate m .b, .o) W ∧
      ∀ s, f (s + 1) = gD X .z (colO m (s + 1), .a) W + gD X .z (colO m (s + 1), .b) W :=
    ⟨fun s => if s = 0 then gD X .z (List.replicate m .b, .o) W else gD X .z (colO m s, .a) W + gD X .z (colO m s, .b) W,
      if_pos rfl, fun s => if_neg (Nat.succ_ne_zero s)⟩
  have hf : ∀ s p, (colN m p s W : S) = (f s).coeff p := by
    intro s p
    unfold colN
    rw [C_0]
    cases s with
    | zero => rw [if_pos rfl, f0, opG_cl]
    | succ s => rw [if_neg (Nat.succ_ne_zero s), f1, coeff_add, opG_cl, opG_cl]
  simp only [hf]
  rw [← coeff_alt]
  have h1 : ∑ s ∈ Finset.range (m + 1), (-X) ^ s * f s =
      colSumO (fun t => endG X t .o W.2) (fun t => endG X t .a W.2 + endG X t .b W.2) X .z m W.1 := by
    have h2 : ∀ i, wtE (fun t => endG (X : S[X]) t .a W.2 + endG X t .b W.2) X .z (colO m (i + 1)) W.1 = f (i + 1) := by
      intro i
      rw [wtE_add, f1]
      rfl
    rw [Finset.sum_range_succ', colSumO, pow_zero, one_mul, f0, add_comm]
    simp only [h2]
    rfl
  have hr : endG (X : S[X]) .r .o W.2 = X * (endG X .z .a W.2 + endG X .z .b W.2) := by cases W.2 <;> simp [endG]
  have hl : endG (X : S[X]) .lr .o W.2 = X * (endG X .l .a W.2 + endG X .l .b W.2) := by
    cases W.2 <;> simp [endG]
    ring
  rw [h1, colSumO_z X hr hl, endG_z]
  rcases W with ⟨w, j⟩
  simp only [Prod.mk.injEq]
  by_cases c1 : w = List.replicate m .b <;> by_cases c2 : j = .o <;> simp [c1, c2, coeff_one]

end

/-! ### Labels -/

theorem shapeW_bs1 (k0 r0 i : ℕ) (u : List L3) : shapeW k0 r0 (List.replicate i .b ++ u) = shapeW k0 r0 u ++ List.replicate i 0 := by
  induction i with
  | zero => simp
  | succ i ih =>
    rw [List.replicate_succ, List.cons_append, shapeW, ih, List.append_assoc, ← List.replicate_succ']

theorem colsW_bs1 (k0 i : ℕ) (u : List L3) : colsW k0 (List.replicate i .b ++ u) = colsW k0 u := by
  induction i with
  | zero => simp
  | succ i ih => rw [List.replicate_succ, List.cons_append, colsW, ih]; simp

theorem colO_mem {m s : ℕ} (h0 : 0 < s) (h : s ≤ m) {i : L3} (hi : i ≠ .o) : (colO m s, i) ∈ WdD m 1 := by
  rw [mem_WdD]
  refine ⟨by simp [colO]; omega, ?_, fun h => absurd h (by omega)⟩
  unfold colsD colO
  show colsW i.k0 _ = _
  rw [colsW_bs1, colsW, ← List.append_nil (List.replicate (s - 1) L3.b), colsW_bs1]
  cases i <;> simp_all [colsW, L3.k0]

theorem col0_mem (m : ℕ) : (List.replicate m .b, .o) ∈ WdD m 1 := by
  rw [mem_WdD]
  refine ⟨by simp, ?_, fun h => absurd h (by omega)⟩
  unfold colsD
  show colsW L3.o.k0 _ = _
  rw [← List.append_nil (List.replicate m L3.b), colsW_bs1]
  rfl

theorem labD_col0 (m : ℕ) : labD (List.replicate m .b, .o) = [] := by
  unfold labD clD shD
  show partClip (shapeW 1 0 _) ++ [] = _
  rw [← List.append_nil (List.replicate m L3.b), shapeW_bs1, partClip_append_zeros]
  rfl

theorem labD_colO {m s : ℕ} (h0 : 0 < s) {i : L3} (hi : i ≠ .o) :
    labD (colO m s, i) = List.replicate s 1 ++ if i = .b then [0] else [] := by
  obtain ⟨s, rfl⟩ : ∃ s', s = s' + 1 := ⟨s - 1, by omega⟩
  have h : clD (colO m (s + 1), i) = List.replicate (s + 1) 1 := by
    unfold clD shD colO
    show partClip (shapeW i.k0 i.r0 _) = _
    rw [shapeW_bs1, partClip_append_zeros, shapeW, Nat.add_sub_cancel, ← List.append_nil (List.replicate s L3.b), shapeW_bs1]
    have : shapeW i.k0 i.r0 [] ++ List.replicate s 0 = List.replicate (s + 1) 0 := by
      cases i <;> simp_all [shapeW, L3.r0, List.replicate_succ]
    rw [this, List.map_replicate, zero_add, List.replicate_succ', partClip_concat_ne _ _ (by decide)]
  unfold labD
  rw [h]

/-! ### The ring -/

section
open MvPolynomial
variable {X : Space} {pieri : Int → List Int → Except PyErr Poly} {spc : Int → Prop} {cls : List Int → Prop} {B K : ℕ}

/-- The determinants of ones are determined by their alternating sums with rows. -/
theorem act_eeV (Z : RingOn X pieri spc cls B) {c : ℤ → P} (c0 : c 0 = 1) (cneg : ∀ p < 0, c p = 0) (v : ℕ → LMod)
    (v0 : v 0 = Finsupp.single [] 1)
    (hsum : ∀ r, 1 ≤ r → r ≤ K → ∑ s ∈ Finset.range (r + 1), ((-1) ^ s : ℤ) • Z.Y.act (c ((r : ℤ) - s)) (v s) = 0) :
    ∀ r ≤ K, Z.Y.act (ee c r) (Finsupp.single [] 1) = v r := by
  have hnew : ∀ r, 1 ≤ r → ∑ s ∈ Finset.range (r + 1),
      ((-1) ^ s : ℤ) • Z.Y.act (c ((r : ℤ) - s)) (Z.Y.act (ee c s) (Finsupp.single [] 1)) = 0 := by
    intro r hr
    have h1 := congrArg (fun x => Z.Y.act x (Finsupp.single [] 1)) (newton c0 cneg hr)
    simp only [map_sum, LinearMap.sum_apply, map_zero, LinearMap.zero_apply] at h1
    refine Eq.trans (Finset.sum_congr rfl fun s _ => ?_) h1
    rw [mul_assoc, mul_comm (ee _ _), map_mul, Module.End.mul_apply, map_pow, map_neg, map_one, negpow_apply, map_mul, Module.End.mul_apply]
  intro r
  induction r using Nat.strong_induction_on with
  | _ r ih =>
    intro hr
    by_cases h : r = 0
    · subst h
      rw [ee_zero, map_one, Module.End.one_apply, v0]
    · have h1 := hnew r (by omega)
      have h2 := hsum r (by omega) hr
      rw [Finset.sum_range_succ] at h1 h2
      rw [Finset.sum_congr rfl (fun s hs => by rw [ih s (Finset.mem_range.1 hs) (by have := Finset.mem_range.1 hs; omega)])] at h1
      have h3 := h1.trans h2.symm
      rw [add_right_inj, sub_self, c0, map_one, Module.End.one_apply, Module.End.one_apply] at h3
      have h4 := congrArg (fun x => ((-1) ^ r : ℤ) • x) h3
      simp only [smul_smul, neg_pow_mul_self, one_smul] at h4
      exact h4

/-- the column with `s` boxes on `OG(m, 2m+2)` -/
noncomputable def colV (m s : ℕ) : LMod :=
  if s = 0 then Finsupp.single [] 1
  else if s ≤ m then Finsupp.single (List.replicate s 1) 1 + Finsupp.single (List.replicate s 1 ++ [0]) 1 else 0

variable {m : ℕ}

theorem labD_colA {s : ℕ} (h0 : 0 < s) : labD (colO m s, .a) = List.replicate s 1 := by
  rw [labD_colO h0 (by decide), if_neg (by decide), List.append_nil]

theorem labD_colB {s : ℕ} (h0 : 0 < s) : labD (colO m s, .b) = List.replicate s 1 ++ [0] := by
  rw [labD_colO h0 (by decide), if_pos rfl]

/-- the determinants of ones and the columns -/
theorem col_D1 (Z : RingOn X pieri (spcD (m + 1) 1) (clsD (m + 1) 1) B) (ht : Z.Y.t = tDD 0 0 (m + 1) 1) :
    (∀ j ≤ m + 2, Z.Y.act (ee (cvarD (1 : ℕ) (m + 1 + 1 : ℕ)) j) (Finsupp.single [] 1) = colV (m + 1) j) ∧
    Z.Y.act (dl (1 : ℕ) (m + 1 + 1 : ℕ) * ee (cvarD (1 : ℕ) (m + 1 + 1 : ℕ)) (m + 1)) (Finsupp.single [] 1) = 0 := by
  have hk : 1 ≤ m + 1 := by omega
  have hcv : ∀ s ≤ m + 1, ∀ p : ℕ, p ≤ m + 1 + 1 → Z.Y.act (cvarD (1 : ℕ) (m + 1 + 1 : ℕ) p) (colV (m + 1) s) =
      ∑ W ∈ WdD (m + 1) 1, Finsupp.single (labD W) (colN (m + 1) p s W) := by
    intro s hs p hp
    by_cases h0 : s = 0
    · subst h0
      rw [colV, if_pos rfl, ← labD_col0 (m + 1), act_cvarD_lab hk one_pos Z ht hp (col0_mem (m + 1))]
      rfl
    · have e1 := act_cvarD_lab hk one_pos Z ht hp (colO_mem (Nat.pos_of_ne_zero h0) hs (i := .a) (by decide))
      have e2 := act_cvarD_lab hk one_pos Z ht hp (colO_mem (Nat.pos_of_ne_zero h0) hs (i := .b) (by decide))
      rw [labD_colA (Nat.pos_of_ne_zero h0)] at e1
      rw [labD_colB (Nat.pos_of_ne_zero h0)] at e2
      rw [colV, if_neg h0, if_pos hs, map_add, e1, e2, ← Finset.sum_add_distrib]
      refine Finset.sum_congr rfl fun W _ => ?_
      rw [← Finsupp.single_add, colN, if_neg h0]
      rfl
  have hbig : ∀ s, m + 1 < s → colV (m + 1) s = 0 := fun s hs => by rw [colV, if_neg (by omega), if_neg (by omega)]
  have h1 : ∀ j ≤ m + 2, Z.Y.act (ee (cvarD (1 : ℕ) (m + 1 + 1 : ℕ)) j) (Finsupp.single [] 1) = colV (m + 1) j := by
    refine act_eeV Z (cvarD_zero (by decide)) (cvarD_neg (by decide)) (colV (m + 1)) (if_pos rfl) fun r hr hr' => ?_
    have e1 : ∀ s ∈ Finset.range (r + 1), ((-1) ^ s : ℤ) • Z.Y.act (cvarD (1 : ℕ) (m + 1 + 1 : ℕ) ((r : ℤ) - s)) (colV (m + 1) s) =
        if s ≤ m + 1 then ∑ W ∈ WdD (m + 1) 1, Finsupp.single (labD W) ((-1) ^ s * colN (m + 1) (r - s) s W) else 0 := by
      intro s hs
      rw [Finset.mem_range] at hs
      split
      · rename_i h
        rw [← Nat.cast_sub (by omega), hcv s h (r - s) (by omega), Finset.smul_sum]
        refine Finset.sum_congr rfl fun W _ => ?_
        rw [Finsupp.smul_single, zsmul_eq_mul]
        push_cast
        rfl
      · rw [hbig s (by omega), map_zero, smul_zero]
    have e2 : ∑ s ∈ Finset.range (r + 1), (if s ≤ m + 1 then ∑ W ∈ WdD (m + 1) 1, Finsupp.single (labD W) ((-1) ^ s * colN (m + 1) (r - s) s W) else (0 : LMod)) =
        ∑ s ∈ Finset.range (m + 1 + 1), if s ≤ r then ∑ W ∈ WdD (m + 1) 1, Finsupp.single (labD W) ((-1) ^ s * colN (m + 1) (r - s) s W) else 0 := by
      rw [← Finset.sum_filter, ← Finset.sum_filter]
      congr 1
      ext s
      simp only [Finset.mem_filter, Finset.mem_range]
      omega
    have e3 : ∀ s ∈ Finset.range (m + 1 + 1), (if s ≤ r then ∑ W ∈ WdD (m + 1) 1, Finsupp.single (labD W) ((-1) ^ s * colN (m + 1) (r - s) s W) else (0 : LMod)) =
        ∑ W ∈ WdD (m + 1) 1, Finsupp.single (labD W) (if s ≤ r then (-1) ^ s * colN (m + 1) (r - s) s W else 0) := by
      intro s _
      split <;> simp
    rw [Finset.sum_congr rfl e1, e2, Finset.sum_congr rfl e3, Finset.sum_comm]
    refine Finset.sum_eq_zero fun W _ => ?_
    rw [← Finsupp.single_finsetSum, col_opO, if_neg (by omega : ¬r = 0), ite_self, Finsupp.single_zero]
  refine ⟨h1, ?_⟩
  have e1 := act_dl_lab hk one_pos Z ht (colO_mem (Nat.succ_pos m) le_rfl (i := .a) (by decide))
  have e2 := act_dl_lab hk one_pos Z ht (colO_mem (Nat.succ_pos m) le_rfl (i := .b) (by decide))
  rw [labD_colA (Nat.succ_pos m)] at e1
  rw [labD_colB (Nat.succ_pos m)] at e2
  rw [map_mul, Module.End.mul_apply, h1 (m + 1) (by omega), colV, if_neg (by omega), if_pos le_rfl, map_add, e1, e2, ← Finset.sum_add_distrib]
  refine Finset.sum_eq_zero fun W _ => ?_
  rw [← Finsupp.single_add, opS_colO, Finsupp.single_zero]

end

end Verif
