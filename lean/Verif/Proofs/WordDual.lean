import Verif.Proofs.RingBC
import Verif.Props.Dual
/-!
# The dual of a word

Dualizing exchanges the letters `a` and `b`. The Pieri matrices are symmetric for this involution, and the index list of
a class is read off its word, which compares it with `dualize`.
-/

namespace Verif
open Spec

/-- the letter of the dual class -/
def L3.dual : L3 → L3
  | .o => .o
  | .a => .b
  | .b => .a

theorem L3.dual_dual (p : L3) : p.dual.dual = p := by cases p <;> rfl

/-- the word of the dual class -/
def dualW (u : List L3) : List L3 := u.map L3.dual

theorem dualW_dualW (u : List L3) : dualW (dualW u) = u := by
  unfold dualW
  rw [List.map_map]
  conv_rhs => rw [← List.map_id u]
  congr 1
  funext p
  exact p.dual_dual

@[simp] theorem dualW_length (u : List L3) : (dualW u).length = u.length := by simp [dualW]

theorem colsW_dualW (k0 : Nat) (u : List L3) : colsW k0 (dualW u) = colsW k0 u := by
  induction u with
  | nil => rfl
  | cons p u ih =>
    have : dualW (p :: u) = p.dual :: dualW u := rfl
    rw [this]
    cases p <;> simp [L3.dual, colsW, ih]

/-- the state seen from the dual words -/
def St.dual : St → St
  | .z => .z
  | .lr => .lr
  | .l => .r
  | .r => .l

theorem step_dual (s : St) (p q : L3) :
    step s.dual q.dual p.dual = (step s p q).map (fun t => (t.1.dual, t.2.1, t.2.2)) := by
  cases s <;> cases p <;> cases q <;> rfl

section
variable {R : Type*} [CommRing R]

theorem wt_dual (c x : R) (s : St) (u w : List L3) : wt c x s.dual (dualW w) (dualW u) = wt c x s u w := by
  induction u generalizing s w with
  | nil =>
    cases w with
    | nil => cases s <;> rfl
    | cons q w => rfl
  | cons p u ih =>
    cases w with
    | nil => rfl
    | cons q w =>
      have e1 : dualW (p :: u) = p.dual :: dualW u := rfl
      have e2 : dualW (q :: w) = q.dual :: dualW w := rfl
      rw [e1, e2]
      simp only [wt, step_dual]
      rcases step s p q with _ | ⟨t, i, j⟩
      · rfl
      · simp [ih]

theorem opW_dual (c h x : R) (u w : List L3) : opW c h x (dualW w) (dualW u) = opW c h x u w := by
  unfold opW
  have e1 := wt_dual c x .z u w
  have e2 := wt_dual c x .lr u w
  simp only [St.dual] at e1 e2
  rw [e1, e2]

end

theorem dualW_mem {n k : Nat} {u : List L3} (h : u ∈ Wd n k) : dualW u ∈ Wd n k := by
  rw [mem_Wd] at h ⊢
  rw [dualW_length, colsW_dualW]
  exact h

/-! ### Index lists -/

/-- the coordinates of a word, relative to the middle; `s` is the number of coordinates in the middle -/
def idxW (s : Int) : List L3 → List Int
  | [] => []
  | .o :: u => idxW s u
  | .a :: u => -(u.length : Int) :: idxW s u
  | .b :: u => idxW s u ++ [(u.length : Int) + 1 + s]

theorem idxW_dual (s : Int) (u : List L3) : idxW s (dualW u) = (idxW s u).reverse.map (fun x => s + 1 - x) := by
  induction u with
  | nil => rfl
  | cons p u ih =>
    have : dualW (p :: u) = p.dual :: dualW u := rfl
    rw [this]
    cases p
    · simpa [L3.dual, idxW] using ih
    · simp [L3.dual, idxW, ih]; ring
    · simp [L3.dual, idxW, ih]; ring

theorem cnt_cons (x : Int) (l : List Int) (k δ : Int) (j : Nat) (h : 2 * k + δ + (j + 1) < x + part l j) :
    cnt (part (x :: l)) k δ (j + 1) = cnt (part l) k δ j := by
  unfold cnt
  congr 1
  symm
  apply Finset.card_bij (fun i _ => i + 1)
  · intro i hi
    rw [Finset.mem_filter, Finset.mem_range] at hi ⊢
    refine ⟨by omega, ?_⟩
    have := hi.2
    unfold cond at this ⊢
    simp only [part_cons_succ]
    push_cast
    omega
  · intro i _ i' _ h; omega
  · intro i hi
    rw [Finset.mem_filter, Finset.mem_range] at hi
    cases i with
    | zero =>
      have := hi.2
      unfold cond at this
      simp only [part_cons_succ, part_cons_zero] at this
      push_cast at this
      omega
    | succ i =>
      refine ⟨i, ?_, rfl⟩
      rw [Finset.mem_filter, Finset.mem_range]
      refine ⟨by omega, ?_⟩
      have := hi.2
      unfold cond at this ⊢
      simp only [part_cons_succ] at this
      push_cast at this
      omega

theorem cnt_succ_map (l : List Int) (k δ : Int) {j : Nat} (hj : j < l.length) :
    cnt (part (l.map (· + 1))) (k + 1) δ j = cnt (part l) k δ j := by
  unfold cnt
  congr 2
  apply Finset.filter_congr
  intro i hi
  rw [Finset.mem_range] at hi
  unfold cond
  rw [part_map_succ, part_map_succ, if_pos hj, if_pos (by omega)]
  constructor <;> intro h <;> omega

/-- an entry of the index list, relative to the middle -/
def relI (s : Int) (lam : Nat → Int) (k : Int) (j : Nat) : Int :=
  if k < lam j then k + 1 - lam j else k + 1 + s - lam j + cnt lam k 0 j

theorem relI_shapeW (s : Int) (u : List L3) :
    (List.range (rowsW 0 u)).map (relI s (part (shapeW 0 0 u)) (colsW 0 u)) = idxW s u := by
  induction u with
  | nil => rfl
  | cons p u ih =>
    have hrc := rows_add_cols 0 0 u
    have hB := inBoxW 0 0 u
    cases p with
    | o =>
      simp only [rowsW, shapeW, colsW, idxW]
      rw [← ih]
      apply List.map_congr_left
      intro j hj
      rw [List.mem_range] at hj
      have hj' : j < (shapeW 0 0 u).length := by rw [shapeW_length]; exact hj
      unfold relI
      push_cast
      rw [cnt_succ_map _ _ _ hj', part_map_succ, if_pos hj']
      by_cases h : (colsW 0 u : Int) < part (shapeW 0 0 u) j
      · rw [if_pos h, if_pos (by omega)]; omega
      · rw [if_neg h, if_neg (by omega)]; omega
    | a =>
      simp only [rowsW, shapeW, colsW, idxW]
      rw [List.range_succ_eq_map, List.map_cons, List.map_map, ← ih]
      congr 1
      · unfold relI
        rw [part_cons_zero, if_pos (by omega)]; omega
      · apply List.map_congr_left
        intro j hj
        rw [List.mem_range] at hj
        have h0 := hB.isPart.part_nonneg j
        simp only [Function.comp_apply, Nat.succ_eq_add_one]
        unfold relI
        rw [cnt_cons _ _ _ _ _ (by omega), part_cons_succ]
    | b =>
      simp only [rowsW, shapeW, colsW, idxW]
      rw [List.range_succ, List.map_append, ← ih, part_append_zero']
      congr 1
      simp only [List.map_cons, List.map_nil, List.cons.injEq, and_true]
      have h0 : part (shapeW 0 0 u) (rowsW 0 u) = 0 := part_of_ge (by rw [shapeW_length])
      unfold relI
      rw [h0, if_neg (by omega)]
      have hc : cnt (part (shapeW 0 0 u)) (colsW 0 u) 0 (rowsW 0 u) = rowsW 0 u := by
        apply le_antisymm (cnt_le _)
        by_cases hr : rowsW 0 u = 0
        · rw [hr]; exact cnt_nonneg _
        · have := cnt_ge (δ := 0) (kseq_of_kstrict (by omega) hB.isPart hB.kstrict) (by omega) (show 0 < rowsW 0 u by omega) (by
            have := hB.cols
            unfold cond
            rw [h0]; push_cast at *; omega)
          simpa using this
      rw [hc]; omega

theorem part2index_word {n k : Nat} {u : List L3} (hu : u ∈ Wd n k) :
    part2indexC (labW u) k n = (idxW 0 u).map (fun x : Int => x + n) ∧
    part2indexB (labW u) k n = (idxW 1 u).map (fun x : Int => x + n) := by
  rw [mem_Wd] at hu
  obtain ⟨h1, h2⟩ := hu
  have hrc := rows_add_cols 0 0 u
  have hB := inBoxW 0 0 u
  have hK := kseq_of_kstrict (by omega) hB.isPart hB.kstrict
  have hp : part (labW u) = part (shapeW 0 0 u) := by
    funext j; unfold labW; rw [part_partClip]
  have hr : ((n : Int) - k).toNat = rowsW 0 u := by omega
  constructor
  · unfold part2indexC
    rw [← relI_shapeW, List.map_map, hr]
    apply List.map_congr_left
    intro j _
    rw [countInner_eq, at'_pad, hp, ← h2]
    simp only [Function.comp_apply, relI]
    split
    · rename_i h
      rw [cnt_zero (δ := 0) hK (by omega) h]; omega
    · omega
  · unfold part2indexB
    rw [← relI_shapeW, List.map_map, hr]
    apply List.map_congr_left
    intro j _
    rw [countInner_eq, at'_pad, hp, ← h2]
    simp only [Function.comp_apply, relI]
    split <;> omega

theorem dualize_C {n k : Nat} (hk : k ≤ n) {u : List L3} (hu : u ∈ Wd n k) :
    Space.dualize ⟨.C, k, n⟩ (labW u) = .ok (labW (dualW u)) := by
  have hX := mkIG_nat n k hk
  obtain ⟨h1, h2, h3⟩ := (clsBC_eq hk _).1 ((Wd_cls hk _).2 ⟨_, dualW_mem hu, rfl⟩)
  have := (C09_part_index_part _ _ _ hX _ h1 h2 h3).2.2
  rw [← this]
  unfold Space.dualize
  congr 1
  simp only [Space.part2index, Space.ambient, dualizeIndex, reduceCtorEq, decide_false, Bool.false_eq_true, false_and,
    if_false]
  rw [(part2index_word hu).1, (part2index_word (dualW_mem hu)).1, idxW_dual, ← List.map_reverse, List.map_map, List.map_map]
  apply List.map_congr_left
  intro x _
  simp only [Function.comp_apply]
  ring

theorem dualize_B {n k : Nat} (hk : k ≤ n) {u : List L3} (hu : u ∈ Wd n k) :
    Space.dualize ⟨.B, k, n⟩ (labW u) = .ok (labW (dualW u)) := by
  have hX := mkOG_nat n k hk
  obtain ⟨h1, h2, h3⟩ := (clsBC_eq hk _).1 ((Wd_cls hk _).2 ⟨_, dualW_mem hu, rfl⟩)
  have := (C10_part_index_part _ _ (by omega) _ hX _ h1 h2 h3).2.2
  rw [← this]
  unfold Space.dualize
  congr 1
  simp only [Space.part2index, Space.ambient, dualizeIndex, reduceCtorEq, decide_false, Bool.false_eq_true, false_and,
    if_false]
  rw [(part2index_word hu).2, (part2index_word (dualW_mem hu)).2, idxW_dual, ← List.map_reverse, List.map_map, List.map_map]
  apply List.map_congr_left
  intro x _
  simp only [Function.comp_apply]
  ring

/-! ### Duality -/

/-- the dual class, as the code computes it -/
def dlBC (n k : Nat) (l : List Int) : List Int :=
  match Space.dualize ⟨.C, k, n⟩ l with
  | .ok d => d
  | .error _ => []

theorem dlBC_labW {n k : Nat} (hk : k ≤ n) {u : List L3} (hu : u ∈ Wd n k) : dlBC n k (labW u) = labW (dualW u) := by
  unfold dlBC
  rw [dualize_C hk hu]

theorem dlBC_cls {n k : Nat} (hk : k ≤ n) (l : List Int) (hl : clsBC n k l) : clsBC n k (dlBC n k l) := by
  obtain ⟨u, hu, rfl⟩ := (Wd_cls hk l).1 hl
  rw [dlBC_labW hk hu]
  exact (Wd_cls hk _).2 ⟨_, dualW_mem hu, rfl⟩

theorem dlBC_dlBC {n k : Nat} (hk : k ≤ n) (l : List Int) (hl : clsBC n k l) : dlBC n k (dlBC n k l) = l := by
  obtain ⟨u, hu, rfl⟩ := (Wd_cls hk l).1 hl
  rw [dlBC_labW hk hu, dlBC_labW hk (dualW_mem hu), dualW_dualW]

theorem dualize_dlBC {n k : Nat} (hk : k ≤ n) (l : List Int) (hl : clsBC n k l) :
    Space.dualize ⟨.C, k, n⟩ l = .ok (dlBC n k l) ∧ Space.dualize ⟨.B, k, n⟩ l = .ok (dlBC n k l) := by
  obtain ⟨u, hu, rfl⟩ := (Wd_cls hk l).1 hl
  rw [dlBC_labW hk hu]
  exact ⟨dualize_C hk hu, dualize_B hk hu⟩

theorem MC_dual (h : Polynomial ℚ) (p : Nat) (u w : List L3) : MC h p (dualW w) (dualW u) = MC h p u w := by
  unfold MC; rw [opW_dual]

theorem MB_dual (k p : Nat) (u w : List L3) : MB k p (dualW w) (dualW u) = MB k p u w := by
  unfold MB; rw [opW_dual]

theorem tM_dual {n k : Nat} (hk : k ≤ n) (M : Nat → List L3 → List L3 → Polynomial ℚ)
    (hM : ∀ p u w, M p (dualW w) (dualW u) = M p u w) (p : Nat) {l nu : List Int} (hl : clsBC n k l) (hn : clsBC n k nu) :
    tM (Wd n k) labW M p l (dlBC n k nu) = tM (Wd n k) labW M p nu (dlBC n k l) := by
  obtain ⟨u, hu, rfl⟩ := (Wd_cls hk l).1 hl
  obtain ⟨w, hw, rfl⟩ := (Wd_cls hk nu).1 hn
  rw [dlBC_labW hk hu, dlBC_labW hk hw, tM_apply M Wd_inj p hu (dualW_mem hw), tM_apply M Wd_inj p hw (dualW_mem hu)]
  have := hM p u (dualW w)
  rw [dualW_dualW] at this
  exact this.symm

end Verif
