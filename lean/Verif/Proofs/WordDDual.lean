import Verif.Proofs.WordDual
import Verif.Proofs.RingD
/-!
# The dual of a word with an inner letter

Dualizing exchanges the letters `a` and `b` outside; the inner letter is kept if `k` is even and exchanged if `k` is odd. The
matrices of type D are symmetric for this involution, and the index list of a class is read off its word.
-/

namespace Verif
open Spec

section
variable {R : Type*} [CommRing R]

theorem wtE_dual {e e' : St → R} (x : R) (he : ∀ t, e' (St.dual t) = e t) (s : St) (u w : List L3) :
    wtE e' x s.dual (dualW w) (dualW u) = wtE e x s u w := by
  induction u generalizing s w with
  | nil =>
    cases w with
    | nil => exact he s
    | cons q w => rfl
  | cons p u ih =>
    cases w with
    | nil => rfl
    | cons q w =>
      have e1 : dualW (p :: u) = p.dual :: dualW u := rfl
      have e2 : dualW (q :: w) = q.dual :: dualW w := rfl
      rw [e1, e2]
      simp only [wtE, step_dual]
      rcases step s p q with _ | ⟨t, i, j⟩
      · rfl
      · simp [ih]

/-- the sign of a state under dualizing -/
def St.sg : St → Int
  | .r => -1
  | _ => 1

theorem St.sg_sq (s : St) : s.sg * s.sg = 1 := by cases s <;> rfl

theorem stepSg_dual (s : St) (p q : L3) :
    stepSg s.dual q.dual p.dual = (stepSg s p q).map (fun t => (t.1.dual, (-1) ^ q.k0 * s.sg * t.1.sg * t.2)) := by
  cases s <;> cases p <;> cases q <;> rfl

theorem wtS_dual {e e' : St → R} (k0 : Nat) (he : ∀ t, e' (St.dual t) = (-1) ^ k0 * t.sg * e t) (s : St) (u w : List L3) :
    wtS e' s.dual (dualW w) (dualW u) = (-1) ^ colsW k0 w * s.sg * wtS e s u w := by
  induction u generalizing s w with
  | nil =>
    cases w with
    | nil => exact he s
    | cons q w => simp [dualW, wtS]
  | cons p u ih =>
    cases w with
    | nil => simp [dualW, wtS]
    | cons q w =>
      have e1 : dualW (p :: u) = p.dual :: dualW u := rfl
      have e2 : dualW (q :: w) = q.dual :: dualW w := rfl
      have hc : colsW k0 (q :: w) = q.k0 + colsW k0 w := by cases q <;> simp [colsW, L3.k0, add_comm]
      rw [e1, e2]
      simp only [wtS, stepSg_dual, hc]
      rcases stepSg s p q with _ | ⟨t, i⟩
      · simp
      · simp only [Option.map_some, ih]
        have := St.sg_sq t
        have h2 : ((t.sg : Int) : R) * ((t.sg : Int) : R) = 1 := by exact_mod_cast congrArg (Int.cast : Int → R) this
        push_cast
        rw [pow_add]
        linear_combination ((-1) ^ q.k0 * s.sg * (-1) ^ colsW k0 w * i * wtS e t u w : R) * h2

/-- the outer letters exchanged -/
def dual0 (U : WordD) : WordD := (dualW U.1, U.2)

theorem dual0_dual0 (U : WordD) : dual0 (dual0 U) = U := by unfold dual0; rw [dualW_dualW]

theorem dual0_sw (U : WordD) : dual0 (swD U) = swD (dual0 U) := rfl

theorem colsD_dual0 (U : WordD) : colsD (dual0 U) = colsD U := colsW_dualW _ _

theorem gD_dual0 (x : R) (s : St) (U W : WordD) : gD x s.dual (dual0 W) (dual0 U) = gD x s U W := by
  unfold gD
  apply wtE_dual
  intro t
  simp only [dual0]
  cases t <;> cases U.2 <;> cases W.2 <;> rfl

theorem sD_dual0 (s : St) (U W : WordD) : (sD s.dual (dual0 W) (dual0 U) : R) = (-1) ^ colsD W * s.sg * sD s U W := by
  unfold sD
  apply wtS_dual
  intro t
  simp only [dual0]
  cases t <;> cases U.2 <;> cases W.2 <;> simp [endSg, St.dual, St.sg, L3.k0]

theorem opGE_dual0 (h' x : R) (U W : WordD) : opGE h' x (dual0 W) (dual0 U) = opGE h' x U W := by
  rcases U with ⟨_ | ⟨p, u⟩, i⟩ <;> rcases W with ⟨_ | ⟨q, w⟩, j⟩
  · exact gD_dual0 x .z ([], i) ([], j)
  · exact gD_dual0 x .z ([], i) (q :: w, j)
  · exact gD_dual0 x .z (p :: u, i) ([], j)
  · have hg : ∀ s, gD x (St.dual s) (dualW w, j) (dualW u, i) = gD x s (u, i) (w, j) := fun s => gD_dual0 x s (u, i) (w, j)
    have h1 := hg .z
    have h2 := hg .lr
    have h3 := hg .l
    have h4 := hg .r
    simp only [St.dual] at h1 h2 h3 h4
    cases p <;> cases q <;> simp only [opGE, dual0, dualW, List.map_cons, L3.dual, kerE] <;>
      simp only [dualW] at h1 h2 h3 h4 <;> simp only [h1, h2, h3, h4]

theorem opGO_dual0 (h x : R) (U W : WordD) : opGO h x (dual0 W) (dual0 U) = opGO h x U W := by
  rcases U with ⟨_ | ⟨p, u⟩, i⟩ <;> rcases W with ⟨_ | ⟨q, w⟩, j⟩
  · rfl
  · rfl
  · rfl
  · have hg : ∀ s, gD x (St.dual s) (dualW w, j) (dualW u, i) = gD x s (u, i) (w, j) := fun s => gD_dual0 x s (u, i) (w, j)
    have h2 := hg .lr
    have h3 := hg .l
    have h4 := hg .r
    simp only [St.dual] at h2 h3 h4
    cases p <;> cases q <;> simp only [opGO, dual0, dualW, List.map_cons, L3.dual, kerO] <;>
      simp only [dualW] at h2 h3 h4 <;> simp only [h2, h3, h4]

theorem opSE_dual0 (U W : WordD) : (opSE (dual0 W) (dual0 U) : R) = (-1) ^ colsD W * opSE U W := by
  have hz : ∀ U W : WordD, (sD .z (dual0 W) (dual0 U) : R) = (-1) ^ colsD W * sD .z U W := by
    intro U W
    have := sD_dual0 (R := R) .z U W
    simpa [St.dual, St.sg] using this
  rcases U with ⟨_ | ⟨p, u⟩, i⟩ <;> rcases W with ⟨_ | ⟨q, w⟩, j⟩
  · exact hz ([], i) ([], j)
  · exact hz ([], i) (q :: w, j)
  · exact hz (p :: u, i) ([], j)
  · have hg : ∀ s, (sD (St.dual s) (dualW w, j) (dualW u, i) : R) = (-1) ^ colsD (w, j) * s.sg * sD s (u, i) (w, j) :=
      fun s => sD_dual0 s (u, i) (w, j)
    have h1 := hg .z
    have h3 := hg .l
    have h4 := hg .r
    simp only [St.dual, St.sg] at h1 h3 h4
    cases p <;> cases q <;> simp only [opSE, dual0, dualW, List.map_cons, L3.dual, kerSE, colsD_o, colsD_a, colsD_b] <;>
      simp only [dualW] at h1 h3 h4 <;> (try simp only [h1, h3, h4]) <;> push_cast <;> ring

theorem opSO_dual0 (h : R) (U W : WordD) : opSO h (dual0 W) (dual0 U) = -((-1) ^ colsD W * opSO h U W) := by
  rcases U with ⟨_ | ⟨p, u⟩, i⟩ <;> rcases W with ⟨_ | ⟨q, w⟩, j⟩
  · simp [opSO, dual0, dualW]
  · simp [opSO, dual0, dualW]
  · simp [opSO, dual0, dualW]
  · have hg : ∀ s, (sD (St.dual s) (dualW w, j) (dualW u, i) : R) = (-1) ^ colsD (w, j) * s.sg * sD s (u, i) (w, j) :=
      fun s => sD_dual0 s (u, i) (w, j)
    have h3 := hg .l
    have h4 := hg .r
    simp only [St.dual, St.sg] at h3 h4
    cases p <;> cases q <;> simp only [opSO, dual0, dualW, List.map_cons, L3.dual, kerSO, colsD_o, colsD_a, colsD_b] <;>
      simp only [dualW] at h3 h4 <;> (try simp only [h3, h4]) <;> push_cast <;> ring

/-- the dual word -/
def dualD (U : WordD) : WordD := if colsD U % 2 = 1 then swD (dual0 U) else dual0 U

theorem colsD_dualD (U : WordD) : colsD (dualD U) = colsD U := by
  unfold dualD
  split
  · rw [colsD_sw, colsD_dual0]
  · rw [colsD_dual0]

theorem dualD_dualD (U : WordD) : dualD (dualD U) = U := by
  have h := colsD_dualD U
  unfold dualD at h ⊢
  rw [h]
  split
  · rw [dual0_sw, swD_swD, dual0_dual0]
  · rw [dual0_dual0]

theorem opG_dualD (h h' x : R) {U W : WordD} (hc : colsD U = colsD W) : opG h h' x (dualD W) (dualD U) = opG h h' x U W := by
  have e1 : ∀ U W : WordD, opG h h' x (swD U) (swD W) = opG h h' x U W := by
    intro U W; unfold opG; rw [opGE_sw, opGO_sw, one_mul, one_mul]
  have e2 : opG h h' x (dual0 W) (dual0 U) = opG h h' x U W := by
    unfold opG
    rw [opGE_dual0]
    congr 1
    rw [show dual0 W = swD (dual0 (swD W)) by rw [dual0_sw, swD_swD], opGO_sw, one_mul, opGO_dual0]
  unfold dualD
  rw [hc]
  split
  · rw [e1, e2]
  · rw [e2]

theorem opS_dualD (h : R) {U W : WordD} (hc : colsD U = colsD W) : opS h (dualD W) (dualD U) = opS h U W := by
  have e1 : ∀ U W : WordD, opS h (swD U) (swD W) = -opS h U W := by
    intro U W; unfold opS; rw [opSE_sw, opSO_sw]; ring
  have e2 : opS h (dual0 W) (dual0 U) = (-1) ^ colsD W * opS h U W := by
    unfold opS
    rw [opSE_dual0, show dual0 W = swD (dual0 (swD W)) by rw [dual0_sw, swD_swD], opSO_sw, opSO_dual0, colsD_sw]
    ring
  unfold dualD
  rw [hc]
  split
  · rename_i hk
    rw [e1, e2, Odd.neg_one_pow (Nat.odd_iff.2 hk)]; ring
  · rename_i hk
    rw [e2, Even.neg_one_pow (Nat.even_iff.2 (by omega)), one_mul]

end

theorem MDg_dualD (h h' : Polynomial ℚ) (k : Nat) (p : Int) {U W : WordD} (hc : colsD U = colsD W) :
    MDg h h' k p (dualD W) (dualD U) = MDg h h' k p U W := by
  unfold MDg; rw [opG_dualD _ _ _ hc, opS_dualD _ hc]

theorem dualD_mem {n k : Nat} {U : WordD} (h : U ∈ WdD n k) : dualD U ∈ WdD n k := by
  rw [mem_WdD] at h ⊢
  refine ⟨?_, by rw [colsD_dualD]; exact h.2.1, fun hk => ?_⟩
  · unfold dualD; split <;> simp [swD, dual0, h.1]
  · unfold dualD
    rw [if_neg (by omega)]
    exact h.2.2 hk

/-! ### Index lists -/

/-- the coordinates of a word, relative to the middle; `c` is the coordinate of the inner letter -/
def idxD (c : Int) (i : L3) : List L3 → List Int
  | [] => if i = .o then [] else [c]
  | .o :: u => idxD c i u
  | .a :: u => -((u.length : Int) + 1) :: idxD c i u
  | .b :: u => idxD c i u ++ [(u.length : Int) + 2]

theorem idxD_dual (c : Int) (i : L3) (u : List L3) :
    idxD (1 - c) i (dualW u) = (idxD c i u).reverse.map (fun x => 1 - x) := by
  induction u with
  | nil => cases i <;> rfl
  | cons p u ih =>
    have : dualW (p :: u) = p.dual :: dualW u := rfl
    rw [this]
    cases p
    · simpa [L3.dual, idxD] using ih
    · simp [L3.dual, idxD, ih]; ring
    · simp [L3.dual, idxD, ih]; ring

/-- the number of letters `a` -/
def numA : List L3 → Nat
  | [] => 0
  | .a :: u => numA u + 1
  | _ :: u => numA u

/-- an entry of the index list, relative to the middle -/
def relD (lam : Nat → Int) (k nt : Int) (j : Nat) : Int := k - lam j + cnt lam k (-1) j + offD lam k nt j

/-- the inner coordinate -/
def inC (nt : Int) : Int := if nt % 2 = 1 then 0 else 1

theorem firstK_cons {x : Int} {l : List Int} {k : Int} (hx : k < x) (j : Nat) :
    FirstK (part (x :: l)) k (j + 1) ↔ FirstK (part l) k j := by
  unfold FirstK
  rw [part_cons_succ]
  cases j with
  | zero => simp [part_cons_zero, hx]
  | succ j => simp [part_cons_succ]

theorem offD_cons {x : Int} {l : List Int} {k nt : Int} (hx : k < x) (j : Nat) :
    offD (part (x :: l)) k nt (j + 1) = offD (part l) k (nt + 1) j := by
  unfold offD
  have h2 : (nt + ((j + 1 : Nat) : Int)) % 2 = (nt + 1 + (j : Int)) % 2 := by push_cast; congr 1; ring
  simp only [part_cons_succ, firstK_cons hx, h2]

theorem relD_shapeW (i : L3) (u : List L3) (nt : Int) :
    (List.range (rowsW i.r0 u)).map (relD (part (shapeW i.k0 i.r0 u)) (colsW i.k0 u) nt) = idxD (inC (nt + numA u)) i u := by
  induction u generalizing nt with
  | nil =>
    cases i with
    | o => rfl
    | a =>
      have hc : cnt (part [0]) 0 (-1) 0 = 0 := by unfold cnt; simp
      simp [rowsW, shapeW, colsW, idxD, L3.r0, L3.k0, numA, List.range_succ, relD, hc, offD, FirstK, inC, part]
    | b =>
      have hc : cnt (part [0]) 0 (-1) 0 = 0 := by unfold cnt; simp
      simp [rowsW, shapeW, colsW, idxD, L3.r0, L3.k0, numA, List.range_succ, relD, hc, offD, FirstK, inC, part]
  | cons p u ih =>
    have hrc := rows_add_colsD (u, i)
    have hB := inBox_shD (u, i)
    unfold shD at hB
    unfold colsD at hB hrc
    simp only at hB hrc
    cases p with
    | o =>
      simp only [rowsW, shapeW, colsW, idxD, numA]
      rw [← ih]
      apply List.map_congr_left
      intro j hj
      rw [List.mem_range] at hj
      have hj' : j < (shapeW i.k0 i.r0 u).length := by rw [shapeW_length]; exact hj
      unfold relD offD FirstK
      push_cast
      rw [cnt_succ_map _ _ _ hj', part_map_succ, if_pos hj', part_map_succ, if_pos (by omega : j - 1 < _)]
      simp only [add_left_inj, add_lt_add_iff_right, gt_iff_lt]
      omega
    | a =>
      simp only [rowsW, shapeW, colsW, idxD, numA]
      rw [List.range_succ_eq_map, List.map_cons, List.map_map]
      have := ih (nt + 1)
      rw [show nt + 1 + (numA u : Int) = nt + ((numA u + 1 : Nat) : Int) by push_cast; ring] at this
      rw [← this]
      congr 1
      · have hc : ∀ l : Nat → Int, ∀ k : Int, cnt l k (-1) 0 = 0 := by intro l k; unfold cnt; simp
        unfold relD offD
        rw [part_cons_zero, hc, if_pos (by omega)]; omega
      · apply List.map_congr_left
        intro j hj
        rw [List.mem_range] at hj
        have h0 := hB.isPart.part_nonneg j
        simp only [Function.comp_apply, Nat.succ_eq_add_one]
        unfold relD
        rw [cnt_cons _ _ _ _ _ (by omega), part_cons_succ, offD_cons (by omega)]
    | b =>
      simp only [rowsW, shapeW, colsW, idxD, numA]
      rw [List.range_succ, List.map_append, ← ih, part_append_zero']
      congr 1
      simp only [List.map_cons, List.map_nil, List.cons.injEq, and_true]
      have h0 : part (shapeW i.k0 i.r0 u) (rowsW i.r0 u) = 0 := part_of_ge (by rw [shapeW_length])
      unfold relD
      rw [h0]
      have hoff : offD (part (shapeW i.k0 i.r0 u)) (colsW i.k0 u) nt (rowsW i.r0 u) = 1 := by
        apply offD_other
        · rw [h0]; omega
        · rintro ⟨h1, h2⟩
          rw [h0] at h1
          have hr : i.r0 = 1 := by
            cases i
            · exfalso
              have : ∀ v : List L3, 0 < colsW 1 v := by
                intro v
                induction v with
                | nil => exact Nat.one_pos
                | cons p v ih => cases p <;> simp [colsW, ih]
              have := this u
              simp only [L3.k0] at h1
              omega
            · rfl
            · rfl
          have hm := (mem_shapeW (L3.k0_add_r0 i) u).2 hr
          rw [← h1] at hm
          obtain ⟨y, hy, hy2⟩ := mem_iff_exists_part.1 hm
          rw [shapeW_length] at hy
          rcases h2 with h2 | h2
          · omega
          · have := hB.isPart.part_anti (show y ≤ rowsW i.r0 u - 1 by omega)
            omega
      have hc : cnt (part (shapeW i.k0 i.r0 u)) (colsW i.k0 u) (-1) (rowsW i.r0 u) = rowsW i.r0 u := by
        apply le_antisymm (cnt_le _)
        by_cases hr : rowsW i.r0 u = 0
        · rw [hr]; exact cnt_nonneg _
        · have := cnt_ge (δ := -1) (kseq_of_kstrict (by omega) hB.isPart hB.kstrict) (by omega) (show 0 < rowsW i.r0 u by omega) (by
            have := hB.cols
            unfold cond
            rw [h0]; push_cast at *; omega)
          simpa using this
      rw [hc, hoff]; omega

/-- the offset of the second type -/
def tyB (i : L3) : Int := if i = .b then 1 else 0

theorem markD_labD (U : WordD) (M : Int) : markD (labD U) M = M + tyB U.2 := by
  unfold labD tyB
  by_cases h : U.2 = .b
  · rw [if_pos h, if_pos h, markD_marked]
  · rw [if_neg h, if_neg h, List.append_nil, markD_reduced (clD_reduced U), add_zero]

/-- the inner coordinate of a word -/
def inD (U : WordD) : Int := inC ((U.1.length : Int) + 1 + tyB U.2 + numA U.1)

theorem part2index_wordD {n k : Nat} {U : WordD} (h1 : U.1.length = n) (h2 : colsD U = k) :
    part2indexD (labD U) k n = (idxD (inD U) U.2 U.1).map (fun x : Int => x + (n + 1)) := by
  have hrc := rows_add_colsD U
  have hr : ((n : Int) + 1 - k).toNat = rowsW U.2.r0 U.1 := by omega
  have hp : part (labD U) = part (shapeW U.2.k0 U.2.r0 U.1) := by
    funext j; exact part_labD U j
  unfold inD
  rw [part2indexD_eq, hr, markD_labD, ← relD_shapeW, List.map_map, hp, ← h2, h1]
  apply List.map_congr_left
  intro j _
  simp only [Function.comp_apply, relD, seqD, colsD]
  ring

theorem idxD_sw (c : Int) (i : L3) (u : List L3) : idxD c i.sw u = idxD c i u := by
  induction u with
  | nil => cases i <;> rfl
  | cons p u ih => cases p <;> simp [idxD, ih]

theorem idxD_o (c c' : Int) (u : List L3) : idxD c .o u = idxD c' .o u := by
  induction u with
  | nil => rfl
  | cons p u ih => cases p <;> simp [idxD, ih]

theorem idxD_mid {c : Int} (hc : c = 0 ∨ c = 1) (i : L3) (u : List L3) (M : Int) :
    ((idxD c i u).map (fun x : Int => x + M)).map (fun x => if x = M then M + 1 else if x = M + 1 then M else x) =
      (idxD (1 - c) i u).map (fun x : Int => x + M) := by
  induction u with
  | nil =>
    cases i
    · rfl
    · rcases hc with rfl | rfl <;> simp [idxD, add_comm]
    · rcases hc with rfl | rfl <;> simp [idxD, add_comm]
  | cons p u ih =>
    cases p with
    | o => exact ih
    | a =>
      simp only [idxD, List.map_cons, ih]
      rw [if_neg (by omega), if_neg (by omega)]
    | b =>
      simp only [idxD, List.map_append, ih, List.map_cons, List.map_nil]
      rw [if_neg (by omega), if_neg (by omega)]

theorem inC_01 (x : Int) : inC x = 0 ∨ inC x = 1 := by
  unfold inC; split <;> simp

theorem numA_dual (u : List L3) : numA u + numA (dualW u) + colsW 0 u = u.length := by
  induction u with
  | nil => rfl
  | cons p u ih =>
    have : dualW (p :: u) = p.dual :: dualW u := rfl
    rw [this]
    cases p <;> simp only [L3.dual, numA, colsW, List.length_cons] <;> omega

theorem tyB_dual (U : WordD) (h : U.2 ≠ .o) : (tyB (dualD U).2 + tyB U.2 + colsD U) % 2 = 0 := by
  unfold dualD
  generalize colsD U = k
  rcases U with ⟨u, i⟩
  split <;> cases i <;> simp_all [tyB, swD, dual0, L3.sw] <;> omega

theorem dualD_fst (U : WordD) : (dualD U).1 = dualW U.1 := by unfold dualD; split <;> rfl

theorem dualD_idx (c : Int) (U : WordD) : idxD c (dualD U).2 (dualD U).1 = idxD c U.2 (dualW U.1) := by
  rw [dualD_fst]
  unfold dualD
  split
  · exact idxD_sw c U.2 _
  · rfl

theorem dualizeIndex_word {n k : Nat} {U : WordD} (h1 : U.1.length = n) (h2 : colsD U = k) :
    dualizeIndex (part2indexD (labD U) k n) (2 * n + 2) true = part2indexD (labD (dualD U)) k n := by
  have h1' : (dualD U).1.length = n := by rw [dualD_fst, dualW_length, h1]
  rw [part2index_wordD h1 h2, part2index_wordD h1' (by rw [colsD_dualD, h2]), dualD_idx]
  have hc : inD U = 0 ∨ inD U = 1 := inC_01 _
  have hres : ((idxD (inD U) U.2 U.1).map (fun x : Int => x + (n + 1))).reverse.map (fun x => 2 * (n : Int) + 2 + 1 - x) =
      (idxD (1 - inD U) U.2 (dualW U.1)).map (fun x : Int => x + (n + 1)) := by
    rw [idxD_dual, ← List.map_reverse, List.map_map, List.map_map]
    apply List.map_congr_left
    intro x _
    simp only [Function.comp_apply]
    ring
  have hin : U.2 ≠ .o → (inD (dualD U) = if n % 2 = 0 then inD U else 1 - inD U) := by
    intro ho
    have e1 := tyB_dual U ho
    have e2 := numA_dual U.1
    have e3 : colsW 0 U.1 = colsD U := by
      unfold colsD
      rcases U with ⟨u, i⟩
      cases i
      · exact absurd rfl ho
      · rfl
      · rfl
    rw [e3, h1] at e2
    unfold inD inC
    rw [h1', h1, dualD_fst]
    split_ifs <;> omega
  have hfin : idxD (inD (dualD U)) U.2 (dualW U.1) = idxD (if n % 2 = 0 then inD U else 1 - inD U) U.2 (dualW U.1) := by
    by_cases ho : U.2 = .o
    · rw [ho]; exact idxD_o _ _ _
    · rw [hin ho]
  rw [hfin]
  unfold dualizeIndex
  simp only [hres, true_and]
  have hN : (2 * (n : Int) + 2) / 2 = n + 1 := by omega
  by_cases he : n % 2 = 0
  · rw [if_pos he, if_pos (by omega), hN, idxD_mid (by omega)]
    congr 2; ring
  · rw [if_neg he, if_neg (by omega)]

theorem mkOGD_nat (n k : Nat) (hk : k ≤ n + 1) : mkOG ((n : Int) + 1 - k) (2 * n + 2) = .ok ⟨.D, k, n⟩ := by
  unfold mkOG
  rw [if_neg (by omega), if_neg (by omega)]
  congr 2 <;> omega

theorem dualize_D {n k : Nat} (hk : k ≤ n + 1) {U : WordD} (hU : U ∈ WdD n k) :
    Space.dualize ⟨.D, k, n⟩ (labD U) = .ok (labD (dualD U)) := by
  have hX := mkOGD_nat n k hk
  have hc := (clsD_iff hk _).1 ((WdD_cls hk _).2 ⟨_, dualD_mem hU, rfl⟩)
  have := (C11_part_index_part _ _ (by omega) _ hX (labD (dualD U)) (by
    have e1 : (n : Int) + 1 - ((n : Int) + 1 - k) = k := by omega
    have e2 : ((n : Int) + 1 - k).toNat = n + 1 - k := by omega
    have e3 : 2 * (n : Int) + 1 - ((n : Int) + 1 - k) = n + k := by omega
    rw [e1, e2, e3]; exact hc)).2.2.2
  rw [← this]
  unfold Space.dualize
  congr 1
  simp only [Space.part2index, Space.ambient, decide_true]
  rw [mem_WdD] at hU
  exact dualizeIndex_word hU.1 hU.2.1

/-- the dual class, as the code computes it -/
def dlD (n k : Nat) (l : List Int) : List Int :=
  match Space.dualize ⟨.D, k, n⟩ l with
  | .ok d => d
  | .error _ => []

theorem dlD_labD {n k : Nat} (hk : k ≤ n + 1) {U : WordD} (hU : U ∈ WdD n k) : dlD n k (labD U) = labD (dualD U) := by
  unfold dlD
  rw [dualize_D hk hU]

theorem dlD_cls {n k : Nat} (hk : k ≤ n + 1) (l : List Int) (hl : clsD n k l) : clsD n k (dlD n k l) := by
  obtain ⟨U, hU, rfl⟩ := (WdD_cls hk l).1 hl
  rw [dlD_labD hk hU]
  exact (WdD_cls hk _).2 ⟨_, dualD_mem hU, rfl⟩

theorem dlD_dlD {n k : Nat} (hk : k ≤ n + 1) (l : List Int) (hl : clsD n k l) : dlD n k (dlD n k l) = l := by
  obtain ⟨U, hU, rfl⟩ := (WdD_cls hk l).1 hl
  rw [dlD_labD hk hU, dlD_labD hk (dualD_mem hU), dualD_dualD]

theorem dualize_dlD {n k : Nat} (hk : k ≤ n + 1) (l : List Int) (hl : clsD n k l) :
    Space.dualize ⟨.D, k, n⟩ l = .ok (dlD n k l) := by
  obtain ⟨U, hU, rfl⟩ := (WdD_cls hk l).1 hl
  rw [dlD_labD hk hU]
  exact dualize_D hk hU

theorem tDD_dual (h h' : Polynomial ℚ) {n k : Nat} (hk : k ≤ n + 1) (p : Int) {l nu : List Int} (hl : clsD n k l) (hn : clsD n k nu) :
    tDD h h' n k p l (dlD n k nu) = tDD h h' n k p nu (dlD n k l) := by
  obtain ⟨U, hU, rfl⟩ := (WdD_cls hk l).1 hl
  obtain ⟨W, hW, rfl⟩ := (WdD_cls hk nu).1 hn
  rw [dlD_labD hk hU, dlD_labD hk hW, tDD_apply h h' p hU (dualD_mem hW), tDD_apply h h' p hW (dualD_mem hU)]
  have hc : colsD U = colsD (dualD W) := by
    rw [colsD_dualD, (mem_WdD.1 hU).2.1, (mem_WdD.1 hW).2.1]
  have := MDg_dualD h h' k p hc
  rw [dualD_dualD] at this
  exact this.symm

end Verif
