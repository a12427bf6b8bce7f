import Verif.Proofs.WordRun
/-!
# The weight of a pair of words: powers of two and degrees
-/

namespace Verif
open Spec

/-- What the open intervals of a state add to the difference of the sizes. -/
def corrW (k0' r0 r0' : Nat) (s : St) (u w : List L3) : Int :=
  match s with
  | .z => 0
  | .lr => w.length + colsW k0' w + 1
  | .l => w.length + colsW k0' w + 1 - rowsW r0 u
  | .r => rowsW r0' w

theorem sum_map_succ (l : List Int) : (l.map (· + 1)).sum = l.sum + l.length := by
  induction l with
  | nil => rfl
  | cons x l ih => simp only [List.map_cons, List.sum_cons, ih, List.length_cons]; push_cast; ring

theorem shapeW_sum_cons (k0 r0 : Nat) (p : L3) (u : List L3) : (shapeW k0 r0 (p :: u)).sum = (shapeW k0 r0 u).sum +
    match p with
    | .o => (rowsW r0 u : Int)
    | .a => (u.length : Int) + colsW k0 u + 1
    | .b => 0 := by
  cases p
  · simp only [shapeW]; rw [sum_map_succ, shapeW_length]
  · simp only [shapeW, List.sum_cons]; ring
  · simp [shapeW]

theorem runW_size (k0 r0 k0' r0' : Nat) (h0 : k0 + r0 = k0' + r0') : ∀ (u w : List L3), u.length = w.length → ∀ (s t : St) (i j : Nat),
    runW s u w = some (t, i, j) → rowsW r0 u + s.ri = rowsW r0' w + s.li →
    r0 + t.ri = r0' + t.li ∧
    (j : Int) + corrW k0' r0 r0' t [] [] + (shapeW k0 r0 u).sum = (shapeW k0' r0' w).sum + corrW k0' r0 r0' s u w := by
  intro u
  induction u with
  | nil =>
    intro w hw s t i j h hr
    obtain rfl : w = [] := List.length_eq_zero_iff.1 (by simpa using hw.symm)
    simp only [runW, Option.some.injEq, Prod.mk.injEq] at h
    obtain ⟨rfl, rfl, rfl⟩ := h
    refine ⟨hr, ?_⟩
    simp [shapeW]
  | cons p u ih =>
    intro w hw s t' i' j' h hr
    cases w with
    | nil => simp at hw
    | cons q w =>
      have hw : u.length = w.length := by simpa using hw
      have c1 := rows_add_cols k0 r0 u
      have c2 := rows_add_cols k0' r0' w
      simp only [runW] at h
      rcases hst : step s p q with _ | ⟨t, i, j⟩
      · rw [hst] at h; simp at h
      · rw [hst] at h
        simp only at h
        rcases hrn : runW t u w with _ | ⟨t1, i1, j1⟩
        · rw [hrn] at h; simp at h
        · rw [hrn] at h
          simp only [Option.some.injEq, Prod.mk.injEq] at h
          obtain ⟨rfl, rfl, rfl⟩ := h
          have hh : rowsW r0 u + t.ri = rowsW r0' w + t.li := by
            cases s <;> cases p <;> cases q <;> simp only [step, Option.some.injEq, Prod.mk.injEq, reduceCtorEq] at hst <;>
              (obtain ⟨rfl, rfl, rfl⟩ := hst; simp only [St.li, St.ri, rowsW] at hr ⊢; omega)
          obtain ⟨e1, e2⟩ := ih w hw t t1 i1 j1 hrn hh
          refine ⟨e1, ?_⟩
          rw [shapeW_sum_cons, shapeW_sum_cons]
          cases s <;> cases p <;> cases q <;> simp only [step, Option.some.injEq, Prod.mk.injEq, reduceCtorEq] at hst <;>
            (obtain ⟨rfl, rfl, rfl⟩ := hst
             simp only [St.li, St.ri, rowsW, colsW, corrW, List.length_cons] at hr hh e2 ⊢
             generalize (match t1 with
              | .z => (0 : Int)
              | .lr => (([] : List L3).length : Int) + k0' + 1
              | .l => (([] : List L3).length : Int) + k0' + 1 - r0
              | .r => r0') = T at *
             push_cast at *
             omega)

/-- the class of a word -/
def labW (u : List L3) : List Int := partClip (shapeW 0 0 u)

theorem col_partClip {l : List Int} (h : IsPartition l) (j : Nat) : col (partClip l) j = col l j := by
  have h1 := h.partClip.isPartition
  apply Nat.le_antisymm
  · by_contra hc
    have h2 := (lt_col h1 j (col l j)).1 (by omega)
    rw [part_partClip] at h2
    have := (lt_col h j (col l j)).2 h2
    omega
  · by_contra hc
    have h2 := (lt_col h j (col (partClip l) j)).1 (by omega)
    rw [← part_partClip] at h2
    have := (lt_col h1 j (col (partClip l) j)).2 h2
    omega

theorem coded_labW (u : List L3) : Coded u.length (colsW 0 u) 0 (labW u) (alW u) (beW u) (posW u) := by
  have C := codedW 0 0 (by omega) u
  have hp := C.isPart
  refine ⟨hp.partClip.isPartition, C.alTop, C.beTop, C.stp, C.opv, C.be0, fun r v => ?_, fun j hj => ?_⟩
  · rw [← C.hex r v]; unfold ex labW; rw [part_partClip]
  · rw [← C.hcol j hj]; unfold labW; rw [col_partClip hp]

theorem inBox_labW (u : List L3) : InBox (colsW 0 u) u.length 0 (labW u) := by
  have h := inBoxW 0 0 u
  refine ⟨h.isPart.partClip.isPartition, ?_, fun r hr => ?_, ?_⟩
  · show KStrict _ (partClip _)
    rw [kstrict_part (Int.natCast_nonneg _) h.isPart.partClip.isPartition]
    have := (kstrict_part (by omega) h.isPart).1 h.kstrict
    intro i
    rw [part_partClip, part_partClip]
    exact this i
  · unfold labW; rw [part_partClip]; exact h.rows r (by push_cast at hr ⊢; exact hr)
  · unfold labW; rw [part_partClip]; exact h.cols

theorem labW_sum (u : List L3) : (labW u).sum = (shapeW 0 0 u).sum := partClip_sum _

/-- **The weight of a pair of words is the Pieri coefficient.** -/
theorem wt_pieri {R : Type*} [CommRing R] (x : R) {u w : List L3} (hl : u.length = w.length) :
    (colsW 0 u ≠ colsW 0 w → ∀ c, wt c x .z u w = 0) ∧
    (colsW 0 u = colsW 0 w → ¬ ShapeRel (colsW 0 u) 0 (labW u) (labW w) → ∀ c, wt c x .z u w = 0) ∧
    (colsW 0 u = colsW 0 w → ShapeRel (colsW 0 u) 0 (labW u) (labW w) → ∃ N : Nat, (labW w).sum = (labW u).sum + N ∧
      wt 1 x .z u w = 2 ^ countComps (labW u) (labW w) true (colsW 0 u) 0 * x ^ N ∧
      wt 2 x .z u w = 2 ^ countComps (labW u) (labW w) false (colsW 0 u) 0 * x ^ N) := by
  have r1 := rows_add_cols 0 0 u
  have r2 := rows_add_cols 0 0 w
  have hspec := runW_spec u w hl .z
  refine ⟨?_, ?_, ?_⟩
  · intro hne c
    rw [wt_run]
    rcases hr : runW .z u w with _ | ⟨t, i, j⟩
    · rfl
    · simp only
      obtain ⟨_, e1, e2, _⟩ := hspec.2 _ _ _ hr
      have b1 := beW_zero 0 u
      have b2 := beW_zero 0 w
      have : endW c x t = 0 := by
        simp only [St.li, St.ri] at e1 e2
        cases t <;> simp only [St.li, St.ri] at e1 e2 <;> simp only [endW] <;> omega
      rw [this, mul_zero]
  · intro heq hno c
    rw [wt_run]
    rcases hr : runW .z u w with _ | ⟨t, i, j⟩
    · rfl
    · exfalso
      apply hno
      have S := (starO_z hl).1 (hspec.2 _ _ _ hr).1
      have C' := coded_labW w
      rw [← heq, ← hl] at C'
      exact shapeRel_of_star (Nat.zero_le 1) (coded_labW u) C' S
  · intro heq hs
    classical
    have C := coded_labW u
    have C' := coded_labW w
    have hb := inBox_labW u
    have hb' := inBox_labW w
    rw [← heq, ← hl] at C' hb'
    have S := star_of_shapeRel C C' hs
    obtain ⟨t, i, j, hr⟩ := hspec.1 ((starO_z hl).2 S)
    obtain ⟨_, e1, e2, e3⟩ := hspec.2 _ _ _ hr
    obtain ⟨f1, f2⟩ := runW_size 0 0 0 0 rfl u w hl _ _ _ _ hr (by simp only [St.li, St.ri]; omega)
    rw [← labW_sum, ← labW_sum] at f2
    have hfree : ∀ e, FreeCol (colsW 0 u) 0 (labW u) (labW w) e ↔ OpenAt .z u w e := by
      intro e
      have := freeCol_iff C C' S e
      rw [show ((0 : Nat) : Int) = 0 from rfl] at this
      rw [this]
      unfold OpenAt
      simp only [St.li, St.ri]
      omega
    have hopen : ∀ e, OpenAt .z u w e → e < u.length := by
      intro e he
      by_contra hc
      unfold OpenAt at he
      rw [alW_top (u := u) (by omega), alW_top (u := w) (by omega)] at he
      simp only [St.li] at he
      omega
    have hc := fun skip => countComps_eq hb hb' (Or.inl rfl) (by omega) (by omega) hs skip
    have hmem : ∀ skip, countComps (labW u) (labW w) skip (colsW 0 u) 0 = i + (if OpenAt .z u w 0 ∧ skip = false then 1 else 0) := by
      intro skip
      rw [hc skip, e3]
      set A := (Finset.range u.length).filter (fun v => OpenAt .z u w (v + 1) ∧ ¬ OpenAt .z u w v) with hA
      have : (Finset.range (ex (labW w) (colsW 0 u) 0).toNat).filter (fun e =>
          FreeCol (colsW 0 u) 0 (labW u) (labW w) e ∧ (e = 0 → skip = false) ∧ (0 < e → ¬ FreeCol (colsW 0 u) 0 (labW u) (labW w) (e - 1))) =
          A.image (· + 1) ∪ (if OpenAt .z u w 0 ∧ skip = false then {0} else ∅) := by
        ext e
        rw [Finset.mem_filter, Finset.mem_range, hfree, hfree, Finset.mem_union, Finset.mem_image]
        constructor
        · rintro ⟨h1, h2, h3, h4⟩
          rcases Nat.eq_zero_or_pos e with rfl | hp
          · right; rw [if_pos ⟨h2, h3 rfl⟩]; simp
          · left
            have := hopen _ h2
            refine ⟨e - 1, ?_, by omega⟩
            rw [hA, Finset.mem_filter, Finset.mem_range, show e - 1 + 1 = e by omega]
            exact ⟨by omega, h2, h4 hp⟩
        · rintro (⟨v, h1, rfl⟩ | h1)
          · rw [hA, Finset.mem_filter, Finset.mem_range] at h1
            have := freeCol_lt C'.isPart ((hfree (v + 1)).2 h1.2.1)
            exact ⟨by omega, h1.2.1, by omega, fun _ => by simpa using h1.2.2⟩
          · split at h1
            · rename_i h2
              obtain rfl : e = 0 := by simpa using h1
              have := freeCol_lt C'.isPart ((hfree 0).2 h2.1)
              exact ⟨by omega, h2.1, fun _ => h2.2, by omega⟩
            · simp at h1
      have e5 := congrArg Finset.card this
      rw [Finset.card_union_of_disjoint, Finset.card_image_of_injective _ (fun a b h => by simpa using h)] at e5
      · refine Eq.trans ?_ (e5.trans ?_)
        · congr 1
        · split <;> simp
      · split
        · rw [Finset.disjoint_singleton_right, Finset.mem_image]
          rintro ⟨v, _, h⟩; omega
        · exact Finset.disjoint_empty_right _
    have h0 : OpenAt .z u w 0 ↔ t = .lr := by
      unfold OpenAt
      rw [St.lr_iff]
      omega
    rw [hmem, hmem, wt_run, wt_run, hr]
    simp only [h0]
    cases t with
    | z =>
      refine ⟨j, ?_, ?_, ?_⟩
      · simp only [corrW] at f2; omega
      · simp [endW]
      · simp [endW]
    | lr =>
      refine ⟨j + 1, ?_, ?_, ?_⟩
      · simp only [corrW, colsW, List.length_nil] at f2; push_cast at f2 ⊢; omega
      · simp [endW, pow_succ]; ring
      · simp [endW, pow_succ]; ring
    | l => simp [St.li, St.ri] at f1
    | r => simp [St.li, St.ri] at f1

end Verif
