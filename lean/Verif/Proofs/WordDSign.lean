import Verif.Proofs.WordDPieri
/-!
# The signed transfer matrix of type D is the tie breaking rule
-/

namespace Verif
open Spec

/-- the run of the signed automaton: the last state and the number of signs -/
def runS : St → List L3 → List L3 → Option (St × Nat)
  | s, [], [] => some (s, 0)
  | s, p :: u, q :: w =>
    match stepSg s p q with
    | some (t, i) =>
      match runS t u w with
      | some (t', m) => some (t', (if i = -1 then 1 else 0) + m)
      | none => none
    | none => none
  | _, _, _ => none

theorem wtS_run {R : Type*} [CommRing R] (e : St → R) (s : St) (u w : List L3) : wtS e s u w =
    match runS s u w with
    | some (t, m) => (-1) ^ m * e t
    | none => 0 := by
  induction u generalizing s w with
  | nil => cases w <;> simp [wtS, runS]
  | cons p u ih =>
    cases w with
    | nil => simp [wtS, runS]
    | cons q w =>
      simp only [wtS, runS]
      cases s <;> cases p <;> cases q <;> simp only [stepSg] <;>
        (rw [ih]; rcases runS _ u w with _ | ⟨t', m⟩
         · simp
         · simp [pow_add])

theorem runW_lr : ∀ (u w : List L3) (s t : St) (i j : Nat), runW s u w = some (t, i, j) → s = .lr → 1 ≤ i ∨ t = .lr := by
  intro u
  induction u with
  | nil =>
    intro w s t i j h hs
    cases w with
    | nil => simp only [runW, Option.some.injEq, Prod.mk.injEq] at h; exact Or.inr (h.1 ▸ hs)
    | cons q w => simp [runW] at h
  | cons p u ih =>
    rintro w s t i j h rfl
    cases w with
    | nil => simp [runW] at h
    | cons q w =>
      simp only [runW] at h
      rcases hst : step .lr p q with _ | ⟨t1, i1, j1⟩
      · rw [hst] at h; simp at h
      · rw [hst] at h
        simp only at h
        rcases hrn : runW t1 u w with _ | ⟨t2, i2, j2⟩
        · rw [hrn] at h; simp at h
        · rw [hrn] at h
          simp only [Option.some.injEq, Prod.mk.injEq] at h
          obtain ⟨rfl, rfl, rfl⟩ := h
          have := ih w t1 t2 i2 j2 hrn
          cases p <;> cases q <;> simp only [step, Option.some.injEq, Prod.mk.injEq, reduceCtorEq] at hst <;>
            (obtain ⟨rfl, rfl, rfl⟩ := hst) <;> first | (left; omega) | (rcases this rfl with h | h <;> [left; right] <;> [omega; exact h])

/-- whether an interval of the second half only is open -/
def St.isR : St → Nat
  | .r => 1
  | _ => 0

theorem runS_runW : ∀ (u w : List L3) (s t : St) (m : Nat), s ≠ .lr → runS s u w = some (t, m) →
    t ≠ .lr ∧ ∃ j, runW s u w = some (t, 0, j) ∧ j + t.isR = colsW 0 w + s.isR := by
  intro u
  induction u with
  | nil =>
    intro w s t m hs h
    cases w with
    | nil =>
      simp only [runS, Option.some.injEq, Prod.mk.injEq] at h
      obtain ⟨rfl, rfl⟩ := h
      exact ⟨hs, 0, rfl, by simp [colsW]⟩
    | cons q w => simp [runS] at h
  | cons p u ih =>
    intro w s t m hs h
    cases w with
    | nil => simp [runS] at h
    | cons q w =>
      simp only [runS] at h
      cases s <;> cases p <;> cases q <;> simp only [stepSg, reduceCtorEq] at h hs <;> try exact absurd rfl hs
      all_goals
        rcases hrn : runS _ u w with _ | ⟨t2, m2⟩
        · rw [hrn] at h; simp at h
        · rw [hrn] at h
          simp only [Option.some.injEq, Prod.mk.injEq] at h
          obtain ⟨rfl, rfl⟩ := h
          obtain ⟨h1, j, h2, h3⟩ := ih w _ _ _ (by decide) hrn
          refine ⟨h1, ?_⟩
          simp only [runW, step, h2, Nat.zero_add, colsW, St.isR] at h3 ⊢
          exact ⟨_, rfl, by omega⟩

theorem runW_runS : ∀ (u w : List L3) (s t : St) (j : Nat), s ≠ .lr → t ≠ .lr → runW s u w = some (t, 0, j) →
    j + t.isR ≤ colsW 0 w + s.isR ∧ (j + t.isR = colsW 0 w + s.isR → ∃ m, runS s u w = some (t, m)) := by
  intro u
  induction u with
  | nil =>
    intro w s t j hs ht h
    cases w with
    | nil =>
      simp only [runW, Option.some.injEq, Prod.mk.injEq] at h
      obtain ⟨rfl, _, rfl⟩ := h
      exact ⟨by simp [colsW], fun _ => ⟨0, rfl⟩⟩
    | cons q w => simp [runW] at h
  | cons p u ih =>
    intro w s t j hs ht h
    cases w with
    | nil => simp [runW] at h
    | cons q w =>
      simp only [runW] at h
      have hlr := runW_lr u w .lr
      cases s <;> cases p <;> cases q <;> simp only [step, reduceCtorEq] at h hs <;> try exact absurd rfl hs
      all_goals
        rcases hrn : runW _ u w with _ | ⟨t2, i2, j2⟩
        · rw [hrn] at h; simp at h
        · rw [hrn] at h
          simp only [Option.some.injEq, Prod.mk.injEq] at h
          obtain ⟨rfl, h0, rfl⟩ := h
          obtain rfl : i2 = 0 := by omega
          first
          | (exfalso
             rcases hlr _ _ _ hrn rfl with h | h
             · omega
             · exact ht h)
          | (obtain ⟨h1, h2⟩ := ih w _ _ _ (by decide) ht hrn
             simp only [runS, stepSg, colsW, St.isR] at h1 h2 ⊢
             refine ⟨by omega, fun h3 => ?_⟩
             first
             | (exfalso; omega)
             | (obtain ⟨m, hm⟩ := h2 (by omega)
                rw [hm]
                exact ⟨_, rfl⟩))

/-! ### The heights of the columns -/

/-- the heights of the first `k` columns -/
def hts (k0 r0 : Nat) : List L3 → List Nat
  | [] => List.replicate k0 r0
  | .o :: u => rowsW r0 u :: hts k0 r0 u
  | .a :: u => (hts k0 r0 u).map (· + 1)
  | .b :: u => hts k0 r0 u

/-- the number of places where the second list is not larger -/
def nl : List Nat → List Nat → Nat
  | x :: l, y :: m => (if y ≤ x then 1 else 0) + nl l m
  | _, _ => 0

theorem nl_map : ∀ l m : List Nat, nl (l.map (· + 1)) (m.map (· + 1)) = nl l m := by
  intro l
  induction l with
  | nil => intro m; cases m <;> rfl
  | cons x l ih =>
    intro m
    cases m with
    | nil => rfl
    | cons y m =>
      simp only [List.map_cons, nl, ih, Nat.add_le_add_iff_right]

/-- the columns to compare in a state -/
def nlS (k0 r0 k0' r0' : Nat) (s : St) (R : Nat) (u w : List L3) : Nat :=
  match s with
  | .l => nl (R :: hts k0 r0 u) ((hts k0' r0' w).map (· + 1))
  | .r => nl (hts k0 r0 u) (R :: hts k0' r0' w)
  | _ => nl (hts k0 r0 u) (hts k0' r0' w)

/-- the height of the column that is left over -/
def okS (r0 r0' : Nat) (s : St) (R : Nat) (u w : List L3) : Prop :=
  match s with
  | .l => rowsW r0 u ≤ R
  | .r => rowsW r0' w ≤ R
  | _ => True

theorem runS_nl (k0 r0 k0' r0' : Nat) : ∀ (u w : List L3) (s t : St) (m : Nat), s ≠ .lr → runS s u w = some (t, m) →
    rowsW r0 u + s.ri = rowsW r0' w + s.li → ∀ R, okS r0 r0' s R u w →
    ∃ R', okS r0 r0' t R' [] [] ∧ nlS k0 r0 k0' r0' s R u w = m + nlS k0 r0 k0' r0' t R' [] [] := by
  intro u
  induction u with
  | nil =>
    intro w s t m hs h hr R hR
    cases w with
    | nil =>
      simp only [runS, Option.some.injEq, Prod.mk.injEq] at h
      obtain ⟨rfl, rfl⟩ := h
      exact ⟨R, hR, by omega⟩
    | cons q w => simp [runS] at h
  | cons p u ih =>
    intro w s t m hs h hr R hR
    cases w with
    | nil => simp [runS] at h
    | cons q w =>
      simp only [runS] at h
      cases s <;> cases p <;> cases q <;> simp only [stepSg, reduceCtorEq] at h hs <;> try exact absurd rfl hs
      all_goals
        rcases hrn : runS _ u w with _ | ⟨t2, m2⟩
        · rw [hrn] at h; simp at h
        rw [hrn] at h
        simp only [Option.some.injEq, Prod.mk.injEq] at h
        obtain ⟨rfl, rfl⟩ := h
        have hi := ih w _ _ _ (by decide) hrn
        generalize nlS k0 r0 k0' r0' t2 = E at hi ⊢
        generalize okS r0 r0' t2 = F at hi ⊢
        simp only [rowsW, St.ri, St.li, okS, nlS] at hr hR hi
        simp only [nlS, hts, List.map_cons]
      · obtain ⟨R', h1, h2⟩ := hi (by omega) (rowsW r0 u) (le_refl _)
        exact ⟨R', h1, by rw [h2]; simp⟩
      · obtain ⟨R', h1, h2⟩ := hi (by omega) 0 trivial
        exact ⟨R', h1, by rw [nl_map, h2]; simp⟩
      · obtain ⟨R', h1, h2⟩ := hi (by omega) (rowsW r0' w) (le_refl _)
        exact ⟨R', h1, by rw [h2]; simp⟩
      · obtain ⟨R', h1, h2⟩ := hi (by omega) 0 trivial
        exact ⟨R', h1, by rw [h2]; simp⟩
      · obtain ⟨R', h1, h2⟩ := hi (by omega) (rowsW r0 u) (le_refl _)
        refine ⟨R', h1, ?_⟩
        rw [nl, h2, if_pos (by omega)]; simp; omega
      · obtain ⟨R', h1, h2⟩ := hi (by omega) 0 trivial
        refine ⟨R', h1, ?_⟩
        rw [nl, nl_map, h2, if_pos (by omega)]; simp; omega
      · obtain ⟨R', h1, h2⟩ := hi (by omega) R (by omega)
        exact ⟨R', h1, by rw [h2]; simp⟩
      · obtain ⟨R', h1, h2⟩ := hi (by omega) (rowsW r0' w) (le_refl _)
        refine ⟨R', h1, ?_⟩
        rw [nl, h2, if_neg (by omega)]; simp
      · obtain ⟨R', h1, h2⟩ := hi (by omega) 0 trivial
        refine ⟨R', h1, ?_⟩
        rw [nl, h2, if_neg (by omega)]; simp
      · obtain ⟨R', h1, h2⟩ := hi (by omega) (R - 1) (by omega)
        refine ⟨R', h1, ?_⟩
        have e : R :: (hts k0' r0' w).map (· + 1) = ((R - 1) :: hts k0' r0' w).map (· + 1) := by
          rw [List.map_cons, Nat.sub_add_cancel (by omega)]
        rw [e, nl_map, h2]; simp

theorem hts_length (k0 r0 : Nat) (u : List L3) : (hts k0 r0 u).length = colsW k0 u := by
  induction u with
  | nil => simp [hts, colsW]
  | cons p u ih => cases p <;> simp [hts, colsW, ih]

theorem hts_get (k0 r0 : Nat) (u : List L3) : ∀ c (h : c < (hts k0 r0 u).length), k0 + r0 ≤ 1 →
    (hts k0 r0 u)[c] = colHeight (shapeW k0 r0 u) c := by
  induction u with
  | nil =>
    intro c h h0
    have : c < k0 := by simpa [hts] using h
    obtain rfl : r0 = 0 := by omega
    simp [hts, shapeW, colHeight]
  | cons p u ih =>
    intro c h h0
    cases p with
    | o =>
      cases c with
      | zero =>
        simp only [hts, shapeW, List.getElem_cons_zero]
        unfold colHeight
        rw [List.countP_map, ← shapeW_length k0 r0 u]
        symm
        rw [List.countP_eq_length]
        intro x hx
        have := (shapeW_isPart k0 r0 u).1.2 x hx
        simp; omega
      | succ c =>
        simp only [hts, shapeW, List.getElem_cons_succ]
        rw [ih c _ h0]
        unfold colHeight
        rw [List.countP_map]
        congr 1
        funext x
        simp
    | a =>
      simp only [hts, shapeW, List.getElem_map]
      rw [ih c _ h0]
      have : c < colsW k0 u := by simpa [hts, hts_length] using h
      unfold colHeight
      rw [List.countP_cons, if_pos (by simp; omega)]
    | b =>
      simp only [hts, shapeW]
      rw [ih c _ h0]
      unfold colHeight
      rw [List.countP_append]
      simp

theorem nl_eq : ∀ (k : Nat) (l m : List Nat), l.length = k → m.length = k →
    nl l m = ((List.range k).filter (fun c => decide (m.getD c 0 ≤ l.getD c 0))).length := by
  intro k
  induction k with
  | zero =>
    intro l m h1 h2
    rw [List.length_eq_zero_iff] at h1 h2
    subst h1 h2; rfl
  | succ k ih =>
    intro l m h1 h2
    cases l with
    | nil => simp at h1
    | cons x l =>
      cases m with
      | nil => simp at h2
      | cons y m =>
        rw [nl, ih l m (by simpa using h1) (by simpa using h2), List.range_succ_eq_map, List.filter_cons, List.filter_map]
        simp only [List.getD_cons_zero]
        by_cases hc : y ≤ x
        · simp [hc, Function.comp_def]; omega
        · simp [hc, Function.comp_def]

theorem notLonger_eq {U W : WordD} (heq : colsD U = colsD W) :
    notLonger (colsD U) (shD U) (shD W) = nl (hts U.2.k0 U.2.r0 U.1) (hts W.2.k0 W.2.r0 W.1) := by
  have l1 := hts_length U.2.k0 U.2.r0 U.1
  have l2 := hts_length W.2.k0 W.2.r0 W.1
  unfold colsD at heq
  rw [nl_eq (colsD U) _ _ l1 (by rw [l2, ← heq]; rfl)]
  unfold notLonger
  congr 1
  apply List.filter_congr
  intro c hc
  rw [List.mem_range] at hc
  unfold colsD at hc
  rw [List.getD_eq_getElem _ _ (by omega), List.getD_eq_getElem _ _ (by omega),
    hts_get _ _ _ _ _ (by rw [L3.k0_add_r0]), hts_get _ _ _ _ _ (by rw [L3.k0_add_r0])]
  rfl

/-- the type of a letter -/
def L3.ty : L3 → Nat
  | .o => 0
  | .a => 1
  | .b => 2

theorem colsW_add (k0 : Nat) (u : List L3) : colsW k0 u = colsW 0 u + k0 := by
  have := beW_zero k0 u
  have := beW_zero 0 u
  omega

theorem endSg_deg {R : Type*} [CommRing R] [Nontrivial R] (t : St) {i j : L3} (h : (endSg t i j : R) ≠ 0) :
    tyOk i j = true ∧ corrW j.k0 i.r0 j.r0 t [] [] = j.k0 + t.isR := by
  cases t <;> cases i <;> cases j <;> simp only [endSg, ne_eq, not_true_eq_false] at h <;> exact ⟨rfl, rfl⟩

/-- **The second matrix.** -/
theorem sD_pieri {R : Type*} [CommRing R] [Nontrivial R] {U W : WordD} (hl : U.1.length = W.1.length) (heq : colsD U = colsD W) :
    (¬ (ShapeRel (colsD U) 1 (shD U) (shD W) ∧ tyOk U.2 W.2 = true ∧ (shD W).sum = (shD U).sum + colsD U ∧
      countComps (shD U) (shD W) false (colsD U) 1 = 0) → (sD .z U W : R) = 0) ∧
    (ShapeRel (colsD U) 1 (shD U) (shD W) → tyOk U.2 W.2 = true → (shD W).sum = (shD U).sum + colsD U →
      countComps (shD U) (shD W) false (colsD U) 1 = 0 →
      (sD .z U W : R) = if Odd (notLonger (colsD U) (shD U) (shD W) + max U.2.ty W.2.ty) then 1 else -1) := by
  obtain ⟨g1, g2⟩ := run_pieri hl heq
  have hcol : colsD U = colsW 0 W.1 + W.2.k0 := heq.trans (colsW_add _ _)
  have r1 := rows_add_colsD U
  have r2 := rows_add_colsD W
  constructor
  · intro hn
    by_contra hne
    apply hn
    unfold sD at hne
    rw [wtS_run] at hne
    rcases hr : runS .z U.1 W.1 with _ | ⟨t, m⟩
    · rw [hr] at hne; exact absurd rfl hne
    · rw [hr] at hne
      simp only at hne
      have he := right_ne_zero_of_mul hne
      obtain ⟨h1, j, h2, h3⟩ := runS_runW _ _ _ _ _ (by decide) hr
      obtain ⟨f0, f1, f2, f3⟩ := g1 _ _ _ h2
      obtain ⟨e1, e2⟩ := endSg_deg t he
      rw [show St.z.isR = 0 from rfl] at h3
      refine ⟨f0, e1, ?_, by rw [f3, if_neg h1]⟩
      rw [hcol]; push_cast; omega
  · intro hs hty hsum hcc
    obtain ⟨t, i, j, hr⟩ := g2 hs
    obtain ⟨_, f1, f2, f3⟩ := g1 t i j hr
    rw [hcc] at f3
    have ht : t ≠ .lr := by
      intro h; rw [if_pos h] at f3; omega
    rw [if_neg ht] at f3
    obtain rfl : i = 0 := by omega
    obtain ⟨d1, d2⟩ := runW_runS _ _ _ _ _ (by decide) ht hr
    rw [show St.z.isR = 0 from rfl] at d1 d2
    rcases U with ⟨u, i⟩
    rcases W with ⟨w, i'⟩
    simp only at *
    rw [hcol] at hsum
    have key : ∀ m, runS .z u w = some (t, m) → (sD .z (u, i) (w, i') : R) =
        if Odd (notLonger (colsD (u, i)) (shD (u, i)) (shD (w, i')) + max i.ty i'.ty) then 1 else -1 := by
      intro m hm
      obtain ⟨R', hR, hnl⟩ := runS_nl i.k0 i.r0 i'.k0 i'.r0 u w .z t m (by decide) hm
        (by rw [show St.z.li = 0 from rfl, show St.z.ri = 0 from rfl]; omega) 0 trivial
      rw [notLonger_eq heq]
      rw [show nlS i.k0 i.r0 i'.k0 i'.r0 .z 0 u w = nl (hts i.k0 i.r0 u) (hts i'.k0 i'.r0 w) from rfl] at hnl
      simp only [hnl]
      unfold sD
      rw [wtS_run, hm]
      simp only
      clear hnl d2
      rcases Nat.even_or_odd m with hm' | hm' <;>
      cases t <;> cases i <;> cases i' <;>
        first
        | (exfalso; simp [tyOk] at hty; done)
        | (exfalso; simp [L3.r0, St.ri, St.li] at f1; done)
        | (exfalso; exact ht rfl)
        | (exfalso; simp only [corrW, L3.k0, L3.r0, St.isR, colsW, rowsW, List.length_nil] at *; push_cast at *; omega)
        | (simp only [okS, rowsW, L3.r0] at hR
           simp only [endSg, nlS, hts, L3.k0, L3.r0, List.replicate, List.map, nl, L3.ty, hm'.neg_one_pow]
           rw [Nat.even_iff] at hm'
           split_ifs <;> (rename_i hodd; rw [Nat.odd_iff] at hodd; first | ring1 | (exfalso; omega)))
        | (simp only [okS, rowsW, L3.r0] at hR
           simp only [endSg, nlS, hts, L3.k0, L3.r0, List.replicate, List.map, nl, L3.ty, hm'.neg_one_pow]
           rw [Nat.odd_iff] at hm'
           split_ifs <;> (rename_i hodd; rw [Nat.odd_iff] at hodd; first | ring1 | (exfalso; omega)))
    apply (fun h => Exists.elim h key)
    apply d2
    cases t <;> cases i <;> cases i' <;>
        first
        | (exfalso; simp [tyOk] at hty; done)
        | (exfalso; simp [L3.r0, St.ri, St.li] at f1; done)
        | (exfalso; exact ht rfl)
        | (simp only [corrW, L3.k0, L3.r0, St.isR, colsW, rowsW, List.length_nil] at *; push_cast at *; omega)

end Verif
