import Verif.Proofs.Comps
/-!
# The Pieri relation in terms of index sets

For a shape in the rectangle, `al v` is the number of rows that exceed `k` columns by more than `v`, and `op j` is the
coordinate that the `j`-th column leaves out; `be v` is the number of those beyond `v`. The Pieri relation says that the
two families of intervals between the index sets of `lam` and `mu` are disjoint, apart from end points that may coincide
only under an interval of the other family.
-/

namespace Verif
open Spec

structure Coded (n k d : Nat) (lam : List Int) (al be op : Nat → Nat) : Prop where
  isPart : IsPartition lam
  alTop : ∀ v, n ≤ v → al v = 0
  beTop : ∀ v, n ≤ v → be v = 0
  stp : ∀ v < n, (al v = al (v + 1) + 1 ∧ be v = be (v + 1)) ∨ (al v = al (v + 1) ∧ be v = be (v + 1) + 1) ∨
    (al v = al (v + 1) ∧ be v = be (v + 1))
  opv : ∀ j < k, ∀ v, v < op j ↔ j < be v
  be0 : be 0 ≤ k ∧ k ≤ be 0 + d
  hex : ∀ r v : Nat, (v : Int) < ex lam k r ↔ r < al v
  hcol : ∀ j < k, (col lam j : Int) + k - j - d = op j + al (op j)

namespace Coded
variable {n k d : Nat} {lam : List Int} {al be op : Nat → Nat} (C : Coded n k d lam al be op)
include C

theorem stp' (v : Nat) : (al v = al (v + 1) + 1 ∧ be v = be (v + 1)) ∨ (al v = al (v + 1) ∧ be v = be (v + 1) + 1) ∨
    (al v = al (v + 1) ∧ be v = be (v + 1)) := by
  by_cases h : v < n
  · exact C.stp v h
  · have := C.alTop v (by omega)
    have := C.alTop (v + 1) (by omega)
    have := C.beTop v (by omega)
    have := C.beTop (v + 1) (by omega)
    omega

theorem mono {u v : Nat} (h : u ≤ v) : al v ≤ al u ∧ be v ≤ be u ∧ u + (al u + be u) ≤ v + (al v + be v) ∧
    u + al u ≤ v + al v := by
  induction v with
  | zero => obtain rfl : u = 0 := by omega
            omega
  | succ v ih =>
    rcases Nat.lt_or_ge v u with h1 | h1
    · obtain rfl : u = v + 1 := by omega
      omega
    · have := ih h1
      have := C.stp' v
      omega

theorem be_op {j : Nat} (hj : j < k) : be (op j) ≤ j := by
  have := (C.opv j hj (op j)).not.1 (by omega)
  omega

theorem op_gt {j v : Nat} (hj : j < k) (h : v < op j) : j < be v := (C.opv j hj v).1 h

theorem op_le {j v : Nat} (hj : j < k) (h : op j ≤ v) : be v ≤ j := by
  have := (C.opv j hj v).not.1 (by omega)
  omega

/-- the site before a left out coordinate -/
theorem op_site {j : Nat} (hj : j < k) {v : Nat} (hv : op j = v + 1) : al v = al (v + 1) ∧ be (v + 1) = j ∧ be v = j + 1 := by
  have h1 := C.op_gt hj (v := v) (by omega)
  have h2 := C.op_le hj (v := v + 1) (by omega)
  have := C.stp' v
  omega

theorem phi_op {j v : Nat} (hj : j < k) (h : v < op j) : v + al v + 1 ≤ op j + al (op j) := by
  obtain ⟨w, hw⟩ : ∃ w, op j = w + 1 := ⟨op j - 1, by omega⟩
  have := C.op_site hj hw
  have := C.mono (show v ≤ w by omega)
  rw [hw]; omega

theorem colk : col lam k = al 0 := by
  have h : ∀ r, r < col lam k ↔ r < al 0 := by
    intro r
    rw [lt_col C.isPart, ← C.hex]
    unfold ex; omega
  have h1 := h (col lam k)
  have h2 := h (al 0)
  omega

/-- the coordinate of a row -/
theorem row {r : Nat} (h : r < al 0) : ∃ v : Nat, ex lam k r = v + 1 ∧ al v = r + 1 ∧ al (v + 1) = r ∧ be v = be (v + 1) := by
  have h0 := (C.hex r 0).2 h
  obtain ⟨v, hv⟩ : ∃ v : Nat, ex lam k r = v + 1 := ⟨(ex lam k r - 1).toNat, by omega⟩
  have h1 := (C.hex r v).1 (by omega)
  have h2 := (C.hex r (v + 1)).not.1 (by omega)
  have := C.stp' v
  exact ⟨v, hv, by omega, by omega, by omega⟩

theorem row_none {r : Nat} (h : al 0 ≤ r) : ex lam k r = 0 := by
  have h1 := (C.hex r 0).not.2 (by omega)
  have := ex_nonneg lam k r
  omega

theorem ex_le {r v : Nat} (h : al v ≤ r) : ex lam k r ≤ v := by
  have h1 := (C.hex r v).not
  omega

/-- the first row that does not reach the left out coordinate -/
theorem isB {j : Nat} (hj : j < k) :
    IsB (splitBot lam k) (col lam k) (dg k d j (col lam j)) (al (op j)) := by
  obtain ⟨b1, b2⟩ := splitBot_spec C.isPart k
  have hBp : ∀ r, Bp (splitBot lam k) r = ex lam k r + r := fun r => by unfold Bp; rw [b2]
  have hc := C.hcol j hj
  rw [C.colk]
  refine ⟨(C.mono (Nat.zero_le _)).1, fun r hr => ?_, fun hr => ?_⟩
  · rw [hBp]
    obtain ⟨v, h1, h2, h3, _⟩ := C.row (r := r) (by have := (C.mono (Nat.zero_le (op j))).1; omega)
    have h4 := (C.hex r (op j)).2 hr
    have := C.mono (show op j ≤ v + 1 by omega)
    unfold dg; omega
  · rw [hBp]
    obtain ⟨v, h1, h2, h3, _⟩ := C.row hr
    have h4 := (C.hex (al (op j)) (op j)).not.2 (by omega)
    have h5 : v + 1 ≠ op j := by
      intro e
      have := C.op_site hj e.symm
      omega
    have := C.phi_op hj (v := v + 1) (by omega)
    unfold dg; omega

theorem bI_eq {j : Nat} (hj : j < k) :
    bI (splitBot lam k) (col lam k) (dg k d j (col lam j)) = al (op j) :=
  (isB_bI _ _ _).unique (C.isB hj)

theorem tt_eq {j : Nat} (hj : j < k) : tt (splitTop lam k) k d j = dg k d j (col lam j) := by
  unfold tt dg; rw [(splitTop_spec C.isPart k).2 j hj]

end Coded

/-- The relation between two index sets. -/
structure Star (n : Nat) (al be al' be' : Nat → Nat) : Prop where
  l : ∀ v, al v ≤ al' v ∧ al' v ≤ al v + 1
  r : ∀ v, al v + be v ≤ al' v + be' v ∧ al' v + be' v ≤ al v + be v + 1
  aa : ∀ v < n, al v = al (v + 1) + 1 → al' v = al' (v + 1) + 1 → al' (v + 1) = al (v + 1) + 1 →
    al' (v + 1) + be' (v + 1) = al (v + 1) + be (v + 1) + 1
  bb : ∀ v < n, al v + be v = al (v + 1) + be (v + 1) → al' v + be' v = al' (v + 1) + be' (v + 1) →
    al' (v + 1) + be' (v + 1) = al (v + 1) + be (v + 1) + 1 → al' (v + 1) = al (v + 1) + 1

section
variable {n k d : Nat} {lam mu : List Int} {al be op al' be' op' : Nat → Nat}

theorem star_l (C : Coded n k d lam al be op) (C' : Coded n k d mu al' be' op') :
    (∀ v, al v ≤ al' v ∧ al' v ≤ al v + 1) ↔ (∀ r, ex lam k r ≤ ex mu k r) ∧ (∀ r, ex mu k (r + 1) ≤ ex lam k r) := by
  constructor
  · intro h
    constructor
    · intro r
      by_contra hc
      have h0 := ex_nonneg mu k r
      have h1 := (C.hex r (ex mu k r).toNat).1 (by omega)
      have h2 := (C'.hex r (ex mu k r).toNat).not.1 (by omega)
      have := h (ex mu k r).toNat
      omega
    · intro r
      by_contra hc
      have h0 := ex_nonneg lam k r
      have h1 := (C'.hex (r + 1) (ex lam k r).toNat).1 (by omega)
      have h2 := (C.hex r (ex lam k r).toNat).not.1 (by omega)
      have := h (ex lam k r).toNat
      omega
  · rintro ⟨h1, h2⟩ v
    constructor
    · by_contra hc
      have a := (C.hex (al' v) v).2 (by omega)
      have b := (C'.hex (al' v) v).not.2 (by omega)
      have := h1 (al' v)
      omega
    · by_contra hc
      have a := (C'.hex (al v + 1) v).2 (by omega)
      have b := (C.hex (al v) v).not.2 (by omega)
      have := h2 (al v)
      omega

/-- strictly between the two left out coordinates of column `j` when the new one is larger -/
theorem star_between (C : Coded n k d lam al be op) (C' : Coded n k d mu al' be' op') (S : Star n al be al' be')
    {j : Nat} (hj : j < k) : ∀ v, op j ≤ v → v < op' j → v + al' v + 1 = op' j + al' (op' j) ∧ al' v = al v := by
  have key : ∀ v, op j ≤ v → v < op' j → al' v = al v ∧ be v = j ∧ be' v = j + 1 := by
    intro v h1 h2
    have := C.op_le hj h1
    have := C'.op_gt hj h2
    have := S.l v
    have := S.r v
    omega
  intro v h1 h2
  refine ⟨?_, (key v h1 h2).1⟩
  obtain ⟨w, hw⟩ : ∃ w, op' j = w + 1 := ⟨op' j - 1, by omega⟩
  have hs := C'.op_site hj hw
  have main : ∀ i, v + i ≤ w → v + i + al' (v + i) = v + al' v := by
    intro i
    induction i with
    | zero => intro _; rfl
    | succ i ih =>
      intro hi
      have := ih (by omega)
      have k1 := key (v + i) (by omega) (by omega)
      have k2 := key (v + i + 1) (by omega) (by omega)
      have s1 := C.stp' (v + i)
      have s2 := C'.stp' (v + i)
      have hn : v + i < n := by
        by_contra hc
        have := C'.beTop (v + i) (by omega)
        omega
      have b := S.bb (v + i) hn
      rw [show v + (i + 1) = v + i + 1 by omega]
      omega
  have := main (w - v) (by omega)
  rw [show v + (w - v) = w by omega] at this
  rw [hw]; omega

theorem shapeRel_of_star (hd : d ≤ 1) (C : Coded n k d lam al be op) (C' : Coded n k d mu al' be' op')
    (S : Star n al be al' be') : ShapeRel k d lam mu := by
  have hl := (star_l C C').1 S.l
  have t2 := (splitTop_spec C.isPart k).2
  have b2 := (splitBot_spec C.isPart k).2
  have hBp : ∀ r, Bp (splitBot lam k) r = ex lam k r + r := fun r => by unfold Bp; rw [b2]
  -- when the new left out coordinate is not beyond the site `u` but the old one is
  have hback : ∀ j < k, ∀ u, op' j ≤ u → u < op j → al' u = al u + 1 ∧ al' u + be' u = al u + be u := by
    intro j hj u h1 h2
    have := C.op_gt hj h2
    have := C'.op_le hj h1
    have := S.l u
    have := S.r u
    omega
  refine ⟨?_, ?_, ?_, ?_, hl.1, hl.2, ?_, ?_⟩
  · intro j hj
    rw [C.colk]
    have h1 := C'.hcol j hj
    have h2 := C'.mono (Nat.zero_le (op' j))
    have := C'.be_op hj
    have := C'.be0
    have := S.l 0
    omega
  · intro j hj
    have h1 := C'.hcol j (by omega)
    have h2 := C.hcol (j + 1) hj
    suffices op (j + 1) + al (op (j + 1)) + 1 ≤ op' j + al' (op' j) by omega
    rcases Nat.lt_or_ge (op (j + 1)) (op' j) with h | h
    · have := C'.phi_op (by omega) h
      have := S.l (op (j + 1))
      omega
    · rcases Nat.eq_or_lt_of_le h with e | h
      · rw [e]
        rcases Nat.eq_zero_or_pos (op (j + 1)) with h0 | h0
        · have := C'.op_le (j := j) (v := 0) (by omega) (by omega)
          have := C'.be0
          omega
        · obtain ⟨w, hw⟩ : ∃ w, op (j + 1) = w + 1 := ⟨op (j + 1) - 1, by omega⟩
          have s1 := C.op_site hj hw
          have s2 := C'.op_site (j := j) (by omega) (e.trans hw)
          have := S.r (w + 1)
          have := S.l (w + 1)
          rw [hw]
          omega
      · have g1 := C.op_gt hj (v := op' j) h
        have g2 := C'.be_op (j := j) (by omega)
        have := S.r (op' j)
        have := S.l (op' j)
        omega
  · intro j hj
    have h1 := C'.hcol j hj
    have h2 := C.hcol j hj
    unfold vI
    rw [C.tt_eq hj, C.bI_eq hj, t2 j hj, hBp]
    split
    · rename_i h
      have h0 : op j = 0 := by unfold dg at h; omega
      have h3 := C'.mono (Nat.zero_le (op' j))
      have := S.l 0
      rw [h0] at h2
      omega
    · suffices ex lam k (al (op j)) + al (op j) + 1 ≤ op' j + al' (op' j) by omega
      -- the coordinate of the row
      have hrow : ∃ u : Nat, ex lam k (al (op j)) = u ∧ al u = al (op j) ∧ u < op j ∧
          (u = 0 ∨ ∃ w, u = w + 1 ∧ al w = al u + 1 ∧ be w = be u ∧ w < n) := by
        rcases Nat.lt_or_ge (al (op j)) (al 0) with hlt | hge
        · obtain ⟨v, e1, e2, e3, e4⟩ := C.row hlt
          have g := (C.hex (al (op j)) (op j)).not.2 (by omega)
          have h5 : v + 1 ≠ op j := by
            intro e
            have := C.op_site hj e.symm
            omega
          have hn : v < n := by
            by_contra hc
            have := C.alTop v (by omega)
            omega
          exact ⟨v + 1, by omega, e3, by omega, Or.inr ⟨v, rfl, by omega, e4, hn⟩⟩
        · have := (C.mono (Nat.zero_le (op j))).1
          refine ⟨0, by rw [C.row_none hge]; rfl, by omega, ?_, Or.inl rfl⟩
          rename_i h
          unfold dg at h
          omega
      obtain ⟨u, e1, e2, e3, e4⟩ := hrow
      rw [e1, ← e2]
      rcases Nat.lt_or_ge u (op' j) with h | h
      · have := C'.phi_op hj h
        have := S.l u
        omega
      · have hb := hback j hj u h e3
        have heq : op' j = u := by
          by_contra hne
          rcases e4 with e4 | ⟨w, rfl, e4, e5, e6⟩
          · omega
          · have hb' := hback j hj w (by omega) (by omega)
            have := C'.stp' w
            have := S.aa w e6
            omega
        rw [heq]; omega
  · intro j hj
    have h1 := C'.hcol j hj
    have h2 := C.hcol j hj
    rcases Nat.lt_or_ge (op j) (op' j) with h | h
    · have := star_between C C' S hj (op j) (le_refl _) h
      omega
    · have := C'.mono h
      have := S.l (op j)
      omega
  · intro j hj hlt
    have h1 := C'.hcol j hj
    have h2 := C.hcol j hj
    rw [C.tt_eq hj, C.bI_eq hj]
    suffices (op j : Int) ≤ ex mu k (al (op j)) by unfold dg; omega
    rcases Nat.eq_zero_or_pos (op j) with h0 | h0
    · have := ex_nonneg mu k (al (op j)); omega
    · obtain ⟨w, hw⟩ : ∃ w, op j = w + 1 := ⟨op j - 1, by omega⟩
      have s1 := C.op_site hj hw
      have hcase : w + 1 ≤ op' j ∨ al' w = al w + 1 := by
        rcases Nat.lt_or_ge w (op' j) with h | h
        · exact Or.inl h
        · exact Or.inr (hback j hj w h (by omega)).1
      rcases hcase with h | h
      · have := C'.mono (show op j ≤ op' j by omega)
        have := S.l (op j)
        omega
      · have := (C'.hex (al (op j)) w).2 (by rw [hw]; omega)
        omega
  · intro j hj r hr hpos
    rw [C.tt_eq hj, C.bI_eq hj] at hr
    have h1 := C'.hcol j hj
    have hr0 : r < al' 0 := (C'.hex r 0).1 hpos
    obtain ⟨v, e1, e2, e3, e4⟩ := C'.row hr0
    have hn : v < n := by
      by_contra hc
      have := C'.alTop v (by omega)
      omega
    suffices v + 1 < op' j by
      have := C'.phi_op hj this
      omega
    by_contra hc
    rcases Nat.lt_or_ge (op' j) (v + 1) with h | h
    · -- beyond the left out coordinate
      have hv : v + 1 < op j := by
        by_contra hge
        have := C.mono (show op j ≤ v + 1 by omega)
        rcases Nat.eq_or_lt_of_le (Nat.not_lt.1 hge) with e | e
        · have := C.op_site hj e
          have := S.l v
          rw [e] at hr
          omega
        · have := C.mono (show op j ≤ v by omega)
          have := S.l v
          omega
      have hb := hback j hj (v + 1) (by omega) hv
      have hb' := hback j hj v (by omega) (by omega)
      have := C.stp' v
      have := S.aa v hn
      omega
    · have := C'.op_site hj (v := v) (by omega)
      omega

theorem star_of_shapeRel (C : Coded n k d lam al be op) (C' : Coded n k d mu al' be' op')
    (S : ShapeRel k d lam mu) : Star n al be al' be' := by
  have hl := (star_l C C').2 ⟨S.ge, S.leS⟩
  have t2 := (splitTop_spec C.isPart k).2
  have b2 := (splitBot_spec C.isPart k).2
  have hBp : ∀ r, Bp (splitBot lam k) r = ex lam k r + r := fun r => by unfold Bp; rw [b2]
  have hle : ∀ j < k, op' j + al' (op' j) ≤ op j + al (op j) + 1 := by
    intro j hj
    have := S.le j hj
    have := C.hcol j hj
    have := C'.hcol j hj
    omega
  have hnext : ∀ j, j + 1 < k → op (j + 1) + al (op (j + 1)) + 1 ≤ op' j + al' (op' j) := by
    intro j hj
    have := S.geNext j hj
    have := C.hcol (j + 1) hj
    have := C'.hcol j (by omega)
    omega
  have hrem : ∀ j < k, op' j + al' (op' j) < op j + al (op j) → (op j : Int) ≤ ex mu k (al (op j)) := by
    intro j hj h
    have h1 := C'.hcol j hj
    have h2 := C.hcol j hj
    have := S.rem j hj (by omega)
    rw [C.tt_eq hj, C.bI_eq hj] at this
    unfold dg at this; omega
  have hout : ∀ j < k, ∀ r, al (op j) < r → 0 < ex mu k r → ex mu k r + r + 1 ≤ op' j + al' (op' j) := by
    intro j hj r hr hpos
    have h1 := C'.hcol j hj
    have := S.out j hj r
    rw [C.tt_eq hj, C.bI_eq hj] at this
    have := this hr hpos
    omega
  have hV : ∀ j < k, 0 < op j → ex lam k (al (op j)) + al (op j) + 1 ≤ op' j + al' (op' j) := by
    intro j hj h0
    have h1 := C'.hcol j hj
    have h2 := C.hcol j hj
    have := S.geV j hj
    unfold vI at this
    rw [C.tt_eq hj, C.bI_eq hj, hBp, if_neg (by unfold dg; omega)] at this
    omega
  -- the new coordinate is larger
  have hfwd : ∀ j < k, ∀ v, op j ≤ v → v < op' j → al' v = al v ∧ v + al' v + 1 = op' j + al' (op' j) := by
    intro j hj v h1 h2
    have a1 := C'.phi_op hj h2
    have a2 := C'.mono h1
    have a3 := C.mono h1
    have a4 := hle j hj
    have := hl (op j)
    have := hl v
    omega
  -- the new coordinate is smaller
  have hout' : ∀ j < k, ∀ v, op' j ≤ v → v < op j → al' v ≤ al (op j) + 1 := by
    intro j hj v h1 h2
    by_contra hc
    have hx := (C'.hex (al (op j) + 1) v).2 (by omega)
    have := hout j hj (al (op j) + 1) (by omega) (by omega)
    obtain ⟨w, e1, e2, e3, _⟩ := C'.row (r := al (op j) + 1) (by have := (C'.mono (Nat.zero_le v)).1; omega)
    have := C'.mono (show op' j ≤ w + 1 by omega)
    omega
  have hback : ∀ j < k, ∀ v, op' j ≤ v → v < op j → al' v = al v + 1 := by
    intro j hj v h1 h2
    by_contra hc
    have hv : al' v = al v := by have := hl v; omega
    have a1 := C'.mono h1
    have a2 := C.phi_op hj h2
    have a3 := hrem j hj (by omega)
    have a4 := (C'.hex (al (op j)) v).1 (by omega)
    have a5 := hV j hj (by omega)
    have a6 := (C.hex (al (op j)) v).2 (by omega)
    have := hout' j hj v h1 h2
    omega
  have hr : ∀ v, al v + be v ≤ al' v + be' v ∧ al' v + be' v ≤ al v + be v + 1 := by
    intro v
    have hlv := hl v
    have hbe : be v ≤ k := le_trans (C.mono (Nat.zero_le v)).2.1 C.be0.1
    have hbe' : be' v ≤ k := le_trans (C'.mono (Nat.zero_le v)).2.1 C'.be0.1
    rcases Nat.lt_trichotomy (be v) (be' v) with h | h | h
    · have hj : be v < k := by omega
      have h1 : op (be v) ≤ v := by
        by_contra hc
        have := C.op_gt hj (v := v) (by omega)
        omega
      have h2 := (C'.opv (be v) hj v).2 h
      obtain ⟨g1, g2⟩ := hfwd _ hj v h1 h2
      have : be' v ≤ be v + 1 := by
        by_contra hc
        have hj2 : be v + 1 < k := by omega
        have h3 := (C'.opv (be v + 1) hj2 v).2 (by omega)
        have h4 : op' (be v + 1) < op' (be v) := by
          rw [C'.opv _ hj]
          have := C'.be_op hj2
          obtain ⟨w, hw⟩ : ∃ w, op' (be v + 1) = w + 1 := ⟨op' (be v + 1) - 1, by omega⟩
          have := C'.op_site hj2 hw
          rw [hw]; omega
        obtain ⟨g3, g4⟩ := hfwd _ hj (op' (be v + 1)) (by omega) h4
        have := C'.phi_op hj2 h3
        omega
      omega
    · omega
    · have hj : be' v < k := by omega
      have h1 : op' (be' v) ≤ v := by
        by_contra hc
        have := C'.op_gt hj (v := v) (by omega)
        omega
      have h2 := (C.opv (be' v) hj v).2 h
      have g := hback _ hj v h1 h2
      have : be v ≤ be' v + 1 := by
        by_contra hc
        have hj2 : be' v + 1 < k := by omega
        have h3 := (C.opv (be' v + 1) hj2 v).2 (by omega)
        have a1 := hnext _ hj2
        have a2 := C'.mono h1
        have a3 := C.phi_op hj2 h3
        omega
      omega
  refine ⟨hl, hr, ?_, ?_⟩
  · intro v hv h1 h2 h3
    by_contra hc
    have hrv := hr (v + 1)
    have hbe : be (v + 1) ≤ k := le_trans (C.mono (Nat.zero_le _)).2.1 C.be0.1
    have hj : be' (v + 1) < k := by omega
    have g1 : op' (be' (v + 1)) ≤ v + 1 := by
      by_contra hc
      have := C'.op_gt hj (v := v + 1) (by omega)
      omega
    have g2 := (C.opv (be' (v + 1)) hj (v + 1)).2 (by omega)
    have g1' : op' (be' (v + 1)) ≤ v := by
      by_contra hc
      have := C'.op_site hj (v := v) (by omega)
      omega
    have a := hout' _ hj v g1' (by omega)
    have b := C.mono (show v + 1 ≤ op (be' (v + 1)) by omega)
    omega
  · intro v hv h1 h2 h3
    by_contra hc
    have hlv := hl (v + 1)
    have hbe' : be' (v + 1) ≤ k := le_trans (C'.mono (Nat.zero_le _)).2.1 C'.be0.1
    have hj : be (v + 1) < k := by omega
    have g1 : op (be (v + 1)) ≤ v + 1 := by
      by_contra hc
      have := C.op_gt hj (v := v + 1) (by omega)
      omega
    have g2 := (C'.opv (be (v + 1)) hj (v + 1)).2 (by omega)
    have s1 := C.stp' v
    have s2 := C'.stp' v
    have g1' : op (be (v + 1)) ≤ v := by
      by_contra hc
      have := C.op_site hj (v := v) (by omega)
      omega
    have a1 := hfwd _ hj v g1' (by omega)
    have a2 := hfwd _ hj (v + 1) (by omega) g2
    omega

theorem freeCol_iff (C : Coded n k d lam al be op) (C' : Coded n k d mu al' be' op') (S : Star n al be al' be') (e : Nat) :
    FreeCol k d lam mu e ↔ al' e = al e + 1 ∧ al' e + be' e = al e + be e + 1 := by
  have hl := S.l e
  have hr := S.r e
  constructor
  · rintro ⟨s, h1, h2, h3⟩
    have a1 := (C.hex s e).not.1 (by omega)
    have a2 := (C'.hex s e).1 h2
    refine ⟨by omega, ?_⟩
    by_contra hc
    have hbe : be e ≤ k := le_trans (C.mono (Nat.zero_le e)).2.1 C.be0.1
    have hj : be' e < k := by omega
    have g1 : op' (be' e) ≤ e := by
      by_contra hc
      have := C'.op_gt hj (v := e) (by omega)
      omega
    have g2 := (C.opv (be' e) hj e).2 (by omega)
    have b1 := C'.mono g1
    have b2 := C.phi_op hj g2
    have b3 := C.hcol _ hj
    have b4 := C'.hcol _ hj
    apply h3 (be' e) hj (e + s + be' e + 1 + d - k)
    · omega
    · omega
    · unfold dg; omega
  · rintro ⟨h1, h2⟩
    refine ⟨al e, C.ex_le (le_refl _), (C'.hex _ _).2 (by omega), ?_⟩
    intro j hj h g1 g2 g3
    have b3 := C.hcol _ hj
    have b4 := C'.hcol _ hj
    unfold dg at g3
    have c1 : e < op j := by
      by_contra hc
      have := C.mono (show op j ≤ e by omega)
      omega
    have c2 : op' j ≤ e := by
      by_contra hc
      have := C'.phi_op hj (show e < op' j by omega)
      omega
    have := C.op_gt hj c1
    have := C'.op_le hj c2
    omega

end

end Verif
