import Verif.Proofs.BruhatDW
import Verif.Proofs.WordD2Odd
/-!
# The order of the classes in type D
-/

namespace Verif
open Spec

/-- the number of parts of `l` that are larger than `t` -/
def Spec.above (t : Int) (l : List Int) : Nat := l.countP (fun x => decide (t < x))

/-- two classes with the duals `l'`, `nu'` are of different types `1`, `2` and cannot be joined -/
def Spec.ClashD (k m : Int) (l l' nu nu' : List Int) : Prop :=
  clsType k l + clsType k nu = 3 ∧
    ∃ v : ℕ, above (k + v) l = above (k + v) nu ∧ above (k + v) l' = above (k + v) nu' ∧ (above (k + v) l : Int) + above (k + v) l' + v + 1 = m

/-- the order of the classes of `OG(m, 2n+2)`, `k = n + 1 - m` -/
def Spec.LeD (k m : Int) (l l' nu nu' : List Int) : Prop := topLe k l nu ∧ topLe k nu' l' ∧ ¬ ClashD k m l l' nu nu'

theorem above_eq {t : Int} (ht : 0 ≤ t) {l : List Int} : ∀ {c : ℕ}, (∀ i, t < part l i ↔ i < c) → above t l = c := by
  induction l with
  | nil =>
    intro c h
    have := (h 0).not
    simp [part] at this
    have h0 := this.1 ht
    simp [above, h0]
  | cons x l ih =>
    intro c h
    have h0 := h 0
    have hs : ∀ i, part (x :: l) (i + 1) = part l i := fun i => rfl
    have hz : part (x :: l) 0 = x := rfl
    rw [hz] at h0
    cases c with
    | zero =>
      have := ih (c := 0) (fun i => by rw [← hs, h (i + 1)]; omega)
      unfold above at this ⊢
      rw [List.countP_cons_of_neg (by simpa using h0), this]
    | succ c =>
      have := ih (c := c) (fun i => by rw [← hs, h (i + 1)]; omega)
      unfold above at this ⊢
      rw [List.countP_cons_of_pos (by simpa using h0), this]

theorem above_labD {n k : ℕ} {U : WordD} (hU : U ∈ WdD n k) (v : ℕ) : above (k + v) (labD U) = alW U.1 v := by
  apply above_eq (by omega)
  intro i
  have c1 := (coded_shD U).hex i v
  rw [(mem_WdD.1 hU).2.1] at c1
  rw [part_labD, ← c1]
  unfold ex
  omega

theorem topLe_labD {n k : ℕ} {U W : WordD} (hU : U ∈ WdD n k) (hW : W ∈ WdD n k) :
    topLe k (labD U) (labD W) ↔ ∀ v ≤ n, alW U.1 v ≤ alW W.1 v := by
  have c1 := (coded_shD U).hex
  have c2 := (coded_shD W).hex
  rw [mem_WdD] at hU hW
  rw [hU.2.1] at c1
  rw [hW.2.1] at c2
  unfold topLe
  simp only [part_labD]
  constructor
  · intro h v _
    by_contra hc
    have h1 := (c1 (alW W.1 v) v).2 (by omega)
    have h2 := (c2 (alW W.1 v) v).not.2 (by omega)
    have h3 := h (alW W.1 v)
    unfold ex at h1 h2
    omega
  · intro h i hi
    by_contra hc
    obtain ⟨v, hv⟩ : ∃ v : ℕ, part (shD U) i = k + v + 1 := ⟨(part (shD U) i - k - 1).toNat, by omega⟩
    have h1 := (c1 i v).1 (by unfold ex; omega)
    have h2 : v ≤ n := by
      by_contra h2
      rw [alW_top (by omega)] at h1
      omega
    have h3 := (c2 i v).2 (lt_of_lt_of_le h1 (h v h2))
    unfold ex at h3
    omega

theorem clsType_tyOk {n k : ℕ} {U W : WordD} (hU : U ∈ WdD n k) (hW : W ∈ WdD n k) :
    clsType k (labD U) + clsType k (labD W) ≠ 3 ↔ tyOk U.2 W.2 = true := by
  rw [mem_WdD] at hU hW
  rcases Nat.eq_zero_or_pos k with h0 | h0
  · subst h0
    have e1 := hU.2.2 rfl
    have e2 := hW.2.2 rfl
    have := clsType_labD_zero (U := U) (by rw [e1]; simp)
    have := clsType_labD_zero (U := W) (by rw [e2]; simp)
    rw [e1, e2]
    simp [tyOk]
    omega
  · have h1 := clsType_labD (U := U) (by omega)
    have h2 := clsType_labD (U := W) (by omega)
    rw [hU.2.1] at h1
    rw [hW.2.1] at h2
    rw [h1, h2, tyOk_iff]

/-- the order of the words -/
def leDw (U W : WordD) : Prop := leP 0 0 U.1 W.1 ∧ (tyOk U.2 W.2 = false → ¬ badP 0 0 U.1 W.1)

theorem cols_of_mixed {i j : L3} (h : tyOk i j = false) : i.k0 = 0 ∧ j.k0 = 0 := by
  cases i <;> cases j <;> simp_all [tyOk, L3.k0]

theorem leD_labD {n k : ℕ} (hk : k ≤ n + 1) {U W : WordD} (hU : U ∈ WdD n k) (hW : W ∈ WdD n k) :
    LeD k (n + 1 - k) (labD U) (dlD n k (labD U)) (labD W) (dlD n k (labD W)) ↔ leDw U W := by
  have m1 := mem_WdD.1 hU
  have m2 := mem_WdD.1 hW
  have hT := clsType_tyOk hU hW
  have hlen : U.1.length = W.1.length := by omega
  unfold LeD ClashD leDw
  rw [dlD_labD hk hU, dlD_labD hk hW, topLe_labD hU hW, topLe_labD (dualD_mem hW) (dualD_mem hU), dualD_fst, dualD_fst, leP_iff hlen, m1.1, ← and_assoc]
  refine and_congr ?_ ?_
  · constructor
    · rintro ⟨h1, h2⟩ v hv
      have := h1 v hv; have := h2 v hv; omega
    · intro h
      exact ⟨fun v hv => by have := h v hv; omega, fun v hv => by have := h v hv; omega⟩
  · by_cases ht : tyOk U.2 W.2 = true
    · have := hT.2 ht
      simp [ht, this]
    · have h3 : clsType k (labD U) + clsType k (labD W) = 3 := by
        by_contra hc; exact ht (hT.1 hc)
      have hf : tyOk U.2 W.2 = false := by simpa using ht
      obtain ⟨z1, z2⟩ := cols_of_mixed hf
      have c1 : colsW 0 U.1 = k := by have := m1.2.1; unfold colsD at this; rwa [z1] at this
      have c2 : colsW 0 W.1 = k := by have := m2.2.1; unfold colsD at this; rwa [z2] at this
      rw [badP_iff hlen (by omega)]
      simp only [h3, true_and, hf, true_implies, above_labD hU, above_labD hW, above_labD (dualD_mem hU), above_labD (dualD_mem hW), dualD_fst]
      rw [not_iff_not]
      constructor
      · rintro ⟨v, h1, h2, h4⟩
        exact ⟨v, by omega, by omega, by omega, by omega⟩
      · rintro ⟨v, _, h1, h2, h4⟩
        exact ⟨v, by omega, by omega, by omega⟩

/-! ### Steps -/

def StepD (n k : ℕ) (U W : WordD) : Prop := U ∈ WdD n k ∧ W ∈ WdD n k ∧ U ≠ W ∧ okD U W

theorem colsW_snoc (u : List L3) (i : L3) : colsW 0 (u ++ [i]) = colsW i.k0 u := by
  induction u with
  | nil => cases i <;> rfl
  | cons p u ih => cases p <;> simp [colsW, ih]

theorem cols_ab (u : List L3) : colsW 0 (u ++ [L3.a]) = colsW 0 (u ++ [L3.b]) := by
  rw [colsW_snoc, colsW_snoc]; rfl

theorem swD_mem' {n k : ℕ} (h0 : k ≠ 0) {U : WordD} (h : U ∈ WdD n k) : swD U ∈ WdD n k := by
  rw [mem_WdD] at h ⊢
  exact ⟨h.1, (colsD_sw U).trans h.2.1, fun h1 => absurd h1 h0⟩

theorem stepD_sw {n k : ℕ} (h0 : k ≠ 0) {U W : WordD} (h : StepD n k U W) : StepD n k (swD U) (swD W) := by
  obtain ⟨h1, h2, h3, h4⟩ := h
  refine ⟨swD_mem' h0 h1, swD_mem' h0 h2, fun e => h3 ?_, okD_sw.2 h4⟩
  have := congrArg swD e
  rwa [swD_swD, swD_swD] at this

theorem snoc_of_len {n : ℕ} {v : List L3} (h : v.length = n + 1) : ∃ u i, v = u ++ [i] ∧ u.length = n := by
  have hne : v ≠ [] := by intro e; rw [e] at h; simp at h
  refine ⟨v.dropLast, v.getLast hne, (List.dropLast_append_getLast hne).symm, by simp [h]⟩

theorem mem_of_cols {n k : ℕ} (h0 : k ≠ 0) {u : List L3} {i : L3} (hl : u.length = n) (hc : colsW 0 (u ++ [i]) = k) : (u, i) ∈ WdD n k := by
  rw [mem_WdD]
  rw [colsW_snoc] at hc
  exact ⟨hl, hc, fun h => absurd h h0⟩

theorem leW_colsEq {u w : List L3} (h : leW 0 0 u w) : colsW 0 u = colsW 0 w := by
  have := leW_cols h; omega

/-- one step between words with the inner letters `a` and `o` -/
theorem step_ao {n k : ℕ} (h0 : k ≠ 0) {u w : List L3} (hU : (u, L3.a) ∈ WdD n k) (hW : (w, L3.o) ∈ WdD n k) (h : leP 0 0 u w) :
    (∃ V, StepD n k (u, L3.a) V ∧ tyOk V.2 .o = true ∧ leP 0 0 V.1 w) ∨ ∃ V, StepD n k V (w, L3.o) ∧ tyOk .a V.2 = true ∧ leP 0 0 u V.1 := by
  have m1 := mem_WdD.1 hU
  have m2 := mem_WdD.1 hW
  have hle : leW 0 0 (u ++ [L3.a]) (w ++ [L3.o]) := leW_snoc rfl h (by
    have e1 : colsW L3.a.k0 u = k := m1.2.1
    have e2 : colsW L3.o.k0 w = k := m2.2.1
    rw [e1, e2]; simp)
  have hlu : u.length = n := m1.1
  have hlw : w.length = n := m2.1
  have cu : colsW 0 (u ++ [L3.a]) = k := by rw [colsW_snoc]; exact m1.2.1
  have cw : colsW 0 (w ++ [L3.o]) = k := by rw [colsW_snoc]; exact m2.2.1
  have hne : u ++ [L3.a] ≠ w ++ [L3.o] := by
    intro e; have := (List.append_inj' e rfl).2; simp at this
  rcases walk_step hle hne with ⟨v', g1, g2, g3⟩ | ⟨v', g1, g2, g3⟩
  · left
    obtain ⟨v, x, rfl, hlv⟩ := snoc_of_len (n := n) (v := v') (by have := leW_len g3; simp at this; omega)
    have cv := leW_colsEq g3
    have hp := leP_snoc (leP_of_leW g3)
    have hx : tyOk x .o = true := by cases x <;> rfl
    by_cases hb : x = .b
    · subst hb
      refine ⟨(v, .a), ⟨hU, mem_of_cols h0 hlv ((cols_ab v).trans (cv.trans cw)), fun e => ?_, rfl, ?_⟩, rfl, hp⟩
      · obtain rfl : u = v := congrArg Prod.fst e
        exact not_ok_ab u g2
      · exact okW_repl (fun s hs => by cases s <;> simp [okW, step] at hs ⊢) (hlu.trans hlv.symm) g2
    · refine ⟨(v, x), ⟨hU, mem_of_cols h0 hlv (cv.trans cw), fun e => g1 ?_, ?_, g2⟩, hx, hp⟩
      · obtain ⟨rfl, rfl⟩ := Prod.mk.inj e; rfl
      · cases x <;> simp_all [tyOk]
  · right
    obtain ⟨v, x, rfl, hlv⟩ := snoc_of_len (n := n) (v := v') (by have := leW_len g3; simp at this; omega)
    have cv := leW_colsEq g3
    have hp := leP_snoc (leP_of_leW g3)
    by_cases hb : x = .b
    · subst hb
      refine ⟨(v, .a), ⟨mem_of_cols h0 hlv ((cols_ab v).trans (cv.symm.trans cu)), hW, fun e => ?_, rfl, ?_⟩, rfl, hp⟩
      · exact absurd (congrArg Prod.snd e) (by simp)
      · exact okW_repl (fun s hs => by cases s <;> simp [okW, step] at hs ⊢) (hlv.trans hlw.symm) g2
    · refine ⟨(v, x), ⟨mem_of_cols h0 hlv (cv.symm.trans cu), hW, fun e => g1 ?_, ?_, g2⟩, ?_, hp⟩
      · obtain ⟨rfl, rfl⟩ := Prod.mk.inj e; rfl
      · cases x <;> rfl
      · cases x <;> simp_all [tyOk]

/-- one step between words with the inner letters `o` and `b` -/
theorem step_ob {n k : ℕ} (h0 : k ≠ 0) {u w : List L3} (hU : (u, L3.o) ∈ WdD n k) (hW : (w, L3.b) ∈ WdD n k) (h : leP 0 0 u w) :
    (∃ V, StepD n k (u, L3.o) V ∧ tyOk V.2 .b = true ∧ leP 0 0 V.1 w) ∨ ∃ V, StepD n k V (w, L3.b) ∧ tyOk .o V.2 = true ∧ leP 0 0 u V.1 := by
  have m1 := mem_WdD.1 hU
  have m2 := mem_WdD.1 hW
  have hle : leW 0 0 (u ++ [L3.o]) (w ++ [L3.b]) := leW_snoc rfl h (by
    have e1 : colsW L3.o.k0 u = k := m1.2.1
    have e2 : colsW L3.b.k0 w = k := m2.2.1
    rw [e1, e2]; simp)
  have hlu : u.length = n := m1.1
  have hlw : w.length = n := m2.1
  have cu : colsW 0 (u ++ [L3.o]) = k := by rw [colsW_snoc]; exact m1.2.1
  have cw : colsW 0 (w ++ [L3.b]) = k := by rw [colsW_snoc]; exact m2.2.1
  have hne : u ++ [L3.o] ≠ w ++ [L3.b] := by
    intro e; have := (List.append_inj' e rfl).2; simp at this
  rcases walk_step hle hne with ⟨v', g1, g2, g3⟩ | ⟨v', g1, g2, g3⟩
  · left
    obtain ⟨v, x, rfl, hlv⟩ := snoc_of_len (n := n) (v := v') (by have := leW_len g3; simp at this; omega)
    have cv := leW_colsEq g3
    have hp := leP_snoc (leP_of_leW g3)
    by_cases hb : x = .a
    · subst hb
      refine ⟨(v, .b), ⟨hU, mem_of_cols h0 hlv ((cols_ab v).symm.trans (cv.trans cw)), fun e => ?_, rfl, ?_⟩, rfl, hp⟩
      · exact absurd (congrArg Prod.snd e) (by simp)
      · exact okW_repl (fun s hs => by cases s <;> simp [okW, step] at hs ⊢) (hlu.trans hlv.symm) g2
    · refine ⟨(v, x), ⟨hU, mem_of_cols h0 hlv (cv.trans cw), fun e => g1 ?_, ?_, g2⟩, ?_, hp⟩
      · obtain ⟨rfl, rfl⟩ := Prod.mk.inj e; rfl
      · cases x <;> rfl
      · cases x <;> simp_all [tyOk]
  · right
    obtain ⟨v, x, rfl, hlv⟩ := snoc_of_len (n := n) (v := v') (by have := leW_len g3; simp at this; omega)
    have cv := leW_colsEq g3
    have hp := leP_snoc (leP_of_leW g3)
    have hx : tyOk .o x = true := by cases x <;> rfl
    by_cases hb : x = .a
    · subst hb
      refine ⟨(v, .b), ⟨mem_of_cols h0 hlv ((cols_ab v).symm.trans (cv.symm.trans cu)), hW, fun e => ?_, rfl, ?_⟩, rfl, hp⟩
      · obtain rfl : v = w := congrArg Prod.fst e
        exact not_ok_ab v g2
      · exact okW_repl (fun s hs => by cases s <;> simp [okW, step] at hs ⊢) (hlv.trans hlw.symm) g2
    · refine ⟨(v, x), ⟨mem_of_cols h0 hlv (cv.symm.trans cu), hW, fun e => g1 ?_, ?_, g2⟩, hx, hp⟩
      · obtain ⟨rfl, rfl⟩ := Prod.mk.inj e; rfl
      · cases x <;> simp_all [tyOk]

/-- one step between words with equal inner letters -/
theorem step_same {n k : ℕ} {u w : List L3} {i : L3} (hU : (u, i) ∈ WdD n k) (hW : (w, i) ∈ WdD n k) (h : leP 0 0 u w) (hne : u ≠ w) :
    (∃ V, StepD n k (u, i) V ∧ tyOk V.2 i = true ∧ leP 0 0 V.1 w) ∨ ∃ V, StepD n k V (w, i) ∧ tyOk i V.2 = true ∧ leP 0 0 u V.1 := by
  have m1 := mem_WdD.1 hU
  have m2 := mem_WdD.1 hW
  have e1 : colsW i.k0 u = k := m1.2.1
  have e2 : colsW i.k0 w = k := m2.2.1
  have hlu : u.length = n := m1.1
  have hlw : w.length = n := m2.1
  have hii : tyOk i i = true := by cases i <;> rfl
  have hcc : ∀ u : List L3, colsW i.k0 u = colsW 0 u + i.k0 := by
    intro u
    induction u with
    | nil => simp [colsW]
    | cons p u ih => cases p <;> simp [colsW, ih]; ring
  have hle : leW 0 0 u w := leW_of_leP h (by rw [hcc] at e1 e2; omega)
  have mem : ∀ v : List L3, v.length = n → colsW 0 v = colsW 0 w → (v, i) ∈ WdD n k := by
    intro v hl hc
    rw [mem_WdD]
    refine ⟨hl, ?_, m1.2.2⟩
    show colsW i.k0 v = k
    rw [hcc, hc, ← hcc]; exact e2
  rcases walk_step hle hne with ⟨v, g1, g2, g3⟩ | ⟨v, g1, g2, g3⟩
  · exact Or.inl ⟨(v, i), ⟨hU, mem v (by have := leW_len g3; omega) (leW_colsEq g3), fun e => g1 (congrArg Prod.fst e).symm, hii, okW_same i g2⟩, hii,
      leP_of_leW g3⟩
  · exact Or.inr ⟨(v, i), ⟨mem v (by have := leW_len g3; omega) ((leW_colsEq g3).symm.trans (leW_colsEq hle)), hW, fun e => g1 (congrArg Prod.fst e), hii,
      okW_same i g2⟩, hii, leP_of_leW g3⟩

theorem tyOk_sw (i j : L3) : tyOk i.sw j.sw = tyOk i j := by cases i <;> cases j <;> rfl

theorem compat_step {n k : ℕ} {U W : WordD} (hU : U ∈ WdD n k) (hW : W ∈ WdD n k) (ht : tyOk U.2 W.2 = true) (h : leP 0 0 U.1 W.1) (hne : U ≠ W) :
    (∃ V, StepD n k U V ∧ tyOk V.2 W.2 = true ∧ leP 0 0 V.1 W.1) ∨ ∃ V, StepD n k V W ∧ tyOk U.2 V.2 = true ∧ leP 0 0 U.1 V.1 := by
  obtain ⟨u, i⟩ := U
  obtain ⟨w, j⟩ := W
  by_cases hij : i = j
  · subst hij
    exact step_same hU hW h (fun e => hne (by rw [e]))
  have h0 : k ≠ 0 := by
    intro h0
    have e1 := (mem_WdD.1 hU).2.2 h0
    have e2 := (mem_WdD.1 hW).2.2 h0
    exact hij (e1.trans e2.symm)
  -- the other inner letter, by symmetry
  have sym : (∃ V, StepD n k (swD (u, i)) V ∧ tyOk V.2 j.sw = true ∧ leP 0 0 V.1 w) ∨ (∃ V, StepD n k V (swD (w, j)) ∧ tyOk i.sw V.2 = true ∧ leP 0 0 u V.1) →
      (∃ V, StepD n k (u, i) V ∧ tyOk V.2 j = true ∧ leP 0 0 V.1 w) ∨ ∃ V, StepD n k V (w, j) ∧ tyOk i V.2 = true ∧ leP 0 0 u V.1 := by
    rintro (⟨V, a1, a2, a3⟩ | ⟨V, a1, a2, a3⟩)
    · left
      refine ⟨swD V, ?_, ?_, a3⟩
      · have := stepD_sw h0 a1
        rwa [swD_swD] at this
      · have := tyOk_sw V.2 j.sw
        rw [L3.sw_sw] at this
        exact this.trans a2
    · right
      refine ⟨swD V, ?_, ?_, a3⟩
      · have := stepD_sw h0 a1
        rwa [swD_swD] at this
      · have := tyOk_sw i.sw V.2
        rw [L3.sw_sw] at this
        exact this.trans a2
  have sU := swD_mem' h0 hU
  have sW := swD_mem' h0 hW
  cases i <;> cases j <;> simp only [tyOk, reduceCtorEq, not_true_eq_false] at ht hij
  · exact sym (step_ob h0 sU sW h)
  · exact step_ob h0 hU hW h
  · exact step_ao h0 hU hW h
  · exact sym (step_ao h0 sU sW h)

end Verif
