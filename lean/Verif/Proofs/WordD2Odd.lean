import Verif.Proofs.WordD2Coef
import Verif.Proofs.WordDTerm
import Verif.Proofs.RelRingD
/-!
# The terms with `q1` and `q2` as classical terms of words without the letter `o`
-/

namespace Verif
open Spec

/-- no letter `b` before the first `o` -/
def fullW : List L3 → Bool
  | [] => true
  | .o :: _ => true
  | .a :: u => fullW u
  | .b :: _ => false

/-- only letters `b` before the first `o` -/
def cofullW : List L3 → Bool
  | [] => true
  | .o :: _ => true
  | .b :: u => cofullW u
  | .a :: _ => false

/-- the letter `o` becomes `b` -/
def fillB (u : List L3) : List L3 := u.map (fun p => if p = .o then .b else p)

/-- the letter `o` becomes `a` -/
def fillA (u : List L3) : List L3 := u.map (fun p => if p = .o then .a else p)

/-- the inner letters of a term with `q1` or `q2` -/
def cmpt : L3 → L3 → Bool
  | .o, .o => false
  | .a, .b => false
  | .b, .a => false
  | _, _ => true

theorem colsW_zero_cons {k0 : Nat} {p : L3} {u : List L3} (h : colsW k0 (p :: u) = 0) : p ≠ .o ∧ colsW k0 u = 0 := by
  cases p <;> simp [colsW] at h ⊢ <;> exact h

theorem fillA_free : ∀ {k0 : Nat} {u : List L3}, colsW k0 u = 0 → fillA u = u := by
  intro k0 u
  induction u with
  | nil => intro _; rfl
  | cons p u ih =>
    intro h
    obtain ⟨h1, h2⟩ := colsW_zero_cons h
    have := ih h2
    simp only [fillA] at this ⊢
    rw [List.map_cons, if_neg h1, this]

theorem fillB_free : ∀ {k0 : Nat} {u : List L3}, colsW k0 u = 0 → fillB u = u := by
  intro k0 u
  induction u with
  | nil => intro _; rfl
  | cons p u ih =>
    intro h
    obtain ⟨h1, h2⟩ := colsW_zero_cons h
    have := ih h2
    simp only [fillB] at this ⊢
    rw [List.map_cons, if_neg h1, this]

theorem fillA_length (u : List L3) : (fillA u).length = u.length := by simp [fillA]
theorem fillB_length (u : List L3) : (fillB u).length = u.length := by simp [fillB]

theorem fillA_cons (p : L3) (u : List L3) : fillA (p :: u) = (if p = .o then .a else p) :: fillA u := rfl
theorem fillB_cons (p : L3) (u : List L3) : fillB (p :: u) = (if p = .o then .b else p) :: fillB u := rfl

theorem colsW_fillA (u : List L3) : colsW 0 (fillA u) = 0 := by
  induction u with
  | nil => rfl
  | cons p u ih => cases p <;> simp [fillA_cons, colsW, ih]

theorem colsW_fillB (u : List L3) : colsW 0 (fillB u) = 0 := by
  induction u with
  | nil => rfl
  | cons p u ih => cases p <;> simp [fillB_cons, colsW, ih]

section
variable {R : Type*} [CommRing R]

/-- words without `o`: the inner letters agree and do not matter -/
theorem gD_free (x : R) (i j : L3) : ∀ (u w : List L3) (s : St), colsW i.k0 u = 0 → colsW j.k0 w = 0 →
    gD x s (u, i) (w, j) = if i = j then gD x s (u, .a) (w, .a) else 0 := by
  intro u
  induction u with
  | nil =>
    intro w s hu hw
    cases w with
    | nil => cases s <;> cases i <;> cases j <;> simp [colsW, L3.k0] at hu hw <;> simp [gD, wtE, endG]
    | cons q w => simp [gD, wtE]
  | cons p u ih =>
    intro w s hu hw
    cases w with
    | nil => simp [gD, wtE]
    | cons q w =>
      obtain ⟨_, hu'⟩ := colsW_zero_cons hu
      obtain ⟨_, hw'⟩ := colsW_zero_cons hw
      have ih := fun s => ih w s hu' hw'
      simp only [gD] at ih ⊢
      simp only [wtE]
      rcases step s p q with _ | ⟨t, e, f⟩
      · simp
      · simp only [ih t]; split <;> simp

/-- words without `o`: the signed weight is diagonal -/
theorem sD_free (i j : L3) : ∀ (u w : List L3), colsW i.k0 u = 0 → colsW j.k0 w = 0 →
    (sD .z (u, i) (w, j) : R) = if i = j ∧ u = w then qOf 1 (-1) i else 0 := by
  intro u
  induction u with
  | nil =>
    intro w hu hw
    cases w with
    | nil => cases i <;> cases j <;> simp [colsW, L3.k0] at hu hw <;> simp [sD, wtS, endSg, qOf]
    | cons q w => simp [sD, wtS]
  | cons p u ih =>
    intro w hu hw
    cases w with
    | nil => simp [sD, wtS]
    | cons q w =>
      obtain ⟨hp, hu'⟩ := colsW_zero_cons hu
      obtain ⟨hq, hw'⟩ := colsW_zero_cons hw
      have ih := ih w hu' hw'
      simp only [sD] at ih ⊢
      cases p <;> cases q <;> simp [wtS, stepSg, ih] at hp hq ⊢

theorem gD_bs (x : R) : ∀ (u w : List L3), u.length = w.length → cofullW w = true → colsW 0 w = 0 →
    (gD x .z (u, .a) (w, .a) : R) = if u = w then 1 else 0 := by
  intro u
  induction u with
  | nil =>
    intro w hl _ _
    obtain rfl : w = [] := List.length_eq_zero_iff.1 (by simpa using hl.symm)
    simp [gD, wtE, endG]
  | cons p u ih =>
    intro w hl hc h0
    cases w with
    | nil => simp at hl
    | cons q w =>
      obtain ⟨hq, hw'⟩ := colsW_zero_cons h0
      cases q <;> simp [cofullW] at hq hc
      have := ih w (by simpa using hl) hc hw'
      simp only [gD] at this ⊢
      cases p <;> simp [wtE, step, this]

theorem gD_as (x : R) : ∀ (u w : List L3), u.length = w.length → fullW u = true → colsW 0 u = 0 →
    (gD x .z (u, .a) (w, .a) : R) = if u = w then 1 else 0 := by
  intro u
  induction u with
  | nil =>
    intro w hl _ _
    obtain rfl : w = [] := List.length_eq_zero_iff.1 (by simpa using hl.symm)
    simp [gD, wtE, endG]
  | cons p u ih =>
    intro w hl hc h0
    cases w with
    | nil => simp at hl
    | cons q w =>
      obtain ⟨hq, hw'⟩ := colsW_zero_cons h0
      cases p <;> simp [fullW] at hq hc
      have := ih w (by simpa using hl) hc hw'
      simp only [gD] at this ⊢
      cases q <;> simp [wtE, step, this]

/-! ### An open interval of the first kind -/

theorem gD_l_free (x : R) (i j : L3) : ∀ (u w : List L3), u.length = w.length → colsW i.k0 u = 0 → colsW j.k0 w = 1 →
    gD x .l (u, i) (w, j) = if cofullW w = true ∧ cmpt i j = true then x * gD x .z (u, .a) (fillA w, .a) else 0 := by
  intro u
  induction u with
  | nil =>
    intro w hl hu hw
    obtain rfl : w = [] := List.length_eq_zero_iff.1 (by simpa using hl.symm)
    cases i <;> cases j <;> simp [colsW, L3.k0] at hu hw <;> simp [gD, wtE, endG, cmpt, cofullW, fillA]
  | cons p u ih =>
    intro w hl hu hw
    cases w with
    | nil => simp at hl
    | cons q w =>
      obtain ⟨hp, hu'⟩ := colsW_zero_cons hu
      cases q
      · simp only [colsW] at hw
        have hw0 : colsW j.k0 w = 0 := by omega
        have e : fillA (.o :: w) = .a :: w := by rw [fillA_cons, fillA_free hw0]; rfl
        have hij : (cmpt i j = true) = (i = j) := by
          have h1 := colsW_add i.k0 u
          have h2 := colsW_add j.k0 w
          cases i <;> cases j <;> simp [cmpt, L3.k0] at * <;> omega
        have f1 := fun s => gD_free x i j u w s hu' hw0
        rw [e]; simp only [hij]
        simp only [gD] at f1 ⊢
        cases p <;> simp only [cofullW, wtE, step, f1] at hp ⊢
        · simp at hp
        · by_cases h : i = j <;> simp [h]
        · by_cases h : i = j <;> simp [h]
      · cases p <;> simp [gD, wtE, step, cofullW] at hp ⊢
      · have := ih w (by simpa using hl) hu' hw
        simp only [fillA_cons, cofullW]
        simp only [gD] at this ⊢
        cases p <;> simp only [wtE, step, this] at hp ⊢ <;> simp [wtE, step] at hp ⊢

theorem sD_l_free (i j : L3) : ∀ (u w : List L3), u.length = w.length → colsW i.k0 u = 0 → colsW j.k0 w = 1 →
    (sD .l (u, i) (w, j) : R) = if (cofullW w = true ∧ cmpt i j = true) ∧ u = fillA w then -qOf 1 (-1) i else 0 := by
  intro u
  induction u with
  | nil =>
    intro w hl hu hw
    obtain rfl : w = [] := List.length_eq_zero_iff.1 (by simpa using hl.symm)
    cases i <;> cases j <;> simp [colsW, L3.k0] at hu hw <;> simp [sD, wtS, endSg, cmpt, cofullW, fillA, qOf]
  | cons p u ih =>
    intro w hl hu hw
    cases w with
    | nil => simp at hl
    | cons q w =>
      obtain ⟨hp, hu'⟩ := colsW_zero_cons hu
      cases q
      · simp only [colsW] at hw
        have hw0 : colsW j.k0 w = 0 := by omega
        have e : fillA (.o :: w) = .a :: w := by rw [fillA_cons, fillA_free hw0]; rfl
        have hij : (cmpt i j = true) = (i = j) := by
          have h1 := colsW_add i.k0 u
          have h2 := colsW_add j.k0 w
          cases i <;> cases j <;> simp [cmpt, L3.k0] at * <;> omega
        have f1 := sD_free (R := R) i j u w hu' hw0
        rw [e]; simp only [hij]
        simp only [sD] at f1 ⊢
        cases p <;> simp only [cofullW, wtS, stepSg, f1] at hp ⊢
        · simp at hp
        · by_cases h : i = j <;> simp [h]
        · simp
      · cases p <;> simp [sD, wtS, stepSg, cofullW] at hp ⊢
      · have := ih w (by simpa using hl) hu' hw
        simp only [fillA_cons, cofullW]
        simp only [sD] at this ⊢
        cases p <;> simp only [wtS, stepSg, this] at hp ⊢ <;> simp at hp ⊢

/-! ### An open interval of the second kind -/

theorem gD_r_free (x : R) (i j : L3) : ∀ (u w : List L3), u.length = w.length → colsW i.k0 u = 1 → colsW j.k0 w = 0 →
    gD x .r (u, i) (w, j) = if fullW u = true ∧ cmpt i j = true then x * gD x .z (fillB u, .a) (w, .a) else 0 := by
  intro u
  induction u with
  | nil =>
    intro w hl hu hw
    obtain rfl : w = [] := List.length_eq_zero_iff.1 (by simpa using hl.symm)
    cases i <;> cases j <;> simp [colsW, L3.k0] at hu hw <;> simp [gD, wtE, endG, cmpt, fullW, fillB]
  | cons p u ih =>
    intro w hl hu hw
    cases w with
    | nil => simp at hl
    | cons q w =>
      obtain ⟨hq, hw'⟩ := colsW_zero_cons hw
      cases p
      · simp only [colsW] at hu
        have hu0 : colsW i.k0 u = 0 := by omega
        have e : fillB (.o :: u) = .b :: u := by rw [fillB_cons, fillB_free hu0]; rfl
        have hij : (cmpt i j = true) = (i = j) := by
          have h1 := colsW_add i.k0 u
          have h2 := colsW_add j.k0 w
          cases i <;> cases j <;> simp [cmpt, L3.k0] at * <;> omega
        have f1 := fun s => gD_free x i j u w s hu0 hw'
        rw [e]; simp only [hij]
        simp only [gD] at f1 ⊢
        cases q <;> simp only [fullW, wtE, step, f1] at hq ⊢
        · simp at hq
        · by_cases h : i = j <;> simp [h]
        · by_cases h : i = j <;> simp [h]
      · have := ih w (by simpa using hl) hu hw'
        simp only [fillB_cons, fullW]
        simp only [gD] at this ⊢
        cases q <;> simp only [wtE, step, this] at hq ⊢ <;> simp [wtE, step] at hq ⊢
      · cases q <;> simp [gD, wtE, step, fullW] at hq ⊢

theorem sD_r_free (i j : L3) : ∀ (u w : List L3), u.length = w.length → colsW i.k0 u = 1 → colsW j.k0 w = 0 →
    (sD .r (u, i) (w, j) : R) = if (fullW u = true ∧ cmpt i j = true) ∧ fillB u = w then qOf 1 (-1) j else 0 := by
  intro u
  induction u with
  | nil =>
    intro w hl hu hw
    obtain rfl : w = [] := List.length_eq_zero_iff.1 (by simpa using hl.symm)
    cases i <;> cases j <;> simp [colsW, L3.k0] at hu hw <;> simp [sD, wtS, endSg, cmpt, fullW, fillB, qOf]
  | cons p u ih =>
    intro w hl hu hw
    cases w with
    | nil => simp at hl
    | cons q w =>
      obtain ⟨hq, hw'⟩ := colsW_zero_cons hw
      cases p
      · simp only [colsW] at hu
        have hu0 : colsW i.k0 u = 0 := by omega
        have e : fillB (.o :: u) = .b :: u := by rw [fillB_cons, fillB_free hu0]; rfl
        have hij : (cmpt i j = true) = (i = j) := by
          have h1 := colsW_add i.k0 u
          have h2 := colsW_add j.k0 w
          cases i <;> cases j <;> simp [cmpt, L3.k0] at * <;> omega
        have f1 := sD_free (R := R) i j u w hu0 hw'
        rw [e]; simp only [hij]
        simp only [sD] at f1 ⊢
        cases q <;> simp only [fullW, wtS, stepSg, f1] at hq ⊢
        · simp at hq
        · simp
        · by_cases h : i = j <;> simp [h]
      · have := ih w (by simpa using hl) hu hw'
        simp only [fillB_cons, fullW]
        simp only [sD] at this ⊢
        cases q <;> simp only [wtS, stepSg, this] at hq ⊢ <;> simp at hq ⊢
      · cases q <;> simp [sD, wtS, stepSg, fullW] at hq ⊢

/-! ### The operators -/

theorem cmpt_free {i j : L3} (hi : i.k0 = 0) (hj : j.k0 = 0) : (cmpt i j = true) = (i = j) := by
  cases i <;> cases j <;> simp [cmpt, L3.k0] at *

theorem opGO_odd (x : R) {U W : WordD} (hl : U.1.length = W.1.length) (hU : colsD U = 1) (hW : colsD W = 1) (hn : U.1 ≠ []) :
    opGO 1 x U W = if (fullW U.1 = true ∧ cofullW W.1 = true) ∧ cmpt U.2 W.2 = true then
      x * gD x .z (fillB U.1, .a) (fillA W.1, .a) else 0 := by
  rcases U with ⟨_ | ⟨p, u⟩, i⟩ <;> rcases W with ⟨_ | ⟨q, w⟩, j⟩
  · exact absurd rfl hn
  · simp at hl
  · simp at hl
  have hl' : u.length = w.length := by simpa using hl
  unfold colsD at hU hW
  simp only [opGO] at hU hW ⊢
  cases p <;> cases q <;> simp only [colsW] at hU hW
  · have hu0 : colsW i.k0 u = 0 := by omega
    have hw0 : colsW j.k0 w = 0 := by omega
    have h1 := colsW_add i.k0 u
    have h2 := colsW_add j.k0 w
    rw [fillA_cons, fillB_cons, fillA_free hw0, fillB_free hu0]
    simp only [cmpt_free (show i.k0 = 0 by omega) (show j.k0 = 0 by omega)]
    simp only [kerO, fullW, cofullW]
    rw [gD_free x i j u w .lr hu0 hw0]
    by_cases h : i = j <;> simp [h, gD, wtE, step]
  · simp [kerO, cofullW]
  · have hu0 : colsW i.k0 u = 0 := by omega
    rw [fillA_cons, fillB_cons, fillB_free hu0]
    simp only [kerO, fullW, cofullW]
    rw [gD_l_free x i j u w hl' hu0 hW]
    simp [gD, wtE, step]
  · have hw0 : colsW j.k0 w = 0 := by omega
    rw [fillA_cons, fillB_cons, fillA_free hw0]
    simp only [kerO, fullW, cofullW]
    rw [gD_r_free x i j u w hl' hU hw0]
    simp [gD, wtE, step]
  · simp [kerO, cofullW]
  · simp [kerO, fillA_cons, fillB_cons, gD, wtE, step]
  · simp [kerO, fullW]
  · simp [kerO, fullW]
  · simp [kerO, fullW]

theorem opSO_odd {U W : WordD} (hl : U.1.length = W.1.length) (hU : colsD U = 1) (hW : colsD W = 1) :
    (opSO 1 U W : R) = if ((fullW U.1 = true ∧ cofullW W.1 = true) ∧ cmpt U.2 W.2 = true) ∧ U.1 ≠ [] ∧ fillB U.1 = fillA W.1 then
      qw 1 (-1) U.2 W.2 else 0 := by
  rcases U with ⟨_ | ⟨p, u⟩, i⟩ <;> rcases W with ⟨_ | ⟨q, w⟩, j⟩
  · simp [opSO]
  · simp at hl
  · simp at hl
  have hl' : u.length = w.length := by simpa using hl
  unfold colsD at hU hW
  simp only [opSO] at hU hW ⊢
  cases p <;> cases q <;> simp only [colsW] at hU hW
  · simp [kerSO, fillA_cons, fillB_cons]
  · simp [kerSO, cofullW]
  · have hu0 : colsW i.k0 u = 0 := by omega
    have h1 := colsW_add i.k0 u
    have hi : i ≠ .o := by rintro rfl; simp only [L3.k0] at h1 hu0; omega
    rw [fillA_cons, fillB_cons, fillB_free hu0]
    simp only [kerSO, fullW, cofullW]
    rw [sD_l_free i j u w hl' hu0 hW, qw_fst _ _ hi]
    by_cases h1 : cofullW w = true <;> by_cases h2 : cmpt i j = true <;> by_cases h3 : u = fillA w <;> simp [h1, h2, h3]
  · have hw0 : colsW j.k0 w = 0 := by omega
    have h1 := colsW_add j.k0 w
    rw [fillA_cons, fillB_cons, fillA_free hw0]
    simp only [kerSO, fullW, cofullW]
    rw [sD_r_free i j u w hl' hU hw0]
    have hj : j ≠ .o := by rintro rfl; simp only [L3.k0] at h1 hw0; omega
    cases i <;> cases j <;> simp [cmpt, qw, qOf] at hj ⊢
  · simp [kerSO, cofullW]
  · simp [kerSO, fillA_cons, fillB_cons]
  · simp [kerSO, fullW]
  · simp [kerSO, fullW]
  · simp [kerSO, fullW]

end

/-! ### The matrices -/

open Polynomial in
theorem coeff_gD_rat (p : Nat) {U W : WordD} (hl : U.1.length = W.1.length) (hc : colsD U = colsD W) :
    (gD (X : ℚ[X]) .z U W).coeff p = gcD (colsD U) p U W := by
  have h := coeff_gD p hl hc
  have e : gD (X : (Polynomial ℚ)[X]) .z U W = (gD (X : ℚ[X]) .z U W).map C := by
    have := gD_map (mapRingHom (C : ℚ →+* ℚ[X])) X .z U W
    simpa using this.symm
  rw [e, coeff_map] at h
  exact C_injective h

theorem coeff_gD_P (p : Nat) {U W : WordD} (hl : U.1.length = W.1.length) (hc : colsD U = colsD W) :
    (gD (Polynomial.X : Polynomial P) .z U W).coeff p = MvPolynomial.C (gcD (colsD U) p U W) := by
  rw [← coeff_gD_rat p hl hc]
  have e : gD (Polynomial.X : Polynomial P) .z U W = (gD (Polynomial.X : Polynomial ℚ) .z U W).map MvPolynomial.C := by
    have := gD_map (Polynomial.mapRingHom (MvPolynomial.C : ℚ →+* P)) Polynomial.X .z U W
    simpa using this.symm
  rw [e, Polynomial.coeff_map]

/-- the condition on the words of a term with `q1` or `q2` -/
def OddC (U W : WordD) : Prop := (fullW U.1 = true ∧ cofullW W.1 = true) ∧ cmpt U.2 W.2.sw = true

instance (U W : WordD) : Decidable (OddC U W) := by unfold OddC; infer_instance

/-- the coefficients of the terms with `q1` or `q2` -/
noncomputable def oddD (p : Int) (U W : WordD) : ℚ :=
  if OddC U W then
    if p.natAbs ≤ 1 then
      if fillB U.1 = fillA W.1 ∧ p = qw 1 (-1) U.2 W.2.sw then 1 else 0
    else cfD 0 ((p.natAbs - 1 : Nat) : Int) (fillB U.1, .a) (fillA W.1, .a)
  else 0

theorem colsD_fillA (w : List L3) : colsD (fillA w, .a) = 0 := colsW_fillA w
theorem colsD_fillB (w : List L3) : colsD (fillB w, .a) = 0 := colsW_fillB w

theorem gcD_zero {U W : WordD} (hl : U.1.length = W.1.length) (hc : colsD U = colsD W) : gcD (colsD U) 0 U W = if U = W then 1 else 0 := by
  rw [← coeff_gD_rat 0 hl hc]
  have := gD_zero (S := ℚ) U.1 W.1 U.2 W.2 .z hl
  simpa using this

theorem qw_cmpt {i j : L3} (h : cmpt i j = true) : qw (1 : Int) (-1) i j = 1 ∨ qw (1 : Int) (-1) i j = -1 := by
  cases i <;> cases j <;> simp [cmpt] at h <;> simp [qw, qOf]

theorem qw_cast (R : Type*) [CommRing R] (i j : L3) : (qw (1 : R) (-1) i j) = ((qw (1 : Int) (-1) i j : Int) : R) := by
  cases i <;> cases j <;> simp [qw, qOf]

open MvPolynomial in
theorem odd_eq (p : Int) {n : Nat} (hn : 1 ≤ n) {U W : WordD} (hU : U ∈ WdD n 1) (hW : W ∈ WdD n 1) :
    C (alD 1 p) * ((opGO 1 (Polynomial.X : Polynomial P) U (swD W)).coeff p.natAbs + C (beD 1 p) * opSO 1 U (swD W)) =
      (C (oddD p U W) : P) := by
  have hU' := mem_WdD.1 hU
  have hW' := mem_WdD.1 hW
  have hl : U.1.length = (swD W).1.length := by rw [hU'.1]; exact hW'.1.symm
  have hne : U.1 ≠ [] := by intro h; rw [h] at hU'; simp at hU'; omega
  rw [opGO_odd _ hl hU'.2.1 (by rw [colsD_sw]; exact hW'.2.1) hne, opSO_odd hl hU'.2.1 (by rw [colsD_sw]; exact hW'.2.1)]
  unfold oddD
  show C (alD 1 p) * ((ite ((fullW U.1 = true ∧ cofullW W.1 = true) ∧ cmpt U.2 W.2.sw = true)
      (Polynomial.X * gD Polynomial.X .z (fillB U.1, .a) (fillA W.1, .a)) 0 : Polynomial P).coeff p.natAbs +
    C (beD 1 p) * ite (((fullW U.1 = true ∧ cofullW W.1 = true) ∧ cmpt U.2 W.2.sw = true) ∧ U.1 ≠ [] ∧ fillB U.1 = fillA W.1)
      (qw 1 (-1) U.2 W.2.sw) 0) = _
  by_cases h : (fullW U.1 = true ∧ cofullW W.1 = true) ∧ cmpt U.2 W.2.sw = true
  · have hl2 : (fillB U.1).length = (fillA W.1).length := by rw [fillA_length, fillB_length]; exact hl
    have hc2 : colsD (fillB U.1, .a) = colsD (fillA W.1, .a) := by rw [colsD_fillA, colsD_fillB]
    rw [if_pos h, if_pos (show OddC U W from h)]
    simp only [h, hne, true_and, ne_eq, not_false_eq_true]
    by_cases h0 : p.natAbs = 0
    · have hp0 : p = 0 := by omega
      subst hp0
      have hz : ¬ (0 : Int) = qw 1 (-1) U.2 W.2.sw := by
        rcases qw_cmpt h.2 with e | e <;> rw [e] <;> omega
      simp [hz, beD]
    · obtain ⟨m, hm⟩ : ∃ m, p.natAbs = m + 1 := ⟨p.natAbs - 1, by omega⟩
      rw [hm, Polynomial.coeff_X_mul, coeff_gD_P m hl2 hc2]
      by_cases h1 : m = 0
      · subst h1
        rw [if_pos (show 0 + 1 ≤ 1 by omega), gcD_zero hl2 hc2]
        have hp : p = 1 ∨ p = -1 := by omega
        have e0 : (((fillB U.1, L3.a) : WordD) = (fillA W.1, L3.a)) = (fillB U.1 = fillA W.1) := by simp
        simp only [e0]
        have ha : alD 1 p = 1 / 2 := by unfold alD; rw [if_neg (by omega)]
        have hb : beD 1 p = p := by
          unfold beD sgD; rw [if_pos (by omega)]
          rcases hp with rfl | rfl <;> simp
        rw [ha, hb, qw_cast P]
        by_cases hf : fillB U.1 = fillA W.1
        · simp only [hf, if_true, true_and]
          have e2 : ∀ z : Int, ((z : Int) : P) = C (z : ℚ) := fun z => by simp
          rw [e2, ← C_mul, ← C_add, ← C_mul]
          congr 1
          rcases qw_cmpt h.2 with e | e <;> rcases hp with rfl | rfl <;> rw [e] <;> norm_num
        · simp [hf]
      · rw [if_neg (show ¬ m + 1 ≤ 1 by omega)]
        have ha : alD 1 p = 1 / 2 := by unfold alD; rw [if_neg (by omega)]
        have hb : beD 1 p = 0 := by unfold beD; rw [if_neg (by omega)]
        rw [ha, hb, C_0, zero_mul, add_zero, ← C_mul, colsD_fillB]
        congr 1
        unfold cfD
        simp only [Int.natAbs_natCast, Nat.add_sub_cancel]
        rw [if_neg (by omega), if_pos (by omega)]
  · rw [if_neg h, if_neg (fun hc => h hc.1), if_neg (show ¬ OddC U W from h)]
    simp

open MvPolynomial in
theorem M2_eq (p : Int) {n : Nat} (hn : 1 ≤ n) {U W : WordD} (hU : U ∈ WdD n 1) (hW : W ∈ WdD n 1) :
    M2 p U W = C (cfD 1 p U W) + qw (X .q1) (X .q2) U.2 W.2.sw * C (oddD p U W) + X .q1 * X .q2 * C (q2D 1 p U W) := by
  have hU' := mem_WdD.1 hU
  have hW' := mem_WdD.1 hW
  have hl : U.1.length = W.1.length := by omega
  rw [← odd_eq p hn hU hW]
  unfold M2 op2G op2S
  have e1 : qw (Polynomial.C (X .q1 : P)) (Polynomial.C (X .q2)) U.2 (swD W).2 = Polynomial.C (qw (X .q1) (X .q2) U.2 W.2.sw) :=
    (qw_map Polynomial.C _ _ _ _).symm
  rw [opGE_eq _ _ hl, opSE_eq hl, e1, ← Polynomial.C_mul, Polynomial.coeff_add, Polynomial.coeff_add, Polynomial.coeff_C_mul,
    Polynomial.coeff_C_mul, coeff_gD_P _ hl (by omega), hU'.2.1]
  have s0 : ∀ U W : WordD, (sD .z U W : P) = C (sD .z U W) := fun U W => (sD_map C .z U W).symm
  have e2 : C (alD 1 p) * (wtPD (Polynomial.X : Polynomial P) U W).coeff p.natAbs = C (q2D 1 p U W) := by
    rcases U with ⟨_ | ⟨_ | _ | _, u⟩, i⟩ <;> rcases W with ⟨_ | ⟨_ | _ | _, w⟩, j⟩ <;> simp [wtPD, q2D]
    simp only [List.length_cons, colsD_a, colsD_b] at hU' hW'
    rw [coeff_gD_P _ (by simp; omega) (by simp only [colsD_a, colsD_b]; omega), cfD_eq, colsD_b, hU'.2.1]
    have : (sD .z (.b :: u, i) (.a :: w, j) : ℚ) = 0 := by simp [sD, wtS, stepSg]
    rw [this, mul_zero, add_zero, C_mul]
  rw [← e2, s0, cfD_eq]
  simp only [C_mul, C_add, swD]
  ring

end Verif
