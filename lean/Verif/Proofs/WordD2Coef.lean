import Verif.Proofs.WordD2
import Verif.Spec.Denote
import Mathlib.RingTheory.MvPolynomial.Basic
/-!
# The matrices of the Pieri operators of `OG(n, 2n+2)`
-/

namespace Verif
open Spec

section
variable {R : Type*} [CommRing R]

theorem op2G_out (q1 q2 x : R) {n : Nat} {U W : WordD} (hU : U ∈ WdD n 1) (hl : W.1.length = n) (hW : W ∉ WdD n 1) :
    op2G q1 q2 x U W = 0 := by
  have hU' := mem_WdD.1 hU
  have hc : colsD U ≠ colsD W := fun hc => hW (mem_WdD.2 ⟨hl, by omega, by omega⟩)
  unfold op2G
  rw [opGE_cols _ _ (by omega) hc, opGO_cols (W := swD W) _ _ (by rw [hU'.1]; exact hl.symm) (by rw [colsD_sw]; exact hc)]
  ring

theorem op2S_out (q1 q2 : R) {n : Nat} {U W : WordD} (hU : U ∈ WdD n 1) (hl : W.1.length = n) (hW : W ∉ WdD n 1) :
    op2S q1 q2 U W = 0 := by
  have hU' := mem_WdD.1 hU
  have hc : colsD U ≠ colsD W := fun hc => hW (mem_WdD.2 ⟨hl, by omega, by omega⟩)
  unfold op2S
  rw [opSE_cols (by omega) hc, opSO_cols (W := swD W) _ (by rw [hU'.1]; exact hl.symm) (by rw [colsD_sw]; exact hc)]
  ring

end

section
variable {S : Type*} [CommRing S] [IsDomain S] [CharZero S]

open Polynomial in
theorem coeff2G_comm (q1 q2 : S) (a b : Nat) {n : Nat} (hn : 1 ≤ n) {U V : WordD}
    (hU : U ∈ WdD n 1) (hV : V ∈ WdD n 1) :
    ∑ W ∈ WdD n 1, (op2G (C q1) (C q2) X U W).coeff a * (op2G (C q1) (C q2) X W V).coeff b =
    ∑ W ∈ WdD n 1, (op2G (C q1) (C q2) X U W).coeff b * (op2G (C q1) (C q2) X W V).coeff a := by
  have hx : (C (X : S[X]) : S[X][X]) ≠ 0 := by simp [X_ne_zero]
  have hy : (X : S[X][X]) ≠ 0 := X_ne_zero
  have hxy : (C (X : S[X]) : S[X][X]) + X ≠ 0 := by
    intro h0
    have := congrArg (fun f => coeff f 1) h0
    simp at this
  have h2 : (2 : S[X][X]) ≠ 0 := two_ne_zero
  have H := op2G_comm h2 (C (C q1)) (C (C q2)) hx hy hxy hn hU hV
  rw [sumD_WdD (k := 1) _ (fun W h1 h2 => by rw [op2G_out _ _ _ hU h1 h2, zero_mul]),
    sumD_WdD (k := 1) _ (fun W h1 h2 => by rw [op2G_out _ _ _ hU h1 h2, zero_mul])] at H
  have e1 : ∀ u w, op2G (C (C q1)) (C (C q2)) (C (X : S[X])) u w = C (op2G (C q1) (C q2) X u w) :=
    fun u w => (op2G_map C _ _ _ u w).symm
  have e2 : ∀ u w, op2G (C (C q1)) (C (C q2)) (X : S[X][X]) u w = (op2G (C q1) (C q2) X u w).map C := by
    intro u w
    have := op2G_map (mapRingHom (C : S →+* S[X])) (C q1) (C q2) X u w
    simpa using this.symm
  simp only [e1, e2] at H
  have H2 := congrArg (fun f : S[X][X] => (f.coeff b).coeff a) H
  simp only [finsetSum_coeff, coeff_C_mul, coeff_mul_C, coeff_map] at H2
  rw [H2]

open Polynomial in
theorem coeff2S_comm (q1 q2 : S) (b : Nat) {n : Nat} (hn : 1 ≤ n) {U V : WordD} (hU : U ∈ WdD n 1) (hV : V ∈ WdD n 1) :
    ∑ W ∈ WdD n 1, op2S q1 q2 U W * (op2G (C q1) (C q2) X W V).coeff b =
    ∑ W ∈ WdD n 1, (op2G (C q1) (C q2) X U W).coeff b * op2S q1 q2 W V := by
  have H := op2S_comm (two_ne_zero : (2 : S[X]) ≠ 0) (C q1) (C q2) (X_ne_zero (R := S)) hn hU hV
  rw [sumD_WdD (k := 1) _ (fun W h1 h2 => by rw [op2S_out _ _ hU h1 h2, zero_mul]),
    sumD_WdD (k := 1) _ (fun W h1 h2 => by rw [op2G_out _ _ _ hU h1 h2, zero_mul])] at H
  have e1 : ∀ u w, op2S (C q1) (C q2) u w = C (op2S q1 q2 u w) := fun u w => (op2S_map C q1 q2 u w).symm
  have H2 := congrArg (fun f : S[X] => f.coeff b) H
  simp only [e1, finsetSum_coeff, coeff_C_mul, coeff_mul_C] at H2
  exact H2

end

/-! ### The matrices -/

open MvPolynomial in
/-- the matrices with two parameters -/
noncomputable def M2 (p : Int) (U W : WordD) : P :=
  C (alD 1 p) * ((op2G (Polynomial.C (X .q1)) (Polynomial.C (X .q2)) (Polynomial.X : Polynomial P) U W).coeff p.natAbs +
    C (beD 1 p) * op2S (X .q1) (X .q2) U W)

open MvPolynomial in
theorem M2_comm {n : Nat} (hn : 1 ≤ n) (a b : Int) {U V : WordD} (hU : U ∈ WdD n 1) (hV : V ∈ WdD n 1) :
    ∑ W ∈ WdD n 1, M2 a U W * M2 b W V = ∑ W ∈ WdD n 1, M2 b U W * M2 a W V := by
  have GG := coeff2G_comm (X .q1 : P) (X .q2) a.natAbs b.natAbs hn hU hV
  have SG := fun c => coeff2S_comm (X .q1 : P) (X .q2) c hn hU hV
  unfold M2
  generalize hg : (fun (p : Nat) (U W : WordD) => (op2G (Polynomial.C (X .q1)) (Polynomial.C (X .q2)) (Polynomial.X : Polynomial P) U W).coeff p) = g
  have hg' : ∀ p U W, (op2G (Polynomial.C (X .q1)) (Polynomial.C (X .q2)) (Polynomial.X : Polynomial P) U W).coeff p = g p U W :=
    fun p U W => by rw [← hg]
  generalize op2S (X .q1 : P) (X .q2) = s at SG ⊢
  simp only [hg'] at GG SG ⊢
  have e : ∀ a b, ∑ W ∈ WdD n 1, (C (alD 1 a) : P) * (g a.natAbs U W + C (beD 1 a) * s U W) *
      (C (alD 1 b) * (g b.natAbs W V + C (beD 1 b) * s W V)) =
      C (alD 1 a) * C (alD 1 b) * (∑ W ∈ WdD n 1, g a.natAbs U W * g b.natAbs W V +
        C (beD 1 b) * ∑ W ∈ WdD n 1, g a.natAbs U W * s W V +
        C (beD 1 a) * ∑ W ∈ WdD n 1, s U W * g b.natAbs W V +
        C (beD 1 a) * C (beD 1 b) * ∑ W ∈ WdD n 1, s U W * s W V) := by
    intro a b
    simp only [Finset.mul_sum, ← Finset.sum_add_distrib]
    apply Finset.sum_congr rfl
    intro W _
    ring
  rw [e, e, GG, SG, SG]
  ring

end Verif
