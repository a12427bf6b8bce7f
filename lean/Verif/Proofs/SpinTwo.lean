import Verif.Proofs.SpinM
/-!
# Type D: the matrices with two parameters and the words read backwards
-/

namespace Verif.Spin
open Verif Spec TwoProd

section
variable {R : Type*} [CommRing R]

theorem val_hq2 (y1 y2 x : R) {i j : L3} (h : i ≠ .o ∨ j ≠ .o) : val y1 y2 x (hq2 i j) = qw y1 y2 i j := by
  cases i <;> cases j <;> simp at h <;> simp [hq2, val, qw, qOf, sgn]

theorem opKG_two (c : Bool) (y1 y2 x : R) {U W : WordD} (hU : Lone U) (hW : Lone W) :
    opKG y1 y2 x (two c) U W = op2G y1 y2 x U W := by
  unfold opKG op2G
  have e : val y1 y2 x (two c).hp = y1 * y2 := by simp [two, val, sgn]
  rw [e]
  congr 1
  by_cases h : U.2 ≠ .o ∨ (swD W).2 ≠ .o
  · congr 1
    exact val_hq2 y1 y2 x h
  · have h0 : opGO 1 x U (swD W) = 0 := by
      rcases U with ⟨_ | ⟨p, u⟩, i⟩ <;> rcases W with ⟨_ | ⟨q, w⟩, j⟩ <;> simp only [opGO, swD]
      unfold Lone at hU hW
      cases p <;> cases q <;> cases i <;> cases j <;> simp [swD, L3.sw] at h hU hW <;> simp [kerO]
    rw [h0, mul_zero, mul_zero]

theorem opKS_two (c : Bool) (y1 y2 x : R) {U W : WordD} (hU : Lone U) (hW : Lone W) :
    opKS y1 y2 x (two c) U W = op2S y1 y2 U W := by
  unfold opKS op2S
  congr 1
  by_cases h : U.2 ≠ .o ∨ (swD W).2 ≠ .o
  · congr 1
    exact val_hq2 y1 y2 x h
  · have h0 : (opSO 1 U (swD W) : R) = 0 := by
      rcases U with ⟨_ | ⟨p, u⟩, i⟩ <;> rcases W with ⟨_ | ⟨q, w⟩, j⟩ <;> simp only [opSO, swD]
      unfold Lone at hU hW
      cases p <;> cases q <;> cases i <;> cases j <;> simp [swD, L3.sw] at h hU hW <;> simp [kerSO]
    rw [h0, mul_zero, mul_zero]

/-- the factor of a word -/
def fac2 (q1 q2 : R) (c : Bool) (U : WordD) : R :=
  if c then q1 ^ (numD c U / 2) * q2 ^ ((numD c U + 1) / 2) else q1 ^ ((numD c U + 1) / 2) * q2 ^ (numD c U / 2)

theorem val_F2 (y1 y2 x : R) (c : Bool) (d : ℕ) : val y1 y2 x ((two c).F d) =
    if c then y1 ^ (d / 2) * y2 ^ ((d + 1) / 2) else y1 ^ ((d + 1) / 2) * y2 ^ (d / 2) := by
  cases c <;> simp [two, val, sgn]

theorem op2_spin (q1 q2 x : R) {n : ℕ} (hn : 1 ≤ n) {c1 c2 : Bool} (hc : od (n - 1) = xor c1 c2) {U W : WordD} (hU : U ∈ WdD n 1) (hW : W ∈ WdD n 1)
    (hU' : spin c1 c2 U ∈ WdD n 1) (hW' : spin c1 c2 W ∈ WdD n 1) :
    fac2 q1 q2 c1 U * op2G q1 q2 x (spin c1 c2 U) (spin c1 c2 W) = fac2 q1 q2 c1 W * op2G q1 q2 x U W ∧
      fac2 q1 q2 c1 U * op2S q1 q2 (spin c1 c2 U) (spin c1 c2 W) = fac2 q1 q2 c1 W * op2S q1 q2 U W := by
  rw [← opKG_two c1 q1 q2 x (lone_of_mem hU) (lone_of_mem hW), ← opKG_two c1 q1 q2 x (lone_of_mem hU') (lone_of_mem hW'),
    ← opKS_two c1 q1 q2 x (lone_of_mem hU) (lone_of_mem hW), ← opKS_two c1 q1 q2 x (lone_of_mem hU') (lone_of_mem hW')]
  have mU := mem_WdD.1 hU
  have mW := mem_WdD.1 hW
  rcases U with ⟨_ | ⟨p, u⟩, i⟩
  · simp at mU; omega
  · rcases W with ⟨_ | ⟨q, w⟩, j⟩
    · simp at mW; omega
    · have hl1 : u.length + 1 = n := by simpa using mU.1
      have hl2 : w.length + 1 = n := by simpa using mW.1
      have k1 : i.k0 + (p.k0 + cntO u) = 1 := by have := mU.2.1; unfold colsD at this; rwa [colsW_eq, cntO_cons] at this
      have k2 : j.k0 + (q.k0 + cntO w) = 1 := by have := mW.2.1; unfold colsD at this; rwa [colsW_eq, cntO_cons] at this
      have := opK_spin (y1 := q1) (y2 := q2) (x := x) (Q := two c1) (lone := true) (c1 := c1) (c2 := c2) (chk_two c1) (B := q1 * q2)
        (fun c d => by
          rw [val_F2, val_F2, show (2 * c + d) / 2 = c + d / 2 by omega, show (2 * c + d + 1) / 2 = c + (d + 1) / 2 by omega]
          cases c1 <;> simp only [Bool.false_eq_true, if_true, if_false] <;> ring)
        (p := p) (q := q) (i := i) (j := j) (u := u) (w := w) (by omega)
        (by rw [← hc, ← hl1]; rfl) (fun _ => by
          refine ⟨?_, ?_, ?_⟩
          · cases p <;> cases i <;> simp [L3.k0] at k1 <;> rfl
          · cases q <;> cases j <;> simp [L3.k0] at k2 <;> rfl
          · cases p <;> cases i <;> simp [L3.k0] at k1 <;> simp [k1, isO, od])
      rw [val_F2, val_F2] at this
      exact this

end

open MvPolynomial in
theorem M2_spin {n : ℕ} (hn : 1 ≤ n) (p : Int) (t : Bool) {U W : WordD} (hU : U ∈ WdD n 1) (hW : W ∈ WdD n 1) :
    fac2 (X .q1) (X .q2) (c1 1 t) U * M2 p (spD n 1 t U) (spD n 1 t W) = fac2 (X .q1) (X .q2) (c1 1 t) W * M2 p U W := by
  have e1 := (op2_spin (Polynomial.C (X .q1 : P)) (Polynomial.C (X .q2)) Polynomial.X hn (c12 (by omega) 1 t) hU hW (spD_mem (by omega) hU)
    (spD_mem (by omega) hW)).1
  have e2 := (op2_spin (X .q1 : P) (X .q2) 1 hn (c12 (by omega) 1 t) hU hW (spD_mem (by omega) hU) (spD_mem (by omega) hW)).2
  have eF : ∀ V : WordD, fac2 (Polynomial.C (X .q1 : P)) (Polynomial.C (X .q2)) (c1 1 t) V = Polynomial.C (fac2 (X .q1) (X .q2) (c1 1 t) V) := by
    intro V
    unfold fac2
    split <;> simp
  rw [eF, eF] at e1
  have e3 := congrArg (fun f => f.coeff p.natAbs) e1
  simp only [Polynomial.coeff_C_mul] at e3
  unfold M2 spD
  linear_combination C (alD 1 p) * e3 + C (alD 1 p) * C (beD 1 p) * e2

end Verif.Spin
