import Verif.Proofs.TwoProd
import Verif.Proofs.WordDDual
import Verif.Props.SwapD
/-!
# Symmetries of the Pieri operators of `OG(n, 2n+2)` with two parameters: duality, exchange of the types, degrees, integrality
-/

namespace Verif
open Spec MvPolynomial
namespace TwoProd

/-! ### The matrix of a special class -/

/-- the terms without a single parameter -/
noncomputable def E2 (p : Int) (U W : WordD) : P :=
  C (alD 1 p) * ((opGE (Polynomial.C (X .q1) * Polynomial.C (X .q2)) (Polynomial.X : Polynomial P) U W).coeff p.natAbs + C (beD 1 p) * opSE U W)

theorem M2_split (p : Int) {n : Nat} (hn : 1 ≤ n) {U W : WordD} (hU : U ∈ WdD n 1) (hW : W ∈ WdD n 1) :
    M2 p U W = E2 p U W + qw (X .q1) (X .q2) U.2 W.2.sw * C (oddD p U W) := by
  rw [← odd_eq p hn hU hW]
  unfold M2 E2 op2G op2S
  have e1 : qw (Polynomial.C (X .q1 : P)) (Polynomial.C (X .q2)) U.2 (swD W).2 = Polynomial.C (qw (X .q1) (X .q2) U.2 W.2.sw) :=
    (qw_map Polynomial.C _ _ _ _).symm
  rw [e1, Polynomial.coeff_add, Polynomial.coeff_C_mul]
  show _ = _
  have e2 : (swD W).2 = W.2.sw := rfl
  rw [e2]
  ring

theorem qw_symm {R : Type*} [CommRing R] (a b : R) {i j : L3} (h : cmpt i j = true) : qw a b j i = qw a b i j := by
  cases i <;> cases j <;> simp [cmpt] at h <;> rfl

theorem dualD_one {n : Nat} {U : WordD} (hU : U ∈ WdD n 1) : dualD U = swD (dual0 U) := by
  have := (mem_WdD.1 hU).2.1
  unfold dualD
  rw [this, if_pos rfl]

theorem E2_dualD (p : Int) {n : Nat} {U W : WordD} (hU : U ∈ WdD n 1) (hW : W ∈ WdD n 1) : E2 p (dualD W) (dualD U) = E2 p U W := by
  unfold E2
  rw [dualD_one hU, dualD_one hW, opGE_sw, opSE_sw, opGE_dual0, opSE_dual0, (mem_WdD.1 hW).2.1]
  simp

theorem oddD_dualD (p : Int) {n : Nat} (hn : 1 ≤ n) {U W : WordD} (hU : U ∈ WdD n 1) (hW : W ∈ WdD n 1) :
    oddD p (dualD W) (dualD U) = oddD p U W := by
  have h1 := odd_eq p hn hU hW
  have h2 := odd_eq p hn (dualD_mem hW) (dualD_mem hU)
  apply C_injective Sym ℚ
  rw [← h1, ← h2, dualD_one hU, dualD_one hW, swD_swD, ← dual0_sw, opGO_dual0, opSO_dual0, colsD_sw, (mem_WdD.1 hW).2.1]
  simp

theorem M2_dualD (p : Int) {n : Nat} (hn : 1 ≤ n) {U W : WordD} (hU : U ∈ WdD n 1) (hW : W ∈ WdD n 1) :
    M2 p (dualD W) (dualD U) = M2 p U W := by
  rw [M2_split p hn hU hW, M2_split p hn (dualD_mem hW) (dualD_mem hU), E2_dualD p hU hW, oddD_dualD p hn hU hW]
  congr 1
  by_cases h : OddC U W
  · have e1 : (dualD W).2 = W.2.sw := by rw [dualD_one hW]; rfl
    have e2 : (dualD U).2.sw = U.2 := by rw [dualD_one hU]; exact L3.sw_sw _
    rw [e1, e2, qw_symm _ _ h.2]
  · unfold oddD
    rw [if_neg h]; simp

/-! ### Duality -/

section
variable {n : Nat}

/-- the pairing of vectors -/
noncomputable def pr (n : Nat) (f g : WordD → P) : P := ∑ W ∈ WdD n 1, f W * g (dualD W)

theorem sum_dual (F : WordD → P) : ∑ W ∈ WdD n 1, F (dualD W) = ∑ W ∈ WdD n 1, F W :=
  Finset.sum_bij' (fun W _ => dualD W) (fun W _ => dualD W) (fun _ h => dualD_mem h) (fun _ h => dualD_mem h)
    (fun W _ => dualD_dualD W) (fun W _ => dualD_dualD W) (fun _ _ => rfl)

theorem pr_comm (f g : WordD → P) : pr n f g = pr n g f := by
  unfold pr
  rw [← sum_dual]
  exact Finset.sum_congr rfl (fun W _ => by rw [dualD_dualD, mul_comm])

theorem pr_add (f f' g : WordD → P) : pr n (f + f') g = pr n f g + pr n f' g := by
  unfold pr
  rw [← Finset.sum_add_distrib]
  exact Finset.sum_congr rfl (fun W _ => by rw [Pi.add_apply, add_mul])

theorem pr_smul (a : P) (f g : WordD → P) : pr n (a • f) g = a * pr n f g := by
  unfold pr
  rw [Finset.mul_sum]
  exact Finset.sum_congr rfl (fun W _ => by rw [Pi.smul_apply, smul_eq_mul, mul_assoc])

theorem pr_bas (f : WordD → P) {U : WordD} (hU : U ∈ WdD n 1) : pr n f (bas n (labD U)) = f (dualD U) := by
  unfold pr
  rw [Finset.sum_eq_single (dualD U)]
  · rw [dualD_dualD, bas_apply hU, if_pos rfl, mul_one]
  · intro W hW h
    rw [bas_apply hU, if_neg (fun h' => h (by rw [← h', dualD_dualD])), mul_zero]
  · exact fun h => absurd (dualD_mem hU) h

theorem pr_T2 (hn : 1 ≤ n) (p : Int) (f g : WordD → P) : pr n (T2 n p f) g = pr n f (T2 n p g) := by
  have e1 : pr n (T2 n p f) g = ∑ W ∈ WdD n 1, ∑ U ∈ WdD n 1, f U * (M2 p U W * g (dualD W)) := by
    unfold pr
    refine Finset.sum_congr rfl (fun W hW => ?_)
    rw [T2_apply, if_pos hW, Finset.sum_mul]
    exact Finset.sum_congr rfl (fun U _ => by rw [mul_assoc])
  rw [e1, Finset.sum_comm]
  unfold pr
  refine Finset.sum_congr rfl (fun U hU => ?_)
  rw [← Finset.mul_sum, T2_apply, if_pos (dualD_mem hU), ← sum_dual (fun V => g V * M2 p V (dualD U))]
  congr 1
  exact Finset.sum_congr rfl (fun W hW => by rw [M2_dualD p hn hU hW, mul_comm])

theorem pr_act2 (hn : 1 ≤ n) (a : P) (f g : WordD → P) : pr n (act2 hn a f) g = pr n f (act2 hn a g) := by
  have hsm : ∀ (c : P) (f g : WordD → P), pr n (c • f) g = pr n f (c • g) := by
    intro c f g
    rw [pr_smul, pr_comm f (c • g), pr_smul, pr_comm g]
  induction a using MvPolynomial.induction_on generalizing f g with
  | C c => rw [act2_C, act2_C, hsm]
  | add p r hp hr =>
    rw [map_add, LinearMap.add_apply, LinearMap.add_apply, pr_add, hp, hr, pr_comm f, pr_comm f, ← pr_add, pr_comm]
  | mul_X p s hp =>
    have hX : ∀ f g, pr n (act2 hn (X s) f) g = pr n f (act2 hn (X s) g) := by
      intro f g
      unfold act2
      rw [commAct_X]
      rcases op2_cases n s with h | h | ⟨p, h⟩ <;> rw [h]
      · exact hsm _ f g
      · have h0 : ∀ f, pr n (0 : WordD → P) f = 0 := by intro f; unfold pr; simp
        rw [LinearMap.zero_apply, LinearMap.zero_apply, pr_comm f, h0, h0]
      · exact pr_T2 hn p f g
    rw [map_mul, Module.End.mul_apply, hp, hX, ← Module.End.mul_apply, ← map_mul, ← map_mul, mul_comm]

/-- the structure constants -/
noncomputable def str (hn : 1 ≤ n) (U V W : WordD) : P := act2 hn (G n (labD U)) (bas n (labD V)) W

theorem lab_cls {U : WordD} (hU : U ∈ WdD n 1) : clsD n 1 (labD U) := (WdD_cls (by omega) _).2 ⟨U, hU, rfl⟩

theorem str_comm (hn : 1 ≤ n) {U V : WordD} (hU : U ∈ WdD n 1) (hV : V ∈ WdD n 1) (W : WordD) : str hn U V W = str hn V U W := by
  unfold str
  rw [← act_G hn _ (lab_cls hV), act2_comm, act_G hn _ (lab_cls hU)]

theorem str_dual (hn : 1 ≤ n) {U V W : WordD} (hV : V ∈ WdD n 1) (hW : W ∈ WdD n 1) : str hn U V (dualD W) = str hn U W (dualD V) := by
  unfold str
  rw [← pr_bas (act2 hn (G n (labD U)) (bas n (labD V))) hW, pr_act2, pr_comm, pr_bas _ hV]

/-- the word of the unit -/
theorem nil_word (hn : 1 ≤ n) : ∃ U ∈ WdD n 1, labD U = [] := (WdD_cls (by omega) _).1 (clsD_nil (by omega))

theorem str_point (hn : 1 ≤ n) {U V N : WordD} (hU : U ∈ WdD n 1) (hV : V ∈ WdD n 1) (hN : N ∈ WdD n 1) (h0 : labD N = []) :
    str hn U V (dualD N) = if V = dualD U then 1 else 0 := by
  rw [str_dual hn hV hN]
  unfold str
  rw [h0, act_G hn _ (lab_cls hU), bas_apply hU]
  by_cases h : V = dualD U
  · rw [if_pos h, if_pos (by rw [h, dualD_dualD])]
  · rw [if_neg h, if_neg (fun h' => h (by rw [← h', dualD_dualD]))]

end

/-! ### Exchange of the types -/

/-- exchange of the parameters -/
def sq : Sym → Sym
  | .q1 => .q2
  | .q2 => .q1
  | s => s

/-- exchange of the parameters in a polynomial -/
noncomputable def rq : P →ₐ[ℚ] P := rename sq

theorem rq_C (c : ℚ) : rq (C c) = C c := by simp [rq]

theorem E2_sw {p : Int} (hp : p ≠ 0) (U W : WordD) : E2 (swP 1 p) (swD U) (swD W) = rq (E2 p U W) := by
  have e1 : (swP 1 p).natAbs = p.natAbs := by unfold swP; split <;> simp
  have e2 : alD 1 (swP 1 p) = alD 1 p := by unfold alD; rw [e1]
  have e3 : beD 1 (swP 1 p) = -beD 1 p := by
    unfold beD
    rw [e1]
    by_cases h : p.natAbs = 1
    · rw [if_pos h, if_pos h, swP, if_pos h]
      unfold sgD
      split <;> split <;> first | omega | simp
    · rw [if_neg h, if_neg h, neg_zero]
  have e4 : (opSE U W : P) = rq (opSE U W) := (opSE_map (rq : P →+* P) U W).symm
  have e5 : (opGE (Polynomial.C (X .q1) * Polynomial.C (X .q2)) (Polynomial.X : Polynomial P) U W).coeff p.natAbs =
      rq ((opGE (Polynomial.C (X .q1) * Polynomial.C (X .q2)) (Polynomial.X : Polynomial P) U W).coeff p.natAbs) := by
    have := opGE_map (Polynomial.mapRingHom (rq : P →+* P)) (Polynomial.C (X .q1) * Polynomial.C (X .q2)) Polynomial.X U W
    have h2 := congrArg (fun f => Polynomial.coeff f p.natAbs) this
    beta_reduce at h2
    rw [Polynomial.coe_mapRingHom, Polynomial.coeff_map] at h2
    rw [show ∀ x, (rq : P →+* P) x = rq x from fun _ => rfl] at h2
    rw [h2]
    rw [Polynomial.map_X, Polynomial.map_mul, Polynomial.map_C, Polynomial.map_C]
    simp [rq, sq, mul_comm]
  unfold E2
  rw [e1, e2, e3, opGE_sw, opSE_sw, map_mul, map_add, map_mul, rq_C, rq_C, ← e4, ← e5]
  simp

theorem oddD_sw {p : Int} (U W : WordD) : oddD (swP 1 p) (swD U) (swD W) = oddD p U W := by
  have e1 : (swP 1 p).natAbs = p.natAbs := by unfold swP; split <;> simp
  have e2 : OddC (swD U) (swD W) ↔ OddC U W := by
    unfold OddC swD
    cases U.2 <;> cases W.2 <;> simp [L3.sw, cmpt]
  unfold oddD
  rw [e1]
  by_cases h : OddC U W
  · rw [if_pos h, if_pos (e2.2 h)]
    by_cases h1 : p.natAbs ≤ 1
    · rw [if_pos h1, if_pos h1]
      have e3 : (qw (1 : Int) (-1) (swD U).2 (swD W).2.sw) = -qw 1 (-1) U.2 W.2.sw := by
        unfold swD
        cases U.2 <;> cases W.2 <;> rfl
      have e4 : swP 1 p = -p := by unfold swP; split <;> omega
      have e5 : (swD U).1 = U.1 ∧ (swD W).1 = W.1 := ⟨rfl, rfl⟩
      rw [e3, e4, e5.1, e5.2]
      simp only [neg_inj]
    · rw [if_neg h1, if_neg h1]; rfl
  · rw [if_neg h, if_neg (fun h' => h (e2.1 h'))]

theorem M2_sw {p : Int} (hp : p ≠ 0) {n : Nat} (hn : 1 ≤ n) {U W : WordD} (hU : U ∈ WdD n 1) (hW : W ∈ WdD n 1) :
    M2 (swP 1 p) (swD U) (swD W) = rq (M2 p U W) := by
  rw [M2_split _ hn hU hW, M2_split _ hn (swD_mem (by omega) hU) (swD_mem (by omega) hW), E2_sw hp, oddD_sw, map_add, map_mul, rq_C]
  congr 2
  unfold swD
  cases U.2 <;> cases W.2 <;> simp [qw, qOf, L3.sw, rq, sq]

section
variable {n : Nat}

/-- the exchange of the types on vectors -/
noncomputable def Phi (f : WordD → P) : WordD → P := fun W => rq (f (swD W))

theorem sum_sw (F : WordD → P) : ∑ W ∈ WdD n 1, F (swD W) = ∑ W ∈ WdD n 1, F W :=
  Finset.sum_bij' (fun W _ => swD W) (fun W _ => swD W) (fun _ h => swD_mem (by omega) h) (fun _ h => swD_mem (by omega) h)
    (fun W _ => swD_swD W) (fun W _ => swD_swD W) (fun _ _ => rfl)

theorem Phi_T2 (hn : 1 ≤ n) {p : Int} (hp : p ≠ 0) (f : WordD → P) : Phi (T2 n p f) = T2 n (swP 1 p) (Phi f) := by
  funext W
  unfold Phi
  rw [T2_apply, T2_apply]
  by_cases hW : W ∈ WdD n 1
  · have hW' := swD_mem (by omega) hW
    rw [if_pos hW, if_pos hW', map_sum, ← sum_sw]
    refine Finset.sum_congr rfl (fun U hU => ?_)
    rw [map_mul, ← M2_sw hp hn (swD_mem (by omega) hU) hW', swD_swD, swD_swD]
  · rw [if_neg hW, if_neg (fun h => hW (by have := swD_mem (by omega) h; rwa [swD_swD] at this)), map_zero]

theorem Phi_bas {U : WordD} (hU : U ∈ WdD n 1) : Phi (bas n (labD U)) = bas n (labD (swD U)) := by
  funext W
  unfold Phi
  rw [bas_apply hU, bas_apply (swD_mem (by omega) hU)]
  by_cases h : W = swD U
  · rw [if_pos h, if_pos (by rw [h, swD_swD]), map_one]
  · rw [if_neg h, if_neg (fun h' => h (by rw [← h', swD_swD])), map_zero]

/-- an operator matching the exchange of the types -/
theorem exists_sw (hn : 1 ≤ n) {g : P} (hg : g ∈ supported ℚ (specialSet (spcD n 1))) :
    ∃ g' : P, ∀ f, Phi (act2 hn g f) = act2 hn g' (Phi f) := by
  replace hg : g ∈ Algebra.adjoin ℚ ((X : Sym → P) '' specialSet (spcD n 1)) := hg
  induction hg using Algebra.adjoin_induction with
  | mem x hx =>
    obtain ⟨s, hs, rfl⟩ := hx
    rcases hs with rfl | ⟨p, hp, rfl⟩
    · refine ⟨X .q, fun f => ?_⟩
      rw [act2_q, act2_q]
      funext W
      simp [Phi, rq, sq]
    · refine ⟨X (.S (num2spec (swP 1 p))), fun f => ?_⟩
      rw [act2_special hn hp, act2_special hn (swP_spc hp (by omega) (by omega)), Phi_T2 hn (spcD_nz p hp)]
  | algebraMap c =>
    refine ⟨C c, fun f => ?_⟩
    rw [← C_eq_algebraMap, act2_C, act2_C]
    funext W
    simp [Phi, rq]
  | add x y _ _ hx hy =>
    obtain ⟨a, ha⟩ := hx
    obtain ⟨b, hb⟩ := hy
    refine ⟨a + b, fun f => ?_⟩
    rw [map_add, map_add, LinearMap.add_apply, LinearMap.add_apply, ← ha, ← hb]
    funext W
    simp [Phi]
  | mul x y _ _ hx hy =>
    obtain ⟨a, ha⟩ := hx
    obtain ⟨b, hb⟩ := hy
    refine ⟨a * b, fun f => ?_⟩
    rw [map_mul, map_mul, Module.End.mul_apply, Module.End.mul_apply, ha, hb]

theorem str_sw (hn : 1 ≤ n) {U V W : WordD} (hU : U ∈ WdD n 1) (hV : V ∈ WdD n 1) :
    str hn (swD U) (swD V) (swD W) = rq (str hn U V W) := by
  obtain ⟨g', hg⟩ := exists_sw hn (G_supp _ (lab_cls hU))
  obtain ⟨N, hN, h0⟩ := nil_word hn
  have hN' : labD (swD N) = [] := by
    rw [← typeSwap_labD (k := 1) (by omega) hN, h0]
    rfl
  have e0 : Phi (bas n []) = bas n [] := by
    conv_lhs => rw [← h0]
    rw [Phi_bas hN, hN']
  have e1 : act2 hn g' (bas n []) = act2 hn (G n (labD (swD U))) (bas n []) := by
    rw [act_G hn _ (lab_cls (swD_mem (by omega) hU)), ← Phi_bas hU, ← act_G hn _ (lab_cls hU), hg, e0]
  unfold str
  have h1 := congrFun (hg (bas n (labD V))) (swD W)
  rw [Phi_bas hV, act2_det hn e1 (z := bas n (labD (swD V))) (vec_nrm _)] at h1
  rw [← h1]
  unfold Phi
  rw [swD_swD]

end

end TwoProd
end Verif
