import Verif.Proofs.TwoDeg
import Verif.Props.TwoProd
import Verif.Props.DualD
/-!
# C113 – C115: duality, exchange of the types, degrees and integrality on `OG(n, 2n+2)` with its two parameters
-/

namespace Verif
open Spec TwoProd MvPolynomial

/-- **C113**. In `S[l] * S[mu]` the point class occurs only if `mu` is the dual class of `l`, then with the coefficient `1`, and never
with `q1` or `q2`. -/
theorem C113_duality {ord : List Int → List Int} (ho : Ascending ord) {n : Int} (hn : 1 ≤ n) {X : Space} (hX : mkOG n (2 * n + 2) = .ok X)
    {fuel : Nat} (hf : giamBoundD n n ≤ fuel) {l mu : List Int} (hl : DClass n n l) (hmu : DClass n n mu) :
    ∃ w l', X.qmult ord fuel (Poly.sym (.S l)) (Poly.sym (.S mu)) = .ok w ∧ X.dualize l = .ok l' ∧
      ∀ a b c, coeffOf (parMono a b c ++ [.S X.pointClass]) w = if mu = l' ∧ a = 0 ∧ b = 0 ∧ c = 0 then 1 else 0 := by
  obtain ⟨m, h1, rfl, rfl⟩ := og2Case hn hX
  rw [giamBoundD_one] at hf
  rw [dClass_one] at hl hmu
  obtain ⟨U, hU, rfl⟩ := (WdD_cls (by omega) _).1 hl
  obtain ⟨V, hV, rfl⟩ := (WdD_cls (by omega) _).1 hmu
  obtain ⟨w, e1, e2, e3⟩ := qmult_cls ho h1 hf hU hV
  refine ⟨w, dlD m 1 (labD U), e1, dualize_dlD (by omega) _ hl, fun a b c => ?_⟩
  obtain ⟨N, hN, h0⟩ := nil_word h1
  have ep : (Space.mk .D ((1 : Nat) : Int) m).pointClass = labD (dualD N) := by
    rw [← pointClass_D (by omega), ← h0, dlD_labD (by omega) hN]
  have hz : expo (parMono a b c) = 0 ↔ a = 0 ∧ b = 0 ∧ c = 0 := by
    constructor
    · intro h
      obtain ⟨c1, c2, c3, -⟩ := parMono_count a b c
      rw [← expo_apply, h] at c1 c2 c3
      exact ⟨c1.symm, c2.symm, c3.symm⟩
    · rintro ⟨rfl, rfl, rfl⟩; simp [parMono, expo]
  rw [ep, coeffOf_ev2 e2 e3 (dualD_mem hN), str_point h1 hU hV hN h0, dlD_labD (by omega) hU]
  by_cases hd : V = dualD U
  · subst hd
    rw [if_pos rfl, coeff_one]
    by_cases h : a = 0 ∧ b = 0 ∧ c = 0
    · rw [if_pos (hz.2 h).symm, if_pos ⟨rfl, h⟩]
    · rw [if_neg (fun h' => h (hz.1 h'.symm)), if_neg (fun h' => h h'.2)]
  · rw [if_neg hd, coeff_zero, if_neg (fun h => hd (WdD_inj _ hV _ (dualD_mem hU) h.1))]

/-- in `OG(2, 6)` the dual of `S[2,1]` is the class `S[1,1,0]` of the other type -/
example : DClass 2 2 [2, 1] ∧ DClass 2 2 [1, 1, 0] ∧ (Space.mk .D 1 2).dualize [2, 1] = .ok [1, 1, 0] ∧ (Space.mk .D 1 2).pointClass = [3, 2] ∧
    (Space.mk .D 1 2).qmult id 40 (Poly.sym (.S [2, 1])) (Poly.sym (.S [1, 1, 0])) = .ok [([.S [3, 2]], 1)] ∧
    (Space.mk .D 1 2).qmult id 40 (Poly.sym (.S [2, 1])) (Poly.sym (.S [1, 1])) = .ok [([.q1, .S [2]], 1)] := by
  refine ⟨⟨[2, 1], ⟨by decide, by decide⟩, by unfold KStrict; decide, ⟨by decide, by decide⟩, .inl rfl⟩,
    ⟨[1, 1], ⟨by decide, by decide⟩, by unfold KStrict; decide, ⟨by decide, by decide⟩, .inr ⟨by decide, rfl⟩⟩, ?_, ?_, ?_, ?_⟩ <;>
    decide +kernel

/-- **C113**. The structure constants do not depend on the order of the three classes: the coefficient of the dual of `S[nu]` in
`S[l] * S[mu]` is that of the dual of `S[mu]` in `S[l] * S[nu]`, for each power of `q1` and `q2`. -/
theorem C113_symmetric {ord : List Int → List Int} (ho : Ascending ord) {n : Int} (hn : 1 ≤ n) {X : Space} (hX : mkOG n (2 * n + 2) = .ok X)
    {fuel : Nat} (hf : giamBoundD n n ≤ fuel) {l mu nu : List Int} (hl : DClass n n l) (hmu : DClass n n mu) (hnu : DClass n n nu) :
    ∃ w w' mu' nu', X.qmult ord fuel (Poly.sym (.S l)) (Poly.sym (.S mu)) = .ok w ∧ X.qmult ord fuel (Poly.sym (.S l)) (Poly.sym (.S nu)) = .ok w' ∧
      X.dualize mu = .ok mu' ∧ X.dualize nu = .ok nu' ∧
      ∀ a b c, coeffOf (parMono a b c ++ [.S nu']) w = coeffOf (parMono a b c ++ [.S mu']) w' := by
  obtain ⟨m, h1, rfl, rfl⟩ := og2Case hn hX
  rw [giamBoundD_one] at hf
  rw [dClass_one] at hl hmu hnu
  obtain ⟨U, hU, rfl⟩ := (WdD_cls (by omega) _).1 hl
  obtain ⟨V, hV, rfl⟩ := (WdD_cls (by omega) _).1 hmu
  obtain ⟨W, hW, rfl⟩ := (WdD_cls (by omega) _).1 hnu
  obtain ⟨w, e1, e2, e3⟩ := qmult_cls ho h1 hf hU hV
  obtain ⟨w', e1', e2', e3'⟩ := qmult_cls ho h1 hf hU hW
  refine ⟨w, w', dlD m 1 (labD V), dlD m 1 (labD W), e1, e1', dualize_dlD (by omega) _ hmu, dualize_dlD (by omega) _ hnu, fun a b c => ?_⟩
  rw [dlD_labD (by omega) hV, dlD_labD (by omega) hW, coeffOf_ev2 e2 e3 (dualD_mem hW), coeffOf_ev2 e2' e3' (dualD_mem hV), str_dual h1 hV hW]

/-- `l = [1,1]`, `mu = [2,1]` and `nu = [2]` in `OG(2, 6)`: the coefficients of `q1*S[2]` and `q1*S[1,1,0]` are equal. -/
example : (Space.mk .D 1 2).dualize [2, 1] = .ok [1, 1, 0] ∧ (Space.mk .D 1 2).dualize [3] = .ok [2] ∧
    (Space.mk .D 1 2).qmult id 40 (Poly.sym (.S [1, 1])) (Poly.sym (.S [2, 1])) = .ok [([.q1, .S [2]], 1)] ∧
    (Space.mk .D 1 2).qmult id 40 (Poly.sym (.S [1, 1])) (Poly.sym (.S [3])) = .ok [([.q1, .S [1, 1, 0]], 1)] := by decide +kernel

/-- **C114**. Exchanging the types of all classes together with `q1` and `q2` respects the quantum product. -/
theorem C114_swap {ord : List Int → List Int} (ho : Ascending ord) {n : Int} (hn : 1 ≤ n) {X : Space} (hX : mkOG n (2 * n + 2) = .ok X)
    {fuel : Nat} (hf : giamBoundD n n ≤ fuel) {l mu : List Int} (hl : DClass n n l) (hmu : DClass n n mu) :
    DClass n n (X.typeSwap l) ∧ X.typeSwap (X.typeSwap l) = l ∧
    ∃ w w', X.qmult ord fuel (Poly.sym (.S l)) (Poly.sym (.S mu)) = .ok w ∧
      X.qmult ord fuel (Poly.sym (.S (X.typeSwap l))) (Poly.sym (.S (X.typeSwap mu))) = .ok w' ∧
      ∀ nu, DClass n n nu → ∀ a b c, coeffOf (parMono a c b ++ [.S (X.typeSwap nu)]) w' = coeffOf (parMono a b c ++ [.S nu]) w := by
  obtain ⟨m, h1, rfl, rfl⟩ := og2Case hn hX
  rw [giamBoundD_one] at hf
  rw [dClass_one] at hl hmu ⊢
  obtain ⟨U, hU, rfl⟩ := (WdD_cls (by omega) _).1 hl
  obtain ⟨V, hV, rfl⟩ := (WdD_cls (by omega) _).1 hmu
  have hs : ∀ W ∈ WdD m 1, swD W ∈ WdD m 1 := fun W hW => swD_mem (by omega) hW
  have ht : ∀ W ∈ WdD m 1, (Space.mk .D ((1 : Nat) : Int) m).typeSwap (labD W) = labD (swD W) := by
    intro W hW
    simp only [Space.typeSwap, if_true]
    exact typeSwap_labD (by omega) hW
  obtain ⟨w, e1, e2, e3⟩ := qmult_cls ho h1 hf hU hV
  obtain ⟨w', e1', e2', e3'⟩ := qmult_cls ho h1 hf (hs U hU) (hs V hV)
  refine ⟨by rw [ht U hU]; exact lab_cls (hs U hU), by rw [ht U hU, ht _ (hs U hU), swD_swD], w, w', e1,
    by rw [ht U hU, ht V hV]; exact e1', fun nu hnu a b c => ?_⟩
  obtain ⟨W, hW, rfl⟩ := (WdD_cls (by omega) _).1 hnu
  rw [ht W hW, coeffOf_ev2 e2 e3 hW, coeffOf_ev2 e2' e3' (hs W hW), str_sw h1 hU hV, coeff_rq]

/-- in `OG(2, 6)` -/
example : (Space.mk .D 1 2).typeSwap [1, 1] = [1, 1, 0] ∧ (Space.mk .D 1 2).typeSwap [2] = [2] ∧
    (Space.mk .D 1 2).qmult id 40 (Poly.sym (.S [1, 1])) (Poly.sym (.S [2, 1])) = .ok [([.q1, .S [2]], 1)] ∧
    (Space.mk .D 1 2).qmult id 40 (Poly.sym (.S [1, 1, 0])) (Poly.sym (.S [2, 1, 0])) = .ok [([.q2, .S [2]], 1)] := by decide +kernel

/-- **C115**. Every term of `S[l] * S[mu]` is an integral multiple of a class and powers of `q1` and `q2`, where `q1` and `q2` have the
degree `n+1`. -/
theorem C115_terms {ord : List Int → List Int} (ho : Ascending ord) {n : Int} (hn : 1 ≤ n) {X : Space} (hX : mkOG n (2 * n + 2) = .ok X)
    {fuel : Nat} (hf : giamBoundD n n ≤ fuel) {l mu : List Int} (hl : DClass n n l) (hmu : DClass n n mu) :
    X.degreeQ = n + 1 ∧
    ∃ w, X.qmult ord fuel (Poly.sym (.S l)) (Poly.sym (.S mu)) = .ok w ∧
      ∀ t ∈ w, ∃ (b c : Nat) (nu : List Int) (z : ℤ), t.1 = parMono 0 b c ++ [.S nu] ∧ t.2 = z ∧ DClass n n nu ∧
        nu.sum + (b + c) * (n + 1) = l.sum + mu.sum := by
  obtain ⟨m, h1, rfl, rfl⟩ := og2Case hn hX
  rw [giamBoundD_one] at hf
  rw [dClass_one] at hl hmu ⊢
  obtain ⟨U, hU, rfl⟩ := (WdD_cls (by omega) _).1 hl
  obtain ⟨V, hV, rfl⟩ := (WdD_cls (by omega) _).1 hmu
  obtain ⟨w, e1, e2, e3⟩ := qmult_cls ho h1 hf hU hV
  refine ⟨by simp [Space.degreeQ], w, e1, fun t ht => ?_⟩
  obtain ⟨qs, nu, g1, g2, g3⟩ := (linComb2_of_ev h1 e2 (str_par h1 U V) e3).2 t ht
  obtain ⟨W, hW, rfl⟩ := (WdD_cls (by omega) _).1 g3
  have hsrt : MSorted qs := by
    have := e2.sorted t ht
    rw [g1] at this
    exact (List.pairwise_append.1 this).1
  have hq : qs = parMono (expo qs .q) (expo qs .q1) (expo qs .q2) := by
    refine expo_inj hsrt (parMono_sorted _ _ _) (expo_par (fun s hs => g2 s ?_)).symm
    rw [Finsupp.mem_support_iff, expo_apply] at hs
    exact List.count_pos_iff.1 (Nat.pos_of_ne_zero hs)
  have hc := coeff_den_mem e2 (m := t.1) (c := t.2) ht
  rw [g1, e3, coeff_ev2 _ hW g2] at hc
  obtain ⟨r1, r2, z, r3⟩ := str_good h1 hU hV hW (expo qs) (by rw [hc]; exact (e2.2 t ht).1)
  refine ⟨expo qs .q1, expo qs .q2, labD W, z, ?_, by rw [← hc, r3], g3, ?_⟩
  · rw [g1, ← r1, ← hq]
  · push_cast at r2
    linarith

/-- in `OG(3, 8)` the degree `3 + 3` is that of `q1` and a class of degree `2`; in `OG(2, 6)` the degree `4 + 4` that of `q1*q2` and a
class of degree `2` -/
example : (Space.mk .D 1 3).degreeQ = 4 ∧
    (Space.mk .D 1 3).qmult id 40 (Poly.sym (.S [1, 1, 1])) (Poly.sym (.S [1, 1, 1])) = .ok [([.q1, .S [1, 1, 0]], 1), ([.q1, .S [1, 1]], 1)] ∧
    (Space.mk .D 1 2).degreeQ = 3 ∧
    (Space.mk .D 1 2).qmult id 40 (Poly.sym (.S [3, 1])) (Poly.sym (.S [3, 1])) = .ok [([.q1, .q2, .S [1, 1]], 1)] := by decide +kernel

end Verif
