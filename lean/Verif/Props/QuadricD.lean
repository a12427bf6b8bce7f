import Verif.Proofs.QuadricD2
import Verif.Props.RelationsD
import Verif.Props.Quadric
/-!
# C109: the even quadrics
-/

namespace Verif
open Spec MvPolynomial

/-- the terms of a product on the quadric, as the polynomial that the code returns -/
def Spec.quadPoly (n : ℕ) (L : List (ℕ × (ℕ × Bool) × ℚ)) : Poly :=
  L.map fun z => (List.replicate z.1 .q ++ [.S (quadCls n z.2.1.1 z.2.1.2)], z.2.2)

theorem den_quadPoly (n : ℕ) (L : List (ℕ × (ℕ × Bool) × ℚ)) (hL : ∀ z ∈ L, z.1 ≤ 2) :
    den (quadPoly n L) = ev (termVal n Polynomial.X (Polynomial.X ^ 2) L) := by
  induction L with
  | nil => simp [quadPoly, termVal]
  | cons z L ih =>
    have e1 : termVal n Polynomial.X (Polynomial.X ^ 2) (z :: L) = Finsupp.single (quadCls n z.2.1.1 z.2.1.2)
      (Polynomial.C z.2.2 * if z.1 = 0 then 1 else if z.1 = 1 then Polynomial.X else Polynomial.X ^ 2) +
        termVal n Polynomial.X (Polynomial.X ^ 2) L := by simp [termVal]
    have e2 : quadPoly n (z :: L) = (List.replicate z.1 .q ++ [.S (quadCls n z.2.1.1 z.2.1.2)], z.2.2) :: quadPoly n L := rfl
    have e3 : (if z.1 = 0 then 1 else if z.1 = 1 then Polynomial.X else Polynomial.X ^ 2 : Polynomial ℚ) = Polynomial.X ^ z.1 := by
      have := hL z (by simp)
      split_ifs with h1 h2
      · rw [h1, pow_zero]
      · rw [h2, pow_one]
      · rw [show z.1 = 2 by omega]
    rw [e1, e2, e3, map_add, ev_single, ← ih (fun z hz => hL z (by simp [hz]))]
    rw [den_cons, monoDen_replicate]
    simp [inq, mul_assoc]

set_option maxHeartbeats 1000000 in
theorem quad_shape {n c u : ℕ} (t s : Bool) (hn : 0 < n) : ∀ L, quadTerms n c t u s = L →
    (∀ z ∈ L, z.2.2 ≠ 0) ∧ L.Pairwise fun z z' => (z.1, z.2.1.1) = (z'.1, z'.2.1.1) → z.2.1.1 = n ∧ z.2.1.2 ≠ z'.2.1.2 := by
  intro L hL
  unfold quadTerms hypTerms at hL
  split_ifs at hL <;> subst hL <;> refine ⟨?_, ?_⟩ <;> simp

theorem wf_quad {n c u : ℕ} (t s : Bool) (hn : 0 < n) : ∀ L, L.Sublist (quadTerms n c t u s) → WF (quadPoly n L) := by
  intro L hL
  obtain ⟨h1, h2⟩ := quad_shape t s hn _ rfl
  refine ⟨?_, ?_⟩
  · unfold quadPoly
    rw [List.map_map, List.Nodup, List.pairwise_map]
    refine (h2.sublist hL).imp ?_
    intro z z' hz e
    have e' := qmono_inj (d := z.1) (l := quadCls n z.2.1.1 z.2.1.2) (d' := z'.1) (l' := quadCls n z'.2.1.1 z'.2.1.2) (by
      rw [← expo_qmono, ← expo_qmono]; exact congrArg expo e)
    obtain ⟨e1, e2⟩ := quadCls_inj e'.2
    obtain ⟨e3, e4⟩ := hz (by rw [e'.1, e1])
    exact e4 (e2 e3)
  · intro x hx
    obtain ⟨z, hz, rfl⟩ := List.mem_map.1 hx
    exact ⟨h1 z (hL.subset hz), qmono_sorted _ _⟩

/-- **C109.** Quantum products on the quadric `OG(1, 2n+2)`, `n ≥ 2`: for any two classes `qmult` returns the terms of the table. -/
theorem C109_quantum (ord : List Int → List Int) {n : ℕ} (hn : 2 ≤ n) {X : Space} (hX : mkOG 1 (2 * n + 2) = .ok X) {fuel : ℕ}
    (hf : giamBoundD 1 n ≤ fuel) {c u : ℕ} (hc : c ≤ 2 * n) (hu : u ≤ 2 * n) (t s : Bool) :
    ∃ w, X.qmult ord fuel (Poly.sym (.S (quadCls n c t))) (Poly.sym (.S (quadCls n u s))) = .ok w ∧
      w.Perm (quadPoly n (quadTerms n c t u s)) := by
  obtain ⟨a, b, h, hb, h1, h2, rfl⟩ := ogdCase' (by omega) (by omega) (by omega) hX
  obtain rfl : n = a := by omega
  obtain rfl : b = n := by omega
  rw [h2, giamBoundD_eq (by omega)] at hf
  obtain ⟨N, rfl⟩ : ∃ N, b = N + 1 := ⟨b - 1, by omega⟩
  have ht : (ringQD ord (N + 1) (N + 1) h hb).Y.t = tDD Polynomial.X (Polynomial.X ^ 2) (N + 1) (N + 1) := by
    show tDD (hQ (N + 1)) (hQ' (N + 1)) (N + 1) (N + 1) = _
    rw [hQ, hQ', if_neg (by omega), if_neg (by omega)]
  have key : Returns (Space.qmult ord ⟨.D, (N + 1 : ℕ), (N + 1 : ℕ)⟩ fuel _ _) _ :=
    (ringQD ord (N + 1) (N + 1) h hb).mult hf (wf_sym (.S (quadCls (N + 1) c t))) (by simp [inq]) (supp_single (quad_cls t hc) 1)
      (wf_sym (.S (quadCls (N + 1) u s))) (by simp [inq]) (supp_single (quad_cls s hu) 1)
  rw [quad_prod _ ht t s hc hu] at key
  obtain ⟨w, h3, h4, h5⟩ := key
  refine ⟨w, h3, perm_of_den_eq h4 (wf_quad t s (by omega) _ (List.Sublist.refl _)) ?_⟩
  rw [h5, den_quadPoly _ _ (fun z hz => (quad_deg t s (by omega) hc hu z hz).1)]

theorem termVal_zero (n : ℕ) (L : List (ℕ × (ℕ × Bool) × ℚ)) :
    termVal n 0 0 L = termVal n Polynomial.X (Polynomial.X ^ 2) (L.filter (fun z => z.1 = 0)) := by
  induction L with
  | nil => simp [termVal]
  | cons z L ih =>
    have e1 : ∀ h h' L, termVal n h h' (z :: L) = Finsupp.single (quadCls n z.2.1.1 z.2.1.2)
      (Polynomial.C z.2.2 * if z.1 = 0 then 1 else if z.1 = 1 then h else h') + termVal n h h' L := by intro h h' L; simp [termVal]
    rw [e1, ih, List.filter_cons]
    by_cases h0 : z.1 = 0
    · rw [if_pos h0, if_pos (by simpa using h0), e1, if_pos h0]
    · rw [if_neg h0, if_neg (c := decide (z.1 = 0) = true) (by simpa using h0)]; simp

/-- **C109.** Classical products on the quadric `OG(1, 2n+2)`, `n ≥ 1`: the terms of the table without `q`. -/
theorem C109_classical {n : ℕ} (hn : 1 ≤ n) {X : Space} (hX : mkOG 1 (2 * n + 2) = .ok X) {fuel : ℕ}
    (hf : giamBoundD 1 n ≤ fuel) {c u : ℕ} (hc : c ≤ 2 * n) (hu : u ≤ 2 * n) (t s : Bool) :
    ∃ w, X.mult fuel (Poly.sym (.S (quadCls n c t))) (Poly.sym (.S (quadCls n u s))) = .ok w ∧
      w.Perm (quadPoly n ((quadTerms n c t u s).filter (fun z => z.1 = 0))) := by
  obtain ⟨a, b, h, h1, h2, rfl⟩ := ogdCase (by omega) (by omega) hX
  obtain rfl : n = a := by omega
  obtain rfl : b = n := by omega
  rw [h2, giamBoundD_eq (by omega)] at hf
  obtain ⟨N, rfl⟩ : ∃ N, b = N + 1 := ⟨b - 1, by omega⟩
  have ht : (ringD (N + 1) (N + 1) h).Y.t = tDD 0 0 (N + 1) (N + 1) := rfl
  have key : Returns (Space.mult ⟨.D, (N + 1 : ℕ), (N + 1 : ℕ)⟩ fuel _ _) _ :=
    (ringD (N + 1) (N + 1) h).mult hf (wf_sym (.S (quadCls (N + 1) c t))) (by simp [inq]) (supp_single (quad_cls t hc) 1)
      (wf_sym (.S (quadCls (N + 1) u s))) (by simp [inq]) (supp_single (quad_cls s hu) 1)
  rw [quad_prod _ ht t s hc hu, termVal_zero] at key
  obtain ⟨w, h3, h4, h5⟩ := key
  refine ⟨w, h3, perm_of_den_eq h4 (wf_quad t s (by omega) _ List.filter_sublist) ?_⟩
  rw [h5, den_quadPoly _ _ (fun z hz => (quad_deg t s (by omega) hc hu z (List.mem_of_mem_filter hz)).1)]

/-- **C109.** The classes of the table are all the classes of the quadric. -/
theorem C109_classes {n : ℕ} (hn : 1 ≤ n) (l : List Int) : DClass 1 n l ↔ ∃ c ≤ 2 * n, ∃ t, l = quadCls n c t := by
  obtain ⟨N, rfl⟩ : ∃ N, n = N + 1 := ⟨n - 1, by omega⟩
  have e := congrFun (dClass_eq (n := N + 1) (k := N + 1) (by omega)) l
  rw [show ((N + 1 : ℕ) : Int) + 1 - ((N + 1 : ℕ) : Int) = 1 by ring] at e
  rw [e, WdD_cls (by omega)]
  constructor
  · rintro ⟨U, hU, rfl⟩
    obtain ⟨c, hc, t, rfl⟩ := mem_qwd hU
    exact ⟨c, by omega, t, labD_qwd t hc⟩
  · rintro ⟨c, hc, t, rfl⟩
    exact ⟨qwd N c t, qwd_mem t (by omega), labD_qwd t (by omega)⟩

example : mkOG 1 6 = .ok ⟨.D, 2, 2⟩ ∧ mkOG 1 8 = .ok ⟨.D, 3, 3⟩ ∧
    quadPoly 2 (quadTerms 2 2 false 2 true) = [([.q, .S []], 1)] ∧ quadPoly 3 (quadTerms 3 3 false 3 true) = [([.S [6]], 1)] ∧
    (Space.mk .D 2 2).qmult id (giamBoundD 1 2) (Poly.sym (.S [2])) (Poly.sym (.S [2, 0])) = .ok [([.q, .S []], 1)] ∧
    (Space.mk .D 3 3).qmult id (giamBoundD 1 3) (Poly.sym (.S [3])) (Poly.sym (.S [3, 0])) = .ok [([.S [6]], 1)] ∧
    quadPoly 2 (quadTerms 2 1 false 1 false) = [([.S [2]], 1), ([.S [2, 0]], 1)] ∧
    (Space.mk .D 2 2).mult (giamBoundD 1 2) (Poly.sym (.S [1])) (Poly.sym (.S [1])) = .ok [([.S [2]], 1), ([.S [2, 0]], 1)] := by
  refine ⟨rfl, rfl, by decide +kernel, by decide +kernel, by decide +kernel, by decide +kernel, by decide +kernel, by decide +kernel⟩

end Verif
