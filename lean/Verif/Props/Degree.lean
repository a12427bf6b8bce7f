import Verif.Proofs.Degree
import Verif.Props.RimProd
import Verif.Props.Quadric
import Verif.Spec.Dec
import Mathlib.Data.Nat.Factorial.SuperFactorial
/-!
# C105: powers of the class of a hyperplane on `Gr(m, n)`
-/

namespace Verif
open Spec
open scoped Nat

theorem sysC_cast_act {m : ℕ} {k k' n n' : ℤ} (e : k = k') (e' : n = n') (hk : 0 ≤ k) (hk' : 0 ≤ k') (hn : n = m + 1 + k) (hn' : n' = m + 1 + k')
    (g : P) (y : LMod) : (sysC m hk hn).act g y = (sysC m hk' hn').act g y := by
  subst e e'; rfl

theorem ringC_act {m : ℕ} {n : ℤ} {X : Space} (hm : 1 ≤ m + 1) (hX : mkGr (m + 1 : ℕ) n = .ok X) {k : ℕ} (hn : n = m + 1 + k)
    (g : P) (y : LMod) : (ringC hm hX).Y.act g y = (sysC m (Int.natCast_nonneg k) hn).act g y := by
  have hX' := hX
  obtain ⟨rfl, h1, h2⟩ := mkGr_ok hX
  have hk : (k : ℤ) = n - (m + 1 : ℕ) := by push_cast; omega
  exact sysC_cast_act (k := n - (m + 1 : ℕ)) (k' := k) (n := n) (n' := n) hk.symm rfl (by omega) _ (by push_cast; ring) hn g y

theorem special_pow {K : ℕ} (hK : 1 ≤ K) (r : ℕ) : SpecialPoly K [(List.replicate r (Sym.S [1]), 1)] := by
  refine ⟨⟨by simp, ?_⟩, ?_⟩
  · intro t ht
    rw [List.mem_singleton] at ht
    subst ht
    refine ⟨one_ne_zero, ?_⟩
    exact List.pairwise_replicate.2 (Or.inr (by decide))
  · intro t ht s hs
    rw [List.mem_singleton] at ht
    subst ht
    rw [List.eq_of_mem_replicate hs]
    exact Or.inr ⟨1, le_refl _, by exact_mod_cast hK, rfl⟩

theorem den_rep (r : ℕ) : den [(List.replicate r (Sym.S [1]), 1)] = MvPolynomial.X (.S [1]) ^ r := by
  simp [den, monoDen]

variable {m : ℕ} {n : ℤ} {X : Space}

/-- **C105.** `S[1]^r * S[mu]` on `Gr(m, n)`: the coefficient of `S[lam]` is the number of standard tableaux of shape
`lam / mu`, as given by Aitken's determinant. -/
theorem C105_Gr_skew (hm : 1 ≤ m) (hmn : (m : ℤ) < n) (hX : mkGr m n = .ok X) (r : ℕ) {mu : List Int} (hmu : GrClass m n mu) :
    ∃ w, Gr.act X [(List.replicate r (.S [1]), 1)] (Poly.sym (.S mu)) = .ok w ∧ LinComb (GrClass m n) w ∧
      ∀ lam, GrClass m n lam → coeffOf [.S lam] w = (if lam.sum = mu.sum + r then aitken m lam mu else 0) ∧
        ∀ d : ℕ, 1 ≤ d → coeffOf (List.replicate d Sym.q ++ [.S lam]) w = 0 := by
  have hsing : ∀ a ∈ (Finsupp.single mu (1 : Polynomial ℚ)).support, GrClass m n a := by
    intro a ha
    rw [Finset.mem_singleton.1 (Finsupp.support_single_subset ha)]
    exact hmu
  obtain ⟨w, hw, hw1, hw2⟩ := (ringC hm hX).act (special_pow (by omega) r) (wf_sym (.S mu)) (y := Finsupp.single mu 1) (by simp [inq]) hsing
  have hsup := (ringC hm hX).Y.act_support (den [(List.replicate r (Sym.S [1]), 1)]) hsing
  refine ⟨w, hw, linComb_of_ev hw1 hw2 hsup, fun lam hlam => ?_⟩
  cases m with
  | zero => omega
  | succ m =>
    obtain ⟨k, hk⟩ : ∃ k : ℕ, (k : ℤ) = n - (m + 1 : ℕ) := ⟨(n - (m + 1 : ℕ)).toNat, by omega⟩
    have hcl : ∀ {l}, GrClass (m + 1) n l → clsA (m + 1) k l := fun h => by rw [hk]; exact h
    have hn : n = m + 1 + k := by rw [hk]; push_cast; ring
    have key : ∀ d : ℕ, coeffOf (List.replicate d Sym.q ++ [.S lam]) w =
        (if lam.sum = mu.sum + r then Polynomial.C (aitken (m + 1) lam mu) else 0).coeff d := by
      intro d
      rw [coeffOf_den hw1 (qmono_sorted d _), hw2, expo_qmono, coeff_ev, ringC_act hm hX hn, den_rep,
        act_pow (by omega) hn r (hcl hlam) (hcl hmu)]
    refine ⟨?_, fun d hd => ?_⟩
    · have := key 0
      rw [List.replicate_zero, List.nil_append] at this
      rw [this]
      split <;> simp
    · rw [key d]
      split
      · rw [Polynomial.coeff_C, if_neg (by omega)]
      · simp

/-- **C105.** For `mu = []` the number is `r! * ∏ (l_i - l_j) / ∏ l_i!` with `l_i = lam_i + m - 1 - i`. -/
theorem C105_Gr (hm : 1 ≤ m) (hmn : (m : ℤ) < n) (hX : mkGr m n = .ok X) (r : ℕ) :
    ∃ w, Gr.act X [(List.replicate r (.S [1]), 1)] (Poly.sym (.S [])) = .ok w ∧ LinComb (GrClass m n) w ∧
      ∀ lam, GrClass m n lam → coeffOf [.S lam] w = (if lam.sum = r then stdCount m lam else 0) ∧
        ∀ d : ℕ, 1 ≤ d → coeffOf (List.replicate d Sym.q ++ [.S lam]) w = 0 := by
  obtain ⟨w, h1, h2, h3⟩ := C105_Gr_skew hm hmn hX r grClass_nil
  refine ⟨w, h1, h2, fun lam hl => ⟨?_, (h3 lam hl).2⟩⟩
  rw [(h3 lam hl).1, List.sum_nil, zero_add]
  cases m with
  | zero => omega
  | succ m =>
    obtain ⟨k, hk⟩ : ∃ k : ℕ, (k : ℤ) = n - (m + 1 : ℕ) := ⟨(n - (m + 1 : ℕ)).toNat, by omega⟩
    rw [aitken_nil (K := k) (by rw [hk]; exact hl)]

/-- The number of standard tableaux of a rectangle. -/
theorem stdCount_rect (m k : ℕ) : stdCount (m + 1) (List.replicate (m + 1) (k : ℤ)) =
    (((m + 1) * k)! : ℚ) * ∏ i ∈ Finset.range (m + 1), ((i ! : ℚ) / ((k + i)! : ℚ)) := by
  have hp : ∀ i : Fin (m + 1), part (List.replicate (m + 1) (k : ℤ)) i = k := by
    intro i
    rw [part, List.getD_eq_getElem _ _ (by rw [List.length_replicate]; exact i.2), List.getElem_replicate]
  unfold stdCount
  rw [Finset.prod_div_distrib, ← mul_div_assoc]
  simp only [hp]
  congr 1
  · congr 1
    · rw [List.sum_replicate, nsmul_eq_mul]
      norm_cast
    · have h := Matrix.det_vandermonde_id_eq_superFactorial (R := ℚ) m
      rw [Matrix.det_vandermonde] at h
      rw [← Nat.cast_prod, Nat.prod_range_succ_factorial, ← h]
      refine Finset.prod_congr rfl fun i _ => Finset.prod_congr rfl fun j _ => ?_
      push_cast
      ring
  · rw [← Finset.prod_range_reflect, Finset.prod_range]
    refine Finset.prod_congr rfl fun i _ => ?_
    have := i.2
    congr 2
    push_cast
    omega

/-- **C105.** The degree of `Gr(m, n)`: `S[1]^(m*k) = (m*k)! * ∏ i!/(k+i)!` times the class of a point, `k = n - m`. -/
theorem C105_Gr_degree (hm : 1 ≤ m) (k : ℕ) (hk : 1 ≤ k) (hX : mkGr m (m + k : ℕ) = .ok X) :
    Gr.act X [(List.replicate (m * k) (.S [1]), 1)] (Poly.sym (.S [])) =
      .ok [([.S (List.replicate m (k : ℤ))], ((m * k)! : ℚ) * ∏ i ∈ Finset.range m, ((i ! : ℚ) / ((k + i)! : ℚ)))] := by
  have hsing : ∀ a ∈ (Finsupp.single [] (1 : Polynomial ℚ)).support, GrClass m (m + k : ℕ) a := by
    intro a ha
    rw [Finset.mem_singleton.1 (Finsupp.support_single_subset ha)]
    exact grClass_nil
  cases m with
  | zero => omega
  | succ m =>
    have hn : ((m + 1 + k : ℕ) : ℤ) = m + 1 + k := by push_cast; ring
    have hkk : ((m + 1 + k : ℕ) : ℤ) - (m + 1 : ℕ) = k := by push_cast; ring
    have hret := (ringC hm hX).act (special_pow (by omega) ((m + 1) * k)) (wf_sym (.S [])) (y := Finsupp.single [] 1) (by simp [inq]) hsing
    rw [ringC_act hm hX hn, den_rep] at hret
    have hsup := (sysC m (Int.natCast_nonneg k) hn).act_support (MvPolynomial.X (.S [1]) ^ ((m + 1) * k)) (clsA_single (cls_nil k))
    have hpt : clsA (m + 1) k (List.replicate (m + 1) (k : ℤ)) := by
      refine ⟨⟨by simp [List.pairwise_replicate], fun x hx => ?_⟩, by simp, fun x hx => ?_⟩
      · rw [List.eq_of_mem_replicate hx]; omega
      · rw [List.eq_of_mem_replicate hx]
    have e : (sysC m (Int.natCast_nonneg k) hn).act (MvPolynomial.X (.S [1]) ^ ((m + 1) * k)) (Finsupp.single [] 1) =
        Finsupp.single (List.replicate (m + 1) (k : ℤ)) (Polynomial.C (stdCount (m + 1) (List.replicate (m + 1) (k : ℤ)))) := by
      ext1 l
      by_cases hl : l = List.replicate (m + 1) (k : ℤ)
      · subst hl
        rw [Finsupp.single_eq_same, act_pow hk hn _ hpt (cls_nil k), if_pos (by simp), aitken_nil hpt]
      · rw [Finsupp.single_eq_of_ne hl]
        by_contra hne
        have hc := hsup l (Finsupp.mem_support_iff.2 hne)
        rw [act_pow hk hn _ hc (cls_nil k)] at hne
        by_cases hs : l.sum = List.sum [] + (((m + 1) * k : ℕ) : ℤ)
        · apply hl
          rw [List.sum_nil, zero_add] at hs
          have hle : l.length = m + 1 := by
            by_contra hlt
            have h1 : l.length ≤ m := by have := hc.2.1; omega
            have h2 : l.sum ≤ l.length • (k : ℤ) := List.sum_le_card_nsmul l _ hc.2.2
            rw [hs, nsmul_eq_mul] at h2
            push_cast at h2
            nlinarith
          refine List.eq_replicate_iff.2 ⟨hle, fun x hx => ?_⟩
          by_contra hxk
          have h3 := hc.2.2 x hx
          have h4 : l.sum < l.length • (k : ℤ) := by
            have := List.sum_lt_sum (l := l) (fun a => a) (fun _ => (k : ℤ)) (fun a ha => hc.2.2 a ha) ⟨x, hx, lt_of_le_of_ne h3 hxk⟩
            simpa using this
          rw [hs, hle, nsmul_eq_mul] at h4
          push_cast at h4
          exact absurd h4 (lt_irrefl _)
        · rw [if_neg hs] at hne
          exact hne rfl
    rw [e, ev_single, stdCount_rect] at hret
    refine returns_mono ?_ (by simp) (show Returns (Gr.act X _ _) _ from by
      rw [show ∀ c : ℚ, inq (Polynomial.C c) = MvPolynomial.C c from fun c => by simp [inq]] at hret
      simp only [monoDen, List.map_cons, List.map_nil, List.prod_cons, List.prod_nil, mul_one]
      exact hret)
    have h0 : ∀ a : ℕ, ((a ! : ℕ) : ℚ) ≠ 0 := fun a => by exact_mod_cast Nat.factorial_ne_zero a
    exact mul_ne_zero (h0 _) (Finset.prod_ne_zero_iff.2 fun i _ => div_ne_zero (h0 _) (h0 _))

/-- `Gr(2, 5)`: the class `S[3,1]` in `S[1]^4` and in `S[1]^2 * S[2]`; the degree 5 of the Plücker embedding. -/
example : mkGr 2 5 = .ok ⟨.A, 3, 5⟩ ∧ GrClass 2 5 [3, 1] ∧ GrClass 2 5 [2] ∧ stdCount 2 [3, 1] = 3 ∧
    Gr.act ⟨.A, 3, 5⟩ [(List.replicate 4 (.S [1]), 1)] (Poly.sym (.S [])) = .ok [([.S [2, 2]], 2), ([.S [3, 1]], 3)] ∧
    Gr.act ⟨.A, 3, 5⟩ [(List.replicate 2 (.S [1]), 1)] (Poly.sym (.S [2])) = .ok [([.S [2, 2]], 1), ([.S [3, 1]], 2)] ∧
    aitken 2 [3, 1] [2] = 2 ∧
    Gr.act ⟨.A, 3, 5⟩ [(List.replicate 6 (.S [1]), 1)] (Poly.sym (.S [])) = .ok [([.S [3, 3]], 5)] := by
  refine ⟨by decide, by decide, by decide, by decide +kernel, by decide +kernel, by decide +kernel, ?_, by decide +kernel⟩
  rw [aitken, Matrix.det_fin_two]
  decide +kernel

end Verif
