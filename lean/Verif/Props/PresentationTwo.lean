import Verif.Proofs.TwoPres
import Verif.Props.TwoProd
/-!
# C137: presentation of the quantum ring of `OG(m, 2m+2)` with its two parameters

C138: quantum multiplication by the sums of the two columns on these spaces.
-/

namespace Verif
open Spec MvPolynomial TwoProd

/-! ### The relations in the two forms -/

theorem castK2 (m : ℕ) : (((m + 1 : ℕ) : ℤ) + 1) = ((m + 1 + 1 : ℕ) : ℤ) := by push_cast; ring

theorem cvar_cast (m : ℕ) : cvarD 1 (((m + 1 : ℕ) : ℤ) + 1) = cvarD ((1 : ℕ) : ℤ) ((m + 1 + 1 : ℕ) : ℤ) := by rw [castK2, Nat.cast_one]

theorem range_Q2 (m : ℕ) : Set.range (fun i => relD' m 1 i - tau m i) = presQ2 (m + 1) := by
  have e1 : ∀ j h, relD' m 1 (.inl ⟨j, h⟩) - tau m (.inl ⟨j, h⟩) = detOnes (cvarD 1 (((m + 1 : ℕ) : ℤ) + 1)) (m + 1 + 1) - (X .q1 + X .q2) := by
    intro j h
    obtain rfl : j = m + 1 + 1 := by omega
    rw [cvar_cast]
    rfl
  have e2 : ∀ r, relD' m 1 (.inr (.inl r)) - tau m (.inr (.inl r)) = hvar (((m + 1 : ℕ) : ℤ) + 1) (r : ℕ) ^ 2 +
      ∑ i ∈ Finset.Icc 1 (r : ℕ), (-1) ^ i * (hvar (((m + 1 : ℕ) : ℤ) + 1) ((r : ℕ) + i) * cvarD 1 (((m + 1 : ℕ) : ℤ) + 1) ((r : ℕ) - i)) := by
    intro r
    rw [cvar_cast, castK2, tau, sub_zero]
    exact qd_large _ _ r.2.1
  have e3 : relD' m 1 (.inr (.inr true)) - tau m (.inr (.inr true)) = X (.S [1]) * X (.S [1, 0]) - X (.S [2]) := by
    rw [tau, sub_zero]
    refine (mid_eq (n := m + 1) (by omega)).trans ?_
    rw [pow_one, neg_one_mul, ← sub_eq_add_neg, mul_comm]
    rfl
  have e4 : relD' m 1 (.inr (.inr false)) - tau m (.inr (.inr false)) =
      (X (.S [1]) - X (.S [1, 0])) * detOnes (cvarD 1 (((m + 1 : ℕ) : ℤ) + 1)) (m + 1) - (X .q1 - X .q2) := by
    have h : dl ((1 : ℕ) : ℤ) (m + 1 + 1 : ℕ) = X (.S [1]) - X (.S [1, 0]) := by
      unfold dl
      rw [hvar_S one_pos (by omega)]
      rfl
    rw [cvar_cast, ← h]
    rfl
  ext x
  unfold presQ2
  rw [Set.mem_union, Set.mem_union, Set.mem_union, Set.mem_range]
  constructor
  · rintro ⟨⟨j, hj⟩ | r | b, rfl⟩
    · exact Or.inl (Or.inl (Or.inl (e1 j hj)))
    · exact Or.inl (Or.inl (Or.inr ⟨r, r.2.1, by have := r.2.2; omega, e2 r⟩))
    · cases b
      · exact Or.inr e4
      · exact Or.inl (Or.inr e3)
  · rintro (((h | ⟨r, h1, h2, rfl⟩) | h) | h)
    · rw [Set.mem_singleton_iff] at h
      exact ⟨.inl ⟨m + 2, by omega, by omega⟩, (e1 _ _).trans h.symm⟩
    · exact ⟨.inr (.inl ⟨r, h1, by omega⟩), e2 ⟨r, h1, by omega⟩⟩
    · rw [Set.mem_singleton_iff] at h
      exact ⟨.inr (.inr true), e3.trans h.symm⟩
    · rw [Set.mem_singleton_iff] at h
      exact ⟨.inr (.inr false), e4.trans h.symm⟩

theorem iff_Q2 {m : ℕ} (hn : 1 ≤ m + 1) {e : P} (he : e ∈ supported ℚ (specialSet (spcD (m + 1) 1))) :
    act2 hn e (bas (m + 1) []) = 0 ↔ e ∈ Ideal.span (presQ2 (m + 1)) := by
  rw [← range_Q2]
  exact pres2 hn he

theorem bas_nrm {n : ℕ} (l : List Int) : Nrm n (bas n l) := vec_nrm _

theorem ev2_unit {n : ℕ} (hn : 1 ≤ n) : den (Poly.sym (.S [])) = ev2 n (bas n []) := by
  have h : ∀ l ∈ (Finsupp.single ([] : List Int) (1 : Polynomial ℚ)).support, clsD n 1 l := fun l hl => by
    rw [Finset.mem_singleton.1 (Finsupp.support_single_subset hl)]
    exact (WdD_cls (by omega) _).2 ⟨_, col0_mem n, labD_col0 n⟩
  rw [← vecL_single, ev2_vecL hn h]
  simp [inq]

section
variable {m : ℕ} {X : Space} {e f : Poly} {ord : List Int → List Int}

/-- **C137**. For `OG(m, 2m+2)` with the parameters `q1`, `q2`, and polynomials in `q` and the special classes `S[1]`, ..., `S[m+1]`, `S[1,0]`:
`qact(e, S[]) = qact(f, S[])` if and only if `e - f` lies in the ideal of the relations, and then `e` and `f` act in the same way on
all linear combinations, with coefficients in `q`, `q1` and `q2`. -/
theorem C137_presentation (ho : Ascending ord) (hm : 0 < m) (hX : mkOG m (2 * (m : Int) + 2) = .ok X)
    (he : DSpecialPoly m m e) (hf : DSpecialPoly m m f) :
    (SameResult (X.qact ord e (Poly.sym (.S []))) (X.qact ord f (Poly.sym (.S []))) ↔ den e - den f ∈ Ideal.span (presQ2 m)) ∧
    (den e - den f ∈ Ideal.span (presQ2 m) → ∀ x, LinComb2 (DClass m m) x → SameResult (X.qact ord e x) (X.qact ord f x)) := by
  obtain ⟨a, h1, h2, rfl⟩ := og2Case (by omega) hX
  obtain rfl : a = m := by omega
  obtain ⟨m, rfl⟩ : ∃ m', a = m' + 1 := ⟨a - 1, by omega⟩
  have he' := (dSpecIn_one _ _).2 he
  have hf' := (dSpecIn_one _ _).2 hf
  have hs := iff_Q2 h1 (Subalgebra.sub_mem _ (specIn_supported he') (specIn_supported hf'))
  rw [map_sub, LinearMap.sub_apply, sub_eq_zero] at hs
  obtain ⟨u, u1, u2, u3⟩ := qact2 ho h1 he' (wf_sym _) (ev2_unit h1) (bas_par _)
  obtain ⟨v, v1, v2, v3⟩ := qact2 ho h1 hf' (wf_sym _) (ev2_unit h1) (bas_par _)
  constructor
  · rw [← hs, u1, v1]
    constructor
    · rintro ⟨w, w', hw, hw', hp⟩
      cases hw
      cases hw'
      have := den_perm hp
      rw [u3, v3] at this
      exact ev2_inj (act2_nrm h1 _ (bas_nrm _)) (act2_nrm h1 _ (bas_nrm _)) (act2_par h1 _ (bas_par _)) (act2_par h1 _ (bas_par _)) this
    · intro h
      exact ⟨u, v, rfl, rfl, perm_of_den_eq u2 v2 (by rw [u3, v3, h])⟩
  · intro h x hx
    rw [dClass_one] at hx
    obtain ⟨g, pg, ng, hd⟩ := norm_ev hx h1
    refine same_of_returns (qact2 ho h1 he' hx.1 hd pg) ?_
    rw [act2_det h1 (hs.2 h) ng]
    exact qact2 ho h1 hf' hx.1 hd pg

/-- **C137**. The determinant of `m+1` ones acts as `q1 + q2`. -/
theorem C137_det (ho : Ascending ord) (hm : 0 < m) (hX : mkOG m (2 * (m : Int) + 2) = .ok X)
    (he : DSpecialPoly m m e) (hd : den e = detOnes (cvarD 1 (m + 1)) (m + 1)) {x : Poly} (hx : LinComb2 (DClass m m) x) :
    SameResult (X.qact ord e x) (.ok (Poly.mul [([.q1], 1), ([.q2], 1)] x)) := by
  obtain ⟨a, h1, h2, rfl⟩ := og2Case (by omega) hX
  obtain rfl : a = m := by omega
  obtain ⟨m, rfl⟩ : ∃ m', a = m' + 1 := ⟨a - 1, by omega⟩
  rw [dClass_one] at hx
  obtain ⟨g, pg, ng, hg⟩ := norm_ev hx h1
  refine same_of_returns (qact2 ho h1 ((dSpecIn_one _ _).2 he) hx.1 hg pg) ⟨_, rfl, wf_mul hx.1, ?_⟩
  have h3 : act2 h1 (den e) (bas (m + 1) []) = (MvPolynomial.X .q1 + MvPolynomial.X .q2 : P) • bas (m + 1) [] := by
    rw [hd, cvar_cast]
    exact act2_rel h1 (.inl ⟨m + 2, by omega, by omega⟩)
  have h4 : act2 h1 (den e) g = (MvPolynomial.X .q1 + MvPolynomial.X .q2 : P) • g := scalar_act h1 h3 ng
  rw [den_mul, h4, ev2_smul, hg]
  simp [den, monoDen]

/-- **C137**. `(S[1] - S[1,0])` times the determinant of `m` ones acts as `q1 - q2`. -/
theorem C137_difference (ho : Ascending ord) (hm : 0 < m) (hX : mkOG m (2 * (m : Int) + 2) = .ok X)
    (he : DSpecialPoly m m e) (hd : den e = (MvPolynomial.X (.S [1]) - MvPolynomial.X (.S [1, 0])) * detOnes (cvarD 1 (m + 1)) m)
    {x : Poly} (hx : LinComb2 (DClass m m) x) :
    SameResult (X.qact ord e x) (.ok (Poly.mul [([.q1], 1), ([.q2], -1)] x)) := by
  obtain ⟨a, h1, h2, rfl⟩ := og2Case (by omega) hX
  obtain rfl : a = m := by omega
  obtain ⟨m, rfl⟩ : ∃ m', a = m' + 1 := ⟨a - 1, by omega⟩
  rw [dClass_one] at hx
  obtain ⟨g, pg, ng, hg⟩ := norm_ev hx h1
  refine same_of_returns (qact2 ho h1 ((dSpecIn_one _ _).2 he) hx.1 hg pg) ⟨_, rfl, wf_mul hx.1, ?_⟩
  have h3 : act2 h1 (den e) (bas (m + 1) []) = (MvPolynomial.X .q1 - MvPolynomial.X .q2 : P) • bas (m + 1) [] := by
    have h : dl ((1 : ℕ) : ℤ) (m + 1 + 1 : ℕ) = MvPolynomial.X (.S [1]) - MvPolynomial.X (.S [1, 0]) := by
      unfold dl
      rw [hvar_S one_pos (by omega)]
      rfl
    rw [hd, cvar_cast, ← h]
    exact act2_rel h1 (.inr (.inr false))
  have h4 : act2 h1 (den e) g = (MvPolynomial.X .q1 - MvPolynomial.X .q2 : P) • g := scalar_act h1 h3 ng
  rw [den_mul, h4, ev2_smul, hg]
  simp [den, monoDen, sub_eq_add_neg]

/-- **C138**. On `OG(m, 2m+2)`, with `c(1) = S[1] + S[1,0]` and `c(p) = 2*S[p]` for `p > 1`, the determinant `det(c(1-a+b))` of size
`1 ≤ j ≤ m` acts as the quantum product with the sum of `S[1, ..., 1]` and `S[1, ..., 1, 0]` (`j` ones), without corrections in `q1`, `q2`. -/
theorem C138_columns (ho : Ascending ord) (hm : 0 < m) (hX : mkOG m (2 * (m : Int) + 2) = .ok X)
    {fuel : ℕ} (hfu : giamBoundD m m ≤ fuel) (he : DSpecialPoly m m e) {j : ℕ} (hj0 : 0 < j) (hj : j ≤ m)
    (hd : den e = detOnes (cvarD 1 (m + 1)) j) {y : Poly} (hy : WF y)
    (hyd : den y = MvPolynomial.X (.S (List.replicate j 1)) + MvPolynomial.X (.S (List.replicate j 1 ++ [0])))
    {x : Poly} (hx : LinComb2 (DClass m m) x) :
    SameResult (X.qact ord e x) (X.qmult ord fuel y x) := by
  obtain ⟨a, h1, h2, rfl⟩ := og2Case (by omega) hX
  obtain rfl : a = m := by omega
  obtain ⟨m, rfl⟩ : ∃ m', a = m' + 1 := ⟨a - 1, by omega⟩
  rw [dClass_one] at hx
  rw [giamBoundD_one] at hfu
  obtain ⟨g, pg, ng, hg⟩ := norm_ev hx h1
  have hv : den y = ev (colV (m + 1) j) := by
    rw [hyd, colV, if_neg (by omega), if_pos hj, map_add]
    simp [inq]
  have hc : ∀ l ∈ (colV (m + 1) j).support, clsD (m + 1) 1 l := by
    rw [colV, if_neg (by omega), if_pos hj]
    intro l hl
    rcases Finset.mem_union.1 (Finsupp.support_add hl) with h | h
    · rw [Finset.mem_singleton.1 (Finsupp.support_single_subset h)]
      exact (WdD_cls (leOne m) _).2 ⟨_, colO_mem hj0 hj (i := .a) (by decide), labD_colA hj0⟩
    · rw [Finset.mem_singleton.1 (Finsupp.support_single_subset h)]
      exact (WdD_cls (leOne m) _).2 ⟨_, colO_mem hj0 hj (i := .b) (by decide), labD_colB hj0⟩
  have hy2 : LinComb2 (clsD (m + 1) 1) y := linComb2_of_ev h1 hy (vecL_par _) (hv.trans (ev2_vecL h1 hc).symm)
  refine same_of_returns (qact2 ho h1 ((dSpecIn_one _ _).2 he) hx.1 hg pg) ?_
  have h3 : act2 h1 (den e) (bas (m + 1) []) = act2 h1 (GL (m + 1) (colV (m + 1) j)) (bas (m + 1) []) := by
    rw [hd, cvar_cast, act_GL h1 hc]
    have := act2_ee h1 j (by omega)
    rw [if_neg (by omega), add_zero] at this
    exact this
  rw [act2_det h1 h3 ng]
  exact qmult_returns ho h1 hfu hy2 hv hc hx.1 hg pg

end

/-- `OG(1, 4)`, where `S[1]*S[1] = q1` and `S[1,0]*S[1,0] = q2`: the relations `(S[1] + S[1,0])^2 - 2*S[2] - (q1 + q2)` and
`(S[1] - S[1,0])*(S[1] + S[1,0]) - (q1 - q2)`; the results of the code. -/
example : mkOG 1 (2 * 1 + 2) = .ok ⟨.D, 1, 1⟩ ∧
    DSpecialPoly 1 1 [([.S [1], .S [1]], 1), ([.S [1], .S [1, 0]], 2), ([.S [1, 0], .S [1, 0]], 1), ([.S [2]], -2)] ∧
    den [([.S [1], .S [1]], 1), ([.S [1], .S [1, 0]], 2), ([.S [1, 0], .S [1, 0]], 1), ([.S [2]], -2)] =
      detOnes (cvarD 1 ((1 : ℕ) + 1)) (1 + 1) ∧
    (Space.mk .D 1 1).qact id [([.S [1], .S [1]], 1), ([.S [1], .S [1, 0]], 2), ([.S [1, 0], .S [1, 0]], 1), ([.S [2]], -2)]
      (Poly.sym (.S [])) = .ok [([.q2, .S []], 1), ([.q1, .S []], 1)] ∧
    den [([.S [1], .S [1]], 1), ([.S [1, 0], .S [1, 0]], -1)] =
      (MvPolynomial.X (.S [1]) - MvPolynomial.X (.S [1, 0])) * detOnes (cvarD 1 ((1 : ℕ) + 1)) 1 ∧
    (Space.mk .D 1 1).qact id [([.S [1], .S [1]], 1), ([.S [1, 0], .S [1, 0]], -1)] (Poly.sym (.S [2])) =
      .ok [([.q2, .S [2]], -1), ([.q1, .S [2]], 1)] ∧
    (Space.mk .D 1 1).qact id [([.S [1], .S [1]], 1)] (Poly.sym (.S [])) = .ok [([.q1, .S []], 1)] := by
  have h : ∀ p : ℤ, hvar 2 p = if p = 0 then 1 else if 0 < p ∧ p ≤ 2 then MvPolynomial.X (.S [p]) else 0 := fun _ => rfl
  have h2 : (C 2 : P) = 2 := rfl
  refine ⟨by decide, by decide, ?_, by decide +kernel, ?_, by decide +kernel, by decide +kernel⟩
  · norm_num only [Nat.cast_ofNat, Nat.cast_one]
    rw [detOnes, Matrix.det_fin_two]
    simp [h, den, monoDen, cvarD, h2]
    ring
  · norm_num only [Nat.cast_ofNat, Nat.cast_one]
    rw [detOnes, Matrix.det_fin_one]
    simp [h, den, monoDen, cvarD]
    ring

/-- `OG(2, 6)`: the relations `S[1]*S[1,0] - S[2]` and `S[2]^2 - S[1]*S[3] - S[3]*S[1,0]` hold for the quantum products; the determinant of
two ones acts as `S[1,1] + S[1,1,0]`. -/
example : mkOG 2 (2 * 2 + 2) = .ok ⟨.D, 1, 2⟩ ∧ DSpecialPoly 2 2 [([.S [1], .S [1, 0]], 1)] ∧
    den [([.S [1], .S [1, 0]], 1)] - den [([.S [2]], 1)] ∈ presQ2 2 ∧
    (Space.mk .D 1 2).qact id [([.S [1], .S [1, 0]], 1)] (Poly.sym (.S [2, 1])) = .ok [([.q1, .S [1, 1, 0]], 1)] ∧
    (Space.mk .D 1 2).qact id [([.S [2]], 1)] (Poly.sym (.S [2, 1])) = .ok [([.q1, .S [1, 1, 0]], 1)] ∧
    den [([.S [2], .S [2]], 1)] - den [([.S [1], .S [3]], 1), ([.S [3], .S [1, 0]], 1)] ∈ presQ2 2 ∧
    (Space.mk .D 1 2).qact id [([.S [2], .S [2]], 1)] (Poly.sym (.S [3])) =
      .ok [([.q1, .q2, .S [1, 0]], 1), ([.q1, .q2, .S [1]], 1)] ∧
    (Space.mk .D 1 2).qact id [([.S [1], .S [3]], 1), ([.S [3], .S [1, 0]], 1)] (Poly.sym (.S [3])) =
      .ok [([.q1, .q2, .S [1, 0]], 1), ([.q1, .q2, .S [1]], 1)] ∧
    den [([.S [1], .S [1]], 1), ([.S [1], .S [1, 0]], 2), ([.S [1, 0], .S [1, 0]], 1), ([.S [2]], -2)] =
      detOnes (cvarD 1 ((2 : ℕ) + 1)) 2 ∧
    den [([.S [1, 1]], 1), ([.S [1, 1, 0]], 1)] =
      MvPolynomial.X (.S (List.replicate 2 1)) + MvPolynomial.X (.S (List.replicate 2 1 ++ [0])) ∧
    (Space.mk .D 1 2).qact id [([.S [1], .S [1]], 1), ([.S [1], .S [1, 0]], 2), ([.S [1, 0], .S [1, 0]], 1), ([.S [2]], -2)]
      (Poly.sym (.S [3, 1])) =
      .ok [([.q1, .S [2, 1, 0]], 1), ([.q1, .q2, .S []], 1), ([.q2, .S [2, 1]], 1), ([.q1, .S [3]], 1)] ∧
    (Space.mk .D 1 2).qmult id 100 [([.S [1, 1]], 1), ([.S [1, 1, 0]], 1)] (Poly.sym (.S [3, 1])) =
      .ok [([.q2, .S [2, 1]], 1), ([.q1, .q2, .S []], 1), ([.q1, .S [2, 1, 0]], 1), ([.q1, .S [3]], 1)] := by
  have h : ∀ p : ℤ, hvar 3 p = if p = 0 then 1 else if 0 < p ∧ p ≤ 3 then MvPolynomial.X (.S [p]) else 0 := fun _ => rfl
  have h2 : (C 2 : P) = 2 := rfl
  refine ⟨by decide, by decide, Or.inl (Or.inr ?_), by decide +kernel, by decide +kernel,
    Or.inl (Or.inl (Or.inr ⟨2, by decide, by decide, ?_⟩)), by decide +kernel, by decide +kernel, ?_, ?_, by decide +kernel, by decide +kernel⟩
  · rw [Set.mem_singleton_iff]
    simp [den, monoDen]
  · norm_num only [Nat.cast_ofNat, Nat.cast_one]
    rw [show Finset.Icc 1 2 = {1, 2} from rfl, Finset.sum_pair (by decide)]
    simp [h, den, monoDen, cvarD]
    ring
  · norm_num only [Nat.cast_ofNat, Nat.cast_one]
    rw [detOnes, Matrix.det_fin_two]
    simp [h, den, monoDen, cvarD, h2]
    ring
  · simp [den, monoDen]

end Verif
