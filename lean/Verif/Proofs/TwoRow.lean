import Verif.Spec.TwoRow
import Verif.Proofs.AltA
import Verif.Proofs.RimA
/-!
# Products on Gr(2,n): alternants of two variables
-/

namespace Verif.TwoRow
open Verif Spec Cyl Alt

theorem altP_pair (u v : ℕ) : altP (m := 1) ![u, v] =
    MvPolynomial.X 0 ^ u * MvPolynomial.X 1 ^ v - MvPolynomial.X 1 ^ u * MvPolynomial.X 0 ^ v := by
  rw [altP, Matrix.det_fin_two]
  simp

theorem altP_anti (u v : ℕ) : altP (m := 1) ![v, u] = - altP (m := 1) ![u, v] := by
  rw [altP_pair, altP_pair]; ring

/-- The Schur polynomial of `(b+i, b)` in two variables. -/
noncomputable def zed (b i : ℕ) : VP 1 :=
  ∑ t ∈ Finset.range (i + 1), MvPolynomial.X 0 ^ (b + (i - t)) * MvPolynomial.X 1 ^ (b + t)

theorem zed_mul (b i u v : ℕ) : zed b i * altP (m := 1) ![u, v] =
    ∑ t ∈ Finset.range (i + 1), altP (m := 1) ![u + b + (i - t), v + b + t] := by
  have h1 : zed b i * (MvPolynomial.X 0 ^ u * MvPolynomial.X 1 ^ v) =
      ∑ t ∈ Finset.range (i + 1), MvPolynomial.X 0 ^ (u + b + (i - t)) * MvPolynomial.X 1 ^ (v + b + t) := by
    rw [zed, Finset.sum_mul]
    refine Finset.sum_congr rfl fun t _ => ?_
    ring
  have h2 : zed b i * (MvPolynomial.X 1 ^ u * MvPolynomial.X 0 ^ v) =
      ∑ t ∈ Finset.range (i + 1), MvPolynomial.X 1 ^ (u + b + (i - t)) * MvPolynomial.X 0 ^ (v + b + t) := by
    rw [zed, ← Finset.sum_range_reflect, Finset.sum_mul]
    refine Finset.sum_congr rfl fun t ht => ?_
    rw [Finset.mem_range] at ht
    rw [show i - (i + 1 - 1 - t) = t by omega, show i + 1 - 1 - t = i - t by omega]
    ring
  rw [altP_pair, mul_sub, h1, h2, ← Finset.sum_sub_distrib]
  refine Finset.sum_congr rfl fun t _ => ?_
  rw [altP_pair]

theorem sum_neg_reflect {A : Type*} [AddCommGroup A] [Module ℚ A] {f : ℕ → A} {L : ℕ}
    (h : ∀ t < L, f (L - 1 - t) = - f t) : ∑ t ∈ Finset.range L, f t = 0 := by
  have h1 := Finset.sum_range_reflect f L
  rw [Finset.sum_congr rfl (fun t ht => h t (Finset.mem_range.1 ht)), Finset.sum_neg_distrib] at h1
  have h2 : (2 : ℚ) • ∑ t ∈ Finset.range L, f t = 0 := by
    rw [two_smul]
    nth_rewrite 1 [← h1]
    exact neg_add_cancel _
  exact (smul_eq_zero.1 h2).resolve_left (by norm_num)

theorem bt_pair (x y : ℕ) : bt (m := 1) ![(x : ℤ), (y : ℤ)] = ![x + 1, y] := by
  funext i
  fin_cases i <;> simp [bt]

theorem vec_two {x y : ℕ} (h : y ≤ x) : vec 1 (two x y) = ![(x : ℤ), (y : ℤ)] := by
  funext i
  rcases Nat.eq_zero_or_pos y with rfl | hy
  · rcases Nat.eq_zero_or_pos x with rfl | hx
    · fin_cases i <;> rfl
    · simp only [two, List.filter, hx, decide_true]
      fin_cases i <;> rfl
  · have hx : 0 < x := by omega
    simp only [two, List.filter, hx, hy, decide_true]
    fin_cases i <;> rfl

theorem clsA_two {k x y : ℕ} (h : y ≤ x) (hx : x ≤ k) : clsA 2 k (two x y) := by
  unfold clsA two ReducedPart InRect
  rcases Nat.eq_zero_or_pos y with rfl | hy
  · rcases Nat.eq_zero_or_pos x with rfl | hx
    · simp
    · simp [List.filter, hx]
      omega
  · have hx : 0 < x := by omega
    simp [List.filter, hx, hy]
    omega

theorem zed_stair (b i : ℕ) : zed b i * stair 1 = altP (bt (vec 1 (two (b + i) b))) := by
  rw [vec_two (by omega), bt_pair, stair, show (0 : Fin 2 → ℤ) = ![((0 : ℕ) : ℤ), ((0 : ℕ) : ℤ)] by
    funext i; fin_cases i <;> rfl, bt_pair, zed_mul, Finset.sum_range_succ', sum_neg_reflect, zero_add]
  · congr 1
    funext j
    fin_cases j <;> simp <;> omega
  · intro t ht
    rw [← altP_anti]
    congr 1
    funext j
    fin_cases j <;> simp <;> omega


/-! ### the classical product -/

/-- The Clebsch-Gordan sum, cut off at `k`. -/
noncomputable def cgSum (k a b c d : ℕ) : LMod :=
  ∑ t ∈ (Finset.range (min (a - b) (c - d) + 1)).filter (fun t => a + c ≤ k + t),
    Finsupp.single (two (a + c - t) (b + d + t)) 1

theorem cgSum_comm (k a b c d : ℕ) : cgSum k a b c d = cgSum k c d a b := by
  unfold cgSum
  rw [min_comm, add_comm a c, add_comm b d]

theorem cgSum_support {k a b c d : ℕ} (h1 : b ≤ a) (h2 : d ≤ c) : ∀ l ∈ (cgSum k a b c d).support, clsA 2 k l := by
  classical
  apply sum_support
  intro t ht l hl
  rw [Finset.mem_filter, Finset.mem_range] at ht
  rw [Finset.mem_singleton.1 (Finsupp.support_single_subset hl)]
  exact clsA_two (by omega) (by omega)

theorem prod_aux {k a b c d : ℕ} {n : ℤ} (hn : n = ((1 : ℕ) : ℤ) + 1 + k) (h1 : b ≤ a) (ha : a ≤ k) (h2 : d ≤ c) (hc : c ≤ k)
    (hij : a - b ≤ c - d) :
    (sysC 1 (Int.natCast_nonneg k) hn).prod (Finsupp.single (two a b) 1) (Finsupp.single (two c d) 1) = cgSum k a b c d := by
  classical
  have hz := zed_stair b (a - b)
  rw [show b + (a - b) = a by omega] at hz
  have h3 := Psi_prod hn (clsA_two h1 ha) (clsA_two h2 hc) hz
  refine Psi_inj_mod ((sysC 1 (Int.natCast_nonneg k) hn).prod_support _ (clsA_single (clsA_two h2 hc))) (cgSum_support h1 h2) ?_
  rw [vec_two h2, bt_pair, zed_mul] at h3
  have h4 : ∑ t ∈ Finset.range (a - b + 1), altP (m := 1) ![c + 1 + b + (a - b - t), d + b + t] - Psi 1 (cgSum k a b c d) ∈
      AltJ 1 (k + 1 + 1) := by
    unfold cgSum
    rw [min_eq_left hij, map_sum, ← Finset.sum_filter_add_sum_filter_not (Finset.range (a - b + 1)) (fun t => a + c ≤ k + t),
      add_sub_right_comm, ← Finset.sum_sub_distrib]
    refine Submodule.add_mem _ ?_ ?_
    rotate_left
    · apply Submodule.sum_mem
      intro t ht
      rw [Finset.mem_filter, Finset.mem_range] at ht
      apply altP_memJ (i := 0)
      show k + 1 + 1 ≤ c + 1 + b + (a - b - t)
      omega
    · rw [Finset.sum_eq_zero]
      · exact Submodule.zero_mem _
      · intro t ht
        rw [Finset.mem_filter, Finset.mem_range] at ht
        rw [Psi_single, vec_two (by omega), bt_pair, sub_eq_zero]
        congr 1
        funext j
        fin_cases j <;> simp <;> omega
  have := Submodule.add_mem _ h3 h4
  rwa [sub_add_sub_cancel] at this

theorem prod_cg {k a b c d : ℕ} {n : ℤ} (hn : n = ((1 : ℕ) : ℤ) + 1 + k) (h1 : b ≤ a) (ha : a ≤ k) (h2 : d ≤ c) (hc : c ≤ k) :
    (sysC 1 (Int.natCast_nonneg k) hn).prod (Finsupp.single (two a b) 1) (Finsupp.single (two c d) 1) = cgSum k a b c d := by
  rcases le_total (a - b) (c - d) with h | h
  · exact prod_aux hn h1 ha h2 hc h
  · rw [(sysC 1 (Int.natCast_nonneg k) hn).prod_comm (clsA_single (clsA_two h1 ha)) (clsA_single (clsA_two h2 hc)), prod_aux hn h2 hc h1 ha h, cgSum_comm]

/-! ### the quantum product -/

theorem Dq_swap (k u v : ℕ) : Dq 1 k ![v, u] = - Dq 1 k ![u, v] := by
  have := (Dq_periodic 1 k).alt.swap ![u, v] (i := 0) (j := 1) (by decide)
  rw [← this]
  congr 1
  funext j
  fin_cases j <;> rfl

theorem Dq_shift0 (k u v : ℕ) : Dq 1 k ![u + (k + 2), v] = cq 1 • Dq 1 k ![u, v] := by
  rw [← (Dq_periodic 1 k).shift ![u, v] 0]
  congr 1
  funext j
  fin_cases j <;> simp

theorem Dq_shift1 (k u v : ℕ) : Dq 1 k ![u, v + (k + 2)] = cq 1 • Dq 1 k ![u, v] := by
  rw [Dq_swap, Dq_shift0, Dq_swap k u v, smul_neg, neg_neg]

theorem Dq_pair {k x y : ℕ} (h : y ≤ x) (hx : x ≤ k) : Dq 1 k ![x + 1, y] = Finsupp.single (two x y) 1 := by
  have h1 := boxV_vec (m := 1) (Int.natCast_nonneg k) (clsA_two h hx)
  rw [← bt_pair, ← vec_two h, Dq_bt h1, lab_vec' (clsA_two h hx)]

theorem cq_one : cq 1 = - Polynomial.X := by simp [cq]

/-- The reduction of one term. -/
theorem Dq_fold {k x y : ℕ} (h : y ≤ x) (h1 : x ≤ y + k) (h2 : x ≤ 2 * k) :
    Dq 1 k ![x + 1, y] = Finsupp.single (cgFold k x y).2 (Polynomial.X ^ (cgFold k x y).1) := by
  unfold cgFold
  by_cases c1 : x ≤ k
  · rw [if_pos c1, Dq_pair h c1]; simp
  rw [if_neg c1]
  by_cases c2 : y ≤ k + 1
  · rw [if_pos c2]
    obtain ⟨u, rfl⟩ : ∃ u, x = u + (k + 1) := ⟨x - (k + 1), by omega⟩
    obtain ⟨v, rfl⟩ : ∃ v, y = v + 1 := ⟨y - 1, by omega⟩
    rw [show u + (k + 1) + 1 = u + (k + 2) by omega, Dq_shift0, Dq_swap k (v + 1) u, Dq_pair (by omega) (by omega), cq_one,
      neg_smul, smul_neg, neg_neg]
    simp
  · rw [if_neg c2]
    obtain ⟨u, rfl⟩ : ∃ u, x = u + (k + 2) := ⟨x - (k + 2), by omega⟩
    obtain ⟨v, rfl⟩ : ∃ v, y = v + (k + 2) := ⟨y - (k + 2), by omega⟩
    rw [show u + (k + 2) + 1 = u + 1 + (k + 2) by omega, Dq_shift0, Dq_shift1, Dq_pair (by omega) (by omega), cq_one,
      smul_smul]
    simp [pow_two]

/-- The quantum Clebsch-Gordan sum. -/
noncomputable def qcgSum (k a b c d : ℕ) : LMod :=
  ∑ t ∈ (Finset.range (min (a - b) (c - d) + 1)).filter (fun t => (a - b) + (c - d) ≤ k + t),
    Finsupp.single (cgFold k (a + c - t) (b + d + t)).2 (Polynomial.X ^ (cgFold k (a + c - t) (b + d + t)).1)

theorem qprod_cg {k a b c d : ℕ} {n : ℤ} (hn : n = ((1 : ℕ) : ℤ) + 1 + k) (h1 : b ≤ a) (ha : a ≤ k) (h2 : d ≤ c) (hc : c ≤ k) :
    (sysQ 1 (Int.natCast_nonneg k) hn).prod (Finsupp.single (two a b) 1) (Finsupp.single (two c d) 1) = qcgSum k a b c d := by
  classical
  have hv : ∀ {x y : ℕ}, y ≤ x → part (two x y) 0 = x := fun h => congrFun (vec_two h) 0
  rw [rim_hook (K := 2 * k) hn rfl (clsA_two h1 ha) (clsA_two h2 hc) (clsA_two h1 (by omega)) (clsA_two h2 (by omega))
    (by rw [hv h1, hv h2]; push_cast; omega), prod_cg rfl h1 (by omega) h2 (by omega)]
  unfold cgSum
  rw [Finset.filter_true_of_mem (fun t _ => by omega), map_sum]
  set i := min (a - b) (c - d)
  have e : ∀ t ∈ Finset.range (i + 1), redq 1 k (Finsupp.single (two (a + c - t) (b + d + t)) 1) =
      Dq 1 k ![a + c - t + 1, b + d + t] := by
    intro t ht
    rw [Finset.mem_range] at ht
    rw [redq, lin, Finsupp.linearCombination_single, one_smul, vec_two (by omega), bt_pair]
  rw [Finset.sum_congr rfl e]
  unfold qcgSum
  have hi : i ≤ a - b := min_le_left _ _
  have hi' : i ≤ c - d := min_le_right _ _
  rw [← Finset.sum_filter_add_sum_filter_not (Finset.range (i + 1)) (fun t => (a - b) + (c - d) ≤ k + t)]
  rw [← add_zero (∑ t ∈ _, Finsupp.single _ _)]
  congr 1
  · refine Finset.sum_congr rfl fun t ht => ?_
    rw [Finset.mem_filter, Finset.mem_range] at ht
    exact Dq_fold (by omega) (by omega) (by omega)
  · have hr : (Finset.range (i + 1)).filter (fun t => ¬ ((a - b) + (c - d) ≤ k + t)) = Finset.range ((a - b) + (c - d) - k) := by
      ext t
      simp only [Finset.mem_filter, Finset.mem_range]
      have : i = a - b ∨ i = c - d := min_choice _ _
      omega
    rw [hr]
    apply sum_neg_reflect
    intro t ht
    have f1 : a + c - ((a - b) + (c - d) - k - 1 - t) + 1 = (b + d + t) + (k + 2) := by omega
    have f2 : a + c - t + 1 = (b + d + ((a - b) + (c - d) - k - 1 - t)) + (k + 2) := by omega
    rw [f1, f2, Dq_shift0, Dq_shift0, Dq_swap, smul_neg]

end Verif.TwoRow
