import Mathlib.Algebra.Polynomial.Eval.Degree
import Mathlib.Algebra.Polynomial.Degree.Lemmas
import Mathlib.Algebra.Polynomial.Inductions
import Mathlib.Algebra.Polynomial.Div
import Mathlib.LinearAlgebra.Finsupp.LinearCombination
import Mathlib.RingTheory.Coprime.Lemmas
import Mathlib.Algebra.Algebra.Rat
import Verif.Proofs.PresMax
/-!
# Two dual families and their squares

Algebra for the presentations of the rings of `IG(n-k, 2n)` and `OG(n-k, 2n+1)`: if the generating polynomials `f` of the special
classes and `D` of the determinants satisfy `f D = 1` and `f(X) f(-X) = Q(X)` up to high powers, then `D(X) D(-X) Q(X) = 1`.
-/

namespace Verif

section
open Polynomial
variable {A : Type*} [CommRing A]

theorem ng_coeff (f : A[X]) (i : ℕ) : (f.comp (-X)).coeff i = (-1) ^ i * f.coeff i := by
  rw [show (-X : A[X]) = C (-1) * X by simp, comp_C_mul_X_coeff, mul_comm]

theorem zero_of_dvd {p : A[X]} {N : ℕ} (h : X ^ N ∣ p) (hd : p.natDegree < N) : p = 0 := by
  ext d
  rw [coeff_zero]
  by_cases h1 : d < N
  · exact X_pow_dvd_iff.1 h d h1
  · exact coeff_eq_zero_of_natDegree_lt (by omega)

theorem dvd_of_unit {Q p : A[X]} {N : ℕ} (h0 : Q.coeff 0 = 1) (h : X ^ N ∣ Q * p) : X ^ N ∣ p := by
  have : IsCoprime (X : A[X]) Q := by
    refine ⟨-Q.divX, 1, ?_⟩
    have := Q.divX_mul_X_add
    rw [h0, map_one] at this
    rw [one_mul]
    linear_combination -this
  exact (this.pow_left).dvd_of_dvd_mul_left h

theorem ng_ng (f : A[X]) : (f.comp (-X)).comp (-X) = f := by
  rw [comp_assoc]
  simp

theorem ng_deg (f : A[X]) : (f.comp (-X)).natDegree ≤ f.natDegree := by
  rw [natDegree_le_iff_coeff_eq_zero]
  intro N hN
  rw [ng_coeff, coeff_eq_zero_of_natDegree_lt hN, mul_zero]

/-- the part of degree at most `d` -/
noncomputable def cut (d : ℕ) (g : A[X]) : A[X] := ∑ i ∈ Finset.range (d + 1), monomial i (g.coeff i)

theorem coeff_cut (d : ℕ) (g : A[X]) (i : ℕ) : (cut d g).coeff i = if i ≤ d then g.coeff i else 0 := by
  unfold cut
  simp only [finsetSum_coeff, coeff_monomial]
  rw [Finset.sum_ite_eq']
  simp [Nat.lt_succ_iff]

theorem cut_deg (d : ℕ) (g : A[X]) : (cut d g).natDegree ≤ d := by
  rw [natDegree_le_iff_coeff_eq_zero]
  intro N hN
  rw [coeff_cut, if_neg (by omega)]

variable [Algebra ℚ A]

theorem odd_coeff {g : A[X]} (h : g.comp (-X) = g) {i : ℕ} (hi : i % 2 = 1) : g.coeff i = 0 := by
  have h1 := congrArg (fun p => p.coeff i) h
  simp only [ng_coeff] at h1
  rw [(Nat.odd_iff.2 hi).neg_one_pow] at h1
  have h2 : (2 : A) * g.coeff i = 0 := by linear_combination -h1
  have h3 : algebraMap ℚ A (1 / 2) * (2 * g.coeff i) = 0 := by rw [h2, mul_zero]
  rwa [← mul_assoc, show (2 : A) = algebraMap ℚ A 2 from (map_ofNat _ 2).symm, ← map_mul, show (1 / 2 : ℚ) * 2 = 1 by norm_num, map_one,
    one_mul] at h3

/-- `f = D(-X) Q` and `D D(-X) Q = 1` -/
theorem dual_square {f D : A[X]} {m k : ℕ} (hf : f.natDegree ≤ m + 2 * k) (hD : D.natDegree ≤ m) (f0 : f.coeff 0 = 1)
    (h1 : X ^ (m + 2 * k + 1) ∣ f * D - 1) (h2 : ∀ r, k < r → r ≤ m + k → (f * f.comp (-X)).coeff (2 * r) = 0) :
    f = D.comp (-X) * cut (2 * k) (f * f.comp (-X)) ∧ D * D.comp (-X) * cut (2 * k) (f * f.comp (-X)) = 1 := by
  set g := f * f.comp (-X) with hg
  set Q := cut (2 * k) g with hQ
  have hgg : g.comp (-X) = g := by rw [hg, mul_comp, ng_ng, mul_comm]
  have hQQ : Q.comp (-X) = Q := by
    ext i
    rw [ng_coeff, hQ, coeff_cut]
    split
    · have := congrArg (fun p => p.coeff i) hgg
      simpa only [ng_coeff] using this
    · rw [mul_zero]
  have hdvd : X ^ (2 * (m + k) + 2) ∣ g - Q := by
    rw [X_pow_dvd_iff]
    intro d hd
    rw [coeff_sub, hQ, coeff_cut]
    split
    · rw [sub_self]
    · rename_i h
      rw [sub_zero]
      rcases Nat.mod_two_eq_zero_or_one d with h3 | h3
      · obtain ⟨r, rfl⟩ : ∃ r, d = 2 * r := ⟨d / 2, by omega⟩
        exact h2 r (by omega) (by omega)
      · exact odd_coeff hgg h3
  have h3 : f.comp (-X) - D * Q = 0 := by
    refine zero_of_dvd (N := m + 2 * k + 1) ?_ ?_
    · have e : f.comp (-X) - D * Q = D * (g - Q) - (f * D - 1) * f.comp (-X) := by rw [hg]; ring
      rw [e]
      exact dvd_sub (((pow_dvd_pow X (by omega)).trans hdvd).mul_left _) (h1.mul_right _)
    · have a1 := natDegree_sub_le (f.comp (-X)) (D * Q)
      have a2 := natDegree_mul_le (p := D) (q := Q)
      have a3 := ng_deg f
      have a4 := cut_deg (2 * k) g
      rw [← hQ] at a4
      omega
  have h4 : f.comp (-X) = D * Q := sub_eq_zero.1 h3
  have h5 : f = D.comp (-X) * Q := by
    conv_lhs => rw [← ng_ng f, h4, mul_comp, hQQ]
  refine ⟨h5, ?_⟩
  rw [← sub_eq_zero]
  refine zero_of_dvd (N := 2 * (m + k) + 2) (dvd_of_unit (Q := Q) ?_ ?_) ?_
  · rw [hQ, coeff_cut, if_pos (Nat.zero_le _), hg, mul_coeff_zero, ng_coeff, f0]
    simp
  · have e : Q * (D * D.comp (-X) * Q - 1) = g - Q := by
      rw [hg]
      conv_rhs => rw [h4]; rw [h5]
      ring
    rw [e]
    exact hdvd
  · have a1 := natDegree_sub_le (D * D.comp (-X) * Q) 1
    have a2 := natDegree_mul_le (p := D * D.comp (-X)) (q := Q)
    have a3 := natDegree_mul_le (p := D) (q := D.comp (-X))
    have a4 := cut_deg (2 * k) g
    rw [← hQ] at a4
    have a5 := ng_deg D
    rw [natDegree_one] at a1
    omega

end

/-! ### Symmetric sums -/

theorem sum_Icc_one {A : Type*} [AddCommMonoid A] (f : ℕ → A) (j : ℕ) : ∑ i ∈ Finset.Icc 1 j, f i = ∑ i ∈ Finset.range j, f (i + 1) := by
  induction j with
  | zero => simp
  | succ j ih => rw [Finset.sum_Icc_succ_top (by omega), Finset.sum_range_succ, ih]

theorem antidiag_sym {A : Type*} [CommRing A] (S : ℕ → ℕ → A) (hS : ∀ a b, S a b = S b a) (j : ℕ) :
    ∑ ab ∈ Finset.antidiagonal (2 * j), S ab.1 ab.2 = S j j + 2 * ∑ i ∈ Finset.Icc 1 j, S (j + i) (j - i) := by
  rw [Finset.Nat.sum_antidiagonal_eq_sum_range_succ (f := fun a b => S a b), two_mul j, show (j + j).succ = j + (j + 1) by omega,
    Finset.sum_range_add, Finset.sum_range_succ']
  have h1 : ∑ x ∈ Finset.range j, S x (j + j - x) = ∑ i ∈ Finset.Icc 1 j, S (j + i) (j - i) := by
    rw [← Finset.sum_range_reflect, sum_Icc_one]
    refine Finset.sum_congr rfl fun i hi => ?_
    rw [Finset.mem_range] at hi
    rw [hS]
    congr 1 <;> omega
  have h2 : ∑ x ∈ Finset.range j, S (j + (x + 1)) (j + j - (j + (x + 1))) = ∑ i ∈ Finset.Icc 1 j, S (j + i) (j - i) := by
    rw [sum_Icc_one]
    refine Finset.sum_congr rfl fun i hi => ?_
    rw [Finset.mem_range] at hi
    congr 1; omega
  rw [h1, h2, show j + j - (j + 0) = j by omega, add_zero]
  ring

/-- even coefficients of `f(X) f(-X)` -/
theorem coeff_sq {A : Type*} [CommRing A] (f : Polynomial A) (j : ℕ) : (f * f.comp (-Polynomial.X)).coeff (2 * j) =
    (-1) ^ j * (f.coeff j ^ 2 + 2 * ∑ i ∈ Finset.Icc 1 j, (-1) ^ i * (f.coeff (j + i) * f.coeff (j - i))) := by
  rw [Polynomial.coeff_mul]
  have h1 : ∀ ab ∈ Finset.antidiagonal (2 * j), f.coeff ab.1 * (f.comp (-Polynomial.X)).coeff ab.2 =
      (fun a b : ℕ => if a + b = 2 * j then (-1) ^ b * (f.coeff a * f.coeff b) else 0) ab.1 ab.2 := by
    intro ab hab
    rw [Finset.mem_antidiagonal] at hab
    simp only [hab, if_true, ng_coeff]
    ring
  rw [Finset.sum_congr rfl h1, antidiag_sym (fun a b : ℕ => if a + b = 2 * j then (-1) ^ b * (f.coeff a * f.coeff b) else 0)]
  · rw [if_pos (by omega), mul_add]
    congr 1
    · ring
    · rw [Finset.mul_sum, Finset.mul_sum, Finset.mul_sum]
      refine Finset.sum_congr rfl fun i hi => ?_
      rw [Finset.mem_Icc] at hi
      rw [if_pos (by omega)]
      have : (-1 : A) ^ (j - i) = (-1) ^ j * (-1) ^ i := by
        rw [← pow_add]
        apply neg_one_pow_congr
        rw [Nat.even_iff, Nat.even_iff]
        omega
      rw [this]
      ring
  · intro a b
    by_cases h : a + b = 2 * j
    · rw [if_pos h, if_pos (by omega), show (-1 : A) ^ b = (-1) ^ a by
        apply neg_one_pow_congr
        rw [Nat.even_iff, Nat.even_iff]
        omega]
      ring
    · rw [if_neg h, if_neg (by omega)]

/-! ### Products of distinct elements -/

section
variable {R A : Type*} [CommRing R] [CommRing A] [Algebra R A] {A0 : Subalgebra R A} {e : ℕ → A} {m : ℕ}

/-- combinations of products of distinct elements -/
def SqF (A0 : Subalgebra R A) (e : ℕ → A) (m : ℕ) : Submodule A0 A :=
  Submodule.span A0 ((fun T : Finset ℕ => ∏ j ∈ T, e j) '' {T | T ⊆ Finset.Icc 1 m})

theorem prod_filter_pos (h0 : e 0 = 1) (L : List ℕ) : (L.map e).prod = ((L.filter (0 < ·)).map e).prod := by
  induction L with
  | nil => rfl
  | cons p L ih =>
    by_cases h : 0 < p
    · rw [List.filter_cons_of_pos (by simpa using h), List.map_cons, List.map_cons, List.prod_cons, List.prod_cons, ih]
    · obtain rfl : p = 0 := by omega
      rw [List.filter_cons_of_neg (by simp), List.map_cons, List.prod_cons, h0, one_mul, ih]

theorem sqF_list (h0 : e 0 = 1) (hbig : ∀ j, m < j → e j = 0)
    (hsq : ∀ j, 1 ≤ j → j ≤ m → e j ^ 2 + 2 * ∑ i ∈ Finset.Icc 1 j, (-1) ^ i * (e (j + i) * e (j - i)) ∈ A0) :
    ∀ (D E : ℕ) (L : List ℕ), L.sum = D → D ^ 2 - (L.map (· ^ 2)).sum = E → (L.map e).prod ∈ SqF A0 e m := by
  intro D
  induction D using Nat.strong_induction_on with
  | _ D ihD =>
    intro E
    induction E using Nat.strong_induction_on with
    | _ E ihE =>
      intro L hL hE
      rw [prod_filter_pos h0]
      by_cases hb : ∃ p ∈ L.filter (0 < ·), m < p
      · obtain ⟨p, hp, h⟩ := hb
        have : ((L.filter (0 < ·)).map e).prod = 0 := List.prod_eq_zero (List.mem_map.2 ⟨p, hp, hbig p h⟩)
        rw [this]
        exact Submodule.zero_mem _
      · push Not at hb
        have hr : ∀ p ∈ L.filter (0 < ·), 1 ≤ p ∧ p ≤ m := fun p hp => ⟨by have := (List.mem_filter.1 hp).2; simp at this; omega, hb p hp⟩
        by_cases hn : (L.filter (0 < ·)).Nodup
        · refine Submodule.subset_span ⟨(L.filter (0 < ·)).toFinset, ?_, ?_⟩
          · intro p hp
            rw [List.mem_toFinset] at hp
            exact Finset.mem_Icc.2 (hr p hp)
          · exact List.prod_toFinset _ hn
        · obtain ⟨p, hp⟩ := List.exists_duplicate_iff_not_nodup.2 hn
          obtain ⟨M, hM⟩ := (List.duplicate_iff_sublist.1 hp).exists_perm_append
          have hM' : (L.filter (0 < ·)).Perm (p :: p :: M) := hM
          obtain ⟨h1, h2⟩ := hr p (hM'.mem_iff.2 (by simp))
          have hs : L.sum = p + (p + M.sum) := by rw [← sum_filter_pos, hM'.sum_eq]; simp
          have hq : (L.map (· ^ 2)).sum = p ^ 2 + (p ^ 2 + (M.map (· ^ 2)).sum) := by
            rw [← sq_filter_pos, (hM'.map _).sum_eq]; simp
          rw [(hM'.map _).prod_eq, List.map_cons, List.map_cons, List.prod_cons, List.prod_cons]
          have e1 : e p * (e p * (M.map e).prod) = (⟨_, hsq p h1 h2⟩ : A0) • (M.map e).prod -
              ∑ i ∈ Finset.Icc 1 p, (2 * (-1) ^ i : ℤ) • (((p + i) :: (p - i) :: M).map e).prod := by
            rw [Subalgebra.smul_def, smul_eq_mul]
            have : ∑ i ∈ Finset.Icc 1 p, (2 * (-1) ^ i : ℤ) • (((p + i) :: (p - i) :: M).map e).prod =
                2 * (∑ i ∈ Finset.Icc 1 p, (-1) ^ i * (e (p + i) * e (p - i))) * (M.map e).prod := by
              rw [Finset.mul_sum, Finset.sum_mul]
              refine Finset.sum_congr rfl fun i _ => ?_
              rw [List.map_cons, List.map_cons, List.prod_cons, List.prod_cons, zsmul_eq_mul]
              push_cast
              ring
            rw [this]
            ring
          rw [e1]
          refine Submodule.sub_mem _ (Submodule.smul_mem _ _ (ihD M.sum (by omega) _ M rfl rfl))
            (Submodule.sum_mem _ fun i hi => zsmul_mem ?_ _)
          rw [Finset.mem_Icc] at hi
          have hs' : ((p + i) :: (p - i) :: M).sum = D := by simp only [List.sum_cons]; omega
          have hq' : (((p + i) :: (p - i) :: M).map (· ^ 2)).sum = 2 * p ^ 2 + 2 * i ^ 2 + (M.map (· ^ 2)).sum := by
            simp only [List.map_cons, List.sum_cons]
            obtain ⟨j, rfl⟩ : ∃ j, p = i + j := ⟨p - i, by omega⟩
            rw [Nat.add_sub_cancel_left]
            ring
          have hle := sq_le ((p + i) :: (p - i) :: M)
          rw [hs'] at hle
          have hi2 : 1 ≤ i ^ 2 := Nat.one_le_pow _ _ hi.1
          exact ihE _ (by omega) _ hs' rfl

/-- Everything generated by `A0` and the `e j` is such a combination. -/
theorem sqF_adjoin (h0 : e 0 = 1) (hbig : ∀ j, m < j → e j = 0)
    (hsq : ∀ j, 1 ≤ j → j ≤ m → e j ^ 2 + 2 * ∑ i ∈ Finset.Icc 1 j, (-1) ^ i * (e (j + i) * e (j - i)) ∈ A0) {x : A}
    (hx : x ∈ Algebra.adjoin R ((A0 : Set A) ∪ Set.range e)) : x ∈ SqF A0 e m := by
  have key : ∀ y ∈ SqF A0 e m, x * y ∈ SqF A0 e m := by
    induction hx using Algebra.adjoin_induction with
    | mem s hs =>
      rcases hs with hs | ⟨j, rfl⟩
      · intro y hy
        exact Submodule.smul_mem _ (⟨s, hs⟩ : A0) hy
      · intro y hy
        induction hy using Submodule.span_induction with
        | mem y hy =>
          obtain ⟨T, -, rfl⟩ := hy
          have := sqF_list h0 hbig hsq _ _ (j :: T.toList) rfl rfl
          rw [List.map_cons, List.prod_cons, Finset.prod_map_toList] at this
          exact this
        | zero => rw [mul_zero]; exact Submodule.zero_mem _
        | add y z _ _ hy hz => rw [mul_add]; exact Submodule.add_mem _ hy hz
        | smul a y _ hy => rw [mul_smul_comm]; exact Submodule.smul_mem _ _ hy
    | algebraMap c =>
      intro y hy
      exact Submodule.smul_mem _ (⟨algebraMap R A c, A0.algebraMap_mem c⟩ : A0) hy
    | add a b _ _ ha hb =>
      intro y hy
      rw [add_mul]
      exact Submodule.add_mem _ (ha y hy) (hb y hy)
    | mul a b _ _ ha hb =>
      intro y hy
      rw [mul_assoc]
      exact ha _ (hb y hy)
  have := key 1 (by
    have := sqF_list h0 hbig hsq _ _ [] rfl rfl
    simpa using this)
  rwa [mul_one] at this

/-- and hence over `R`, if `A0` is spanned by `g` -/
theorem sqF_span {σ : Type*} [Fintype σ] {g : σ → A} (hgA : ∀ s, g s ∈ A0) (hg : ∀ x ∈ A0, ∃ a : σ → R, x = ∑ s, algebraMap R A (a s) * g s)
    {x : A} (hx : x ∈ SqF A0 e m) :
    ∃ a : σ × (Finset.Icc 1 m).powerset → R, x = ∑ t, algebraMap R A (a t) * (g t.1 * ∏ j ∈ t.2.1, e j) := by
  have h1 : ∀ c ∈ A0, ∀ T ∈ (Finset.Icc 1 m).powerset, c * ∏ j ∈ T, e j ∈ Submodule.span R
      (Set.range fun t : σ × (Finset.Icc 1 m).powerset => g t.1 * ∏ j ∈ t.2.1, e j) := by
    intro c hc T hT
    obtain ⟨a, ha⟩ := hg c hc
    rw [ha, Finset.sum_mul]
    refine Submodule.sum_mem _ fun s _ => ?_
    rw [mul_assoc, ← Algebra.smul_def]
    exact Submodule.smul_mem _ _ (Submodule.subset_span ⟨(s, ⟨T, hT⟩), rfl⟩)
  have h2 : x ∈ Submodule.span R (Set.range fun t : σ × (Finset.Icc 1 m).powerset => g t.1 * ∏ j ∈ t.2.1, e j) := by
    induction hx using Submodule.span_induction with
    | mem y hy =>
      obtain ⟨T, hT, rfl⟩ := hy
      have := h1 1 A0.one_mem T (Finset.mem_powerset.2 hT)
      rwa [one_mul] at this
    | zero => exact Submodule.zero_mem _
    | add y z _ _ hy hz => exact Submodule.add_mem _ hy hz
    | smul c y h' hy =>
      rw [Subalgebra.smul_def, smul_eq_mul]
      clear h'
      induction hy using Submodule.span_induction with
      | mem y hy =>
        obtain ⟨t, rfl⟩ := hy
        have := h1 _ (A0.mul_mem c.2 (hgA t.1)) t.2.1 t.2.2
        rwa [mul_assoc] at this
      | zero => rw [mul_zero]; exact Submodule.zero_mem _
      | add y z _ _ hy hz => rw [mul_add]; exact Submodule.add_mem _ hy hz
      | smul a y _ hy => rw [mul_smul_comm]; exact Submodule.smul_mem _ _ hy
  obtain ⟨a, ha⟩ := (Submodule.mem_span_range_iff_exists_fun R).1 h2
  refine ⟨a, ?_⟩
  rw [← ha]
  exact Finset.sum_congr rfl fun t _ => Algebra.smul_def _ _

end

end Verif
