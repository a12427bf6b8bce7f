import Verif.Spec.SchurRing
import Verif.Props.Jacobi
import Verif.Props.RimProd
/-!
# C73, C74: products of classes on Gr(m,n) are products of Schur polynomials

The structure constants of the classical product do not depend on `n` as long as the classes exist.
-/

namespace Verif
open Spec SchurSym Cyl

/-! ### values of expressions -/

theorem valueAt_den {R : Type} [CommRing R] [Algebra ℚ R] (f : Sym → R) (p : Poly) :
    valueAt f p = MvPolynomial.aeval f (den p) := by
  unfold valueAt den
  rw [map_list_sum, List.map_map]
  congr 1
  apply List.map_congr_left
  intro t _
  simp only [Function.comp_apply, map_mul, MvPolynomial.aeval_C]
  congr 1
  unfold monoDen
  rw [map_list_prod, List.map_map]
  congr 1
  apply List.map_congr_left
  intro s _
  simp

theorem aeval_ev {R : Type} [CommRing R] [Algebra ℚ R] (f : Sym → R) (x : LMod) :
    MvPolynomial.aeval f (ev x) = x.sum (fun l a => Polynomial.aeval (f .q) a * f (.S l)) := by
  rw [ev_apply, Finsupp.sum, map_sum, Finsupp.sum]
  refine Finset.sum_congr rfl (fun l _ => ?_)
  rw [map_mul, MvPolynomial.aeval_X, inq, ← Polynomial.aeval_algHom_apply, MvPolynomial.aeval_X]

/-! ### Schur polynomials and the classical product -/

section
variable {m : ℕ}

/-- The variables. -/
noncomputable def vpVars (m : ℕ) (i : ℕ) : VP m := if h : i < m + 1 then MvPolynomial.X ⟨i, h⟩ else 0

theorem alternant_altP (e : ℕ → ℕ) : Spec.alternant (vpVars m) (m + 1) e = altP (fun i : Fin (m + 1) => e i) := by
  unfold Spec.alternant altP
  congr 1
  ext1 i j
  have := j.2
  simp only [Matrix.of_apply, vpVars]
  rw [dif_pos this]

/-- The Schur polynomial of a class. -/
noncomputable def spol (m : ℕ) (l : List Int) : VP m := tabSum (vpVars m) (m + 1) l

theorem spol_stair {K : ℕ} {l : List Int} (hl : clsA (m + 1) K l) : spol m l * stair m = altP (bt (vec m l)) := by
  have hp := hl.1.isPartition
  have h := jacobi_desc (vpVars m) (m + 1) hp (part_of_ge hl.2.1)
  rw [alternant_altP, alternant_altP] at h
  have e1 : (fun i : Fin (m + 1) => m + 1 - 1 - (i : ℕ)) = bt (0 : Fin (m + 1) → ℤ) := by
    funext i
    have := i.2
    simp only [bt, Pi.zero_apply]
    omega
  have e2 : (fun i : Fin (m + 1) => (part l i).toNat + (m + 1 - 1 - (i : ℕ))) = bt (vec m l) := by
    funext i
    have := i.2
    have := hp.part_nonneg i
    simp only [bt, vec]
    omega
  rw [e1, e2] at h
  exact h

theorem stair_ne_zero : stair m ≠ 0 := altP_ne_zero (bt_anti (box_zero 0))

/-- The polynomial of a combination of classes. -/
noncomputable def Sp (m : ℕ) (x : LMod) : VP m := x.sum (fun l a => MvPolynomial.C a * spol m l)

theorem Sp_stair {K : ℕ} {x : LMod} (hx : ∀ l ∈ x.support, clsA (m + 1) K l) : Sp m x * stair m = Psi m x := by
  unfold Sp Psi
  rw [Finsupp.sum, Finset.sum_mul, Finsupp.linearCombination_apply, Finsupp.sum]
  refine Finset.sum_congr rfl (fun l hl => ?_)
  rw [mul_assoc, spol_stair (hx l hl), MvPolynomial.smul_eq_C_mul]

theorem spol_Lam {K : ℕ} {l : List Int} (hl : clsA (m + 1) K l) : spol m l ∈ Lam m := by
  obtain ⟨z, hz, hz'⟩ := exists_zed (boxV_vec (m := m) (Int.natCast_nonneg K) hl)
  rw [← spol_stair hl] at hz'
  rw [← mul_right_cancel₀ stair_ne_zero hz']
  exact hz

theorem Sp_prod_single {K : ℕ} {n : ℤ} (hn : n = m + 1 + K) {l mu : List Int} (hl : clsA (m + 1) K l) (hmu : clsA (m + 1) K mu)
    (hlm : part l 0 + part mu 0 ≤ K) :
    Sp m ((sysC m (Int.natCast_nonneg K) hn).prod (Finsupp.single l 1) (Finsupp.single mu 1)) = spol m l * spol m mu := by
  apply mul_right_cancel₀ (stair_ne_zero (m := m))
  rw [Sp_stair (K := K) ((sysC m (Int.natCast_nonneg K) hn).prod_support _ (clsA_single hmu)),
    Psi_prod_exact hn hl hmu hlm (spol_Lam hl) (spol_stair hl), ← spol_stair hmu, mul_assoc]

theorem Sp_lin (m : ℕ) : ∃ L : LMod →ₗ[Polynomial ℚ] VP m, ∀ x, Sp m x = L x := by
  refine ⟨Finsupp.linearCombination (Polynomial ℚ) (spol m), fun x => ?_⟩
  unfold Sp
  rw [Finsupp.linearCombination_apply]
  simp only [MvPolynomial.smul_eq_C_mul]

theorem Sp_prod {K : ℕ} {n : ℤ} (hn : n = m + 1 + K) {x y : LMod} {A B : ℤ} (hx : ∀ l ∈ x.support, clsA (m + 1) K l ∧ part l 0 ≤ A)
    (hy : ∀ l ∈ y.support, clsA (m + 1) K l ∧ part l 0 ≤ B) (hAB : A + B ≤ K) :
    Sp m ((sysC m (Int.natCast_nonneg K) hn).prod x y) = Sp m x * Sp m y := by
  rw [(sysC m (Int.natCast_nonneg K) hn).prod_expand (fun l hl => (hx l hl).1) (fun l hl => (hy l hl).1)]
  obtain ⟨L, hL⟩ := Sp_lin m
  have hS := hL
  rw [hL, map_sum]
  have h1 : ∀ mu ∈ y.support, L (∑ l ∈ x.support, (y mu * x l) • (sysC m (Int.natCast_nonneg K) hn).prod (Finsupp.single l 1) (Finsupp.single mu 1))
      = ∑ l ∈ x.support, (MvPolynomial.C (x l) * spol m l) * (MvPolynomial.C (y mu) * spol m mu) := by
    intro mu hmu
    rw [map_sum]
    refine Finset.sum_congr rfl (fun l hl => ?_)
    have hb : part l 0 + part mu 0 ≤ K := by
      have := (hx l hl).2
      have := (hy mu hmu).2
      omega
    rw [map_smul, ← hS, Sp_prod_single hn (hx l hl).1 (hy mu hmu).1 hb, MvPolynomial.smul_eq_C_mul, map_mul]
    ring
  rw [Finset.sum_congr rfl h1, Finset.sum_comm]
  unfold Sp Finsupp.sum
  rw [Finset.sum_mul_sum]

end

/-- Evaluation of the Schur polynomials. -/
theorem eval_Sp {R : Type} [CommRing R] [Algebra ℚ R] {m : ℕ} (x : ℕ → R) (f : Sym → R) {K : ℕ} {z : LMod}
    (hz : ∀ l ∈ z.support, clsA (m + 1) K l) (hf : ∀ l, clsA (m + 1) K l → schurPol x (m + 1 : ℕ) l = .ok (f (.S l))) :
    MvPolynomial.aeval f (ev z) =
      MvPolynomial.eval₂Hom (Polynomial.aeval (R := ℚ) (f .q)).toRingHom (fun j : Fin (m + 1) => x j) (Sp m z) := by
  unfold Sp
  rw [aeval_ev, Finsupp.sum, Finsupp.sum, map_sum]
  refine Finset.sum_congr rfl (fun l hl => ?_)
  rw [map_mul, MvPolynomial.eval₂Hom_C]
  congr 1
  have h1 := hf l (hz l hl)
  have hp := (hz l hl).1.isPartition
  have hr : l.filter (· ≠ 0) = l := by
    rw [List.filter_eq_self]
    intro a ha
    have := (hz l hl).1.2 a ha
    simp only [ne_eq, decide_eq_true_eq]
    omega
  rw [schurPol_eq x (m + 1 : ℕ) (by omega) l hp, hr, Int.toNat_natCast] at h1
  injection h1 with h1
  rw [← h1, spol, map_tabSum _ _ _ hp]
  apply tabSum_congr hp
  intro i hi
  simp [vpVars, hi]

/-- C73: for classes with at most `A` and at most `B` columns, `A + B ≤ n - m`, the classical product of `Gr(m,n)` is the
product of polynomials: with the Schur polynomial in `m` variables in place of every class, at any values of the variables
and of `q` in any commutative `ℚ`-algebra, the value of `mult(a, b)` is the product of the values of `a` and `b`. -/
theorem C73_schur_product {R : Type} [CommRing R] [Algebra ℚ R] {m : ℕ} {n : ℤ} {X : Space} (hm : 1 ≤ m) (hX : mkGr m n = .ok X)
    {fuel : ℕ} (hf : giamBound m n ≤ fuel) {A B : ℤ} {a b : Poly} (ha : LinComb (fun l => GrClass m n l ∧ part l 0 ≤ A) a)
    (hb : LinComb (fun l => GrClass m n l ∧ part l 0 ≤ B) b) (hAB : A + B ≤ n - m) (x : ℕ → R) (f : Sym → R)
    (hfs : ∀ l, GrClass m n l → schurPol x m l = .ok (f (.S l))) :
    ∃ w, Gr.mult X fuel a b = .ok w ∧ LinComb (GrClass m n) w ∧ valueAt f w = valueAt f a * valueAt f b := by
  obtain ⟨u, hu, huc⟩ := linComb_ev ha.2
  obtain ⟨v, hv, hvc⟩ := linComb_ev hb.2
  have hX' := hX
  obtain ⟨rfl, h1, h2⟩ := mkGr_ok hX
  obtain ⟨w, hw, hw1, hw2⟩ := (ringC hm hX').mult hf ha.1 hu (fun l hl => (huc l hl).1) hb.1 hv (fun l hl => (hvc l hl).1)
  cases m with
  | zero => omega
  | succ m =>
    obtain ⟨k, hk⟩ : ∃ k : ℕ, (k : ℤ) = n - (m + 1 : ℕ) := ⟨(n - (m + 1 : ℕ)).toNat, by omega⟩
    have hcl : ∀ {l}, GrClass (m + 1) n l → clsA (m + 1) k l := fun h => by rw [hk]; exact h
    have hcl' : ∀ {l}, clsA (m + 1) k l → GrClass (m + 1) n l := fun h => by rw [hk] at h; exact h
    have hn : n = m + 1 + k := by rw [hk]; push_cast; ring
    rw [ringC_prod hm hX' hn u v] at hw2
    have hsup := (sysC m (Int.natCast_nonneg k) hn).prod_support u (fun l hl => hcl (hvc l hl).1)
    refine ⟨w, hw, linComb_of_ev hw1 hw2 (fun l hl => hcl' (hsup l hl)), ?_⟩
    have hfs' : ∀ l, clsA (m + 1) k l → schurPol x (m + 1 : ℕ) l = .ok (f (.S l)) := fun l hl => hfs l (hcl' hl)
    rw [valueAt_den, valueAt_den, valueAt_den, hw2, hu, hv, eval_Sp x f hsup hfs', eval_Sp x f (fun l hl => hcl (huc l hl).1) hfs',
      eval_Sp x f (fun l hl => hcl (hvc l hl).1) hfs', ← map_mul,
      Sp_prod hn (fun l hl => ⟨hcl (huc l hl).1, (huc l hl).2⟩) (fun l hl => ⟨hcl (hvc l hl).1, (hvc l hl).2⟩) (by omega)]

/-! ### stability -/

theorem AltJ_mono {m N N' : ℕ} (h : N ≤ N') : AltJ m N' ≤ AltJ m N := by
  refine Submodule.span_mono ?_
  rintro x ⟨γ, ⟨i, hi⟩, rfl⟩
  exact ⟨γ, ⟨i, h.trans hi⟩, rfl⟩

theorem prod_stable_single {m K K' : ℕ} (hK : K ≤ K') {n n' : ℤ} (hn : n = m + 1 + K) (hn' : n' = m + 1 + K') {l mu nu : List Int}
    (hl : clsA (m + 1) K l) (hmu : clsA (m + 1) K mu) (hnu : clsA (m + 1) K nu) :
    (sysC m (Int.natCast_nonneg K) hn).prod (Finsupp.single l 1) (Finsupp.single mu 1) nu =
      (sysC m (Int.natCast_nonneg K') hn').prod (Finsupp.single l 1) (Finsupp.single mu 1) nu := by
  have up : ∀ {l}, clsA (m + 1) K l → clsA (m + 1) K' l := fun h => clsA_mono (by exact_mod_cast hK) h
  have h1 := Psi_prod hn hl hmu (spol_stair hl)
  have h2 := AltJ_mono (m := m) (show K + m + 1 ≤ K' + m + 1 by omega) (Psi_prod hn' (up hl) (up hmu) (spol_stair hl))
  have h3 := Submodule.sub_mem _ h1 h2
  rw [sub_sub_sub_cancel_right] at h3
  have h4 := coeff_altP_J (bt_lt (boxV_vec (m := m) (Int.natCast_nonneg K) hnu)) h3
  rw [MvPolynomial.coeff_sub, coeff_Psi ((sysC m (Int.natCast_nonneg K) hn).prod_support _ (clsA_single hmu)) hnu,
    coeff_Psi ((sysC m (Int.natCast_nonneg K') hn').prod_support _ (clsA_single (up hmu))) (up hnu), sub_eq_zero] at h4
  exact h4

theorem prod_stable {m K K' : ℕ} (hK : K ≤ K') {n n' : ℤ} (hn : n = m + 1 + K) (hn' : n' = m + 1 + K') {x y : LMod} {nu : List Int}
    (hx : ∀ l ∈ x.support, clsA (m + 1) K l) (hy : ∀ l ∈ y.support, clsA (m + 1) K l) (hnu : clsA (m + 1) K nu) :
    (sysC m (Int.natCast_nonneg K) hn).prod x y nu = (sysC m (Int.natCast_nonneg K') hn').prod x y nu := by
  have up : ∀ {l}, clsA (m + 1) K l → clsA (m + 1) K' l := fun h => clsA_mono (by exact_mod_cast hK) h
  rw [(sysC m (Int.natCast_nonneg K) hn).prod_expand hx hy,
    (sysC m (Int.natCast_nonneg K') hn').prod_expand (fun l hl => up (hx l hl)) (fun l hl => up (hy l hl))]
  simp only [Finsupp.finsetSum_apply, Finsupp.smul_apply]
  refine Finset.sum_congr rfl (fun mu hmu => Finset.sum_congr rfl (fun l hl => ?_))
  rw [prod_stable_single hK hn hn' (hx l hl) (hy mu hmu) hnu]

/-- C74: for `n ≤ n'` the product of combinations of classes of `Gr(m,n)`, computed on `Gr(m,n')`, has the same coefficients
at the classes of `Gr(m,n)`; on `Gr(m,n)` nothing else occurs. -/
theorem C74_stable {m : ℕ} {n n' : ℤ} (hnn : n ≤ n') {X X' : Space} (hm : 1 ≤ m) (hX : mkGr m n = .ok X) (hX' : mkGr m n' = .ok X')
    {fuel fuel' : ℕ} (hf : giamBound m n ≤ fuel) (hf' : giamBound m n' ≤ fuel') {a b : Poly} (ha : LinComb (GrClass m n) a)
    (hb : LinComb (GrClass m n) b) :
    ∃ w w', Gr.mult X fuel a b = .ok w ∧ Gr.mult X' fuel' a b = .ok w' ∧ LinComb (GrClass m n) w ∧ LinComb (GrClass m n') w' ∧
      ∀ (d : ℕ) (l : List Int), GrClass m n l →
        coeffOf (List.replicate d Sym.q ++ [.S l]) w = coeffOf (List.replicate d Sym.q ++ [.S l]) w' := by
  obtain ⟨u, hu, huc⟩ := linComb_ev ha.2
  obtain ⟨v, hv, hvc⟩ := linComb_ev hb.2
  have e1 := hX
  have e2 := hX'
  obtain ⟨rfl, h1, h2⟩ := mkGr_ok hX
  obtain ⟨rfl, h1', h2'⟩ := mkGr_ok hX'
  have hbig : ∀ {l : List Int}, GrClass m n l → GrClass m n' l := fun h =>
    ⟨h.1, h.2.1, fun x hx => (h.2.2 x hx).trans (by omega)⟩
  obtain ⟨w, hw, hw1, hw2⟩ := (ringC hm e1).mult hf ha.1 hu huc hb.1 hv hvc
  obtain ⟨w', hw', hw1', hw2'⟩ := (ringC hm e2).mult hf' ha.1 hu (fun l hl => hbig (huc l hl)) hb.1 hv (fun l hl => hbig (hvc l hl))
  cases m with
  | zero => omega
  | succ m =>
    obtain ⟨k, hk⟩ : ∃ k : ℕ, (k : ℤ) = n - (m + 1 : ℕ) := ⟨(n - (m + 1 : ℕ)).toNat, by omega⟩
    obtain ⟨k', hk'⟩ : ∃ k' : ℕ, (k' : ℤ) = n' - (m + 1 : ℕ) := ⟨(n' - (m + 1 : ℕ)).toNat, by omega⟩
    have hcl : ∀ {l}, GrClass (m + 1) n l → clsA (m + 1) k l := fun h => by rw [hk]; exact h
    have hcl' : ∀ {l}, clsA (m + 1) k l → GrClass (m + 1) n l := fun h => by rw [hk] at h; exact h
    have hcl2 : ∀ {l}, clsA (m + 1) k' l → GrClass (m + 1) n' l := fun h => by rw [hk'] at h; exact h
    have hcl3 : ∀ {l}, GrClass (m + 1) n' l → clsA (m + 1) k' l := fun h => by rw [hk']; exact h
    have hn : n = m + 1 + k := by rw [hk]; push_cast; ring
    have hn' : n' = m + 1 + k' := by rw [hk']; push_cast; ring
    rw [ringC_prod hm e1 hn u v] at hw2
    rw [ringC_prod hm e2 hn' u v] at hw2'
    have hs := (sysC m (Int.natCast_nonneg k) hn).prod_support u (fun l hl => hcl (hvc l hl))
    have hs' := (sysC m (Int.natCast_nonneg k') hn').prod_support u (fun l hl => hcl3 (hbig (hvc l hl)))
    refine ⟨w, w', hw, hw', linComb_of_ev hw1 hw2 (fun l hl => hcl' (hs l hl)),
      linComb_of_ev hw1' hw2' (fun l hl => hcl2 (hs' l hl)), fun d l hl => ?_⟩
    rw [coeffOf_den hw1 (qmono_sorted d _), coeffOf_den hw1' (qmono_sorted d _), hw2, hw2', expo_qmono, coeff_ev, coeff_ev,
      prod_stable (show k ≤ k' by omega) hn hn' (fun l hl => hcl (huc l hl)) (fun l hl => hcl (hvc l hl)) (hcl hl)]

/-! ### examples -/

/-- `S[1] * S[1]` on `Gr(2,4)` with two variables: `s_2 + s_11 = (x + y)^2`. -/
example : Gr.mult ⟨.A, 2, 4⟩ 20 (Poly.sym (.S [1])) (Poly.sym (.S [1])) = .ok [([.S [1, 1]], 1), ([.S [2]], 1)] ∧
    schurPol (fun i => if i = 0 then (2 : ℚ) else 3) 2 [1] = .ok 5 ∧
    schurPol (fun i => if i = 0 then (2 : ℚ) else 3) 2 [1, 1] = .ok 6 ∧
    schurPol (fun i => if i = 0 then (2 : ℚ) else 3) 2 [2] = .ok 19 ∧ (6 + 19 : ℚ) = 5 * 5 := by
  refine ⟨?_, ?_, ?_, ?_, ?_⟩ <;> decide +kernel

/-- Without the bound on the columns the claim of C73 fails: on `Gr(2,4)` the class `S[3]` is cut off. -/
example : Gr.mult ⟨.A, 2, 4⟩ 20 (Poly.sym (.S [2])) (Poly.sym (.S [1])) = .ok [([.S [2, 1]], 1)] ∧
    Gr.mult ⟨.A, 3, 5⟩ 20 (Poly.sym (.S [2])) (Poly.sym (.S [1])) = .ok [([.S [2, 1]], 1), ([.S [3]], 1)] := by
  refine ⟨?_, ?_⟩ <;> decide +kernel

example : LinComb (fun l => GrClass 2 4 l ∧ part l 0 ≤ 1) (Poly.sym (.S [1])) :=
  ⟨wf_sym _, fun t ht => ⟨0, [1], by simp [Poly.sym] at ht; simp [ht], by unfold GrClass ReducedPart InRect; decide, by decide⟩⟩

end Verif
