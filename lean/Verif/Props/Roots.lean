import Verif.Proofs.RootSum
import Verif.Proofs.RingHom
import Mathlib.FieldTheory.IsAlgClosed.Basic
import Mathlib.FieldTheory.Separable
/-!
# C118, C119: the quantum product of `Gr(m, n)` and Schur polynomials at roots of `±q`
-/

namespace Verif
open Spec SchurSym Cyl

theorem tab_of_schurPol {R : Type} [CommRing R] {x : ℕ → R} {m : ℕ} (hm : 1 ≤ m) {l : List Int} (hl : ReducedPart l) {v : R}
    (h : schurPol x m l = .ok v) : v = tabSum x m l := by
  have hr : l.filter (· ≠ 0) = l := by
    rw [List.filter_eq_self]
    intro a ha
    have := hl.2 a ha
    simp only [ne_eq, decide_eq_true_eq]
    omega
  rw [schurPol_eq x m (by omega) l hl.isPartition, hr, Int.toNat_natCast] at h
  injection h with h
  exact h.symm

theorem schurPol_tab {R : Type} [CommRing R] (x : ℕ → R) {m : ℕ} (hm : 1 ≤ m) {l : List Int} (hl : ReducedPart l) :
    schurPol x m l = .ok (tabSum x m l) := by
  have hr : l.filter (· ≠ 0) = l := by
    rw [List.filter_eq_self]
    intro a ha
    have := hl.2 a ha
    simp only [ne_eq, decide_eq_true_eq]
    omega
  rw [schurPol_eq x m (by omega) l hl.isPartition, hr, Int.toNat_natCast]

theorem aeval_congr {R : Type} [CommRing R] [Algebra ℚ R] {f g : Sym → R} {z : LMod} (hq : f .q = g .q)
    (h : ∀ l ∈ z.support, f (.S l) = g (.S l)) : MvPolynomial.aeval f (ev z) = MvPolynomial.aeval g (ev z) := by
  rw [aeval_ev, aeval_ev, hq]
  exact Finset.sum_congr rfl (fun l hl => by simp only [h l hl])

theorem part_zero_le {m k : ℕ} {l : List Int} (h : clsA (m + 1) k l) : part l 0 ≤ k :=
  (boxV_vec (m := m) (Int.natCast_nonneg k) h).le 0

theorem prod_roots {R : Type} [CommRing R] [Algebra ℚ R] {m k : ℕ} {n : ℤ} (hn : n = m + 1 + k) {u v : LMod}
    (hu : ∀ l ∈ u.support, clsA (m + 1) k l) (hv : ∀ l ∈ v.support, clsA (m + 1) k l) {x : ℕ → R} {f : Sym → R}
    (hf : ∀ l, clsA (m + 1) k l → f (.S l) = tabSum x (m + 1) l) (hx : ∀ j < m + 1, x j ^ (k + m + 1) = (-1) ^ m * f .q) :
    MvPolynomial.aeval f (ev ((sysQ m (Int.natCast_nonneg k) hn).prod u v)) * altR (m := m) x (bt 0) =
      MvPolynomial.aeval f (ev u) * MvPolynomial.aeval f (ev v) * altR (m := m) x (bt 0) := by
  have hn' : 2 * n - 1 = m + 1 + ((2 * k + m : ℕ) : ℤ) := by push_cast; omega
  have up : ∀ {l}, clsA (m + 1) k l → clsA (m + 1) (2 * k + m : ℕ) l := fun h => clsA_mono (by push_cast; omega) h
  have hs := (sysC m (Int.natCast_nonneg (2 * k + m)) hn').prod_support u (fun l hl => up (hv l hl))
  obtain ⟨g, hg1, hg2⟩ : ∃ g : Sym → R, g .q = f .q ∧ ∀ l, g (.S l) = tabSum x (m + 1) l :=
    ⟨fun s => match s with
      | .q => f .q
      | .S l => tabSum x (m + 1) l
      | _ => 0, rfl, fun _ => rfl⟩
  have hgs : ∀ l, clsA (m + 1) (2 * k + m : ℕ) l → schurPol x (m + 1 : ℕ) l = .ok (g (.S l)) := fun l hl => by
    rw [hg2]; exact schurPol_tab x (by omega) hl.1
  rw [rim_hook_lin (n' := 2 * n - 1) hn hn' (by omega) hu hv, aeval_redq (K := 2 * k + m) hx hf (fun l _ => hg2 l) hg1 hs,
    aeval_congr hg1.symm (fun l hl => (hf l (hu l hl)).trans (hg2 l).symm), aeval_congr hg1.symm (fun l hl => (hf l (hv l hl)).trans (hg2 l).symm),
    eval_Sp x g hs hgs, eval_Sp x g (fun l hl => up (hu l hl)) hgs, eval_Sp x g (fun l hl => up (hv l hl)) hgs, ← map_mul,
    Sp_prod (A := k) (B := k) hn' (fun l hl => ⟨up (hu l hl), part_zero_le (hu l hl)⟩) (fun l hl => ⟨up (hv l hl), part_zero_le (hv l hl)⟩) (by push_cast; omega)]

/-- **C118.** Let `x_1, …, x_m` be different elements of a domain over `ℚ` whose `n`-th powers all are `(-1)^(m-1) q`. With the Schur
polynomial at these values in place of every class, the value of `qmult(a, b)` is the product of the values of `a` and `b`. -/
theorem C118_roots {R : Type} [CommRing R] [IsDomain R] [Algebra ℚ R] {m n : ℕ} {X : Space} (hm : 1 ≤ m) (hX : mkGr m n = .ok X)
    {fuel : ℕ} (hf : giamBound m n ≤ fuel) {a b : Poly} (ha : LinComb (GrClass m n) a) (hb : LinComb (GrClass m n) b)
    (x : ℕ → R) (f : Sym → R) (hfs : ∀ l, GrClass m n l → schurPol x m l = .ok (f (.S l)))
    (hx : ∀ j < m, x j ^ n = (-1) ^ (m - 1) * f .q) (hd : ∀ i j, i < m → j < m → x i = x j → i = j) :
    ∃ w, Gr.qmult X fuel a b = .ok w ∧ LinComb (GrClass m n) w ∧ valueAt f w = valueAt f a * valueAt f b := by
  have hX0 := hX
  obtain ⟨u, hu, huc⟩ := linComb_ev ha.2
  obtain ⟨v, hv, hvc⟩ := linComb_ev hb.2
  obtain ⟨w, hw, hw1, hw2⟩ := (ringQ hm hX0).mult hf ha.1 hu huc hb.1 hv hvc
  obtain ⟨rfl, h1, h2⟩ := mkGr_ok hX
  cases m with
  | zero => omega
  | succ m =>
    obtain ⟨k, hk⟩ : ∃ k : ℕ, n = k + m + 1 := ⟨n - (m + 1), by omega⟩
    have hn : (n : ℤ) = m + 1 + k := by omega
    have hkz : (n : ℤ) - ((m + 1 : ℕ) : ℤ) = k := by push_cast; omega
    have hcl : ∀ {l}, GrClass (m + 1 : ℕ) n l ↔ clsA (m + 1) k l := fun {l} => by rw [← hkz]; exact Iff.rfl
    rw [ringQ_prod hm hX0 hn u v] at hw2
    have hs := (sysQ m (Int.natCast_nonneg k) hn).prod_support u (fun l hl => hcl.1 (hvc l hl))
    refine ⟨w, hw, linComb_of_ev hw1 hw2 (fun l hl => hcl.2 (hs l hl)), ?_⟩
    have hΔ : altR (m := m) x (bt 0) ≠ 0 := by
      have := alternant_ne_zero x (m + 1) hd
      have e1 : (fun i : Fin (m + 1) => m + 1 - 1 - (i : ℕ)) = bt (0 : Fin (m + 1) → ℤ) := by
        funext i
        have := i.2
        simp only [bt, Pi.zero_apply]
        omega
      rw [← e1]
      exact this
    have hfs' : ∀ l, clsA (m + 1) k l → f (.S l) = tabSum x (m + 1) l := fun l hl => tab_of_schurPol (by omega) hl.1 (hfs l (hcl.2 hl))
    apply mul_right_cancel₀ hΔ
    rw [valueAt_den, valueAt_den, valueAt_den, hw2, hu, hv]
    exact prod_roots hn (fun l hl => hcl.1 (huc l hl)) (fun l hl => hcl.1 (hvc l hl)) hfs' (by rw [← hk]; simpa using hx)

/-- `Gr(2,4)`, `x = (1, -1)`, `q = -1`, where `S[2]` is `1` and `S[1,1]` is `-1`: `S[2]*S[1,1] = q`. -/
example : ∃ f : Sym → ℚ, (∀ l, GrClass 2 4 l → schurPol (fun j => if j = 0 then (1 : ℚ) else -1) 2 l = .ok (f (.S l))) ∧ f .q = -1 ∧
    f (.S [2]) = 1 ∧ f (.S [1, 1]) = -1 ∧ f (.S [1]) = 0 := by
  refine ⟨fun s => match s with
    | .S l => tabSum (fun j => if j = 0 then (1 : ℚ) else -1) 2 l
    | _ => -1, fun l hl => schurPol_tab _ (m := 2) (by omega) hl.1, rfl, ?_, ?_, ?_⟩
  · exact (tab_of_schurPol (m := 2) (by omega) (by decide) (by decide +kernel)).symm
  · exact (tab_of_schurPol (m := 2) (by omega) (by decide) (by decide +kernel)).symm
  · exact (tab_of_schurPol (m := 2) (by omega) (by decide) (by decide +kernel)).symm

example : Gr.qmult ⟨.A, 2, 4⟩ 20 (Poly.sym (.S [2])) (Poly.sym (.S [1, 1])) = .ok [([.q, .S []], 1)] ∧
    Gr.qmult ⟨.A, 2, 4⟩ 20 (Poly.sym (.S [2])) (Poly.sym (.S [1])) = .ok [([.S [2, 1]], 1)] := by decide +kernel

/-! ### C119 -/

theorem only_degree {m : ℕ} {n : ℤ} {X : Space} {fuel : ℕ} (hm : 1 ≤ m) (hX : mkGr m n = .ok X) (hf : giamBound m n ≤ fuel)
    {l mu nu : List Int} (hl : GrClass m n l) (hmu : GrClass m n mu) {w : Poly}
    (hw : Gr.qmult X fuel (Poly.sym (.S l)) (Poly.sym (.S mu)) = .ok w) {d : ℕ} (hd : l.sum + mu.sum = nu.sum + d * n) {e : ℕ} (he : e ≠ d) :
    coeffOf (List.replicate e Sym.q ++ [.S nu]) w = 0 := by
  obtain ⟨w', h1, h2⟩ := C23_qmult hm hX hf hl hmu
  obtain rfl : w = w' := Except.ok.inj (hw.symm.trans h1)
  have hdq : X.degreeQ = n ∧ 0 < n := by
    obtain ⟨rfl, _, h⟩ := mkGr_ok hX
    exact ⟨rfl, by omega⟩
  by_contra hc
  have hex : ∃ t ∈ w, t.1 = List.replicate e Sym.q ++ [.S nu] := by
    by_contra hno
    push Not at hno
    apply hc
    unfold coeffOf
    rw [List.filter_eq_nil_iff.2 (fun t ht => by simp only [decide_eq_true_eq]; exact hno t ht)]
    rfl
  obtain ⟨t, ht, ht1⟩ := hex
  obtain ⟨d', nu', h3, _, h5⟩ := h2 t ht
  obtain ⟨rfl, rfl⟩ := qmono_inj (d := e) (d' := d') (l := nu) (l' := nu') (by rw [← expo_qmono, ← expo_qmono, ← ht1, ← h3])
  rw [hdq.1, hd] at h5
  have h6 : ((e : ℤ) - d) * n = 0 := by rw [sub_mul]; omega
  rcases mul_eq_zero.1 h6 with h | h
  · omega
  · omega

/-- **C119.** Let `ζ_1, …, ζ_n` be the `n` different elements of a field over `ℚ` with `ζ^n = (-1)^(m-1)`. The coefficient of `q^d S[nu]` in
`qmult(S[l], S[mu])` is the sum of `s_l s_mu * alternant(δ) * alternant⁻¹(nu + δ)` over all tuples of `m` of the `ζ`, divided by `n^m m!`
(the formula of Vafa and Intriligator). -/
theorem C119_vafa {K : Type} [Field K] [Algebra ℚ K] {m n : ℕ} {X : Space} (hm : 1 ≤ m) (hX : mkGr m n = .ok X)
    {fuel : ℕ} (hf : giamBound m n ≤ fuel) {l mu nu : List Int} (hl : GrClass m n l) (hmu : GrClass m n mu) (hnu : GrClass m n nu)
    {d : ℕ} (hd : l.sum + mu.sum = nu.sum + d * n)
    {ζ : Fin n → K} (hi : Function.Injective ζ) (hζ : ∀ i, ζ i ^ n = (-1) ^ (m - 1)) :
    ∃ w, Gr.qmult X fuel (Poly.sym (.S l)) (Poly.sym (.S mu)) = .ok w ∧
      ∃ s t : (Fin m → Fin n) → K, (∀ I, schurPol (pick ζ I) m l = .ok (s I)) ∧ (∀ I, schurPol (pick ζ I) m mu = .ok (t I)) ∧
        (n : K) ^ m * (m.factorial : K) * algebraMap ℚ K (coeffOf (List.replicate d Sym.q ++ [.S nu]) w) =
          ∑ I : Fin m → Fin n, s I * t I * alternant (pick ζ I) m (fun i => m - 1 - i) *
            alternant (pick (fun i => (ζ i)⁻¹) I) m (fun i => (part nu i).toNat + (m - 1 - i)) := by
  have hX0 := hX
  obtain ⟨w, hw, hw1, hw2⟩ := (ringQ hm hX0).mult hf (wf_sym (.S l)) (x := Finsupp.single l 1) (by simp [inq])
      (supp_single hl 1) (wf_sym (.S mu)) (y := Finsupp.single mu 1) (by simp [inq]) (supp_single hmu 1)
  refine ⟨w, hw, fun I => tabSum (pick ζ I) m l, fun I => tabSum (pick ζ I) m mu, fun I => schurPol_tab _ hm hl.1, fun I => schurPol_tab _ hm hmu.1, ?_⟩
  have hone := fun e he => only_degree (nu := nu) hm hX0 hf hl hmu hw hd (e := e) he
  obtain ⟨rfl, h1, h2⟩ := mkGr_ok hX
  cases m with
  | zero => omega
  | succ m =>
    obtain ⟨k, hk⟩ : ∃ k : ℕ, n = k + m + 1 := ⟨n - (m + 1), by omega⟩
    have hn : (n : ℤ) = m + 1 + k := by omega
    have hkz : (n : ℤ) - ((m + 1 : ℕ) : ℤ) = k := by push_cast; omega
    have hcl : ∀ {l}, GrClass (m + 1 : ℕ) n l ↔ clsA (m + 1) k l := fun {l} => by rw [← hkz]; exact Iff.rfl
    rw [ringQ_prod hm hX0 hn] at hw2
    have hs := (sysQ m (Int.natCast_nonneg k) hn).prod_support (Finsupp.single l 1) (y := Finsupp.single mu 1) (fun l' hl' => hcl.1 (supp_single hmu 1 l' hl'))
    set z := (sysQ m (Int.natCast_nonneg k) hn).prod (Finsupp.single l 1) (Finsupp.single mu 1) with hz
    have hco : ∀ e, coeffOf (List.replicate e Sym.q ++ [.S nu]) w = (z nu).coeff e := fun e => by
      rw [coeffOf_den hw1 (qmono_sorted e nu), expo_qmono, hw2, coeff_ev]
    have hznu : Polynomial.aeval (1 : K) (z nu) = algebraMap ℚ K (coeffOf (List.replicate d Sym.q ++ [.S nu]) w) := by
      have : z nu = Polynomial.monomial d ((z nu).coeff d) := by
        ext e
        rw [Polynomial.coeff_monomial]
        split
        · rename_i h; rw [h]
        · rename_i h; rw [← hco, hone e (Ne.symm h)]
      rw [this, hco, Polynomial.aeval_monomial]
      simp
    have hbox : ∀ {l}, clsA (m + 1) k l → BoxV (k : ℤ) (vec m l) := fun h => boxV_vec (Int.natCast_nonneg k) h
    have hΔ : ∀ x : ℕ → K, alternant x (m + 1) (fun i => m + 1 - 1 - i) = altR (m := m) x (bt 0) := fun x => by
      have e1 : (fun i : Fin (m + 1) => m + 1 - 1 - (i : ℕ)) = bt (0 : Fin (m + 1) → ℤ) := by
        funext i
        have := i.2
        simp only [bt, Pi.zero_apply]
        omega
      rw [← e1]; rfl
    have hN : ∀ x : ℕ → K, alternant x (m + 1) (fun i => (part nu i).toNat + (m + 1 - 1 - i)) = altR (m := m) x (bt (vec m nu)) := fun x => by
      have e2 : (fun i : Fin (m + 1) => (part nu i).toNat + (m + 1 - 1 - (i : ℕ))) = bt (vec m nu) := by
        funext i
        have := i.2
        have := hnu.1.isPartition.part_nonneg i
        simp only [bt, vec]
        omega
      rw [← e2]; rfl
    have key : ∀ I : Fin (m + 1) → Fin n, tabSum (pick ζ I) (m + 1) l * tabSum (pick ζ I) (m + 1) mu * altR (m := m) (pick ζ I) (bt 0) =
        ∑ ka ∈ z.support, Polynomial.aeval (1 : K) (z ka) * altR (m := m) (pick ζ I) (bt (vec m ka)) := by
      intro I
      obtain ⟨f, hf1, hf2⟩ : ∃ f : Sym → K, f .q = 1 ∧ ∀ l, f (.S l) = tabSum (pick ζ I) (m + 1) l :=
        ⟨fun s => match s with
          | .S l => tabSum (pick ζ I) (m + 1) l
          | _ => 1, rfl, fun _ => rfl⟩
      have h := prod_roots (R := K) hn (u := Finsupp.single l 1) (v := Finsupp.single mu 1) (fun l' hl' => hcl.1 (supp_single hl 1 l' hl'))
        (fun l' hl' => hcl.1 (supp_single hmu 1 l' hl')) (x := pick ζ I) (f := f) (fun l _ => hf2 l) (by
          intro j hj
          rw [hf1, mul_one, ← hk]
          simp only [pick, hj, dif_pos, hζ]
          rfl)
      rw [aeval_ev, aeval_ev, aeval_ev, Finsupp.sum_single_index (by simp), Finsupp.sum_single_index (by simp), hf1, hf2, hf2, map_one, one_mul, one_mul] at h
      rw [← h, Finsupp.sum, Finset.sum_mul]
      refine Finset.sum_congr rfl (fun ka hka => ?_)
      rw [mul_assoc, hf2, altR_tab _ (hs ka hka)]
    have hζ0 : ((-1 : K) ^ (m + 1 - 1)) ≠ 0 := pow_ne_zero _ (neg_ne_zero.2 one_ne_zero)
    simp only [hΔ, hN, key, Finset.sum_mul, mul_assoc]
    rw [Finset.sum_comm]
    have hbn := hbox (hcl.1 hnu)
    have e4 : ∀ ka ∈ z.support, ∑ I : Fin (m + 1) → Fin n, Polynomial.aeval (1 : K) (z ka) * (altR (m := m) (pick ζ I) (bt (vec m ka)) *
        altR (m := m) (pick (fun i => (ζ i)⁻¹) I) (bt (vec m nu))) =
        if ka = nu then Polynomial.aeval (1 : K) (z ka) * ((n : K) ^ (m + 1) * ((m + 1).factorial : K)) else 0 := by
      intro ka hka
      have hbk := hbox (hs ka hka)
      rw [← Finset.mul_sum, alt_orth hi hζ0 hζ (bt_anti hbk) (bt_anti hbn) (fun i => by rw [hk]; exact bt_lt hbk i) (fun i => by rw [hk]; exact bt_lt hbn i)]
      by_cases h : ka = nu
      · simp [h]
      · have h' : bt (vec m ka) ≠ bt (vec m nu) := fun hc => h (by
          have := bt_inj hbk.nonneg hbn.nonneg hc
          rw [← lab_vec' (hs ka hka), ← lab_vec' (hcl.1 hnu), this])
        simp [h, h']
    rw [Finset.sum_congr rfl e4, Finset.sum_ite_eq', ← hznu]
    split
    · ring
    · rename_i h
      rw [Finsupp.notMem_support_iff.1 h]
      simp

/-- Over an algebraically closed field such elements exist for every `m` and `n`. -/
theorem roots_exist (K : Type) [Field K] [Algebra ℚ K] [IsAlgClosed K] (m : ℕ) {n : ℕ} (hn : 1 ≤ n) :
    ∃ ζ : Fin n → K, Function.Injective ζ ∧ ∀ i, ζ i ^ n = (-1) ^ (m - 1) := by
  classical
  have hc : CharZero K := (RingHom.charZero_iff (algebraMap ℚ K).injective).1 inferInstance
  have hε : ((-1 : K) ^ (m - 1)) ≠ 0 := pow_ne_zero _ (neg_ne_zero.2 one_ne_zero)
  have hsep : (Polynomial.X ^ n - Polynomial.C ((-1 : K) ^ (m - 1))).Separable :=
    Polynomial.separable_X_pow_sub_C _ (by exact_mod_cast (by omega : n ≠ 0)) hε
  obtain ⟨T, hT⟩ : ∃ T, T = (Polynomial.X ^ n - Polynomial.C ((-1 : K) ^ (m - 1))).roots.toFinset := ⟨_, rfl⟩
  have hcard : T.card = n := by
    rw [hT, Multiset.toFinset_card_of_nodup (Polynomial.nodup_roots hsep)]
    rw [IsAlgClosed.card_roots_eq_natDegree, Polynomial.natDegree_X_pow_sub_C]
  refine ⟨fun i => (T.equivFin.symm (i.cast hcard.symm) : K), fun a b h => ?_, fun i => ?_⟩
  · have := T.equivFin.symm.injective (Subtype.ext h)
    simpa [Fin.ext_iff] using this
  · have hmem : ∀ y ∈ T, y ^ n = (-1 : K) ^ (m - 1) := fun y hy => by
      rw [hT, Multiset.mem_toFinset] at hy
      exact (Polynomial.mem_nthRoots (by omega)).1 hy
    exact hmem _ (T.equivFin.symm (i.cast hcard.symm)).2

/-- `Gr(1,2)` with `ζ = (1, -1)`: `S[1]*S[1] = q`, and the sum over the two tuples is `2 = 2^1 * 1! * 1`. -/
example : Function.Injective ![(1 : ℚ), -1] ∧ (∀ i, ![(1 : ℚ), -1] i ^ 2 = (-1) ^ (1 - 1)) ∧
    Gr.qmult ⟨.A, 1, 2⟩ 20 (Poly.sym (.S [1])) (Poly.sym (.S [1])) = .ok [([.q, .S []], 1)] ∧ ([1] : List Int).sum + [1].sum = [].sum + (1 : ℕ) * 2 := by
  refine ⟨?_, by decide +kernel, by decide +kernel, by decide +kernel⟩
  intro i j h
  fin_cases i <;> fin_cases j <;> first | rfl | (exfalso; revert h; decide +kernel)

end Verif
