import Verif.Proofs.WordDCoef
/-!
# The matrices of the Pieri operators of type D and their commutation
-/

namespace Verif
open Spec

section
variable {R : Type*} [CommRing R]

/-! ### Words of different `k` -/

theorem gD_rows (x : R) : ∀ (u w : List L3) (s : St) (i j : L3), rowsW i.r0 u + s.ri ≠ rowsW j.r0 w + s.li →
    gD x s (u, i) (w, j) = 0 := by
  intro u
  induction u with
  | nil =>
    intro w s i j h
    cases w with
    | nil => exact endG_zero x s h
    | cons q w => rfl
  | cons p u ih =>
    intro w s i j h
    cases w with
    | nil => rfl
    | cons q w =>
      have key : ∀ t, rowsW i.r0 u + t.ri ≠ rowsW j.r0 w + t.li → wtE (fun t => endG x t i j) x t u w = 0 := fun t ht => ih w t i j ht
      simp only [gD, wtE]
      cases s <;> cases p <;> cases q <;> simp only [step] <;>
        (rw [key _ (by simp only [rowsW, St.ri, St.li] at h ⊢; omega), mul_zero])

theorem endSg_zero (t : St) {i j : L3} (h : i.r0 + t.ri ≠ j.r0 + t.li) : (endSg t i j : R) = 0 := by
  cases t <;> cases i <;> cases j <;> simp [L3.r0, St.ri, St.li] at h <;> rfl

theorem sD_rows : ∀ (u w : List L3) (s : St) (i j : L3), rowsW i.r0 u + s.ri ≠ rowsW j.r0 w + s.li →
    (sD s (u, i) (w, j) : R) = 0 := by
  intro u
  induction u with
  | nil =>
    intro w s i j h
    cases w with
    | nil => exact endSg_zero s h
    | cons q w => rfl
  | cons p u ih =>
    intro w s i j h
    cases w with
    | nil => rfl
    | cons q w =>
      have key : ∀ t, rowsW i.r0 u + t.ri ≠ rowsW j.r0 w + t.li → wtS (fun t => (endSg t i j : R)) t u w = 0 := fun t ht => ih w t i j ht
      simp only [sD, wtS]
      cases s <;> cases p <;> cases q <;> simp only [stepSg] <;>
        (rw [key _ (by simp only [rowsW, St.ri, St.li] at h ⊢; omega), mul_zero])

theorem L3.r0_sw (i : L3) : i.sw.r0 = i.r0 := by cases i <;> rfl
theorem L3.k0_sw (i : L3) : i.sw.k0 = i.k0 := by cases i <;> rfl

theorem colsD_sw (U : WordD) : colsD (swD U) = colsD U := by
  unfold colsD swD; simp only [L3.k0_sw]

theorem rows_ne {U W : WordD} (hl : U.1.length = W.1.length) (h : colsD U ≠ colsD W) : rowsW U.2.r0 U.1 ≠ rowsW W.2.r0 W.1 := by
  have := rows_add_colsD U
  have := rows_add_colsD W
  omega

theorem opGE_cols (h' x : R) {U W : WordD} (hl : U.1.length = W.1.length) (h : colsD U ≠ colsD W) : opGE h' x U W = 0 := by
  have hr := rows_ne hl h
  rcases U with ⟨_ | ⟨p, u⟩, i⟩ <;> rcases W with ⟨_ | ⟨q, w⟩, j⟩
  · exact gD_cols x hl h
  · rfl
  · rfl
  · simp only [opGE]
    cases p <;> cases q <;> simp only [kerE] <;> simp only [rowsW] at hr <;>
      (rw [gD_rows x _ _ _ _ _ (by simp only [St.ri, St.li]; omega)]; try rw [mul_zero])

theorem opGO_cols (h x : R) {U W : WordD} (hl : U.1.length = W.1.length) (hc : colsD U ≠ colsD W) : opGO h x U W = 0 := by
  have hr := rows_ne hl hc
  rcases U with ⟨_ | ⟨p, u⟩, i⟩ <;> rcases W with ⟨_ | ⟨q, w⟩, j⟩
  · rfl
  · rfl
  · rfl
  · simp only [opGO]
    cases p <;> cases q <;> simp only [kerO] <;> simp only [rowsW] at hr <;>
      (rw [gD_rows x _ _ _ _ _ (by simp only [St.ri, St.li]; omega)]; simp only [mul_zero])

theorem opSE_cols {U W : WordD} (hl : U.1.length = W.1.length) (h : colsD U ≠ colsD W) : (opSE U W : R) = 0 := by
  have hr := rows_ne hl h
  rcases U with ⟨_ | ⟨p, u⟩, i⟩ <;> rcases W with ⟨_ | ⟨q, w⟩, j⟩
  · exact sD_rows _ _ _ _ _ (by simpa [St.ri, St.li] using hr)
  · rfl
  · rfl
  · simp only [opSE]
    cases p <;> cases q <;> simp only [kerSE] <;> simp only [rowsW] at hr <;>
      (rw [sD_rows _ _ _ _ _ (by simp only [St.ri, St.li]; omega)])

theorem opSO_cols (h : R) {U W : WordD} (hl : U.1.length = W.1.length) (hc : colsD U ≠ colsD W) : opSO h U W = 0 := by
  have hr := rows_ne hl hc
  rcases U with ⟨_ | ⟨p, u⟩, i⟩ <;> rcases W with ⟨_ | ⟨q, w⟩, j⟩
  · rfl
  · rfl
  · rfl
  · simp only [opSO]
    cases p <;> cases q <;> simp only [kerSO] <;> simp only [rowsW] at hr <;>
      (rw [sD_rows _ _ _ _ _ (by simp only [St.ri, St.li]; omega)]; simp)

theorem opG_cols (h h' x : R) {U W : WordD} (hl : U.1.length = W.1.length) (hc : colsD U ≠ colsD W) : opG h h' x U W = 0 := by
  unfold opG
  rw [opGE_cols _ _ hl hc, opGO_cols _ _ (by exact hl) (by rw [colsD_sw]; exact hc), add_zero]

theorem opS_cols (h : R) {U W : WordD} (hl : U.1.length = W.1.length) (hc : colsD U ≠ colsD W) : opS h U W = 0 := by
  unfold opS
  rw [opSE_cols hl hc, opSO_cols _ (by exact hl) (by rw [colsD_sw]; exact hc), add_zero]

theorem opGO_zero (x : R) (U W : WordD) : opGO 0 x U W = 0 := by
  rcases U with ⟨_ | ⟨p, u⟩, i⟩ <;> rcases W with ⟨_ | ⟨q, w⟩, j⟩ <;> simp only [opGO]
  cases p <;> cases q <;> simp [kerO]

theorem opSO_zero (U W : WordD) : opSO (0 : R) U W = 0 := by
  rcases U with ⟨_ | ⟨p, u⟩, i⟩ <;> rcases W with ⟨_ | ⟨q, w⟩, j⟩ <;> simp only [opSO]
  cases p <;> cases q <;> simp [kerSO]

theorem opG_mixed (h' x : R) {U W : WordD} (ht : tyOk U.2 W.2 = false) : opG 0 h' x U W = 0 := by
  unfold opG
  rw [opGO_zero, add_zero]
  rcases U with ⟨_ | ⟨p, u⟩, i⟩ <;> rcases W with ⟨_ | ⟨q, w⟩, j⟩
  · exact gD_mixed _ _ ht
  · rfl
  · rfl
  · simp only [opGE]
    have : ∀ s, gD x s (u, i) (w, j) = 0 := fun s => gD_mixed _ _ ht
    cases p <;> cases q <;> simp [kerE, this]

/-! ### Sums over the words of the classes -/

theorem sumD_WdD {n k : Nat} (f : WordD → R) (h : ∀ W : WordD, W.1.length = n → W ∉ WdD n k → f W = 0) :
    sumD n f = ∑ W ∈ WdD n k, f W := by
  have e : sumD n f = ∑ W ∈ (words n).toFinset ×ˢ ({.o, .a, .b} : Finset L3), f W := by
    rw [Finset.sum_product]
    unfold sumD
    rw [sumW_eq, sumW_eq, sumW_eq, ← List.sum_toFinset _ (words_nodup n), ← List.sum_toFinset _ (words_nodup n),
      ← List.sum_toFinset _ (words_nodup n), ← Finset.sum_add_distrib, ← Finset.sum_add_distrib]
    apply Finset.sum_congr rfl
    intro w _
    rw [Finset.sum_insert (by decide), Finset.sum_insert (by decide), Finset.sum_singleton, add_assoc]
  rw [e]
  symm
  apply Finset.sum_subset (Finset.filter_subset _ _)
  intro W hW hn
  rw [Finset.mem_product, List.mem_toFinset, mem_words] at hW
  exact h W hW.1 hn

theorem opG_out (h h' x : R) {n k : Nat} (hk : k = 0 → h = 0) {U W : WordD} (hU : U ∈ WdD n k) (hl : W.1.length = n) (hW : W ∉ WdD n k) :
    opG h h' x U W = 0 := by
  rw [mem_WdD] at hU hW
  by_cases hc : colsD W = k
  · have h0 : k = 0 := by
      by_contra h0
      exact hW ⟨hl, hc, fun h => absurd h h0⟩
    have hn : W.2 ≠ .a := fun h1 => hW ⟨hl, hc, fun _ => h1⟩
    have hb : W.2 = .b := by
      cases h2 : W.2
      · have := colsW_add W.2.k0 W.1
        unfold colsD at hc
        rw [h2] at hc this
        simp [L3.k0] at this hc
        omega
      · exact absurd h2 hn
      · rfl
    rw [hk h0]
    apply opG_mixed
    rw [hU.2.2 h0, hb]; rfl
  · exact opG_cols _ _ _ (by omega) (by omega)

theorem opS_out (h : R) {n k : Nat} (hk : k ≠ 0) {U W : WordD} (hU : U ∈ WdD n k) (hl : W.1.length = n) (hW : W ∉ WdD n k) :
    opS h U W = 0 := by
  rw [mem_WdD] at hU hW
  apply opS_cols _ (by omega)
  intro hc
  exact hW ⟨hl, by omega, fun h => absurd h hk⟩

/-! ### Ring homomorphisms -/

variable {S : Type*} [CommRing S] (φ : R →+* S)

theorem wtE_map (e : St → R) (x : R) (s : St) (u w : List L3) : φ (wtE e x s u w) = wtE (fun t => φ (e t)) (φ x) s u w := by
  induction u generalizing s w with
  | nil => cases w <;> simp [wtE]
  | cons p u ih =>
    cases w with
    | nil => simp [wtE]
    | cons q w =>
      simp only [wtE]
      rcases step s p q with _ | ⟨t, i, j⟩
      · simp
      · simp only [map_mul, map_pow, ih, map_ofNat]

theorem gD_map (x : R) (s : St) (U W : WordD) : φ (gD x s U W) = gD (φ x) s U W := by
  unfold gD
  rw [wtE_map]
  congr 1
  funext t
  have h2 : φ 2 = 2 := map_ofNat φ 2
  cases t <;> cases U.2 <;> cases W.2 <;> simp [endG, h2]

theorem wtS_map (e : St → R) (s : St) (u w : List L3) : φ (wtS e s u w) = wtS (fun t => φ (e t)) s u w := by
  induction u generalizing s w with
  | nil => cases w <;> simp [wtS]
  | cons p u ih =>
    cases w with
    | nil => simp [wtS]
    | cons q w =>
      simp only [wtS]
      rcases stepSg s p q with _ | ⟨t, i⟩
      · simp
      · simp only [map_mul, map_intCast, ih]

theorem sD_map (s : St) (U W : WordD) : φ (sD s U W) = sD s U W := by
  unfold sD
  rw [wtS_map]
  congr 1
  funext t
  cases t <;> cases U.2 <;> cases W.2 <;> simp [endSg]

theorem opG_map (h h' x : R) (U W : WordD) : φ (opG h h' x U W) = opG (φ h) (φ h') (φ x) U W := by
  unfold opG
  rw [map_add]
  congr 1
  · rcases U with ⟨_ | ⟨p, u⟩, i⟩ <;> rcases W with ⟨_ | ⟨q, w⟩, j⟩ <;> simp only [opGE, gD_map]
    cases p <;> cases q <;> simp [kerE, gD_map]
  · unfold swD
    rcases U with ⟨_ | ⟨p, u⟩, i⟩ <;> rcases W with ⟨_ | ⟨q, w⟩, j⟩ <;> simp only [opGO, map_zero]
    cases p <;> cases q <;> simp [kerO, gD_map]

theorem opS_map (h : R) (U W : WordD) : φ (opS h U W) = opS (φ h) U W := by
  unfold opS
  rw [map_add]
  congr 1
  · rcases U with ⟨_ | ⟨p, u⟩, i⟩ <;> rcases W with ⟨_ | ⟨q, w⟩, j⟩ <;> simp only [opSE, sD_map]
    cases p <;> cases q <;> simp [kerSE, sD_map]
  · unfold swD
    rcases U with ⟨_ | ⟨p, u⟩, i⟩ <;> rcases W with ⟨_ | ⟨q, w⟩, j⟩ <;> simp only [opSO, map_zero]
    cases p <;> cases q <;> simp [kerSO, sD_map]

end

/-! ### Coefficients -/

section
variable {S : Type*} [CommRing S] [IsDomain S] [CharZero S]

open Polynomial in
theorem coeffG_comm {h h' : S} (a b : Nat) {n k : Nat} (hk : k = 0 → h = 0) (hh : k ≠ 0 → h' = h ^ 2) {U V : WordD}
    (hU : U ∈ WdD n k) (hV : V ∈ WdD n k) :
    ∑ W ∈ WdD n k, (opG (C h) (C h') X U W).coeff a * (opG (C h) (C h') X W V).coeff b =
    ∑ W ∈ WdD n k, (opG (C h) (C h') X U W).coeff b * (opG (C h) (C h') X W V).coeff a := by
  have hx : (C (X : S[X]) : S[X][X]) ≠ 0 := by simp [X_ne_zero]
  have hy : (X : S[X][X]) ≠ 0 := X_ne_zero
  have hxy : (C (X : S[X]) : S[X][X]) + X ≠ 0 := by
    intro h0
    have := congrArg (fun f => coeff f 1) h0
    simp at this
  have hU' := mem_WdD.1 hU
  have hV' := mem_WdD.1 hV
  have h2 : (2 : S[X][X]) ≠ 0 := two_ne_zero
  have H := opG_comm h2 (h := C (C h)) (h' := C (C h')) hx hy hxy (U := U) (V := V) (by omega) (by
    rcases Nat.eq_zero_or_pos k with h0 | h0
    · right
      have e1 := colsW_add U.2.k0 U.1
      have e2 := colsW_add V.2.k0 V.1
      have e3 := hU'.2.1
      have e4 := hV'.2.1
      unfold colsD at e3 e4
      omega
    · left; rw [hh (by omega)]; simp)
  have hz : k = 0 → C (C h) = (0 : S[X][X]) := fun h0 => by rw [hk h0]; simp
  rw [hU'.1, sumD_WdD (k := k) _ (fun W h1 h2 => by rw [opG_out _ _ _ hz hU h1 h2, zero_mul]),
    sumD_WdD (k := k) _ (fun W h1 h2 => by rw [opG_out _ _ _ hz hU h1 h2, zero_mul])] at H
  have e1 : ∀ u w, opG (C (C h)) (C (C h')) (C (X : S[X])) u w = C (opG (C h) (C h') X u w) :=
    fun u w => (opG_map C _ _ _ u w).symm
  have e2 : ∀ u w, opG (C (C h)) (C (C h')) (X : S[X][X]) u w = (opG (C h) (C h') X u w).map C := by
    intro u w
    have := opG_map (mapRingHom (C : S →+* S[X])) (C h) (C h') X u w
    simpa using this.symm
  simp only [e1, e2] at H
  have H2 := congrArg (fun f : S[X][X] => (f.coeff b).coeff a) H
  simp only [finsetSum_coeff, coeff_C_mul, coeff_mul_C, coeff_map] at H2
  rw [H2]

open Polynomial in
theorem coeffS_comm (h : S) (b : Nat) {n k : Nat} (hk : k ≠ 0) {U V : WordD} (hU : U ∈ WdD n k) (hV : V ∈ WdD n k) :
    ∑ W ∈ WdD n k, opS h U W * (opG (C h) (C (h ^ 2)) X W V).coeff b =
    ∑ W ∈ WdD n k, (opG (C h) (C (h ^ 2)) X U W).coeff b * opS h W V := by
  have hU' := mem_WdD.1 hU
  have hV' := mem_WdD.1 hV
  have H := opS_comm (two_ne_zero : (2 : S[X]) ≠ 0) (h := C h) (X_ne_zero (R := S)) (U := U) (V := V) (by omega)
  rw [hU'.1, sumD_WdD (k := k) _ (fun W h1 h2 => by rw [opS_out _ hk hU h1 h2, zero_mul]),
    sumD_WdD (k := k) _ (fun W h1 h2 => by rw [opG_out _ _ _ (fun h0 => absurd h0 hk) hU h1 h2, zero_mul])] at H
  have e1 : ∀ u w, opS (C h) u w = C (opS h u w) := fun u w => (opS_map C h u w).symm
  have H2 := congrArg (fun f : S[X] => f.coeff b) H
  simp only [e1, finsetSum_coeff, coeff_C_mul, coeff_mul_C, ← C_pow] at H2
  exact H2

end

/-! ### The matrices -/

/-- the factor of the special classes of degree at least `k` -/
def alD (k : Nat) (p : Int) : ℚ := if p.natAbs < k then 1 else 1 / 2

/-- the sign of the special classes of degree `k` -/
def beD (k : Nat) (p : Int) : ℚ := if p.natAbs = k then sgD p else 0

open Polynomial in
/-- the matrices of type D; `h` and `h'` are the weights of the two kinds of quantum terms -/
noncomputable def MDg (h h' : Polynomial ℚ) (k : Nat) (p : Int) (U W : WordD) : Polynomial ℚ :=
  C (alD k p) * ((opG (C h) (C h') (X : (Polynomial ℚ)[X]) U W).coeff p.natAbs + C (beD k p) * opS h U W)

theorem cfD_eq (k : Nat) (p : Int) (U W : WordD) : cfD k p U W = alD k p * (gcD k p.natAbs U W + beD k p * sD .z U W) := by
  unfold cfD alD beD
  rcases Nat.lt_trichotomy p.natAbs k with h | h | h
  · rw [if_pos h, if_pos h, if_neg (by omega)]; ring
  · rw [if_neg (by omega), if_neg (by omega), if_neg (by omega), if_pos h]
  · rw [if_neg (by omega), if_pos h, if_neg (by omega), if_neg (by omega)]; ring

theorem MDg_comm {h h' : Polynomial ℚ} {n k : Nat} (hk : k = 0 → h = 0) (hh : k ≠ 0 → h' = h ^ 2) {a b : Int}
    (ha : k = 0 → a ≠ 0) (hb : k = 0 → b ≠ 0) (U : WordD) (hU : U ∈ WdD n k) (V : WordD) (hV : V ∈ WdD n k) :
    ∑ W ∈ WdD n k, MDg h h' k a U W * MDg h h' k b W V = ∑ W ∈ WdD n k, MDg h h' k b U W * MDg h h' k a W V := by
  have GG := coeffG_comm a.natAbs b.natAbs hk hh hU hV
  unfold MDg
  generalize hg : (fun (p : Nat) (U W : WordD) => (opG (Polynomial.C h) (Polynomial.C h') (Polynomial.X : Polynomial (Polynomial ℚ)) U W).coeff p) = g
  have hg' : ∀ p U W, (opG (Polynomial.C h) (Polynomial.C h') (Polynomial.X : Polynomial (Polynomial ℚ)) U W).coeff p = g p U W :=
    fun p U W => by rw [← hg]
  simp only [hg'] at GG ⊢
  have e : ∀ a b, ∑ W ∈ WdD n k, Polynomial.C (alD k a) * (g a.natAbs U W + Polynomial.C (beD k a) * opS h U W) *
      (Polynomial.C (alD k b) * (g b.natAbs W V + Polynomial.C (beD k b) * opS h W V)) =
      Polynomial.C (alD k a) * Polynomial.C (alD k b) * (∑ W ∈ WdD n k, g a.natAbs U W * g b.natAbs W V +
        Polynomial.C (beD k b) * ∑ W ∈ WdD n k, g a.natAbs U W * opS h W V +
        Polynomial.C (beD k a) * ∑ W ∈ WdD n k, opS h U W * g b.natAbs W V +
        Polynomial.C (beD k a) * Polynomial.C (beD k b) * ∑ W ∈ WdD n k, opS h U W * opS h W V) := by
    intro a b
    simp only [Finset.mul_sum, ← Finset.sum_add_distrib]
    apply Finset.sum_congr rfl
    intro W _
    ring
  rw [e, e, GG]
  rcases Nat.eq_zero_or_pos k with h0 | h0
  · have ba : beD k a = 0 := by unfold beD; rw [if_neg]; have := ha h0; omega
    have bb : beD k b = 0 := by unfold beD; rw [if_neg]; have := hb h0; omega
    rw [ba, bb]
    simp only [Polynomial.C_0]
    ring
  · have SG : ∀ c : Nat, ∑ W ∈ WdD n k, opS h U W * g c W V = ∑ W ∈ WdD n k, g c U W * opS h W V := by
      intro c
      have := coeffS_comm h c (show k ≠ 0 by omega) hU hV
      rw [← hh (by omega)] at this
      simpa only [hg'] using this
    rw [SG, SG]
    ring

end Verif
