import Verif.Proofs.WordDLab
/-!
# The Pieri coefficients of type D from the two transfer matrices
-/

namespace Verif
open Spec

/-! ### Lists with the same parts -/

theorem PieriArrow.congr {k : Nat} {d : Int} {lam lam' mu mu' : List Int} (h1 : part lam = part lam') (h2 : part mu = part mu')
    (h3 : colHeight lam = colHeight lam') (h4 : colHeight mu = colHeight mu') (h : PieriArrow k d lam mu) : PieriArrow k d lam' mu' := by
  obtain ⟨a, b, c⟩ := h
  unfold HorizontalStrip at a
  unfold Added InShape at b c
  rw [h1, h2] at a b c
  rw [h3, h4] at b c
  exact ⟨a, b, c⟩

theorem numComps_congr {k : Nat} {d : Int} {lam lam' mu mu' : List Int} (h1 : part lam = part lam') (h2 : part mu = part mu')
    (h3 : colHeight lam = colHeight lam') (h4 : colHeight mu = colHeight mu') : numComps k d lam mu = numComps k d lam' mu' := by
  have : Leftover k d lam mu = Leftover k d lam' mu' := by
    unfold Leftover Mentioned Added InShape
    rw [h1, h2, h3, h4]
  unfold numComps
  rw [this]

theorem arrow_labD {n k : Nat} (hk : k ≤ n + 1) {U W : WordD} (hU : U.1.length = n ∧ colsD U = k) (hW : W.1.length = n ∧ colsD W = k) :
    PieriArrow k 1 (labD U) (labD W) ↔ ShapeRel k 1 (shD U) (shD W) := by
  have b1 := inBox_shD U
  have b2 := inBox_shD W
  rw [hU.1, hU.2] at b1
  rw [hW.1, hW.2] at b2
  rw [shapeRel_iff b1 b2 (Or.inr rfl) (by omega) (by omega)]
  have p1 := funext (part_labD U)
  have p2 := funext (part_labD W)
  have c1 := colHeight_labD U
  have c2 := colHeight_labD W
  exact ⟨PieriArrow.congr p1 p2 c1 c2, PieriArrow.congr p1.symm p2.symm c1.symm c2.symm⟩

theorem numComps_labD {n k : Nat} (hk : k ≤ n + 1) {U W : WordD} (hU : U.1.length = n ∧ colsD U = k) (hW : W.1.length = n ∧ colsD W = k)
    (h : ShapeRel k 1 (shD U) (shD W)) : numComps k 1 (labD U) (labD W) = countComps (shD U) (shD W) false k 1 := by
  have b1 := inBox_shD U
  have b2 := inBox_shD W
  rw [hU.1, hU.2] at b1
  rw [hW.1, hW.2] at b2
  rw [(countComps_numComps b1 b2 (Or.inr rfl) (by omega) (by omega) h).1]
  exact numComps_congr (funext (part_labD U)) (funext (part_labD W)) (colHeight_labD U) (colHeight_labD W)

/-! ### Coefficients -/

open Classical in
/-- the coefficients of the first matrix -/
noncomputable def gcD (k p : Nat) (U W : WordD) : ℚ :=
  if ShapeRel k 1 (shD U) (shD W) ∧ tyOk U.2 W.2 = true ∧ (shD W).sum = (shD U).sum + p then
    2 ^ countComps (shD U) (shD W) false k 1 else 0

open Polynomial in
theorem coeff_gD (p : Nat) {U W : WordD} (hl : U.1.length = W.1.length) (hc : colsD U = colsD W) :
    (gD (X : (Polynomial ℚ)[X]) .z U W).coeff p = C (gcD (colsD U) p U W) := by
  obtain ⟨h2, h3⟩ := gD_pieri (X : (Polynomial ℚ)[X]) hl hc
  by_cases ht : tyOk U.2 W.2 = true
  · by_cases hs : ShapeRel (colsD U) 1 (shD U) (shD W)
    · obtain ⟨N, e1, e2⟩ := h3 hs ht
      rw [e2]
      have e4 : ∀ c : Nat, (2 : (Polynomial ℚ)[X]) ^ c = C (C ((2 : ℚ) ^ c)) := fun c => by simp only [map_pow, map_ofNat]
      rw [e4, coeff_C_mul, coeff_X_pow]
      unfold gcD
      by_cases hp : p = N
      · rw [if_pos hp, if_pos ⟨hs, ht, by omega⟩, mul_one]
      · rw [if_neg hp, if_neg (fun h => hp (by omega)), mul_zero, C_0]
    · rw [h2 hs]
      unfold gcD
      simp [hs]
  · rw [gD_mixed _ _ (by simpa using ht)]
    unfold gcD
    simp [ht]

/-- the sign of a special class -/
def sgD (p : Int) : ℚ := if 0 ≤ p then 1 else -1

/-- the coefficients of the Pieri rule of type D -/
noncomputable def cfD (k : Nat) (p : Int) (U W : WordD) : ℚ :=
  if p.natAbs < k then gcD k p.natAbs U W
  else if k < p.natAbs then 1 / 2 * gcD k p.natAbs U W
  else 1 / 2 * (gcD k p.natAbs U W + sgD p * sD .z U W)

theorem tyOk_iff (i j : L3) : tyOk i j = true ↔ i.ty + j.ty ≠ 3 := by
  cases i <;> cases j <;> simp [tyOk, L3.ty]

theorem gcD_pos {n k p : Nat} (hk : k ≤ n + 1) {U W : WordD} (hU : U.1.length = n ∧ colsD U = k) (hW : W.1.length = n ∧ colsD W = k)
    (h : ShapeRel k 1 (shD U) (shD W)) (hs : (shD W).sum = (shD U).sum + p) (hp : k < p) :
    1 ≤ countComps (shD U) (shD W) false k 1 := by
  have b1 := inBox_shD U
  have b2 := inBox_shD W
  rw [hU.1, hU.2] at b1
  rw [hW.1, hW.2] at b2
  obtain ⟨e, he⟩ := free_exists b1 b2 h (by omega)
  exact countComps_pos b1 b2 (Or.inr rfl) (by omega) (by omega) h false he (by simp)

/-- **The matrices give the terms of the Pieri rule.** -/
theorem termD_word_iff {n k : Nat} (hk : k ≤ n + 1) {p : Int} (hp : k = 0 → p ≠ 0) {U W : WordD} (hU : U ∈ WdD n k) (hW : W ∈ WdD n k) (c : ℚ) :
    TermD k n p (labD U) (labD W) c ↔ cfD k p U W ≠ 0 ∧ c = cfD k p U W := by
  have hW' := clsD_labD hW
  rw [mem_WdD] at hU hW
  have hA := arrow_labD hk ⟨hU.1, hU.2.1⟩ ⟨hW.1, hW.2.1⟩
  have hN := numComps_labD hk ⟨hU.1, hU.2.1⟩ ⟨hW.1, hW.2.1⟩
  have hpos := gcD_pos (p := p.natAbs) hk ⟨hU.1, hU.2.1⟩ ⟨hW.1, hW.2.1⟩
  have hS := sD_pieri (R := ℚ) (U := U) (W := W) (by omega) (by omega)
  have hL : notLonger k (labD U) (labD W) = notLonger k (shD U) (shD W) := by
    unfold notLonger; rw [colHeight_labD, colHeight_labD]
  have hT : clsType k (labD U) + clsType k (labD W) ≠ 3 ↔ tyOk U.2 W.2 = true := by
    rcases Nat.eq_zero_or_pos k with h0 | h0
    · subst h0
      have e1 := hU.2.2 rfl
      have e2 := hW.2.2 rfl
      have := clsType_labD_zero (U := U) (by rw [e1]; simp)
      have := clsType_labD_zero (U := W) (by rw [e2]; simp)
      rw [e1, e2]
      simp [tyOk]
      omega
    · have h1 := clsType_labD (U := U) (by omega)
      have h2 := clsType_labD (U := W) (by omega)
      rw [hU.2.1] at h1
      rw [hW.2.1] at h2
      rw [h1, h2, tyOk_iff]
  have hmax : p.natAbs = k → max (clsType k (labD U)) (clsType k (labD W)) = max U.2.ty W.2.ty := by
    intro hpk
    have h1 := clsType_labD (U := U) (by omega)
    have h2 := clsType_labD (U := W) (by omega)
    rw [hU.2.1] at h1
    rw [hW.2.1] at h2
    rw [h1, h2]
  rw [hU.2.1] at hS
  have hterm : TermD k n p (labD U) (labD W) c ↔ (shD W).sum = (shD U).sum + p.natAbs ∧ ShapeRel k 1 (shD U) (shD W) ∧
      tyOk U.2 W.2 = true ∧ CoefD k p (labD U) (labD W) c := by
    rw [← hA, ← hT, ← labD_sum, ← labD_sum]
    obtain ⟨mu, r1, r2, r3⟩ := hW'
    have key : ∀ mu, labD W = mu ∨ ((k : Int) ∈ mu ∧ labD W = mu ++ [0]) → mu.sum = (labD W).sum ∧
        (PieriArrow k 1 (labD U) mu ↔ PieriArrow k 1 (labD U) (labD W)) := by
      rintro mu (rfl | ⟨_, h⟩)
      · exact ⟨rfl, Iff.rfl⟩
      · rw [h]; exact ⟨by simp, (pieriArrow_append_zero _ _ _ _).symm⟩
    constructor
    · rintro ⟨mu, _, _, h3, h4, h5, h6, h7⟩
      obtain ⟨e1, e2⟩ := key mu h5
      exact ⟨by omega, e2.1 h4, h6, h7⟩
    · rintro ⟨h3, h4, h6, h7⟩
      obtain ⟨e1, e2⟩ := key mu r3
      exact ⟨mu, r1, r2, by omega, e2.2 h4, r3, h6, h7⟩
  rw [hterm]
  by_cases hg : ShapeRel k 1 (shD U) (shD W) ∧ tyOk U.2 W.2 = true ∧ (shD W).sum = (shD U).sum + p.natAbs
  · have hN := hN hg.1
    have hpos := hpos hg.1 hg.2.2
    have ee : gcD k p.natAbs U W = 2 ^ countComps (shD U) (shD W) false k 1 := if_pos hg
    have e1 : ((shD W).sum = (shD U).sum + p.natAbs ∧ ShapeRel k 1 (shD U) (shD W) ∧
      tyOk U.2 W.2 = true ∧ CoefD k p (labD U) (labD W) c) ↔ CoefD k p (labD U) (labD W) c :=
      ⟨fun h => h.2.2.2, fun h => ⟨hg.2.2, hg.1, hg.2.1, h⟩⟩
    rw [e1]
    unfold cfD
    rw [ee]
    rcases Nat.lt_trichotomy p.natAbs k with hlt | heq | hlt
    · rw [if_pos hlt]
      constructor
      · intro h
        refine ⟨by positivity, ?_⟩
        rw [h.small hlt, hN]
      · rintro ⟨_, h⟩
        exact ⟨fun _ => by rw [h, hN], by omega, by omega, by omega⟩
    · rw [if_neg (by omega), if_neg (by omega)]
      by_cases hz : countComps (shD U) (shD W) false k 1 = 0
      · have hs := hS.2 hg.1 hg.2.1 (by omega) hz
        rw [hz, hs]
        have : (1 / 2 * ((2 : ℚ) ^ 0 + sgD p * (if Odd (notLonger k (shD U) (shD W) + max U.2.ty W.2.ty) then 1 else -1))) =
            if (Odd (notLonger k (shD U) (shD W) + max U.2.ty W.2.ty) ↔ 0 ≤ p) then 1 else 0 := by
          unfold sgD
          by_cases h1 : Odd (notLonger k (shD U) (shD W) + max U.2.ty W.2.ty) <;> by_cases h2 : 0 ≤ p <;> simp [h1, h2] <;> norm_num
        rw [this]
        constructor
        · intro h
          obtain ⟨h1, h2⟩ := h.tie heq (by rw [hN, hz])
          rw [hL, hmax heq] at h2
          rw [if_pos h2]
          exact ⟨by norm_num, h1⟩
        · rintro ⟨h1, h2⟩
          have h3 : Odd (notLonger k (shD U) (shD W) + max U.2.ty W.2.ty) ↔ 0 ≤ p := by
            by_contra hc
            rw [if_neg hc] at h1
            exact h1 rfl
          rw [if_pos h3] at h2
          refine ⟨by omega, by omega, ?_, ?_⟩
          · rw [hN, hz]; omega
          · intro _ _
            rw [hL, hmax heq]
            exact ⟨h2, h3⟩
      · have hs := hS.1 (fun h => hz h.2.2.2)
        obtain ⟨e, he⟩ : ∃ e, countComps (shD U) (shD W) false k 1 = e + 1 := ⟨_, (Nat.succ_pred_eq_of_pos (by omega)).symm⟩
        rw [hs, he]
        have : (1 / 2 * ((2 : ℚ) ^ (e + 1) + sgD p * 0)) = 2 ^ e := by rw [pow_succ]; ring
        rw [this]
        constructor
        · intro h
          refine ⟨by positivity, ?_⟩
          rw [h.middle heq (by omega), hN, he]; rfl
        · rintro ⟨_, h⟩
          refine ⟨by omega, by omega, ?_, ?_⟩
          · intro _ _; rw [h, hN, he]; rfl
          · intro _ h1; omega
    · rw [if_neg (by omega), if_pos hlt]
      have := hpos hlt
      obtain ⟨e, he⟩ : ∃ e, countComps (shD U) (shD W) false k 1 = e + 1 := ⟨_, (Nat.succ_pred_eq_of_pos (by omega)).symm⟩
      rw [he]
      have : (1 / 2 * (2 : ℚ) ^ (e + 1)) = 2 ^ e := by rw [pow_succ]; ring
      rw [this]
      constructor
      · intro h
        refine ⟨by positivity, ?_⟩
        rw [(h.large hlt).2, hN, he]; rfl
      · rintro ⟨_, h⟩
        refine ⟨by omega, ?_, by omega, by omega⟩
        intro _; rw [h, hN, he]; exact ⟨by omega, rfl⟩
  · have ee : gcD k p.natAbs U W = 0 := if_neg hg
    constructor
    · rintro ⟨h1, h2, h3, _⟩; exact absurd ⟨h2, h3, h1⟩ hg
    · rintro ⟨h1, _⟩
      exfalso
      apply h1
      unfold cfD
      rw [ee]
      split
      · rfl
      · split
        · ring
        · rename_i h2 h3
          rw [hS.1 (fun h => hg ⟨h.1, h.2.1, by have := h.2.2.1; omega⟩)]
          ring

/-- a coefficient that is not zero comes with the Pieri relation -/
theorem cfD_ne {n k : Nat} (hk : k ≤ n + 1) {p : Int} (hp : k = 0 → p ≠ 0) {U W : WordD} (hU : U ∈ WdD n k) (hW : W ∈ WdD n k)
    (h : cfD k p U W ≠ 0) : PieriArrow k 1 (labD U) (labD W) ∧ (labD W).sum = (labD U).sum + p.natAbs ∧
      clsType k (labD U) + clsType k (labD W) ≠ 3 ∧ CoefD k p (labD U) (labD W) (cfD k p U W) := by
  obtain ⟨mu, r1, r2, r3, r4, r5, r6, r7⟩ := (termD_word_iff hk hp hU hW _).2 ⟨h, rfl⟩
  rcases r5 with r5 | ⟨_, r5⟩
  · rw [r5] at r6 r7 ⊢; exact ⟨r4, r3, r6, r7⟩
  · rw [r5] at r6 r7 ⊢
    exact ⟨(pieriArrow_append_zero _ _ _ _).2 r4, by simpa using r3, r6, r7⟩

end Verif
