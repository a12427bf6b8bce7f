import Verif.Proofs.WordDOps
/-!
# The quantum terms of type D as classical terms of longer words
-/

namespace Verif
open Spec

section
variable {R : Type*} [CommRing R]

theorem gD_l_aOf (x : R) (i j : L3) : ∀ u w : List L3, (j = .o → colsW 0 w ≠ 0) → gD x .l (u, i) (w, j) = match aOf w with
    | some w' => x * gD x .z (u, i) (w', j)
    | none => 0 := by
  intro u w hj
  induction w generalizing u with
  | nil =>
    cases u
    · cases i <;> cases j <;> simp [gD, wtE, aOf, endG, colsW] at hj ⊢
    · simp [gD, wtE, aOf]
  | cons q w ih =>
    cases u with
    | nil =>
      cases q <;> simp only [gD, wtE, aOf]
      · simp
      · rcases aOf w with _ | w' <;> simp [wtE]
    | cons p u =>
      cases q
      · cases p <;> simp [gD, wtE, aOf, step]
      · cases p <;> simp [gD, wtE, aOf, step]
      · have := ih u (by simpa [colsW] using hj)
        simp only [aOf]
        simp only [gD] at this ⊢
        rcases h : aOf w with _ | w' <;> rw [h] at this <;> cases p <;> simp [wtE, step, this]

theorem sD_l_aOf (i j : L3) : ∀ u w : List L3, (j = .o → colsW 0 w ≠ 0) → (sD .l (u, i) (w, j) : R) = match aOf w with
    | some w' => -sD .z (u, i) (w', j)
    | none => 0 := by
  intro u w hj
  induction w generalizing u with
  | nil =>
    cases u
    · cases i <;> cases j <;> simp [sD, wtS, aOf, endSg, colsW] at hj ⊢
    · simp [sD, wtS, aOf]
  | cons q w ih =>
    cases u with
    | nil =>
      cases q <;> simp only [sD, wtS, aOf]
      · simp
      · rcases aOf w with _ | w' <;> simp [wtS]
    | cons p u =>
      cases q
      · cases p <;> simp [sD, wtS, aOf, stepSg]
      · cases p <;> simp [sD, wtS, aOf, stepSg]
      · have := ih u (by simpa [colsW] using hj)
        simp only [aOf]
        simp only [sD] at this ⊢
        rcases h : aOf w with _ | w' <;> rw [h] at this <;> cases p <;> simp [wtS, stepSg, this]

/-- the weight of the first kind of quantum terms -/
def wtQD (x : R) (U W : WordD) : R :=
  match aOf W.1 with
  | some w' => gD x .z (.b :: U.1, U.2) (.o :: w', W.2)
  | none => 0

/-- the signed weight of the first kind of quantum terms -/
def wtQS (U W : WordD) : R :=
  match aOf W.1 with
  | some w' => sD .z (.b :: U.1, U.2) (.o :: w', W.2)
  | none => 0

/-- the weight of the second kind of quantum terms -/
def wtPD (x : R) (U W : WordD) : R :=
  match U.1, W.1 with
  | .a :: u, .b :: w => gD x .z (.b :: u, U.2) (.a :: w, W.2)
  | _, _ => 0

theorem opGE_eq (h' x : R) {U W : WordD} (hl : U.1.length = W.1.length) :
    opGE h' x U W = gD x .z U W + h' * wtPD x U W := by
  rcases U with ⟨_ | ⟨p, u⟩, i⟩ <;> rcases W with ⟨_ | ⟨q, w⟩, j⟩ <;> simp at hl
  · simp [opGE, wtPD]
  · cases p <;> cases q <;> simp [opGE, kerE, wtPD, gD, wtE, step]

theorem opGO_eq (h x : R) {U W : WordD} (hl : U.1.length = W.1.length) (hj : h = 0 ∨ (W.2 = .o → colsW 0 W.1 ≠ 0)) :
    opGO h x U W = h * wtQD x U W := by
  rcases hj with rfl | hj
  · rw [opGO_zero, zero_mul]
  rcases U with ⟨_ | ⟨p, u⟩, i⟩ <;> rcases W with ⟨_ | ⟨q, w⟩, j⟩ <;> simp at hl
  · simp [opGO, wtQD, aOf]
  · cases q
    · cases p <;> simp [opGO, kerO, wtQD, aOf, gD, wtE, step]
    · cases p <;> simp [opGO, kerO, wtQD, aOf]
    · have hb := gD_l_aOf x i j u w (by simpa [colsW] using hj)
      simp only [wtQD, opGO, aOf]
      simp only [gD] at hb ⊢
      rcases ha : aOf w with _ | w' <;> rw [ha] at hb <;> cases p <;> simp [kerO, wtE, step, hb]

theorem opSE_eq {U W : WordD} (hl : U.1.length = W.1.length) : (opSE U W : R) = sD .z U W := by
  rcases U with ⟨_ | ⟨p, u⟩, i⟩ <;> rcases W with ⟨_ | ⟨q, w⟩, j⟩ <;> simp at hl
  · rfl
  · cases p <;> cases q <;> simp [opSE, kerSE, sD, wtS, stepSg]

theorem opSO_eq (h : R) {U W : WordD} (hl : U.1.length = W.1.length) (hj : h = 0 ∨ (W.2 = .o → colsW 0 W.1 ≠ 0)) :
    opSO h U W = h * wtQS U W := by
  rcases hj with rfl | hj
  · rw [opSO_zero, zero_mul]
  rcases U with ⟨_ | ⟨p, u⟩, i⟩ <;> rcases W with ⟨_ | ⟨q, w⟩, j⟩ <;> simp at hl
  · simp [opSO, wtQS, aOf]
  · cases q
    · cases p <;> simp [opSO, kerSO, wtQS, aOf, sD, wtS, stepSg]
    · cases p <;> simp [opSO, kerSO, wtQS, aOf]
    · have hb := sD_l_aOf (R := R) i j u w (by simpa [colsW] using hj)
      simp only [wtQS, opSO, aOf]
      simp only [sD] at hb ⊢
      rcases ha : aOf w with _ | w' <;> rw [ha] at hb <;> cases p <;> simp [kerSO, wtS, stepSg, hb]

end

/-- the coefficients of the first kind of quantum terms -/
noncomputable def q1D (k : Nat) (p : Int) (U W : WordD) : ℚ :=
  match aOf W.1 with
  | some w' => cfD k p (.b :: U.1, U.2) (.o :: w', W.2.sw)
  | none => 0

/-- the coefficients of the second kind of quantum terms -/
noncomputable def q2D (k : Nat) (p : Int) (U W : WordD) : ℚ :=
  match U.1, W.1 with
  | .a :: u, .b :: w => cfD k p (.b :: u, U.2) (.a :: w, W.2)
  | _, _ => 0

theorem colsD_aOf {w w' : List L3} (h : aOf w = some w') (i : L3) : colsD (.o :: w', i) = colsD (w, i) := by
  have h1 := (aOf_length h).2
  have e1 := colsW_add i.k0 w
  have e2 := colsW_add i.k0 w'
  rw [colsD_o]
  unfold colsD
  simp only
  omega

open Polynomial in
theorem MDg_eq (h h' : Polynomial ℚ) {n k : Nat} (p : Int) {U W : WordD} (hU : U ∈ WdD n k) (hW : W ∈ WdD n k) (hk : h = 0 ∨ k ≠ 1) :
    MDg h h' k p U W = C (cfD k p U W) + h * C (q1D k p U W) + h' * C (q2D k p U W) := by
  rw [mem_WdD] at hU hW
  have hl : U.1.length = W.1.length := by omega
  have hl' : U.1.length = (swD W).1.length := hl
  have hj : h = 0 ∨ ((swD W).2 = .o → colsW 0 (swD W).1 ≠ 0) := by
    rcases hk with hk | hk
    · exact Or.inl hk
    · right
      intro h1
      have h2 : W.2 = .o := by unfold swD at h1; cases h3 : W.2 <;> simp [h3, L3.sw] at h1 ⊢
      have h3 := hW.2.1
      have e1 := colsW_add W.2.k0 W.1
      unfold colsD at h3
      rw [h2] at h3 e1
      simp only [L3.k0, swD] at *
      omega
  have hj' : (C h : (Polynomial ℚ)[X]) = 0 ∨ ((swD W).2 = .o → colsW 0 (swD W).1 ≠ 0) := by
    rcases hj with hj | hj
    · left; rw [hj, C_0]
    · exact Or.inr hj
  unfold MDg opG opS
  rw [opGE_eq _ _ hl, opGO_eq _ _ hl' hj', opSE_eq hl, opSO_eq _ hl' hj, coeff_add, coeff_add, coeff_C_mul, coeff_C_mul,
    coeff_gD _ hl (by omega), hU.2.1]
  have s0 : ∀ U W : WordD, (sD .z U W : Polynomial ℚ) = C (sD .z U W) := fun U W => (sD_map C .z U W).symm
  have e1 : C (alD k p) * ((wtQD (X : (Polynomial ℚ)[X]) U (swD W)).coeff p.natAbs + C (beD k p) * wtQS U (swD W)) = C (q1D k p U W) := by
    unfold wtQD wtQS q1D
    rcases ha : aOf W.1 with _ | w'
    · have : aOf (swD W).1 = none := ha
      rw [this]; simp
    · have : aOf (swD W).1 = some w' := ha
      rw [this]
      simp only
      have hc : colsD (.b :: U.1, U.2) = colsD (.o :: w', (swD W).2) := by
        rw [colsD_b, colsD_aOf ha, show ((W.1, (swD W).2) : WordD) = swD W from rfl, colsD_sw, hW.2.1]
        exact hU.2.1
      have h3 := (aOf_length ha).1
      rw [coeff_gD _ (by simp; omega) hc, s0, colsD_b, show colsD (U.1, U.2) = k from hU.2.1, cfD_eq]
      simp only [C_mul, C_add]
      rfl
  have e2 : C (alD k p) * (wtPD (X : (Polynomial ℚ)[X]) U W).coeff p.natAbs = C (q2D k p U W) := by
    rcases U with ⟨_ | ⟨_ | _ | _, u⟩, i⟩ <;> rcases W with ⟨_ | ⟨_ | _ | _, w⟩, j⟩ <;> simp [wtPD, q2D]
    simp only [List.length_cons, colsD_a, colsD_b] at hU hW
    rw [coeff_gD _ (by simp; omega) (by simp only [colsD_a, colsD_b]; omega), cfD_eq, colsD_b, hU.2.1]
    have : (sD .z (.b :: u, i) (.a :: w, j) : ℚ) = 0 := by simp [sD, wtS, stepSg]
    rw [this, mul_zero, add_zero, C_mul]
  rw [← e1, ← e2, s0, cfD_eq]
  simp only [C_mul, C_add]
  ring

/-! ### The two kinds of quantum terms -/

theorem TermD.cls {k n : Nat} {p : Int} {lam y : List Int} {c : ℚ} (h : TermD k n p lam y c) : clsD n k y := by
  obtain ⟨mu, r1, r2, _, _, r3, _⟩ := h
  exact ⟨mu, r1, r2, r3⟩

theorem shD_sw (U : WordD) : shD (swD U) = shD U := by
  unfold shD swD
  simp only [L3.k0_sw, L3.r0_sw]

theorem clD_sw (U : WordD) : clD (swD U) = clD U := by unfold clD; rw [shD_sw]

theorem clD_b (u : List L3) (i : L3) : clD (.b :: u, i) = clD (u, i) := by
  have := labD_b u i
  unfold labD at this
  simpa using this

theorem shD_b (u : List L3) (i : L3) : shD (.b :: u, i) = shD (u, i) ++ [0] := rfl

theorem aOf_labD {w w' : List L3} (i : L3) (h : aOf w = some w') : ∃ t : Nat, (clD (w, i)).length + t + colsD (w, i) = w.length + 1 ∧
    clD (.o :: w', i) = ((w.length : Int) + colsD (w, i) - t) :: (clD (w, i) ++ List.replicate t 1) := by
  induction w generalizing w' with
  | nil => simp [aOf] at h
  | cons q w ih =>
    cases q
    · simp only [aOf, Option.some.injEq] at h
      subst h
      refine ⟨0, ?_, ?_⟩
      · have := rows_add_colsD (w, i)
        rw [clD_o, List.length_map, shD_length, colsD_o]
        simp only [List.length_cons] at this ⊢
        omega
      · rw [clD_o, clD_o]
        have : shD (.a :: w, i) = ((w.length : Int) + colsD (w, i) + 1) :: shD (w, i) := rfl
        rw [this]
        simp only [colsD_o, List.map_cons, List.length_cons, List.replicate_zero, List.append_nil]
        congr 1
        push_cast; ring
    · simp [aOf] at h
    · simp only [aOf, Option.map_eq_some_iff] at h
      obtain ⟨v, hv, rfl⟩ := h
      obtain ⟨t, h1, h2⟩ := ih hv
      rw [clD_b, colsD_b]
      refine ⟨t + 1, by simp; omega, ?_⟩
      rw [clD_o] at h2 ⊢
      rw [shD_b]
      simp only [List.map_append, h2, List.length_cons, List.map_cons, List.map_nil]
      rw [List.replicate_succ', ← List.append_assoc]
      simp only [List.cons_append]
      congr 1
      push_cast; ring

theorem clD_bs (s : Nat) (v : List L3) (i : L3) : clD (List.replicate s .b ++ v, i) = clD (v, i) := by
  induction s with
  | zero => rfl
  | succ s ih => rw [List.replicate_succ, List.cons_append, clD_b, ih]

theorem colsD_bs (s : Nat) (v : List L3) (i : L3) : colsD (List.replicate s .b ++ v, i) = colsD (v, i) := by
  induction s with
  | zero => rfl
  | succ s ih => rw [List.replicate_succ, List.cons_append, colsD_b, ih]

theorem clD_length (U : WordD) : (clD U).length + colsD U ≤ U.1.length + 1 := by
  have h1 := rows_add_colsD U
  have h2 := shD_length U
  have h3 : (clD U).length ≤ (shD U).length := partClip_length_le _
  omega

theorem tilde_word {n k : Nat} (hk : 2 ≤ k) {W : WordD} (hl : W.1.length = n) (hc : colsD W = k) {mu : List Int}
    (hmr : ReducedPart mu) (hmb : InBox k (n + 1) 1 mu) :
    Tilde ((n : Int) - k + 2) (n + k) mu (clD W) ↔ ∃ w', aOf W.1 = some w' ∧ mu = clD (.o :: w', W.2) := by
  rcases W with ⟨w, i⟩
  simp only at hl
  have hkn : k ≤ n + 1 := by have := rows_add_colsD (w, i); simp only at this; omega
  constructor
  · rintro ⟨h1, h2, h3⟩
    have hlen : (mu.length : Int) = 1 + (clD (w, i)).length + (n + k - part mu 0).toNat := by
      conv_lhs => rw [h3]
      simp; ring
    rcases ha : aOf w with _ | w'
    · exfalso
      rcases aOf_none ha with hb | ⟨s, v, hv⟩
      · have : w = List.replicate w.length .b ++ [] := by
          rw [List.append_nil]; exact List.eq_replicate_of_mem hb
        have h4 := colsD_bs w.length [] i
        rw [← this] at h4
        have h5 : colsD ([], i) ≤ 1 := by cases i <;> simp [colsD, colsW, L3.k0]
        omega
      · have h4 := colsD_bs s (.a :: v) i
        have h5 := clD_bs s (.a :: v) i
        rw [← hv, clD_a] at h5
        rw [← hv, colsD_a] at h4
        have h6 : w.length = s + (v.length + 1) := by rw [hv]; simp
        have h7 := clD_length (v, i)
        have h8 : part mu 1 = (v.length : Int) + colsD (v, i) + 1 := by
          rw [h3, h5]; rfl
        have h9 := (kstrict_part (by omega) hmb.isPart).1 hmb.kstrict 0 (by
          have := hmb.isPart.part_anti (show 0 ≤ 1 by omega)
          omega)
        rw [h5, List.length_cons] at hlen
        simp only [zero_add] at h9
        simp only at h7
        omega
    · refine ⟨w', rfl, ?_⟩
      obtain ⟨t, h4, h5⟩ := aOf_labD i ha
      rw [h5, h3]
      have ht : (n + k - part mu 0).toNat = t := by omega
      rw [ht, hl, hc]
      congr 1
      omega
  · rintro ⟨w', ha, rfl⟩
    simp only at ha
    obtain ⟨t, h4, h5⟩ := aOf_labD i ha
    have h0 : part (clD (.o :: w', i)) 0 = (w.length : Int) + colsD (w, i) - t := by rw [h5]; rfl
    refine ⟨?_, by simp only; rw [h0]; omega, ?_⟩
    · simp only; rw [h5]; simp; omega
    · simp only
      rw [h0]
      conv_lhs => rw [h5]
      congr 3
      omega

theorem aOf_mem {n k : Nat} (hk : k ≠ 0) {W : WordD} (hW : W ∈ WdD n k) {w' : List L3} (h : aOf W.1 = some w') (i : L3)
    (hi : i.k0 = W.2.k0) : (.o :: w', i) ∈ WdD (n + 1) k := by
  rw [mem_WdD] at hW ⊢
  refine ⟨by simp [(aOf_length h).1, hW.1], ?_, fun h0 => absurd h0 hk⟩
  rw [colsD_aOf h, ← hW.2.1]
  unfold colsD
  simp only [hi]

/-- **The first kind of quantum terms.** -/
theorem tildeD_word_iff {n k : Nat} (hk : 2 ≤ k) {W : WordD} (hW : W ∈ WdD n k) {nu : List Int} (hnu : clsD (n + 1) k nu) :
    TildeD k ((n : Int) - k + 2) (n + k) nu (labD W) ↔ ∃ w', aOf W.1 = some w' ∧ nu = labD (.o :: w', W.2.sw) := by
  have hW' := mem_WdD.1 hW
  have hz : ∀ {l : List Int}, ReducedPart l → (0 : Int) ∉ l := fun h h0 => by have := h.2 0 h0; omega
  have hred : ∀ mu, (0 : Int) ∉ mu → (nu = mu ∨ nu = mu ++ [0]) → ReducedPart mu ∧ InBox k (n + 1) 1 mu := by
    intro mu h0 h1
    obtain ⟨m', a, b, c⟩ := hnu
    push_cast at b
    rcases c with rfl | ⟨_, rfl⟩
    · rcases h1 with h1 | h1
      · subst h1; exact ⟨a, b⟩
      · exact absurd (h1 ▸ by simp : (0 : Int) ∈ nu) (hz a)
    · rcases h1 with h1 | h1
      · exact absurd (h1 ▸ by simp : (0 : Int) ∈ mu) h0
      · have := List.append_inj_left' h1 rfl
        subst this; exact ⟨a, b⟩
  have hmem : ∀ {mu nt}, Tilde ((n : Int) - k + 2) (n + k) mu nt → ((k : Int) ∈ mu ↔ (k : Int) ∈ nt) := fun h => tilde_mem hk h
  have hcl : (k : Int) ∈ clD W ↔ W.2 ≠ .o := by
    have := mem_clD (U := W) (by omega)
    rwa [hW'.2.1] at this
  have key : ∀ mu, ReducedPart mu ∧ InBox k (n + 1) 1 mu → (Tilde ((n : Int) - k + 2) (n + k) mu (clD W) ↔
    ∃ w', aOf W.1 = some w' ∧ mu = clD (.o :: w', W.2)) := fun mu h => tilde_word hk hW'.1 hW'.2.1 h.1 h.2
  have hsw : ∀ w', clD (.o :: w', W.2.sw) = clD (.o :: w', W.2) := fun w' => clD_sw (.o :: w', W.2)
  constructor
  · rintro ⟨mu, nt, h0, ht, hc⟩
    have hr := hred mu h0 (by rcases hc with h | h | h; exacts [Or.inl h.2.1, Or.inl h.2.1, Or.inr h.2.1])
    have hnt0 : (0 : Int) ∉ nt := hz (tilde_reduced ht hr.1)
    have hm := hmem ht
    cases h2 : W.2
    · have hlab : labD W = clD W := by unfold labD; rw [if_neg (by rw [h2]; decide), List.append_nil]
      rw [hlab] at hc
      have hn : (k : Int) ∉ clD W := fun h => hcl.1 h h2
      rcases hc with ⟨a, rfl, rfl⟩ | ⟨a, b, c⟩ | ⟨a, b, c⟩
      · obtain ⟨w', e1, e2⟩ := (key _ hr).1 ht
        refine ⟨w', e1, ?_⟩
        rw [e2, h2]; unfold labD; simp [L3.sw]
      · exact absurd (c ▸ by simp : (0 : Int) ∈ clD W) (hz (clD_reduced W))
      · exact absurd (c ▸ hm.1 a) hn
    · have hlab : labD W = clD W := by unfold labD; rw [if_neg (by rw [h2]; decide), List.append_nil]
      rw [hlab] at hc
      have hn : (k : Int) ∈ clD W := hcl.2 (by rw [h2]; decide)
      rcases hc with ⟨a, b, c⟩ | ⟨a, b, c⟩ | ⟨a, b, rfl⟩
      · exact absurd (hm.2 (c ▸ hn)) a
      · exact absurd (c ▸ by simp : (0 : Int) ∈ clD W) (hz (clD_reduced W))
      · obtain ⟨w', e1, e2⟩ := (key _ hr).1 ht
        refine ⟨w', e1, ?_⟩
        have := hsw w'
        rw [b, e2, ← this, h2]; unfold labD; simp [L3.sw]
    · have hlab : labD W = clD W ++ [0] := by unfold labD; rw [if_pos h2]
      rw [hlab] at hc
      have hn : (k : Int) ∈ clD W := hcl.2 (by rw [h2]; decide)
      rcases hc with ⟨a, b, c⟩ | ⟨a, b, c⟩ | ⟨a, b, c⟩
      · exact absurd (c ▸ by simp : (0 : Int) ∈ nt) hnt0
      · have := List.append_inj_left' c rfl
        subst this
        obtain ⟨w', e1, e2⟩ := (key _ hr).1 ht
        refine ⟨w', e1, ?_⟩
        have := hsw w'
        rw [b, e2, ← this, h2]; unfold labD; simp [L3.sw]
      · exact absurd (c ▸ by simp : (0 : Int) ∈ nt) hnt0
  · rintro ⟨w', ha, rfl⟩
    have hin := aOf_mem (by omega) hW ha W.2 rfl
    have hb := inBox_clD (.o :: w', W.2)
    rw [mem_WdD] at hin
    rw [hin.2.1, hin.1] at hb
    push_cast at hb
    have ht := (key _ ⟨clD_reduced _, hb⟩).2 ⟨w', ha, rfl⟩
    refine ⟨_, _, hz (clD_reduced _), ht, ?_⟩
    have hm := hmem ht
    have hs := hsw w'
    cases h2 : W.2
    · left
      refine ⟨fun h => hcl.1 (hm.1 (by rw [h2]; exact h)) h2, ?_, ?_⟩
      · unfold labD; simp [L3.sw]
      · unfold labD; rw [if_neg (by rw [h2]; decide), List.append_nil]
    · right; right
      refine ⟨by rw [← h2]; exact hm.2 (hcl.2 (by rw [h2]; decide)), ?_, ?_⟩
      · rw [h2] at hs; unfold labD; simp [hs]; rfl
      · unfold labD; rw [if_neg (by rw [h2]; decide), List.append_nil]
    · right; left
      refine ⟨by rw [← h2]; exact hm.2 (hcl.2 (by rw [h2]; decide)), ?_, ?_⟩
      · rw [h2] at hs; unfold labD; rw [hs]; simp [L3.sw]
      · unfold labD; rw [if_pos h2]

theorem tildeD_cls {n k : Nat} (hk : 2 ≤ k) (hkn : k ≤ n + 1) {nu x : List Int} (hnu : clsD (n + 1) k nu)
    (h : TildeD k ((n : Int) - k + 2) (n + k) nu x) : clsD n k x := by
  obtain ⟨mu, nt, h0, ht, hc⟩ := h
  have hr : ReducedPart mu ∧ InBox k (n + 1) 1 mu := by
    obtain ⟨m', a, b, c⟩ := hnu
    push_cast at b
    have h1 : nu = mu ∨ nu = mu ++ [0] := by rcases hc with h | h | h; exacts [Or.inl h.2.1, Or.inl h.2.1, Or.inr h.2.1]
    rcases c with rfl | ⟨_, rfl⟩
    · rcases h1 with h1 | h1
      · subst h1; exact ⟨a, b⟩
      · have := a.2 0 (h1 ▸ by simp); omega
    · rcases h1 with h1 | h1
      · exact absurd (h1 ▸ by simp : (0 : Int) ∈ mu) h0
      · have := List.append_inj_left' h1 rfl
        subst this; exact ⟨a, b⟩
  have hs : nt.Sublist mu := by
    conv_rhs => rw [ht.2.2]
    exact (List.sublist_append_left _ _).trans (List.sublist_cons_self _ _)
  have hlen : (mu.length : Int) = 1 + nt.length + (n + k - part mu 0).toNat := by
    conv_lhs => rw [ht.2.2]
    simp; ring
  have h1 := ht.1
  have h2 := ht.2.1
  have hb : InBox k n 1 nt := by
    refine inBox_sub hr.2 hs (by omega) (by omega) ?_
    intro z hz
    have := le_head hr.1 z (hs.subset hz)
    rw [at'_eq_part] at this
    omega
  refine ⟨nt, tilde_reduced ht hr.1, hb, ?_⟩
  have hm := tilde_mem hk ht
  rcases hc with ⟨_, _, rfl⟩ | ⟨a, _, rfl⟩ | ⟨_, _, rfl⟩
  · exact Or.inl rfl
  · exact Or.inr ⟨hm.1 a, rfl⟩
  · exact Or.inl rfl

theorem q1D_ne {n k : Nat} (hk : 2 ≤ k) (hkn : k ≤ n + 1) {p : Int} {U W : WordD} (hU : U ∈ WdD n k) (hW : W ∈ WdD n k) (c : ℚ) :
    (q1D k p U W ≠ 0 ∧ c = q1D k p U W) ↔
      ∃ nu, TermD k (n + 1) p (labD U) nu c ∧ TildeD k ((n : Int) - k + 2) (n + k) nu (labD W) := by
  have hU1 : (.b :: U.1, U.2) ∈ WdD (n + 1) k := by
    rw [mem_WdD] at hU ⊢
    exact ⟨by simp [hU.1], hU.2.1, hU.2.2⟩
  have hin : ∀ {w'}, aOf W.1 = some w' → (.o :: w', W.2.sw) ∈ WdD (n + 1) k := fun ha => aOf_mem (by omega) hW ha _ (L3.k0_sw _)
  have ht : ∀ {w'}, aOf W.1 = some w' → ∀ c, _ := fun ha c =>
    termD_word_iff (n := n + 1) (by omega) (p := p) (fun h0 => by omega) hU1 (hin ha) c
  simp only [labD_b] at ht
  push_cast at ht
  constructor
  · rintro ⟨h1, rfl⟩
    unfold q1D at h1 ⊢
    rcases ha : aOf W.1 with _ | w'
    · rw [ha] at h1; exact absurd rfl h1
    · rw [ha] at h1
      exact ⟨_, (ht ha _).2 ⟨h1, rfl⟩, (tildeD_word_iff hk hW (clsD_labD (hin ha))).2 ⟨w', ha, rfl⟩⟩
  · rintro ⟨nu, h1, h2⟩
    have hnu : clsD (n + 1) k nu := TermD.cls (n := n + 1) (by push_cast; exact h1)
    obtain ⟨w', ha, rfl⟩ := (tildeD_word_iff hk hW hnu).1 h2
    unfold q1D
    rw [ha]
    exact (ht ha _).1 h1

theorem cons_iffD {n k : Nat} (hn : 0 < n) {W : WordD} (hW : W ∈ WdD n k) :
    clsD n k (((n : Int) + k) :: labD W) ↔ ∃ w, W.1 = .b :: w := by
  have hW' := mem_WdD.1 hW
  rcases W with ⟨w, i⟩
  simp only at hW'
  have hkn : k ≤ n + 1 := by have := rows_add_colsD (w, i); simp only at this; omega
  constructor
  · rintro ⟨mu, h1, h2, h3⟩
    have hmu : mu = ((n : Int) + k) :: clD (w, i) := by
      unfold labD at h3
      rcases h3 with h3 | ⟨_, h3⟩
      · split at h3
        · have := h1.2 0 (h3 ▸ by simp); omega
        · simpa using h3.symm
      · split at h3
        · exact (List.append_inj_left' (s₁ := ((n : Int) + k) :: clD (w, i)) (t₁ := [0]) (by simpa using h3) rfl).symm
        · rw [List.append_nil] at h3
          have h4 : (0 : Int) ∈ ((n : Int) + k) :: clD (w, i) := by rw [h3]; simp
          rcases List.mem_cons.1 h4 with h4 | h4
          · omega
          · have := (clD_reduced (w, i)).2 0 h4; omega
    subst hmu
    cases w with
    | nil => simp at hW'; omega
    | cons q w =>
      cases q
      · exfalso
        have h4 := h2.rows (n + 1 - k) (by omega)
        have h5 : (clD (.o :: w, i)).length + k = n + 1 := by
          have := rows_add_colsD (w, i)
          rw [clD_o, List.length_map, shD_length]
          rw [colsD_o] at hW'
          simp only [List.length_cons] at this hW' ⊢
          omega
        have := part_pos_of_lt h1 (i := n + 1 - k) (by rw [List.length_cons]; omega)
        omega
      · exfalso
        rw [clD_a] at h2
        have h4 := (kstrict_part (by omega) h2.isPart).1 h2.kstrict 0 (by show (k : Int) < n + k; omega)
        rw [colsD_a] at hW'
        simp only [part, List.length_cons] at h4 hW'
        simp at h4
        omega
      · exact ⟨w, rfl⟩
  · rintro ⟨w', h⟩
    simp only at h
    subst h
    rw [colsD_b] at hW'
    simp only [List.length_cons] at hW'
    have := clsD_labD (n := n) (k := k) (U := (.a :: w', i)) (mem_WdD.2 hW')
    rw [labD_a] at this
    rw [labD_b]
    convert this using 2
    have := hW'.1
    have := hW'.2.1
    omega

theorem head_iffD {n k : Nat} (hn : 0 < n) {U : WordD} (hU : U ∈ WdD n k) :
    part (labD U) 0 = (n : Int) + k ↔ ∃ u, U.1 = .a :: u := by
  have hU' := mem_WdD.1 hU
  rcases U with ⟨u, i⟩
  simp only at hU'
  constructor
  · intro h
    cases u with
    | nil => simp at hU'; omega
    | cons q u =>
      simp only [List.length_cons] at hU'
      cases q
      · exfalso
        rw [part_labD, ← part_clD, clD_o, part_map_succ] at h
        have := (inBox_shD (u, i)).cols
        rw [colsD_o] at hU'
        simp only at this
        split at h <;> omega
      · exact ⟨u, rfl⟩
      · exfalso
        rw [labD_b, part_labD] at h
        have := (inBox_shD (u, i)).cols
        rw [colsD_b] at hU'
        simp only at this
        omega
  · rintro ⟨u', h⟩
    simp only at h
    subst h
    rw [labD_a]
    rw [colsD_a] at hU'
    simp only [part, List.length_cons] at hU' ⊢
    simp
    omega

theorem q2D_ne {n k : Nat} (hn : 0 < n) {p : Int} (hp : k = 0 → p ≠ 0) {U W : WordD} (hU : U ∈ WdD n k) (hW : W ∈ WdD n k) (c : ℚ) :
    (q2D k p U W ≠ 0 ∧ c = q2D k p U W) ↔
      part (labD U) 0 = (n : Int) + k ∧ TermD k n p (labD U).tail (((n : Int) + k) :: labD W) c := by
  have hkn : k ≤ n + 1 := by have := rows_add_colsD U; rw [mem_WdD] at hU; omega
  by_cases h1 : ∃ u', U.1 = .a :: u'
  · have hh := (head_iffD hn hU).2 h1
    obtain ⟨u', h1⟩ := h1
    by_cases h2 : ∃ w', W.1 = .b :: w'
    · have hcl := (cons_iffD hn hW).2 h2
      obtain ⟨w', h2⟩ := h2
      rcases U with ⟨u, i⟩
      rcases W with ⟨w, j⟩
      simp only at h1 h2
      subst h1; subst h2
      have hU1 : (.b :: u', i) ∈ WdD n k := by rw [mem_WdD] at hU ⊢; exact hU
      have hW1 : (.a :: w', j) ∈ WdD n k := by rw [mem_WdD] at hW ⊢; exact hW
      have e1 : ((n : Int) + k) :: labD (.b :: w', j) = labD (.a :: w', j) := by
        rw [mem_WdD, colsD_b] at hW
        simp only [List.length_cons] at hW
        rw [labD_a, labD_b, hW.2.1, ← hW.1]
        congr 1
        push_cast; ring
      have e2 : (labD (.a :: u', i)).tail = labD (.b :: u', i) := by rw [labD_a, labD_b]; rfl
      rw [e1, e2, termD_word_iff hkn hp hU1 hW1, and_iff_right hh]
      rfl
    · have e : q2D k p U W = 0 := by
        unfold q2D
        split
        · rename_i h3 h4
          exact absurd ⟨_, h4⟩ h2
        · rfl
      rw [e]
      constructor
      · rintro ⟨h, _⟩; exact absurd rfl h
      · rintro ⟨_, h⟩
        exact absurd ((cons_iffD hn hW).1 h.cls) h2
  · have e : q2D k p U W = 0 := by
      unfold q2D
      split
      · rename_i h3 h4
        exact absurd ⟨_, h3⟩ h1
      · rfl
    rw [e, head_iffD hn hU]
    constructor
    · rintro ⟨h, _⟩; exact absurd rfl h
    · rintro ⟨h, _⟩; exact absurd h h1

end Verif
