import Verif.Proofs.BruhatD
/-!
# The order of the classes in type D and the products
-/

namespace Verif
open Spec

theorem stepD_sum {n k : ℕ} {U W : WordD} (h : StepD n k U W) : ∃ N : ℕ, 1 ≤ N ∧ gcD k N U W ≠ 0 ∧ (labD W).sum = (labD U).sum + N := by
  obtain ⟨hU, hW, hne, hok⟩ := h
  have m1 := mem_WdD.1 hU
  have m2 := mem_WdD.1 hW
  have hl : U.1.length = W.1.length := by omega
  have hc : colsD U = colsD W := by omega
  obtain ⟨g1, g2⟩ := gD_pieri (1 : ℚ) hl hc
  have hg := okD_iff.1 hok
  have hs : ShapeRel (colsD U) 1 (shD U) (shD W) := by
    by_contra hn; exact hg (g1 hn)
  obtain ⟨N, e1, _⟩ := g2 hs hok.1
  rw [m1.2.1] at hs
  have hN : gcD k N U W ≠ 0 := by
    unfold gcD
    rw [if_pos ⟨hs, hok.1, e1⟩]
    positivity
  refine ⟨N, ?_, hN, by rw [labD_sum, labD_sum]; exact e1⟩
  by_contra h0
  obtain rfl : N = 0 := by omega
  have := gcD_zero hl hc
  rw [m1.2.1, if_neg hne] at this
  exact hN this

theorem okD_of_gcD {n k N : ℕ} {U W : WordD} (hU : U ∈ WdD n k) (hW : W ∈ WdD n k) (h : ShapeRel k 1 (shD U) (shD W)) (ht : tyOk U.2 W.2 = true) :
    okD U W := by
  have m1 := mem_WdD.1 hU
  have m2 := mem_WdD.1 hW
  rw [← m1.2.1] at h
  obtain ⟨M, _, e⟩ := (gD_pieri (1 : ℚ) (by omega) (by omega)).2 h ht
  rw [okD_iff, e]
  simp

/-- the steps are the terms of the products with special classes -/
theorem stepD_cf {n k : ℕ} (hk : k ≤ n + 1) {U W : WordD} (h : StepD n k U W) : ∃ p, spcD n k p ∧ cfD k p U W ≠ 0 := by
  obtain ⟨N, h1, h2, _⟩ := stepD_sum h
  have hp0 : k = 0 → (N : ℤ) ≠ 0 := by omega
  have big : cfD k N U W ≠ 0 → spcD n k N := by
    intro hc
    refine Or.inl ⟨by omega, ?_⟩
    by_contra hb
    exact hc (cfD_big hk hp0 (by omega) h.1 h.2.1)
  rcases Nat.lt_trichotomy N k with hN | hN | hN
  · have e : cfD k N U W = gcD k N U W := by unfold cfD; rw [if_pos (by omega)]; simp
    exact ⟨N, big (by rwa [e]), by rwa [e]⟩
  · have e1 : cfD k N U W = 1 / 2 * (gcD k N U W + sD .z U W) := by
      unfold cfD sgD; rw [if_neg (by omega), if_neg (by omega), if_pos (by omega)]; simp
    have e2 : cfD k (-N) U W = 1 / 2 * (gcD k N U W - sD .z U W) := by
      unfold cfD sgD; rw [if_neg (by omega), if_neg (by omega), if_neg (by omega)]; simp; ring
    by_cases h0 : cfD k N U W = 0
    · refine ⟨-N, Or.inr ⟨by omega, by omega⟩, fun h3 => h2 ?_⟩
      rw [h0] at e1
      rw [h3] at e2
      linarith
    · exact ⟨N, big h0, h0⟩
  · have e : cfD k N U W = 1 / 2 * gcD k N U W := by unfold cfD; rw [if_neg (by omega), if_pos (by omega)]; simp
    have : cfD k N U W ≠ 0 := by rw [e]; exact mul_ne_zero (by norm_num) h2
    exact ⟨N, big this, this⟩

theorem cf_stepD {n k : ℕ} (hk : k ≤ n + 1) {p : ℤ} (hp : spcD n k p) {U W : WordD} (hU : U ∈ WdD n k) (hW : W ∈ WdD n k) (h : cfD k p U W ≠ 0) :
    StepD n k U W := by
  have m1 := mem_WdD.1 hU
  have m2 := mem_WdD.1 hW
  have hp0 := spcD_nz p hp
  obtain ⟨h1, h2, h3, _⟩ := cfD_ne hk (fun _ => hp0) hU hW h
  refine ⟨hU, hW, fun e => ?_, okD_of_gcD (N := 0) hU hW ((arrow_labD hk ⟨m1.1, m1.2.1⟩ ⟨m2.1, m2.2.1⟩).1 h1) ((clsType_tyOk hU hW).1 h3)⟩
  rw [e] at h2
  omega

theorem cfD_nonneg {n k : Nat} (hk : k ≤ n + 1) {p : Int} (hp : k = 0 → p ≠ 0) {U W : WordD} (hU : U ∈ WdD n k) (hW : W ∈ WdD n k) :
    0 ≤ cfD k p U W := by
  by_cases h : cfD k p U W = 0
  · rw [h]
  · obtain ⟨_, _, _, _, _, _, _, hc⟩ := (termD_word_iff hk hp hU hW _).2 ⟨h, rfl⟩
    rcases Nat.lt_trichotomy p.natAbs k with h1 | h1 | h1
    · rw [hc.small h1]; positivity
    · by_cases h2 : numComps k 1 (labD U) (labD W) = 0
      · rw [(hc.tie h1 h2).1]; simp
      · rw [hc.middle h1 (by omega)]; positivity
    · rw [(hc.large h1).2]; positivity

/-! ### Chains -/

theorem stepD_leP {n k : ℕ} {U W : WordD} (h : StepD n k U W) : leP 0 0 U.1 W.1 := leP_snoc (leP_of_leW (okW_le h.2.2.2.2))

theorem rtD_of_compat {n k : ℕ} : ∀ (j : ℕ) {U W : WordD}, U ∈ WdD n k → W ∈ WdD n k → tyOk U.2 W.2 = true → leP 0 0 U.1 W.1 →
    (((WdD n k).sup (fun U => (labD U).sum.toNat) : ℕ) : ℤ) + (labD W).sum.toNat - (labD U).sum.toNat < j → Relation.ReflTransGen (StepD n k) U W := by
  intro j
  induction j with
  | zero =>
    intro U W hU _ _ _ h
    have := Finset.le_sup (f := fun U => (labD U).sum.toNat) hU
    omega
  | succ j ih =>
    intro U W hU hW ht hle h
    by_cases hne : U = W
    · rw [hne]
    have pos : ∀ {U : WordD}, U ∈ WdD n k → 0 ≤ (labD U).sum := by
      intro U _
      rw [labD_sum]
      exact isPartition_sum_nonneg (inBox_shD U).isPart
    rcases compat_step hU hW ht hle hne with ⟨V, g1, g2, g3⟩ | ⟨V, g1, g2, g3⟩
    · obtain ⟨N, n1, _, n2⟩ := stepD_sum g1
      have := pos hU
      exact Relation.ReflTransGen.head g1 (ih g1.2.1 hW g2 g3 (by push_cast at h ⊢; omega))
    · obtain ⟨N, n1, _, n2⟩ := stepD_sum g1
      have := pos g1.1
      exact Relation.ReflTransGen.tail (ih hU g1.1 g2 g3 (by push_cast at h ⊢; omega)) g1

theorem rtD_iff {n k : ℕ} {U W : WordD} (hU : U ∈ WdD n k) (hW : W ∈ WdD n k) : Relation.ReflTransGen (StepD n k) U W ↔ leDw U W := by
  have m1 := mem_WdD.1 hU
  have m2 := mem_WdD.1 hW
  have conn : ∀ {U W : WordD}, U ∈ WdD n k → W ∈ WdD n k → tyOk U.2 W.2 = true → leP 0 0 U.1 W.1 → Relation.ReflTransGen (StepD n k) U W := by
    intro U W hU hW ht h
    exact rtD_of_compat ((((WdD n k).sup (fun U => (labD U).sum.toNat) : ℕ) : ℤ) + (labD W).sum.toNat - (labD U).sum.toNat + 1).toNat hU hW ht h (by omega)
  constructor
  · intro h
    have key : ∀ W, Relation.ReflTransGen (StepD n k) U W → leP 0 0 U.1 W.1 ∧
        (tyOk U.2 W.2 = false → ∃ v, (v, L3.o) ∈ WdD n k ∧ leP 0 0 U.1 v ∧ leP 0 0 v W.1) := by
      intro W h
      induction h with
      | refl => exact ⟨leP_refl _ le_rfl le_rfl, fun h => by cases hi : U.2 <;> rw [hi] at h <;> simp [tyOk] at h⟩
      | tail _ hs ih =>
        rename_i V W' _
        have hle := stepD_leP hs
        refine ⟨by simpa using leP_trans ih.1 hle, fun ht => ?_⟩
        by_cases hv : V.2 = .o
        · refine ⟨V.1, ?_, ih.1, hle⟩
          rw [← hv]; exact hs.1
        · have hVW := hs.2.2.2.1
          obtain ⟨v, a1, a2, a3⟩ := ih.2 (by
            cases h1 : U.2 <;> cases h2 : V.2 <;> cases h3 : W'.2 <;> simp_all [tyOk])
          exact ⟨v, a1, a2, by simpa using leP_trans a3 hle⟩
    obtain ⟨h1, h2⟩ := key W h
    refine ⟨h1, fun ht => ?_⟩
    obtain ⟨v, a1, a2, a3⟩ := h2 ht
    obtain ⟨z1, z2⟩ := cols_of_mixed ht
    have c1 : colsW 0 U.1 = k := by have := m1.2.1; unfold colsD at this; rwa [z1] at this
    have c2 : colsW 1 v = k := (mem_WdD.1 a1).2.1
    have c3 : colsW 1 v = colsW 0 v + 1 := by
      clear a1 a2 a3 c2
      induction v with
      | nil => rfl
      | cons p v ih => cases p <;> simp [colsW, ih]
    have := mid_not_bad a2 a3 (by omega)
    simpa using this
  · rintro ⟨h1, h2⟩
    by_cases ht : tyOk U.2 W.2 = true
    · exact conn hU hW ht h1
    · have hf : tyOk U.2 W.2 = false := by simpa using ht
      have hb := h2 hf
      obtain ⟨z1, z2⟩ := cols_of_mixed hf
      have c1 : colsW 0 U.1 = k := by have := m1.2.1; unfold colsD at this; rwa [z1] at this
      have c2 : colsW 0 W.1 = k := by have := m2.2.1; unfold colsD at this; rwa [z2] at this
      have fin : ∀ v, colsW 0 v + 1 = k → leP 0 0 U.1 v → leP 0 0 v W.1 → Relation.ReflTransGen (StepD n k) U W := by
        intro v e1 e2 e3
        have hv : (v, L3.o) ∈ WdD n k := by
          refine mem_of_cols (by omega) (by have := leP_len e2; omega) ?_
          rw [colsW_snoc]
          have c3 : colsW 1 v = colsW 0 v + 1 := by
            clear e1 e2 e3
            induction v with
            | nil => rfl
            | cons p v ih => cases p <;> simp [colsW, ih]
          exact c3.trans e1
        exact (conn hU hv (by cases U.2 <;> rfl) e2).trans (conn hv hW (by cases W.2 <;> rfl) e3)
      rcases mid_exists h1 (by omega) with ⟨v, e1, e2, e3⟩ | ⟨v, e1, e2, e3⟩ | h | ⟨h, _⟩ | ⟨h, _⟩
      · exact fin v (by omega) e2 e3
      · exact fin v (by omega) e2 e3
      · exact absurd h hb
      · have := leP_d h; omega
      · have := leP_d h; omega

/-! ### The classes -/

/-- the order of the classes -/
def leDc (n k : ℕ) (l nu : List Int) : Prop := ∃ U W, U ∈ WdD n k ∧ W ∈ WdD n k ∧ labD U = l ∧ labD W = nu ∧ Relation.ReflTransGen (StepD n k) U W

theorem leDc_iff {n k : ℕ} (hk : k ≤ n + 1) {l nu : List Int} (hl : clsD n k l) (hn : clsD n k nu) :
    leDc n k l nu ↔ LeD k (n + 1 - k) l (dlD n k l) nu (dlD n k nu) := by
  obtain ⟨U, hU, rfl⟩ := (WdD_cls hk l).1 hl
  obtain ⟨W, hW, rfl⟩ := (WdD_cls hk nu).1 hn
  rw [leD_labD hk hU hW, ← rtD_iff hU hW]
  constructor
  · rintro ⟨U', W', hU', hW', e1, e2, h⟩
    rwa [WdD_inj U' hU' U hU e1, WdD_inj W' hW' W hW e2] at h
  · intro h
    exact ⟨U, W, hU, hW, rfl, rfl, h⟩

theorem leDc_trans {n k : ℕ} (a b c : List Int) (h1 : leDc n k a b) (h2 : leDc n k b c) : leDc n k a c := by
  obtain ⟨u, v, hu, hv, rfl, rfl, h⟩ := h1
  obtain ⟨v', w, hv', hw, e, rfl, h'⟩ := h2
  obtain rfl := WdD_inj v' hv' v hv e
  exact ⟨u, w, hu, hw, rfl, rfl, h.trans h'⟩

theorem leDc_refl {n k : ℕ} (hk : k ≤ n + 1) (l : List Int) (hl : clsD n k l) : leDc n k l l := by
  obtain ⟨u, hu, rfl⟩ := (WdD_cls hk l).1 hl
  exact ⟨u, u, hu, hu, rfl, rfl, .refl⟩

section
variable {n k : ℕ} (hk : k ≤ n + 1) {pieri : Int → List Int → Except PyErr Poly} {K : ℤ} (Y : GiamSys K pieri (spcD n k) (clsD n k)) (hY : ∀ p, Y.t p = tDD 0 0 n k p)
include hk hY

theorem tY_apply {p : ℤ} {U W : WordD} (hU : U ∈ WdD n k) (hW : W ∈ WdD n k) : Y.t p (labD U) (labD W) = Polynomial.C (cfD k p U W) := by
  rw [hY, tDD_apply 0 0 p hU hW, MDc_eq p hU hW]

theorem bruhatD_up {p : ℤ} {l m : List Int} (hp : spcD n k p) (hl : clsD n k l) (h : Y.t p l m ≠ 0) : leDc n k l m := by
  obtain ⟨U, hU, rfl⟩ := (WdD_cls hk l).1 hl
  obtain ⟨W, hW, rfl⟩ := (WdD_cls hk m).1 (Y.closed p _ m (Finsupp.mem_support_iff.2 h))
  rw [tY_apply hk Y hY hU hW, Ne, Polynomial.C_eq_zero] at h
  exact ⟨U, W, hU, hW, rfl, rfl, .single (cf_stepD hk hp hU hW h)⟩

theorem bruhatD_pos {p : ℤ} {l : List Int} (hp : spcD n k p) (hl : clsD n k l) : PosL (Y.t p l) := by
  intro m
  by_cases hm : clsD n k m
  · obtain ⟨U, hU, rfl⟩ := (WdD_cls hk l).1 hl
    obtain ⟨W, hW, rfl⟩ := (WdD_cls hk m).1 hm
    exact ⟨_, cfD_nonneg hk (fun _ => spcD_nz p hp) hU hW, tY_apply hk Y hY hU hW⟩
  · refine ⟨0, le_rfl, ?_⟩
    by_contra h
    exact hm (Y.closed p l m (Finsupp.mem_support_iff.2 (by simpa using h)))

theorem bruhatD_step {l nu : List Int} (_hl : clsD n k l) (_hn : clsD n k nu) (h : leDc n k l nu) (hne : l ≠ nu) :
    ∃ p m, spcD n k p ∧ clsD n k m ∧ l.sum < m.sum ∧ Y.t p l m ≠ 0 ∧ leDc n k m nu := by
  obtain ⟨U, W, hU, hW, rfl, rfl, h⟩ := h
  rcases Relation.ReflTransGen.cases_head h with e | ⟨V, h1, h2⟩
  · exact absurd (congrArg labD e) hne
  · obtain ⟨p, hp, h3⟩ := stepD_cf hk h1
    obtain ⟨N, n1, _, n2⟩ := stepD_sum h1
    refine ⟨p, labD V, hp, clsD_labD h1.2.1, by omega, ?_, ⟨V, W, h1.2.1, hW, rfl, rfl, h2⟩⟩
    rw [tY_apply hk Y hY hU h1.2.1, Ne, Polynomial.C_eq_zero]
    exact h3

theorem bruhatD_prod {l mu : List Int} (hl : clsD n k l) (hm : clsD n k mu) :
    (Y.prod (Finsupp.single l 1) (Finsupp.single mu 1) ≠ 0 ↔ LeD k (n + 1 - k) l (dlD n k l) (dlD n k mu) mu) ∧
    ∀ nu, Y.prod (Finsupp.single l 1) (Finsupp.single mu 1) nu ≠ 0 → clsD n k nu ∧ LeD k (n + 1 - k) l (dlD n k l) nu (dlD n k nu) ∧
      LeD k (n + 1 - k) mu (dlD n k mu) nu (dlD n k nu) := by
  have hup := fun p hp l hl m h => bruhatD_up hk Y hY (p := p) (l := l) (m := m) hp hl h
  constructor
  · rw [Y.prod_ne_iff (Le := leDc n k) (leDc_refl hk) leDc_trans hup (fun p hp l hl => bruhatD_pos hk Y hY hp hl)
      (fun l nu hl hn h hne => Or.inl (bruhatD_step hk Y hY hl hn h hne)) (N := (WdD n k).sup (fun u => (labD u).sum.toNat)) ?_ (dlD n k) (dlD_cls hk)
      (dlD_dlD hk) ?_ hl hm, leDc_iff hk hl (dlD_cls hk mu hm), dlD_dlD hk mu hm]
    · intro l hl
      obtain ⟨u, hu, rfl⟩ := (WdD_cls hk l).1 hl
      have h0 : 0 ≤ (labD u).sum := by rw [labD_sum]; exact isPartition_sum_nonneg (inBox_shD u).isPart
      have := Finset.le_sup (f := fun u => (labD u).sum.toNat) hu
      omega
    · intro p l nu _ hl hn
      rw [hY]
      exact tDD_dual 0 0 hk p hl hn
  · intro nu h
    have hc : clsD n k nu := Y.prod_support _ (supp_single hm 1) nu (Finsupp.mem_support_iff.2 h)
    obtain ⟨h1, h2⟩ := Y.support_le (Le := leDc n k) (leDc_refl hk) leDc_trans hup hl hm h
    exact ⟨hc, (leDc_iff hk hl hc).1 h1, (leDc_iff hk hm hc).1 h2⟩

end

end Verif
