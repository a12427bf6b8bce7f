import Verif.Proofs.WordSys
import Verif.Proofs.SchurSym
/-!
# The special Pieri operators of types B and C as a `GSys`
-/

namespace Verif
open Spec

/-! ### The leading term -/

theorem arrow_cons {k : Nat} {d : Int} {p : Int} {l : List Int} (h : IsPartition (p :: l)) : PieriArrow k d l (p :: l) := by
  have hl : IsPartition l := ⟨h.1.tail, fun z hz => h.2 z (by simp [hz])⟩
  have hc : ∀ c, colHeight (p :: l) c = colHeight l c + (if (c : Int) < p then 1 else 0) := by
    intro c
    unfold colHeight
    rw [List.countP_cons]
    simp
  refine ⟨⟨l, hl, fun r => ⟨le_refl _, by omega, by omega⟩, ?_⟩, ?_, ?_⟩
  · intro i
    refine ⟨?_, le_refl _⟩
    cases i with
    | zero =>
      show part l 0 ≤ p
      have := h.part_anti (show 0 ≤ 1 by omega)
      exact this
    | succ i => exact hl.part_anti (by omega)
  · intro c _ h1 r h2
    rw [hc] at h1
    have hp : ¬ (c : Int) < p := by
      intro hp; rw [if_pos hp] at h1; omega
    have : colHeight l c = 0 := by
      unfold colHeight
      rw [List.countP_eq_zero]
      intro x hx
      have := (List.pairwise_cons.1 h.1).1 x hx
      simp; omega
    omega
  · intro c h1
    rw [hc] at h1
    omega

theorem arrow_first {k : Nat} {d : Int} {l mu : List Int} (hl : ReducedPart l) (hm : ReducedPart mu)
    (h : PieriArrow k d l mu) {p : Int} (hp : 0 < p) (hs : mu.sum = l.sum + p) : mu = p :: l ∨ p < part mu 0 := by
  obtain ⟨nu, hnu, h1, h2⟩ := h.strips
  have hle : ∀ r, part mu (r + 1) ≤ part l r := fun r => le_trans (h2 r).2 (h1 r).1
  set L := l.length + mu.length with hL
  have e1 := SchurSym.sum_eq_range l L (by omega)
  have e2 := SchurSym.sum_eq_range mu (L + 1) (by omega)
  rw [Finset.sum_range_succ'] at e2
  have hsum : ∑ i ∈ Finset.range L, part mu (i + 1) ≤ ∑ i ∈ Finset.range L, part l i := Finset.sum_le_sum (fun i _ => hle i)
  rcases lt_or_ge p (part mu 0) with h3 | h3
  · exact Or.inr h3
  · left
    have heq : ∑ i ∈ Finset.range L, part mu (i + 1) = ∑ i ∈ Finset.range L, part l i := by omega
    have hall := (Finset.sum_eq_sum_iff_of_le (fun i _ => hle i)).1 heq
    apply eq_of_part_eq hm.noTrailing
    · rw [NoTrailingZero, List.getLast?_cons]
      cases hlast : l.getLast? with
      | none => simp; omega
      | some y =>
        simp
        have := hl.2 y (List.mem_of_getLast? hlast)
        omega
    · intro i
      cases i with
      | zero => show part mu 0 = p; omega
      | succ i =>
        show part mu (i + 1) = part l i
        by_cases hi : i < L
        · exact hall i (Finset.mem_range.2 hi)
        · rw [part_of_ge (by omega), part_of_ge (by omega)]

theorem freeCol_cons {k : Nat} {d : Int} {p : Int} {l : List Int} (h : IsPartition (p :: l)) (e : Nat) :
    FreeCol k d l (p :: l) e ↔ (e : Int) + k < p := by
  have hl : IsPartition l := ⟨h.1.tail, fun z hz => h.2 z (by simp [hz])⟩
  constructor
  · rintro ⟨s, h1, h2, _⟩
    have := h.part_anti (Nat.zero_le s)
    have e0 : part (p :: l) 0 = p := rfl
    unfold ex at h2
    omega
  · intro he
    have hlt : ∀ s, s < col l (k + e) ↔ (e : Int) < ex l k s := by
      intro s
      rw [lt_col hl]
      unfold ex
      push_cast
      omega
    refine ⟨col l (k + e), ?_, ?_, ?_⟩
    · by_contra hc
      exact absurd ((hlt _).2 (by omega)) (lt_irrefl _)
    · rcases hs : col l (k + e) with _ | s
      · unfold ex
        have e0 : part (p :: l) 0 = p := rfl
        omega
      · have := (hlt s).1 (by omega)
        exact this
    · intro j hj x h1 h2
      have hc : col (p :: l) j = col l j + 1 := by
        unfold col
        rw [List.countP_cons, if_pos (by simp; omega)]
      omega

theorem countComps_cons {k : Nat} {n d : Int} {p : Int} {l : List Int} (hb : InBox k n d l) (hb' : InBox k n d (p :: l))
    (hd : d = 0 ∨ d = 1) (hn : 0 ≤ n) (hr : 0 ≤ n + d - k) (skip : Bool) :
    countComps l (p :: l) skip k d = if skip = false ∧ k < p then 1 else 0 := by
  classical
  rw [countComps_eq hb hb' hd hn hr ((shapeRel_iff hb hb' hd hn hr).2 (arrow_cons hb'.isPart))]
  have hf := fun e => freeCol_cons (k := k) (d := d) hb'.isPart e
  have hex : ex (p :: l) k 0 = max 0 (p - k) := rfl
  split
  · rename_i h
    rw [Finset.card_eq_one]
    refine ⟨0, ?_⟩
    ext e
    rw [Finset.mem_filter, Finset.mem_range, hf, hf, Finset.mem_singleton]
    constructor
    · rintro ⟨h1, h2, h3, h4⟩
      by_contra hne
      exact h4 (by omega) (by omega)
    · rintro rfl
      exact ⟨by omega, by omega, fun _ => h.1, by omega⟩
  · rename_i h
    rw [Finset.card_eq_zero, Finset.filter_eq_empty_iff]
    rintro e he ⟨h2, h3, h4⟩
    rw [hf] at h2 h4
    rcases Nat.eq_zero_or_pos e with rfl | hp
    · exact h ⟨h3 rfl, by omega⟩
    · exact h4 hp (by omega)

/-! ### Coefficients -/

open Classical in
/-- the coefficient of a class in the product with a special class, types B (`false`) and C (`true`), not scaled -/
noncomputable def gcf (skip : Bool) (k : Nat) (p : Nat) (l mu : List Int) : ℚ :=
  if ShapeRel k 0 l mu ∧ mu.sum = l.sum + p then 2 ^ countComps l mu skip k 0 else 0

open Polynomial in
theorem coeff_wt (p : Nat) {u w : List L3} (hl : u.length = w.length) (hc : colsW 0 u = colsW 0 w) :
    (wt (1 : (Polynomial ℚ)[X]) X .z u w).coeff p = C (gcf true (colsW 0 u) p (labW u) (labW w)) ∧
    (wt (2 : (Polynomial ℚ)[X]) X .z u w).coeff p = C (gcf false (colsW 0 u) p (labW u) (labW w)) := by
  obtain ⟨_, h2, h3⟩ := wt_pieri (X : (Polynomial ℚ)[X]) hl
  by_cases hs : ShapeRel (colsW 0 u) 0 (labW u) (labW w)
  · obtain ⟨N, e1, e2, e3⟩ := h3 hc hs
    have key : ∀ c : Nat, ((2 : (Polynomial ℚ)[X]) ^ c * X ^ N).coeff p =
        (if (labW w).sum = (labW u).sum + p then C ((2 : ℚ) ^ c) else 0 : Polynomial ℚ) := by
      intro c
      have e4 : (2 : (Polynomial ℚ)[X]) ^ c = C (C ((2 : ℚ) ^ c)) := by simp only [map_pow, map_ofNat]
      rw [e4, coeff_C_mul, coeff_X_pow]
      by_cases hp : p = N
      · rw [if_pos hp, if_pos (by omega), mul_one]
      · rw [if_neg hp, if_neg (by omega), mul_zero]
    rw [e2, e3, key, key]
    unfold gcf
    simp only [hs, true_and]
    split <;> simp
  · rw [h2 hc hs, h2 hc hs]
    unfold gcf
    simp [hs]

theorem labW_b (u : List L3) : labW (.b :: u) = labW u := by
  unfold labW
  rw [partClip_eq_iff]
  intro i
  exact part_append_zeros (shapeW 0 0 u) 1 i

theorem labW_a (u : List L3) : labW (.a :: u) = ((u.length : Int) + colsW 0 u + 1) :: labW u := by
  unfold labW
  simp only [shapeW]
  rw [partClip_cons, if_neg]
  rintro ⟨_, h⟩
  omega

/-- the matrices of type C; `h` is `q/2`, or `0` for the classical ring -/
noncomputable def MC (h : Polynomial ℚ) (p : Nat) (u w : List L3) : Polynomial ℚ :=
  (opW (Polynomial.C 1) (Polynomial.C h) Polynomial.X u w).coeff p

theorem MC_eq (h : Polynomial ℚ) (p : Nat) {n k : Nat} {u w : List L3} (hu : u ∈ Wd n k) (hw : w ∈ Wd n k) :
    MC h p u w = Polynomial.C (gcf true k p (labW u) (labW w)) +
      h * Polynomial.C (gcf true k p (labW u) (((n : Int) + k + 1) :: labW w)) := by
  rw [mem_Wd] at hu hw
  unfold MC opW
  rw [Polynomial.coeff_add, Polynomial.coeff_C_mul, map_one, wt_lr, (coeff_wt p (by omega) (by omega)).1,
    (coeff_wt p (u := .b :: u) (w := .a :: w) (by simp; omega) (by simp [colsW]; omega)).1, labW_b, labW_a]
  simp only [colsW, hu.2, hw.1, hw.2]

/-- the matrices of type B, classical -/
noncomputable def MB (k : Nat) (p : Nat) (u w : List L3) : Polynomial ℚ :=
  Polynomial.C (if p ≤ k then 1 else 1 / 2) * (opW (Polynomial.C 2) (Polynomial.C 0) Polynomial.X u w).coeff p

theorem MB_eq (p : Nat) {n k : Nat} {u w : List L3} (hu : u ∈ Wd n k) (hw : w ∈ Wd n k) :
    MB k p u w = Polynomial.C ((if p ≤ k then 1 else 1 / 2) * gcf false k p (labW u) (labW w)) := by
  rw [mem_Wd] at hu hw
  unfold MB opW
  have e2 : (Polynomial.C 2 : Polynomial (Polynomial ℚ)) = 2 := map_ofNat _ 2
  rw [Polynomial.coeff_add, Polynomial.coeff_C_mul, zero_mul, add_zero, e2, (coeff_wt p (by omega) (by omega)).2,
    Polynomial.C_mul, hu.2]

/-! ### Systems -/

theorem gcf_arrow {n k : Nat} (hk : k ≤ n) {skip : Bool} {p : Nat} {l mu : List Int} (hl : InBox k n 0 l) (hm : InBox k n 0 mu) :
    (PieriArrow k 0 l mu ∧ mu.sum = l.sum + p → gcf skip k p l mu = 2 ^ countComps l mu skip k 0) ∧
    (¬ (PieriArrow k 0 l mu ∧ mu.sum = l.sum + p) → gcf skip k p l mu = 0) := by
  have := shapeRel_iff hl hm (Or.inl rfl) (by omega) (by omega)
  rw [← this]
  unfold gcf
  exact ⟨fun h => if_pos h, fun h => if_neg h⟩

open MvPolynomial in
/-- a Pieri rule given by its list of terms -/
theorem den_terms_labels {n k : Nat} (hk : k ≤ n) {R : List (List Int)} (hR : R.Nodup) {Q : List Int → Prop} (hQ : ∀ mu, mu ∈ R ↔ clsBC n k mu ∧ Q mu)
    (c : List Int → ℚ) (g : List L3 → ℚ) (h2 : ∀ w ∈ Wd n k, Q (labW w) → g w = c (labW w))
    (h3 : ∀ w ∈ Wd n k, ¬ Q (labW w) → g w = 0) :
    (R.map (fun mu => (C (c mu) * X (.S mu) : P))).sum = ∑ w ∈ Wd n k, C (g w) * X (.S (labW w)) := by
  apply sum_labels hR Wd_inj c g
  · intro mu hmu
    exact (Wd_cls hk mu).1 ((hQ mu).1 hmu).1
  · intro w hw h; exact h2 w hw ((hQ _).1 h).2
  · intro w hw h; exact h3 w hw (fun hq => h ((hQ _).2 ⟨(Wd_cls hk _).2 ⟨w, hw, rfl⟩, hq⟩))

open MvPolynomial in
theorem ret_C (n k : Nat) (hk : k ≤ n) (p : Nat) {l : List Int} (hl : clsBC n k l) :
    Returns (pieriC p l k n) (ev (tM (Wd n k) labW (MC 0) p l)) := by
  obtain ⟨u, hu, rfl⟩ := (Wd_cls hk l).1 hl
  obtain ⟨w, R, h1, h2, h3, h4, h5⟩ := pieriC_terms p hl.2 (by omega) (by omega)
  refine ⟨w, h1, h2, ?_⟩
  rw [den_perm h5, den_termsOf, ev_tM (MC 0) Wd_inj p hu,
    den_terms_labels hk h3 (Q := fun mu => PieriArrow k 0 (labW u) mu ∧ mu.sum = (labW u).sum + p)
      (fun mu => by rw [h4]; unfold clsBC; tauto) _ (fun w => gcf true k p (labW u) (labW w))
      (fun w hw h => (gcf_arrow hk hl.2 ((Wd_cls hk _).2 ⟨w, hw, rfl⟩).2).1 h)
      (fun w hw h => (gcf_arrow hk hl.2 ((Wd_cls hk _).2 ⟨w, hw, rfl⟩).2).2 h)]
  apply Finset.sum_congr rfl
  intro w hw
  rw [MC_eq 0 p hu hw, zero_mul, add_zero]
  simp [inq]

open MvPolynomial in
theorem ret_qC (n k : Nat) (hk : k ≤ n) (p : Nat) {l : List Int} (hl : clsBC n k l) :
    Returns (qpieriC p l k n) (ev (tM (Wd n k) labW (MC (Polynomial.C (1 / 2) * Polynomial.X)) p l)) := by
  obtain ⟨u, hu, rfl⟩ := (Wd_cls hk l).1 hl
  obtain ⟨w, R, N, h1, h2, h3, h3', h4, h6, _, h5⟩ := qpieriC_terms p hl.2 (by omega) (by omega)
  have hcons : ∀ w ∈ Wd n k, InBox k (n + 1 : Nat) 0 (((n : Int) + k + 1) :: labW w) := by
    intro w hw
    have := ((inBox_cons (k := k) (n := n) (by omega) (by omega) (nu := labW w)).2 ((Wd_cls hk _).2 ⟨w, hw, rfl⟩)).2
    push_cast
    exact this
  have hu1 : InBox k (n + 1 : Nat) 0 (labW u) := by push_cast; exact inBox_mono hl.2
  refine ⟨w, h1, h2, ?_⟩
  rw [den_perm h5, den_append, den_termsOf, den_qtermsOf, ev_tM _ Wd_inj p hu,
    den_terms_labels hk h3 (Q := fun mu => PieriArrow k 0 (labW u) mu ∧ mu.sum = (labW u).sum + p)
      (fun mu => by rw [h4]; unfold clsBC; tauto) _ (fun w => gcf true k p (labW u) (labW w))
      (fun w hw h => (gcf_arrow hk hl.2 ((Wd_cls hk _).2 ⟨w, hw, rfl⟩).2).1 h)
      (fun w hw h => (gcf_arrow hk hl.2 ((Wd_cls hk _).2 ⟨w, hw, rfl⟩).2).2 h),
    den_terms_labels hk h3' (Q := fun mu => PieriArrow k 0 (labW u) (((n : Int) + k + 1) :: mu) ∧
        (((n : Int) + k + 1) :: mu).sum = (labW u).sum + p)
      (fun mu => by rw [h6, List.sum_cons, add_comm ((n : Int) + k + 1)]; unfold clsBC; tauto) _
      (fun w => gcf true k p (labW u) (((n : Int) + k + 1) :: labW w) / 2)
      (fun w hw h => by rw [(gcf_arrow (n := n + 1) (by omega) hu1 (hcons w hw)).1 h])
      (fun w hw h => by rw [(gcf_arrow (n := n + 1) (by omega) hu1 (hcons w hw)).2 h, zero_div]),
    Finset.mul_sum, ← Finset.sum_add_distrib]
  apply Finset.sum_congr rfl
  intro w hw
  rw [MC_eq _ p hu hw, div_eq_mul_inv, C_mul]
  simp only [inq, map_add, map_mul, Polynomial.aeval_C, Polynomial.aeval_X, MvPolynomial.algebraMap_eq, one_div]
  ring

open MvPolynomial in
theorem ret_B (n k : Nat) (hk : k ≤ n) (p : Nat) {l : List Int} (hl : clsBC n k l) :
    Returns (pieriB p l k n) (ev (tM (Wd n k) labW (MB k) p l)) := by
  obtain ⟨u, hu, rfl⟩ := (Wd_cls hk l).1 hl
  obtain ⟨w, R, h1, h2, h3, h4, h6, h5⟩ := pieriB_terms p hl.2 (by omega) (by omega)
  refine ⟨w, h1, h2, ?_⟩
  rw [den_perm h5, den_termsOf, ev_tM (MB k) Wd_inj p hu,
    den_terms_labels hk h3 (Q := fun mu => PieriArrow k 0 (labW u) mu ∧ mu.sum = (labW u).sum + p)
      (fun mu => by rw [h4]; unfold clsBC; tauto) _ (fun w => (if p ≤ k then 1 else 1 / 2) * gcf false k p (labW u) (labW w))
      (fun w hw h => ?_)
      (fun w hw h => by rw [(gcf_arrow hk hl.2 ((Wd_cls hk _).2 ⟨w, hw, rfl⟩).2).2 h, mul_zero])]
  · apply Finset.sum_congr rfl
    intro w hw
    rw [MB_eq p hu hw]
    simp [inq]
  · have hcw := (Wd_cls hk _).2 ⟨w, hw, rfl⟩
    rw [(gcf_arrow hk hl.2 hcw.2).1 h]
    have hmem := (h4 (labW w)).2 ⟨hcw.1, hcw.2, h.2, h.1⟩
    unfold expB
    by_cases hp : p ≤ k
    · rw [if_pos hp, if_pos (by omega)]; simp
    · have := h6 _ hmem (by omega)
      rw [if_neg hp, if_neg (by omega)]
      obtain ⟨e, he⟩ : ∃ e, countComps (labW u) (labW w) false k 0 = e + 1 := ⟨_, (Nat.succ_pred_eq_of_pos this).symm⟩
      rw [he, Nat.add_sub_cancel, pow_succ]
      ring

/-- the measure of the Giambelli recursion -/
def measBC (n k : Nat) (l : List Int) : Nat := l.sum.toNat * (n + k + 1) + (n + k - (part l 0).toNat)

theorem measBC_lt_of_sum {n k : Nat} {l l' : List Int} (h : l.sum < l'.sum) (h0 : 0 ≤ l.sum) : measBC n k l < measBC n k l' := by
  unfold measBC
  have h1 : l.sum.toNat + 1 ≤ l'.sum.toNat := by omega
  have := Nat.mul_le_mul_right (n + k + 1) h1
  rw [Nat.add_mul] at this
  omega

theorem measBC_lt_of_first {n k : Nat} {l l' : List Int} (h : l.sum = l'.sum) (h1 : part l' 0 < part l 0)
    (h2 : part l 0 ≤ (n : Int) + k) (h3 : 0 ≤ part l' 0) : measBC n k l < measBC n k l' := by
  unfold measBC
  rw [h]
  omega

theorem isPartition_sum_nonneg {l : List Int} (h : IsPartition l) : 0 ≤ l.sum := List.sum_nonneg h.2

theorem cls_tail {n k : Nat} {p : Int} {l : List Int} (h : clsBC n k (p :: l)) : 1 ≤ p ∧ p ≤ (n + k : Nat) ∧ clsBC n k l := by
  have hr := h.1
  have hb := h.2
  have h0 := hr.2 p (by simp)
  have hc := hb.cols
  have e0 : part (p :: l) 0 = p := rfl
  have hrl : ReducedPart l := ⟨hr.1.tail, fun z hz => hr.2 z (by simp [hz])⟩
  have hpt : ∀ i, part l i = part (p :: l) (i + 1) := fun i => rfl
  refine ⟨by omega, by push_cast; omega, hrl, hrl.isPartition, ?_, ?_, ?_⟩
  · rw [kstrict_part (by omega) hrl.isPartition]
    intro i hi
    rw [hpt] at hi ⊢
    rw [hpt]
    exact (kstrict_part (by omega) hb.isPart).1 hb.kstrict (i + 1) hi
  · intro r h1
    rw [hpt]
    exact hb.rows (r + 1) (by push_cast; omega)
  · have := hb.isPart.part_anti (show 0 ≤ 1 by omega)
    have e1 : part (p :: l) 1 = part l 0 := rfl
    omega

/-- A family of matrices whose classical part is the Pieri rule with leading coefficient one gives the Giambelli
recursion. -/
theorem step_of_matrix {n k : Nat} (hk : k ≤ n) (M : Nat → List L3 → List L3 → Polynomial ℚ)
    (hM : ∀ p : Nat, 1 ≤ p → p ≤ n + k → ∀ u ∈ Wd n k, ∀ w ∈ Wd n k, M p u w ≠ 0 →
      (PieriArrow k 0 (labW u) (labW w) ∧ (labW w).sum = (labW u).sum + p) ∨ (labW w).sum < (labW u).sum + p)
    (h1 : ∀ p : Nat, 1 ≤ p → p ≤ n + k → ∀ u ∈ Wd n k, ∀ w ∈ Wd n k, labW w = (p : Int) :: labW u → M p u w = 1)
    (p : Int) (l : List Int) (h : clsBC n k (p :: l)) : 1 ≤ p ∧ p ≤ (n + k : Nat) ∧ clsBC n k l ∧
      measBC n k l < measBC n k (p :: l) ∧ ∀ mu ∈ (tM (Wd n k) labW M p.toNat l - Finsupp.single (p :: l) 1).support,
        clsBC n k mu ∧ measBC n k mu < measBC n k (p :: l) := by
  obtain ⟨hp1, hp2, hl⟩ := cls_tail h
  obtain ⟨p', rfl⟩ : ∃ p' : Nat, p = p' := ⟨p.toNat, by omega⟩
  have hs0 := isPartition_sum_nonneg hl.2.isPart
  refine ⟨hp1, hp2, hl, measBC_lt_of_sum (by rw [List.sum_cons]; omega) hs0, ?_⟩
  rw [Int.toNat_natCast]
  intro mu hmu
  obtain ⟨u, hu, rfl⟩ := (Wd_cls hk l).1 hl
  obtain ⟨v, hv, hv'⟩ := (Wd_cls hk _).1 h
  rw [Finsupp.mem_support_iff, Finsupp.sub_apply] at hmu
  by_cases hne : mu = (p' : Int) :: labW u
  · exfalso
    apply hmu
    rw [hne, ← hv', tM_apply M Wd_inj p' hu hv, Finsupp.single_eq_same, h1 p' (by omega) (by omega) u hu v hv hv', sub_self]
  · rw [Finsupp.single_eq_of_ne hne, sub_zero] at hmu
    obtain ⟨w, hw, rfl⟩ := tM_support M p' _ mu (Finsupp.mem_support_iff.2 hmu)
    rw [tM_apply M Wd_inj p' hu hw] at hmu
    have hcw := (Wd_cls hk _).2 ⟨w, hw, rfl⟩
    refine ⟨hcw, ?_⟩
    rcases hM p' (by omega) (by omega) u hu w hw hmu with ⟨ha, hs⟩ | hs
    · rcases arrow_first hl.1 hcw.1 ha (by omega) hs with h2 | h2
      · exact absurd h2 hne
      · apply measBC_lt_of_first
        · rw [hs, List.sum_cons]; ring
        · exact h2
        · exact hcw.2.cols
        · show (0 : Int) ≤ p'; omega
    · apply measBC_lt_of_sum
      · rw [List.sum_cons]; omega
      · exact isPartition_sum_nonneg hcw.2.isPart

theorem gcf_ne {n k : Nat} (hk : k ≤ n) {skip : Bool} {p : Nat} {l mu : List Int} (hl : InBox k n 0 l) (hm : InBox k n 0 mu)
    (h : gcf skip k p l mu ≠ 0) : PieriArrow k 0 l mu ∧ mu.sum = l.sum + p := by
  by_contra hc
  exact h ((gcf_arrow hk hl hm).2 hc)

theorem gcf_lead {n k : Nat} (hk : k ≤ n) (skip : Bool) {p : Nat} {l : List Int} (hl : InBox k n 0 l) (hm : InBox k n 0 ((p : Int) :: l)) :
    gcf skip k p l ((p : Int) :: l) = if skip = false ∧ k < p then 2 else 1 := by
  rw [(gcf_arrow hk hl hm).1 ⟨arrow_cons hm.isPart, by rw [List.sum_cons]; ring⟩,
    countComps_cons hl hm (Or.inl rfl) (by omega) (by omega)]
  have : ((k : Int) < (p : Int)) ↔ k < p := by omega
  simp only [this]
  split <;> simp

theorem tM_closed {n k : Nat} (hk : k ≤ n) (M : Nat → List L3 → List L3 → Polynomial ℚ) (p : Nat) (l : List Int) :
    ∀ mu ∈ (tM (Wd n k) labW M p l).support, clsBC n k mu := by
  intro mu hmu
  exact (Wd_cls hk mu).2 (tM_support M p l mu hmu)

theorem step_C {n k : Nat} (hk : k ≤ n) (h : Polynomial ℚ) (p : Int) (l : List Int) (hc : clsBC n k (p :: l)) :
    1 ≤ p ∧ p ≤ (n + k : Nat) ∧ clsBC n k l ∧
      measBC n k l < measBC n k (p :: l) ∧ ∀ mu ∈ (tM (Wd n k) labW (MC h) p.toNat l - Finsupp.single (p :: l) 1).support,
        clsBC n k mu ∧ measBC n k mu < measBC n k (p :: l) := by
  have hb : ∀ w ∈ Wd n k, InBox k n 0 (labW w) := fun w hw => ((Wd_cls hk _).2 ⟨w, hw, rfl⟩).2
  have gz : ∀ p : Nat, ∀ u w, (labW w).sum + (n + k + 1) ≠ (labW u).sum + p →
      gcf true k p (labW u) (((n : Int) + k + 1) :: labW w) = 0 := by
    intro p u w hne
    unfold gcf
    rw [if_neg]
    rintro ⟨_, h⟩
    rw [List.sum_cons] at h
    omega
  apply step_of_matrix hk
  · intro p _ _ u hu w hw hne
    rw [MC_eq h p hu hw] at hne
    by_cases h1 : gcf true k p (labW u) (labW w) = 0
    · right
      by_contra hc
      rw [h1, gz p u w (by omega)] at hne
      simp at hne
    · exact Or.inl (gcf_ne hk (hb u hu) (hb w hw) h1)
  · intro p _ _ u hu w hw he
    have := hb w hw
    rw [MC_eq h p hu hw, gz p u w (by rw [he, List.sum_cons]; omega)]
    rw [he] at this ⊢
    rw [gcf_lead hk true (hb u hu) this]
    simp
  · exact hc

theorem step_B {n k : Nat} (hk : k ≤ n) (p : Int) (l : List Int) (hc : clsBC n k (p :: l)) :
    1 ≤ p ∧ p ≤ (n + k : Nat) ∧ clsBC n k l ∧
      measBC n k l < measBC n k (p :: l) ∧ ∀ mu ∈ (tM (Wd n k) labW (MB k) p.toNat l - Finsupp.single (p :: l) 1).support,
        clsBC n k mu ∧ measBC n k mu < measBC n k (p :: l) := by
  have hb : ∀ w ∈ Wd n k, InBox k n 0 (labW w) := fun w hw => ((Wd_cls hk _).2 ⟨w, hw, rfl⟩).2
  apply step_of_matrix hk
  · intro p _ _ u hu w hw hne
    rw [MB_eq p hu hw] at hne
    left
    apply gcf_ne hk (skip := false) (hb u hu) (hb w hw)
    intro h0
    rw [h0] at hne
    simp at hne
  · intro p _ _ u hu w hw he
    have := hb w hw
    rw [MB_eq p hu hw]
    rw [he] at this ⊢
    rw [gcf_lead hk false (hb u hu) this]
    by_cases hp : p ≤ k
    · rw [if_pos hp, if_neg (by omega)]; simp
    · rw [if_neg hp, if_pos ⟨rfl, by omega⟩]; simp
  · exact hc

theorem MC_comm (h : Polynomial ℚ) (n k a b : Nat) (u : List L3) (hu : u ∈ Wd n k) (v : List L3) (hv : v ∈ Wd n k) :
    ∑ w ∈ Wd n k, MC h a u w * MC h b w v = ∑ w ∈ Wd n k, MC h b u w * MC h a w v := by
  unfold MC
  exact coeffW_comm 1 h a b hu hv

theorem MB_comm (n k a b : Nat) (u : List L3) (hu : u ∈ Wd n k) (v : List L3) (hv : v ∈ Wd n k) :
    ∑ w ∈ Wd n k, MB k a u w * MB k b w v = ∑ w ∈ Wd n k, MB k b u w * MB k a w v := by
  have := coeffW_comm (2 : Polynomial ℚ) 0 a b hu hv
  unfold MB
  have e : ∀ c d x y : Polynomial ℚ, (c * x) * (d * y) = (c * d) * (x * y) := fun c d x y => by ring
  simp only [e, ← Finset.mul_sum]
  rw [this, mul_comm (Polynomial.C _)]

/-- the classical ring of `IG(n-k, 2n)` -/
noncomputable def sysIG (n k : Nat) (hk : k ≤ n) : GSys (fun p l => pieriC p l k n) (n + k) (clsBC n k) where
  t := tM (Wd n k) labW (MC 0)
  closed := tM_closed hk _
  ret p _ _ _ hl := ret_C n k hk p hl
  comm a b l _ _ _ _ := tM_comm (MC 0) Wd_inj (MC_comm 0 n k a b) l
  meas := measBC n k
  red _ h := h.1
  step := step_C hk 0

/-- the quantum ring of `IG(n-k, 2n)` -/
noncomputable def sysQIG (n k : Nat) (hk : k ≤ n) : GSys (fun p l => qpieriC p l k n) (n + k) (clsBC n k) where
  t := tM (Wd n k) labW (MC (Polynomial.C (1 / 2) * Polynomial.X))
  closed := tM_closed hk _
  ret p _ _ _ hl := ret_qC n k hk p hl
  comm a b l _ _ _ _ := tM_comm _ Wd_inj (MC_comm _ n k a b) l
  meas := measBC n k
  red _ h := h.1
  step := step_C hk _

/-- the classical ring of `OG(n-k, 2n+1)` -/
noncomputable def sysOG (n k : Nat) (hk : k ≤ n) : GSys (fun p l => pieriB p l k n) (n + k) (clsBC n k) where
  t := tM (Wd n k) labW (MB k)
  closed := tM_closed hk _
  ret p _ _ _ hl := ret_B n k hk p hl
  comm a b l _ _ _ _ := tM_comm (MB k) Wd_inj (MB_comm n k a b) l
  meas := measBC n k
  red _ h := h.1
  step := step_B hk

end Verif
