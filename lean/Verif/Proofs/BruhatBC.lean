import Verif.Proofs.BruhatRing
import Verif.Proofs.RelationsQ
/-!
# The order of the classes in types B and C
-/

namespace Verif
open Spec

/-- comparison of the parts that are larger than `k` -/
def Spec.topLe (k : Int) (l mu : List Int) : Prop := ∀ i, k < part l i → part l i ≤ part mu i

theorem leW_iff {u : List L3} : ∀ {w : List L3} {d e : ℤ}, u.length = w.length → d - e = (colsW 0 w : ℤ) - colsW 0 u →
    (leW d e u w ↔ ∀ v ≤ u.length, (alW u v : ℤ) ≤ d + alW w v ∧ (alW (dualW w) v : ℤ) ≤ e + alW (dualW u) v) := by
  induction u with
  | nil =>
    intro w d e hl hc
    cases w with
    | cons q w => simp at hl
    | nil =>
      simp only [leW, colsW, dualW, List.map_nil, alW, List.length_nil] at hc ⊢
      constructor
      · intro h v _; omega
      · intro h; have := h 0 le_rfl; omega
  | cons p u ih =>
    intro w d e hl hc
    cases w with
    | nil => simp at hl
    | cons q w =>
      have hl' : u.length = w.length := by simpa using hl
      have hc' : (d + q.isA - p.isA) - (e + p.isB - q.isB) = (colsW 0 w : ℤ) - colsW 0 u := by
        cases p <;> cases q <;> simp [colsW, L3.isA, L3.isB] at hc ⊢ <;> omega
      rw [leW, ih hl' hc']
      have a1 : ∀ (p : L3) (u : List L3) (v : ℕ), v ≤ u.length → (alW (p :: u) v : ℤ) = alW u v + p.isA := by
        intro p u v hv
        rw [alW_le p hv]
        cases p <;> simp [L3.isA]
      have a2 : ∀ (p : L3) (u : List L3) (v : ℕ), v ≤ u.length → (alW (dualW (p :: u)) v : ℤ) = alW (dualW u) v + p.isB := by
        intro p u v hv
        rw [show dualW (p :: u) = p.dual :: dualW u from rfl, a1 _ _ _ (by simpa using hv)]
        cases p <;> simp [L3.isA, L3.isB, L3.dual]
      constructor
      · rintro ⟨h1, h2, h3⟩ v hv
        rcases Nat.lt_or_ge u.length v with h | h
        · rw [alW_top (u := p :: u) (by simpa using h), alW_top (u := dualW (q :: w)) (by simp; omega)]
          omega
        · rw [a1 p u v h, a1 q w v (by omega), a2 p u v h, a2 q w v (by omega)]
          have := h3 v h
          omega
      · intro h
        have h0 := h (u.length + 1) (by simp)
        rw [alW_top (u := p :: u) (by simp), alW_top (u := dualW (q :: w)) (by simp; omega), alW_top (u := q :: w) (by simp; omega),
          alW_top (u := dualW (p :: u)) (by simp)] at h0
        refine ⟨by omega, by omega, fun v hv => ?_⟩
        have := h v (by simp; omega)
        rw [a1 p u v hv, a1 q w v (by omega), a2 p u v hv, a2 q w v (by omega)] at this
        omega

theorem topLe_iff {n k : ℕ} {u w : List L3} (hu : u ∈ Wd n k) (hw : w ∈ Wd n k) :
    topLe k (labW u) (labW w) ↔ ∀ v ≤ n, alW u v ≤ alW w v := by
  rw [mem_Wd] at hu hw
  have c1 := (coded_labW u).hex
  have c2 := (coded_labW w).hex
  rw [hu.2] at c1
  rw [hw.2] at c2
  constructor
  · intro h v _
    by_contra hc
    have h1 := (c1 (alW w v) v).2 (by omega)
    have h2 := (c2 (alW w v) v).not.2 (by omega)
    have h3 := h (alW w v)
    unfold ex at h1 h2
    omega
  · intro h i hi
    by_contra hc
    obtain ⟨v, hv⟩ : ∃ v : ℕ, part (labW u) i = k + v + 1 := ⟨(part (labW u) i - k - 1).toNat, by omega⟩
    have h1 := (c1 i v).1 (by unfold ex; omega)
    have h2 : v ≤ n := by
      by_contra h2
      rw [alW_top (by omega)] at h1
      omega
    have h3 := (c2 i v).2 (lt_of_lt_of_le h1 (h v h2))
    unfold ex at h3
    omega

/-- the order of the classes -/
def leBC (n k : ℕ) (l nu : List Int) : Prop := ∃ u ∈ Wd n k, ∃ w ∈ Wd n k, labW u = l ∧ labW w = nu ∧ leW 0 0 u w

theorem leBC_labW {n k : ℕ} {u w : List L3} (hu : u ∈ Wd n k) (hw : w ∈ Wd n k) : leBC n k (labW u) (labW w) ↔ leW 0 0 u w := by
  constructor
  · rintro ⟨u', hu', w', hw', e1, e2, h⟩
    rwa [Wd_inj u' hu' u hu e1, Wd_inj w' hw' w hw e2] at h
  · intro h
    exact ⟨u, hu, w, hw, rfl, rfl, h⟩

theorem leBC_iff {n k : ℕ} (hk : k ≤ n) {l nu : List Int} (hl : clsBC n k l) (hn : clsBC n k nu) :
    leBC n k l nu ↔ topLe k l nu ∧ topLe k (dlBC n k nu) (dlBC n k l) := by
  obtain ⟨u, hu, rfl⟩ := (Wd_cls hk l).1 hl
  obtain ⟨w, hw, rfl⟩ := (Wd_cls hk nu).1 hn
  have m1 := mem_Wd.1 hu
  have m2 := mem_Wd.1 hw
  rw [leBC_labW hu hw, leW_iff (by omega) (by omega), dlBC_labW hk hu, dlBC_labW hk hw, topLe_iff hu hw, topLe_iff (dualW_mem hw) (dualW_mem hu), m1.1]
  constructor
  · intro h
    exact ⟨fun v hv => by have := h v hv; omega, fun v hv => by have := h v hv; omega⟩
  · rintro ⟨h1, h2⟩ v hv
    have := h1 v hv
    have := h2 v hv
    omega

theorem wt_ok {u w : List L3} : ∀ {s : St}, (okW s u w → 0 < wt (1 : ℚ) 1 s u w) ∧ (¬ okW s u w → wt (1 : ℚ) 1 s u w = 0) := by
  induction u generalizing w with
  | nil =>
    intro s
    cases w with
    | nil => cases s <;> simp [okW, wt, endW]
    | cons q w => simp [okW, wt]
  | cons p u ih =>
    intro s
    cases w with
    | nil => simp [okW, wt]
    | cons q w =>
      simp only [okW, wt]
      rcases step s p q with _ | ⟨t, i, j⟩
      · simp
      · obtain ⟨h1, h2⟩ := ih (w := w) (s := t)
        refine ⟨fun h => ?_, fun h => ?_⟩
        · have := h1 h
          simp only
          positivity
        · simp only [h2 h, mul_zero]

theorem okW_iff {u w : List L3} (hl : u.length = w.length) (hc : colsW 0 u = colsW 0 w) :
    okW .z u w ↔ ShapeRel (colsW 0 u) 0 (labW u) (labW w) := by
  obtain ⟨_, h2, h3⟩ := wt_pieri (1 : ℚ) hl
  constructor
  · intro h
    by_contra hn
    have := wt_ok.1 h
    rw [h2 hc hn 1] at this
    exact lt_irrefl _ this
  · intro h
    by_contra hn
    obtain ⟨N, _, e, _⟩ := h3 hc h
    rw [wt_ok.2 hn, one_pow, mul_one] at e
    exact pow_ne_zero _ two_ne_zero e.symm

/-- a walk to another word leads to a larger class, by a special class -/
theorem okW_sum {n k : ℕ} (hk : k ≤ n) {u w : List L3} (hu : u ∈ Wd n k) (hw : w ∈ Wd n k) (h : okW .z u w) (hne : u ≠ w) :
    ∃ N : ℕ, 1 ≤ N ∧ N ≤ n + k ∧ ShapeRel k 0 (labW u) (labW w) ∧ (labW w).sum = (labW u).sum + N := by
  have m1 := mem_Wd.1 hu
  have m2 := mem_Wd.1 hw
  have hc : colsW 0 u = colsW 0 w := by omega
  have hl : u.length = w.length := by omega
  have hs := (okW_iff hl hc).1 h
  obtain ⟨_, _, h3⟩ := wt_pieri (Polynomial.X : Polynomial ℚ) hl
  obtain ⟨N, e1, e2, _⟩ := h3 hc hs
  rw [m1.2] at hs
  refine ⟨N, ?_, ?_, hs, e1⟩
  · by_contra h0
    obtain rfl : N = 0 := by omega
    have := wt_zero (1 : ℚ) u w .z hl
    rw [Polynomial.C_1, e2, if_neg (fun h => hne h.2), pow_zero, mul_one, ← Polynomial.C_ofNat, ← Polynomial.C_pow, Polynomial.coeff_C_zero] at this
    exact pow_ne_zero _ two_ne_zero this
  · by_contra h0
    have := gcf_big hk (skip := true) (p := N) ((Wd_cls hk _).2 ⟨u, hu, rfl⟩) ((Wd_cls hk _).2 ⟨w, hw, rfl⟩) (by omega)
    unfold gcf at this
    rw [if_pos ⟨hs, e1⟩] at this
    exact pow_ne_zero _ two_ne_zero this

theorem leBC_trans {n k : ℕ} (a b c : List Int) (h1 : leBC n k a b) (h2 : leBC n k b c) : leBC n k a c := by
  obtain ⟨u, hu, v, hv, rfl, rfl, h⟩ := h1
  obtain ⟨v', hv', w, hw, e, rfl, h'⟩ := h2
  obtain rfl := Wd_inj v' hv' v hv e
  exact ⟨u, hu, w, hw, rfl, rfl, leW_trans h h'⟩

theorem leBC_refl {n k : ℕ} (hk : k ≤ n) (l : List Int) (hl : clsBC n k l) : leBC n k l l := by
  obtain ⟨u, hu, rfl⟩ := (Wd_cls hk l).1 hl
  exact ⟨u, hu, u, hu, rfl, rfl, leW_refl u⟩

/-- the coefficients are nonnegative, and positive exactly for the shapes of the Pieri rule -/
def PieriM (n k : ℕ) (M : ℕ → List L3 → List L3 → Polynomial ℚ) : Prop :=
  ∀ p, ∀ u ∈ Wd n k, ∀ w ∈ Wd n k, ∃ r : ℚ, 0 ≤ r ∧ M p u w = Polynomial.C r ∧
    (r ≠ 0 ↔ ShapeRel k 0 (labW u) (labW w) ∧ (labW w).sum = (labW u).sum + p)

theorem pieriM_C (n k : ℕ) : PieriM n k (MC 0) := by
  intro p u hu w hw
  refine ⟨gcf true k p (labW u) (labW w), ?_, by rw [MC_eq 0 p hu hw]; simp, ?_⟩
  · unfold gcf; split <;> positivity
  · unfold gcf; split <;> simp_all

theorem pieriM_B (n k : ℕ) : PieriM n k (MB k) := by
  intro p u hu w hw
  have hpos : (0 : ℚ) < if p ≤ k then 1 else 1 / 2 := by split <;> norm_num
  refine ⟨_, ?_, MB_eq p hu hw, ?_⟩
  · refine mul_nonneg hpos.le ?_
    unfold gcf; split <;> positivity
  · rw [mul_ne_zero_iff, and_iff_right hpos.ne']
    unfold gcf; split <;> simp_all

section
variable {n k : ℕ} (hk : k ≤ n) {pieri : Int → List Int → Except PyErr Poly} {K : ℤ} (Y : GiamSys K pieri (stdSpc (n + k)) (clsBC n k))
  {M : ℕ → List L3 → List L3 → Polynomial ℚ} (hM : PieriM n k M) (hY : ∀ p, Y.t p = tM (Wd n k) labW M p.toNat)
include hk hM hY

theorem bruhat_up {p : ℤ} {l m : List Int} (hp : stdSpc (n + k) p) (hl : clsBC n k l) (h : Y.t p l m ≠ 0) : leBC n k l m := by
  obtain ⟨u, hu, rfl⟩ := (Wd_cls hk l).1 hl
  obtain ⟨w, hw, rfl⟩ := (Wd_cls hk m).1 (Y.closed p _ m (Finsupp.mem_support_iff.2 h))
  rw [hY, tM_apply M Wd_inj _ hu hw] at h
  obtain ⟨r, _, e, h2⟩ := hM p.toNat u hu w hw
  have m1 := mem_Wd.1 hu
  have m2 := mem_Wd.1 hw
  have hr : r ≠ 0 := fun h0 => h (by rw [e, h0, map_zero])
  have := (okW_iff (u := u) (w := w) (by omega) (by omega)).2 (by rw [m1.2]; exact (h2.1 hr).1)
  exact (leBC_labW hu hw).2 (okW_le this)

theorem bruhat_pos {p : ℤ} {l : List Int} (hp : stdSpc (n + k) p) (hl : clsBC n k l) : PosL (Y.t p l) := by
  intro m
  by_cases hm : clsBC n k m
  · obtain ⟨u, hu, rfl⟩ := (Wd_cls hk l).1 hl
    obtain ⟨w, hw, rfl⟩ := (Wd_cls hk m).1 hm
    rw [hY, tM_apply M Wd_inj _ hu hw]
    obtain ⟨r, h1, h2, _⟩ := hM p.toNat u hu w hw
    exact ⟨r, h1, h2⟩
  · refine ⟨0, le_rfl, ?_⟩
    rw [map_zero]
    exact Finsupp.notMem_support_iff.1 (fun h => hm (Y.closed p l m h))

theorem bruhat_ok {u w : List L3} (hu : u ∈ Wd n k) (hw : w ∈ Wd n k) (h : okW .z u w) (hne : u ≠ w) :
    ∃ p, stdSpc (n + k) p ∧ (labW u).sum < (labW w).sum ∧ Y.t p (labW u) (labW w) ≠ 0 := by
  obtain ⟨N, h1, h2, h3, h4⟩ := okW_sum hk hu hw h hne
  refine ⟨N, ⟨by omega, by push_cast; omega⟩, by omega, ?_⟩
  rw [hY, tM_apply M Wd_inj _ hu hw, Int.toNat_natCast]
  obtain ⟨r, _, e, h5⟩ := hM N u hu w hw
  rw [e, Ne, Polynomial.C_eq_zero]
  exact h5.2 ⟨h3, h4⟩

theorem bruhat_step {l nu : List Int} (hl : clsBC n k l) (hn : clsBC n k nu) (h : leBC n k l nu) (hne : l ≠ nu) :
    (∃ p m, stdSpc (n + k) p ∧ clsBC n k m ∧ l.sum < m.sum ∧ Y.t p l m ≠ 0 ∧ leBC n k m nu) ∨
      ∃ p m, stdSpc (n + k) p ∧ clsBC n k m ∧ m.sum < nu.sum ∧ Y.t p m nu ≠ 0 ∧ leBC n k l m := by
  obtain ⟨u, hu, rfl⟩ := (Wd_cls hk l).1 hl
  obtain ⟨w, hw, rfl⟩ := (Wd_cls hk nu).1 hn
  rw [leBC_labW hu hw] at h
  have m1 := mem_Wd.1 hu
  have m2 := mem_Wd.1 hw
  rcases walk_step h (fun e => hne (by rw [e])) with ⟨v, h1, h2, h3⟩ | ⟨v, h1, h2, h3⟩
  · have hv : v ∈ Wd n k := by
      have := leW_len h3
      have := leW_cols h3
      rw [mem_Wd]
      omega
    obtain ⟨p, a, b, c⟩ := bruhat_ok hk Y hM hY hu hv h2 (Ne.symm h1)
    exact Or.inl ⟨p, labW v, a, (Wd_cls hk _).2 ⟨v, hv, rfl⟩, b, c, (leBC_labW hv hw).2 h3⟩
  · have hv : v ∈ Wd n k := by
      have := leW_len h3
      have := leW_cols h3
      rw [mem_Wd]
      omega
    obtain ⟨p, a, b, c⟩ := bruhat_ok hk Y hM hY hv hw h2 h1
    exact Or.inr ⟨p, labW v, a, (Wd_cls hk _).2 ⟨v, hv, rfl⟩, b, c, (leBC_labW hu hv).2 h3⟩

/-- **Types B and C**: the support of a product, and when it vanishes. -/
theorem bruhat_prod (hd : ∀ p u w, M p (dualW w) (dualW u) = M p u w) {l mu : List Int} (hl : clsBC n k l) (hm : clsBC n k mu) :
    (Y.prod (Finsupp.single l 1) (Finsupp.single mu 1) ≠ 0 ↔ topLe k l (dlBC n k mu) ∧ topLe k mu (dlBC n k l)) ∧
    ∀ nu, Y.prod (Finsupp.single l 1) (Finsupp.single mu 1) nu ≠ 0 → clsBC n k nu ∧ (topLe k l nu ∧ topLe k (dlBC n k nu) (dlBC n k l)) ∧
      topLe k mu nu ∧ topLe k (dlBC n k nu) (dlBC n k mu) := by
  have hup := fun p hp l hl m h => bruhat_up hk Y hM hY (p := p) (l := l) (m := m) hp hl h
  constructor
  · rw [Y.prod_ne_iff (Le := leBC n k) (leBC_refl hk) leBC_trans hup (fun p hp l hl => bruhat_pos hk Y hM hY hp hl)
      (fun l nu hl hn h hne => bruhat_step hk Y hM hY hl hn h hne) (N := (Wd n k).sup (fun u => (labW u).sum.toNat)) ?_ (dlBC n k) (dlBC_cls hk)
      (dlBC_dlBC hk) ?_ hl hm, leBC_iff hk hl (dlBC_cls hk mu hm), dlBC_dlBC hk mu hm]
    · intro l hl
      obtain ⟨u, hu, rfl⟩ := (Wd_cls hk l).1 hl
      have h0 := isPartition_sum_nonneg hl.2.isPart
      have := Finset.le_sup (f := fun u => (labW u).sum.toNat) hu
      omega
    · intro p l nu _ hl hn
      rw [hY]
      exact tM_dual hk M hd _ hl hn
  · intro nu h
    have hc : clsBC n k nu := Y.prod_support _ (supp_single hm 1) nu (Finsupp.mem_support_iff.2 h)
    obtain ⟨h1, h2⟩ := Y.support_le (Le := leBC n k) (leBC_refl hk) leBC_trans hup hl hm h
    exact ⟨hc, (leBC_iff hk hl hc).1 h1, (leBC_iff hk hm hc).1 h2⟩

end

end Verif
