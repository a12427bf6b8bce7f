import Verif.Proofs.BruhatQC
import Verif.Proofs.RingQB
/-!
# Powers of q in the quantum products of OG(n,2n+1)

The words have no letter `o`. A term with `q` moves the first letter `a` to `b`, and begins in the state `lr` after it.
-/

namespace Verif
open Spec

theorem okW_lr_refl (u : List L3) : okW .lr u u := by
  induction u with
  | nil => simp [okW]
  | cons p u ih => cases p <;> simpa [okW, step] using ih

theorem walk_b {u w : List L3} {d : ℤ} (h : leW d d (.b :: u) w) (hc : colsW 0 u = 0) (hd : 1 ≤ d) :
    (∃ v, v ≠ .b :: u ∧ okW .z (.b :: u) v ∧ leW d d v w) ∨ leW 0 0 (.b :: u) w := by
  have hl := leW_len h
  have hcw := leW_cols h
  cases w with
  | nil => simp at hl
  | cons q w =>
    obtain ⟨h1, h2, h3⟩ := h
    have f3 : L3.a.isA = 1 := rfl
    have f4 : L3.a.isB = 0 := rfl
    have f5 : L3.b.isA = 0 := rfl
    have f6 : L3.b.isB = 1 := rfl
    have hq : 0 ≤ q.isA := by cases q <;> simp [L3.isA]
    have hqb : q.isB ≤ 1 := by cases q <;> simp [L3.isB]
    rcases walk_lr' h3 (by omega) (by omega) with ⟨v, n, a, b⟩ | ⟨v, n, a, b⟩ | ⟨u', rfl⟩ | hb
    · exact Or.inl ⟨.b :: v, by simpa using n, by simpa [okW, step] using a, leW_cons b h1 h2 (by omega) (by omega)⟩
    · exact Or.inl ⟨.a :: v, by simp, by simpa [okW, step] using a, leW_cons b h1 h2 (by omega) (by omega)⟩
    · simp [colsW] at hc
    · refine Or.inr (leW_bs (by simpa using hb) hl ?_ le_rfl)
      simp only [colsW] at hcw ⊢
      omega

theorem colsW_dual (u : List L3) : colsW 0 (dualW u) = colsW 0 u := by
  induction u with
  | nil => rfl
  | cons p u ih =>
    rw [show dualW (p :: u) = p.dual :: dualW u from rfl]
    cases p <;> simp [colsW, L3.dual, ih]

/-- a step at the lower or at the upper end, for words without `o` -/
theorem walk_stepB {u w : List L3} {d : ℤ} (h : leW d d u w) (hc : colsW 0 u = 0) (hd : 2 ≤ d) :
    (∃ v, v ≠ u ∧ okW .z u v ∧ leW d d v w) ∨ (∃ u' v', u = .a :: u' ∧ okW .lr u' v' ∧ leW (d - 2) (d - 2) (.b :: v') w) ∨
    (∃ v, v ≠ w ∧ okW .z v w ∧ leW d d u v) ∨ leW 0 0 u w := by
  have hl := leW_len h
  have hcw : colsW 0 w = 0 := by have := leW_cols h; omega
  cases u with
  | nil =>
    obtain rfl : w = [] := List.length_eq_zero_iff.1 (by simpa using hl.symm)
    exact Or.inr (Or.inr (Or.inr (by simp [leW])))
  | cons p u =>
    cases w with
    | nil => simp at hl
    | cons q w =>
      cases p
      · simp [colsW] at hc
      · cases q
        · simp [colsW] at hcw
        · rcases walk_b (u := dualW w) (w := dualW (.a :: u)) (leW_dual h) (by rw [colsW_dual]; simpa [colsW] using hcw) (by omega) with ⟨v, n, a, b⟩ | h0
          · refine Or.inr (Or.inr (Or.inl ⟨dualW v, fun e => n ?_, ?_, ?_⟩))
            · rw [← dualW_dualW v, e]; rfl
            · have := okW_dual a
              rwa [show dualW (.b :: dualW w) = .a :: w by show L3.a :: dualW (dualW w) = _; rw [dualW_dualW]] at this
            · have := leW_dual b
              rwa [dualW_dualW] at this
          · have := leW_dual h0
            rw [dualW_dualW, show dualW (.b :: dualW w) = .a :: w by show L3.a :: dualW (dualW w) = _; rw [dualW_dualW]] at this
            exact Or.inr (Or.inr (Or.inr this))
        · have h3 : leW (d - 1) (d - 1) u w := by
            have := h.2.2
            simp only [L3.isA, L3.isB] at this
            rwa [add_zero] at this
          have cons : ∀ {v : List L3} {e : ℤ}, 0 ≤ e → leW e e v w → leW e e (.b :: v) (.b :: w) := fun he b =>
            leW_cons b he he (by simp [L3.isA]) (by simp [L3.isB])
          rcases walk_lr' h3 (by omega) (by omega) with ⟨v, n, a, b⟩ | ⟨v, n, a, b⟩ | ⟨u', rfl⟩ | hb
          · exact Or.inl ⟨.a :: v, by simpa using n, by simpa [okW, step] using a,
              leW_cons b (by omega) (by omega) (by simp [L3.isA]) (by simp [L3.isB])⟩
          · rw [show d - 1 - 1 = d - 2 by ring] at b
            exact Or.inr (Or.inl ⟨u, v, rfl, a, cons (by omega) b⟩)
          · simp [colsW] at hc
          · exact Or.inr (Or.inl ⟨u, u, rfl, okW_lr_refl u, cons (by omega) (leW_bs hb (by simpa using hl) (by simpa [colsW] using hcw) (by omega))⟩)
      · rcases walk_b h (by simpa [colsW] using hc) (by omega) with h1 | h1
        · exact Or.inl h1
        · exact Or.inr (Or.inr (Or.inr h1))

section
variable {n : ℕ} {pieri : Int → List Int → Except PyErr Poly} {K : ℤ} (Y : GiamSys K pieri (stdSpc (n + 0)) (clsBC n 0))
  (hY : ∀ p, Y.t p = tM (Wd n 0) labW (MQB 0) p.toNat)
include hY

theorem coeffQB (p : ℤ) {u w : List L3} (hu : u ∈ Wd n 0) (hw : w ∈ Wd n 0) (d : ℕ) : (Y.t p (labW u) (labW w)).coeff d =
    if d = 0 then scB 0 p.toNat * gcf false 0 p.toNat (labW u) (labW w)
    else if d = 1 then scB 0 p.toNat * gq2 0 p.toNat u w else 0 := by
  rw [hY, tM_apply _ Wd_inj _ hu hw, MQB_coeff _ hu hw]
  have h1 : gq1 0 p.toNat u w = 0 := by
    unfold gq1
    rcases ha : aOf w with _ | w'
    · rfl
    · have := (aOf_length ha).2
      have := (mem_Wd.1 hw).2
      omega
  rw [h1, show qexp 0 = 1 from rfl]
  rcases d with _ | _ | d <;> simp

theorem upQB {p : ℤ} {l m : List Int} (hl : clsBC n 0 l) {d : ℕ} (h : (Y.t p l m).coeff d ≠ 0) : leC n 0 (2 * d) l m := by
  have hk := Nat.zero_le n
  obtain ⟨u, hu, rfl⟩ := (Wd_cls hk l).1 hl
  obtain ⟨w, hw, rfl⟩ := (Wd_cls hk m).1 (Y.closed p _ m (Finsupp.mem_support_iff.2 (fun h0 => h (by rw [h0, Polynomial.coeff_zero]))))
  rw [coeffQB Y hY p hu hw] at h
  have m1 := mem_Wd.1 hu
  have m2 := mem_Wd.1 hw
  rw [leC_labW hu hw]
  split at h
  · rename_i e
    subst e
    have h := right_ne_zero_of_mul h
    unfold gcf at h
    split at h
    · rename_i hs
      exact okW_le ((okW_iff (u := u) (w := w) (by omega) (by omega)).2 (by rw [m1.2]; exact hs.1))
    · exact absurd rfl h
  · split at h
    · rename_i e
      subst e
      have h := right_ne_zero_of_mul h
      cases u with
      | nil => simp [gq2] at h
      | cons x u =>
        cases w with
        | nil => simp [gq2] at h
        | cons y w =>
          cases x <;> cases y <;> simp only [gq2, ne_eq, not_true_eq_false] at h
          simp only [List.length_cons, colsW] at m1 m2
          unfold gcf at h
          split at h
          · rename_i hs
            have := (okW_iff (u := L3.b :: u) (w := L3.a :: w) (by simp; omega) (by simp only [colsW]; omega)).2 (by
              rw [labW_b, show colsW 0 (L3.b :: u) = 0 by simp only [colsW]; exact m1.2]
              exact hs.1)
            have h1 : leW 1 1 u w := okW_le (s := .lr) (by simpa [okW, step] using this)
            exact leW_cons h1 (by norm_num) (by norm_num) (by simp [L3.isA]) (by simp [L3.isB])
          · exact absurd rfl h
    · exact absurd rfl h

theorem posQB {p : ℤ} {l : List Int} (hl : clsBC n 0 l) : PosQ (Y.t p l) := by
  have hk := Nat.zero_le n
  intro m d
  by_cases h : (Y.t p l m).coeff d = 0
  · rw [h]
  obtain ⟨u, hu, rfl⟩ := (Wd_cls hk l).1 hl
  obtain ⟨w, hw, rfl⟩ := (Wd_cls hk m).1 (Y.closed p _ m (Finsupp.mem_support_iff.2 (fun h0 => h (by rw [h0, Polynomial.coeff_zero]))))
  rw [coeffQB Y hY p hu hw]
  have hg : ∀ l mu, 0 ≤ gcf false 0 p.toNat l mu := by
    intro l mu
    unfold gcf
    split <;> positivity
  have hsc : 0 ≤ scB 0 p.toNat := by unfold scB; split <;> norm_num
  split
  · exact mul_nonneg hsc (hg _ _)
  · split
    · refine mul_nonneg hsc ?_
      unfold gq2
      split
      · exact hg _ _
      · exact le_rfl
    · exact le_rfl

theorem okQB {u w : List L3} (hu : u ∈ Wd n 0) (hw : w ∈ Wd n 0) (hne : u ≠ w) (h : okW .z u w) :
    ∃ p, stdSpc (n + 0) p ∧ (labW u).sum < (labW w).sum ∧ (Y.t p (labW u) (labW w)).coeff 0 ≠ 0 := by
  obtain ⟨N, h1, h2, h3, h4⟩ := okW_sum (Nat.zero_le n) hu hw h hne
  refine ⟨N, ⟨by omega, by push_cast; omega⟩, by omega, ?_⟩
  rw [coeffQB Y hY _ hu hw, if_pos rfl, Int.toNat_natCast]
  refine mul_ne_zero (scB_ne _ _) ?_
  unfold gcf
  rw [if_pos ⟨h3, h4⟩]
  positivity

theorem okQB1 {u w : List L3} (hu : .a :: u ∈ Wd n 0) (hw : .b :: w ∈ Wd n 0) (h : okW .lr u w) :
    ∃ p, stdSpc (n + 0) p ∧ (Y.t p (labW (.a :: u)) (labW (.b :: w))).coeff 1 ≠ 0 := by
  have m1 := mem_Wd.1 hu
  have m2 := mem_Wd.1 hw
  simp only [List.length_cons, colsW] at m1 m2
  have hu' : L3.b :: u ∈ Wd n 0 := by rw [mem_Wd]; simp only [List.length_cons, colsW]; exact m1
  have hw' : L3.a :: w ∈ Wd n 0 := by rw [mem_Wd]; simp only [List.length_cons, colsW]; exact m2
  obtain ⟨N, h1, h2, h3, h4⟩ := okW_sum (Nat.zero_le n) hu' hw' (by simpa [okW, step] using h) (by simp)
  rw [labW_b] at h3 h4
  refine ⟨N, ⟨by omega, by push_cast; omega⟩, ?_⟩
  rw [coeffQB Y hY _ hu hw, if_neg one_ne_zero, if_pos rfl, Int.toNat_natCast]
  refine mul_ne_zero (scB_ne _ _) ?_
  simp only [gq2]
  unfold gcf
  rw [if_pos ⟨h3, h4⟩]
  positivity

theorem stepQB (d : ℕ) (l nu : List Int) (hl : clsBC n 0 l) (hn : clsBC n 0 nu) (h : leC n 0 (2 * d) l nu) (hne : l ≠ nu) :
    (∃ p m a e, stdSpc (n + 0) p ∧ clsBC n 0 m ∧ a + e ≤ d ∧ (a = 0 → l.sum < m.sum) ∧ (Y.t p l m).coeff a ≠ 0 ∧ leC n 0 (2 * e) m nu) ∨
      ∃ p m a e, stdSpc (n + 0) p ∧ clsBC n 0 m ∧ a + e ≤ d ∧ (a = 0 → m.sum < nu.sum) ∧ (Y.t p m nu).coeff a ≠ 0 ∧ leC n 0 (2 * e) l m := by
  have hk := Nat.zero_le n
  obtain ⟨u, hu, rfl⟩ := (Wd_cls hk l).1 hl
  obtain ⟨w, hw, rfl⟩ := (Wd_cls hk nu).1 hn
  rw [leC_labW hu hw] at h
  have m1 := mem_Wd.1 hu
  have m2 := mem_Wd.1 hw
  have inl : ∀ {v : List L3} {e : ℤ}, leW e e v w → v ∈ Wd n 0 := by
    intro v e h3
    have := leW_len h3
    have := leW_cols h3
    rw [mem_Wd]
    omega
  have inr : ∀ {v : List L3} {e : ℤ}, leW e e u v → v ∈ Wd n 0 := by
    intro v e h3
    have := leW_len h3
    have := leW_cols h3
    rw [mem_Wd]
    omega
  have lo : ∀ {v : List L3}, v ≠ u → okW .z u v → leW (2 * d : ℕ) (2 * d : ℕ) v w →
      ∃ p m a e, stdSpc (n + 0) p ∧ clsBC n 0 m ∧ a + e ≤ d ∧ (a = 0 → (labW u).sum < m.sum) ∧ (Y.t p (labW u) m).coeff a ≠ 0 ∧
        leC n 0 (2 * e) m (labW w) := fun {v} n1 a b => by
    have hv := inl b
    obtain ⟨p, f1, f2, f3⟩ := okQB Y hY hu hv (Ne.symm n1) a
    exact ⟨p, labW v, 0, d, f1, (Wd_cls hk _).2 ⟨v, hv, rfl⟩, by omega, fun _ => f2, f3, (leC_labW hv hw).2 b⟩
  have hi : ∀ {v : List L3}, v ≠ w → okW .z v w → leW (2 * d : ℕ) (2 * d : ℕ) u v →
      ∃ p m a e, stdSpc (n + 0) p ∧ clsBC n 0 m ∧ a + e ≤ d ∧ (a = 0 → m.sum < (labW w).sum) ∧ (Y.t p m (labW w)).coeff a ≠ 0 ∧
        leC n 0 (2 * e) (labW u) m := fun {v} n1 a b => by
    have hv := inr b
    obtain ⟨p, f1, f2, f3⟩ := okQB Y hY hv hw n1 a
    exact ⟨p, labW v, 0, d, f1, (Wd_cls hk _).2 ⟨v, hv, rfl⟩, by omega, fun _ => f2, f3, (leC_labW hu hv).2 b⟩
  have fin : leW 0 0 u w → (∃ p m a e, stdSpc (n + 0) p ∧ clsBC n 0 m ∧ a + e ≤ d ∧ (a = 0 → (labW u).sum < m.sum) ∧ (Y.t p (labW u) m).coeff a ≠ 0 ∧
      leC n 0 (2 * e) m (labW w)) ∨ ∃ p m a e, stdSpc (n + 0) p ∧ clsBC n 0 m ∧ a + e ≤ d ∧ (a = 0 → m.sum < (labW w).sum) ∧
        (Y.t p m (labW w)).coeff a ≠ 0 ∧ leC n 0 (2 * e) (labW u) m := fun h0 => by
    rcases walk_step h0 (fun e => hne (by rw [e])) with ⟨v, n1, a, b⟩ | ⟨v, n1, a, b⟩
    · exact Or.inl (lo n1 a (leW_mono b (by omega)))
    · exact Or.inr (hi n1 a (leW_mono b (by omega)))
  cases d with
  | zero => exact fin h
  | succ d =>
    have e1 : ((2 * (d + 1) : ℕ) : ℤ) - 2 = (2 * d : ℕ) := by push_cast; ring
    rcases walk_stepB h m1.2 (by push_cast; omega) with ⟨v, n1, a, b⟩ | ⟨u', v', rfl, a, b⟩ | ⟨v, n1, a, b⟩ | h0
    · exact Or.inl (lo n1 a b)
    · rw [e1] at b
      have hv := inl b
      obtain ⟨p, f1, f3⟩ := okQB1 Y hY hu hv a
      exact Or.inl ⟨p, labW (.b :: v'), 1, d, f1, (Wd_cls hk _).2 ⟨_, hv, rfl⟩, by omega, by omega, f3, (leC_labW hv hw).2 b⟩
    · exact Or.inr (hi n1 a b)
    · exact fin h0

end

/-- `l` without its first `d` rows is inside `mu` -/
def Spec.InsideR (d : ℕ) (l mu : List Int) : Prop := ∀ i, part l (i + d) ≤ part mu i

theorem alW_dual_add {u : List L3} (hc : colsW 0 u = 0) {v : ℕ} (hv : v ≤ u.length) : alW u v + alW (dualW u) v + v = u.length := by
  induction u with
  | nil =>
    obtain rfl : v = 0 := by simpa using hv
    rfl
  | cons p u ih =>
    rcases Nat.lt_or_ge u.length v with h | h
    · rw [alW_top (u := p :: u) (by simp; omega), alW_top (u := dualW (p :: u)) (by simp; omega)]
      simp at hv ⊢
      omega
    · rw [show dualW (p :: u) = p.dual :: dualW u from rfl, alW_le p h, alW_le p.dual (by simpa using h)]
      cases p
      · simp [colsW] at hc
      · have := ih (by simpa [colsW] using hc) h
        simp [L3.dual]
        omega
      · have := ih (by simpa [colsW] using hc) h
        simp [L3.dual]
        omega

theorem leC_zero {n d : ℕ} {l nu : List Int} (hl : clsBC n 0 l) (hn : clsBC n 0 nu) : leC n 0 d l nu ↔ InsideR d l nu := by
  have hk := Nat.zero_le n
  have hT : topLeQ d 0 l nu ↔ InsideR d l nu := by
    constructor
    · intro h i
      rcases lt_or_ge 0 (part l (i + d)) with h0 | h0
      · exact h i h0
      · exact h0.trans (hn.2.isPart.part_nonneg i)
    · intro h i _
      exact h i
  rw [← hT]
  have := leC_iff (d := d) hk hl hn
  rw [this]
  refine ⟨fun h => h.1, fun h => ⟨h, ?_⟩⟩
  obtain ⟨u, hu, rfl⟩ := (Wd_cls hk l).1 hl
  obtain ⟨w, hw, rfl⟩ := (Wd_cls hk nu).1 hn
  rw [dlBC_labW hk hu, dlBC_labW hk hw, topLeQ_iff (dualW_mem hw) (dualW_mem hu)]
  have h2 := (topLeQ_iff hu hw).1 h
  intro v hv
  have m1 := mem_Wd.1 hu
  have m2 := mem_Wd.1 hw
  have := h2 v hv
  have := alW_dual_add m1.2 (v := v) (by omega)
  have := alW_dual_add m2.2 (v := v) (by omega)
  omega

section
variable {n : ℕ} {pieri : Int → List Int → Except PyErr Poly} {K : ℤ} (Y : GiamSys K pieri (stdSpc (n + 0)) (clsBC n 0))
  (hY : ∀ p, Y.t p = tM (Wd n 0) labW (MQB 0) p.toNat)
include hY

/-- **OG(n,2n+1)**: the smallest power of `q` in a quantum product, and the terms with each power. -/
theorem prodQ_B {l mu : List Int} (hl : clsBC n 0 l) (hm : clsBC n 0 mu) :
    (∀ d, (∃ e ≤ d, ∃ nu, (Y.prod (Finsupp.single l 1) (Finsupp.single mu 1) nu).coeff e ≠ 0) ↔ InsideR (2 * d) l (dlBC n 0 mu)) ∧
    ∀ d nu, (Y.prod (Finsupp.single l 1) (Finsupp.single mu 1) nu).coeff d ≠ 0 → clsBC n 0 nu ∧ InsideR (2 * d) l nu ∧ InsideR (2 * d) mu nu := by
  have hk := Nat.zero_le n
  have hrefl : ∀ l, clsBC n 0 l → leC n 0 (2 * 0) l l := leC_refl hk
  have htr : ∀ d e a b c, leC n 0 (2 * d) a b → leC n 0 (2 * e) b c → leC n 0 (2 * (d + e)) a c := fun d e a b c h1 h2 => by
    rw [mul_add]; exact leC_trans _ _ a b c h1 h2
  have hup : ∀ p, stdSpc (n + 0) p → ∀ l, clsBC n 0 l → ∀ m d, (Y.t p l m).coeff d ≠ 0 → leC n 0 (2 * d) l m := fun p _ l hl m d h => upQB Y hY hl h
  have hmono : ∀ d e a b, clsBC n 0 a → clsBC n 0 b → leC n 0 (2 * d) a b → leC n 0 (2 * (d + e)) a b := fun d e a b _ _ h => by
    rw [mul_add]; exact leC_mono _ _ a b h
  refine ⟨fun d => ?_, fun d nu h => ?_⟩
  · rw [Y.prod_leQ (Le := fun d => leC n 0 (2 * d)) hrefl htr hmono hup (fun p _ l hl => posQB Y hY hl) (stepQB Y hY)
      (N := (Wd n 0).sup (fun u => (labW u).sum.toNat)) ?_ (dlBC n 0) (dlBC_cls hk) (dlBC_dlBC hk) ?_ hl hm d,
      leC_zero hl (dlBC_cls hk mu hm)]
    · intro l hl
      obtain ⟨u, hu, rfl⟩ := (Wd_cls hk l).1 hl
      have h0 := isPartition_sum_nonneg hl.2.isPart
      have := Finset.le_sup (f := fun u => (labW u).sum.toNat) hu
      omega
    · intro p l nu _ hl hn
      rw [hY]
      exact tM_dual hk _ (MQB_dual 0) _ hl hn
  · have hc : clsBC n 0 nu := Y.prod_support _ (supp_single hm 1) nu (Finsupp.mem_support_iff.2 (fun h0 => h (by rw [h0, Polynomial.coeff_zero])))
    obtain ⟨h1, h2⟩ := Y.support_leQ (Le := fun d => leC n 0 (2 * d)) hrefl htr hmono hup hl hm h
    exact ⟨hc, (leC_zero hl hc).1 h1, (leC_zero hm hc).1 h2⟩

end

end Verif
