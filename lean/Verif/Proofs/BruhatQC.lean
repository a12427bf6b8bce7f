import Verif.Proofs.BruhatQ
import Verif.Proofs.BruhatBC
/-!
# Powers of q in the quantum products of type C

The order of the words, shifted by the power of `q`.
-/

namespace Verif
open Spec

theorem leW_refl' (u : List L3) {d : ℤ} (hd : 0 ≤ d) : leW d d u u := by
  induction u with
  | nil => simp [leW, hd]
  | cons p u ih =>
    simp only [leW]
    refine ⟨hd, hd, ?_⟩
    rw [show d + p.isA - p.isA = d by ring, show d + p.isB - p.isB = d by ring]
    exact ih

theorem leW_mono {u w : List L3} {d e : ℤ} (h : leW d d u w) (he : d ≤ e) : leW e e u w := by
  have := leW_trans (leW_refl' u (d := e - d) (by omega)) h
  rwa [sub_add_cancel] at this

/-- the word of letters `b` is below all words without `o` -/
theorem leW_bs {u : List L3} (hu : ∀ p ∈ u, p = .b) : ∀ {w : List L3}, u.length = w.length → colsW 0 w = 0 → ∀ {d : ℤ}, 0 ≤ d → leW d d u w := by
  induction u with
  | nil =>
    intro w hl hc d hd
    obtain rfl : w = [] := List.length_eq_zero_iff.1 (by simpa using hl.symm)
    simp [leW, hd]
  | cons p u ih =>
    intro w hl hc d hd
    obtain rfl := hu p (by simp)
    cases w with
    | nil => simp at hl
    | cons q w =>
      have ih' := fun hc (d : ℤ) (hd : 0 ≤ d) => ih (fun p hp => hu p (by simp [hp])) (w := w) (by simpa using hl) hc hd
      cases q
      · simp [colsW] at hc
      · exact leW_cons (ih' hc (d + 1) (by omega)) hd hd (by simp [L3.isA]) (by simp [L3.isB])
      · exact leW_cons (ih' hc d hd) hd hd (by simp [L3.isA]) (by simp [L3.isB])

/-- one of the continuations of a walk with a power of `q` -/
theorem walk_lr' {u : List L3} : ∀ {d e : ℤ} {w : List L3}, leW d e u w → 1 ≤ d → 1 ≤ e →
    (∃ v, v ≠ u ∧ okW .z u v ∧ leW d e v w) ∨ (∃ v, v ≠ u ∧ okW .lr u v ∧ leW (d - 1) (e - 1) v w) ∨
    (∃ u', u = .o :: u') ∨ ∀ p ∈ u, p = .b := by
  induction u with
  | nil => intro d e w h hd he; simp
  | cons p u ih =>
    intro d e w h hd he
    cases w with
    | nil => simp [leW] at h
    | cons q w =>
      obtain ⟨h1, h2, h3⟩ := h
      have f1 : L3.o.isA = 0 := rfl
      have f2 : L3.o.isB = 0 := rfl
      have f3 : L3.a.isA = 1 := rfl
      have f4 : L3.a.isB = 0 := rfl
      have f5 : L3.b.isA = 0 := rfl
      have f6 : L3.b.isB = 1 := rfl
      have hq : 0 ≤ q.isA := by cases q <;> simp [L3.isA]
      have hqb : q.isB ≤ 1 := by cases q <;> simp [L3.isB]
      cases p
      · exact Or.inr (Or.inr (Or.inl ⟨u, rfl⟩))
      · exact Or.inr (Or.inl ⟨.b :: u, by simp, by simpa [okW, step] using okW_refl u,
          leW_cons h3 (by omega) (by omega) (by omega) (by omega)⟩)
      · rcases ih h3 (by omega) (by omega) with ⟨v, n, a, b⟩ | ⟨v, n, a, b⟩ | ⟨u', rfl⟩ | hb
        · exact Or.inl ⟨.b :: v, by simpa using n, by simpa [okW, step] using a,
            leW_cons b h1 h2 (by omega) (by omega)⟩
        · exact Or.inr (Or.inl ⟨.b :: v, by simpa using n, by simpa [okW, step] using a,
            leW_cons b (by omega) (by omega) (by omega) (by omega)⟩)
        · cases w with
          | nil => simp [leW] at h3
          | cons r w =>
            have h4 := h3.2.2
            exact Or.inl ⟨.o :: .b :: u', by simp, by simpa [okW, step] using okW_refl u',
              leW_cons (leW_cons (d := d + q.isA) (e := e - q.isB) h4 (by omega) (by omega) (by omega) (by omega)) h1 h2 (by omega) (by omega)⟩
        · exact Or.inr (Or.inr (Or.inr (by simpa using hb)))

/-- the same at the upper end -/
theorem walk_up {w : List L3} {d e : ℤ} {u : List L3} (h : leW d e u w) (hd : 1 ≤ d) (he : 1 ≤ e) :
    (∃ v, v ≠ w ∧ okW .z v w ∧ leW d e u v) ∨ (∃ v, v ≠ w ∧ okW .lr v w ∧ leW (d - 1) (e - 1) u v) ∨
    (∃ w', w = .o :: w') ∨ ∀ p ∈ w, p = .a := by
  have hne : ∀ v, v ≠ dualW w → dualW v ≠ w := fun v n e => n (by rw [← e, dualW_dualW])
  rcases walk_lr' (leW_dual h) he hd with ⟨v, n, a, b⟩ | ⟨v, n, a, b⟩ | ⟨u', hu⟩ | hb
  · have h1 := okW_dual a
    have h2 := leW_dual b
    rw [dualW_dualW] at h1 h2
    exact Or.inl ⟨dualW v, hne v n, h1, h2⟩
  · have h1 := okW_dual a
    have h2 := leW_dual b
    rw [dualW_dualW] at h1 h2
    exact Or.inr (Or.inl ⟨dualW v, hne v n, h1, h2⟩)
  · refine Or.inr (Or.inr (Or.inl ⟨dualW u', ?_⟩))
    rw [← dualW_dualW w, hu]
    rfl
  · refine Or.inr (Or.inr (Or.inr (fun p hp => ?_)))
    have := hb p.dual (List.mem_map.2 ⟨p, hp, rfl⟩)
    cases p <;> simp_all [L3.dual]

/-- **Between two words with a power of `q` there is a step, at the lower or at the upper end.** -/
theorem walk_stepQ {u : List L3} : ∀ {w : List L3} {d : ℤ}, leW d d u w → 1 ≤ d →
    (∃ v, v ≠ u ∧ okW .z u v ∧ leW d d v w) ∨ (∃ v, v ≠ u ∧ okW .lr u v ∧ leW (d - 1) (d - 1) v w) ∨
    (∃ v, v ≠ w ∧ okW .z v w ∧ leW d d u v) ∨ (∃ v, v ≠ w ∧ okW .lr v w ∧ leW (d - 1) (d - 1) u v) ∨ leW 0 0 u w := by
  induction u with
  | nil =>
    intro w d h hd
    obtain rfl : w = [] := List.length_eq_zero_iff.1 (by simpa using (leW_len h).symm)
    exact Or.inr (Or.inr (Or.inr (Or.inr (by simp [leW]))))
  | cons p u ih =>
    intro w d h hd
    have hl := leW_len h
    have hc := leW_cols h
    rcases walk_lr' h hd hd with h1 | h1 | ⟨u', h1⟩ | h1
    · exact Or.inl h1
    · exact Or.inr (Or.inl h1)
    · rcases walk_up h hd hd with h2 | h2 | ⟨w', rfl⟩ | h2
      · exact Or.inr (Or.inr (Or.inl h2))
      · exact Or.inr (Or.inr (Or.inr (Or.inl h2)))
      · obtain ⟨rfl, rfl⟩ := List.cons.inj h1
        have f1 : ∀ d : ℤ, d + L3.o.isA - L3.o.isA = d := fun d => by ring
        have f2 : ∀ d : ℤ, d + L3.o.isB - L3.o.isB = d := fun d => by ring
        have h3 := h.2.2
        rw [f1, f2] at h3
        rcases ih h3 hd with ⟨v, n, a, b⟩ | ⟨v, n, a, b⟩ | ⟨v, n, a, b⟩ | ⟨v, n, a, b⟩ | h4
        · exact Or.inl ⟨.o :: v, by simpa using n, by simpa [okW, step] using a, leW_cons b (by omega) (by omega) (f1 _) (f2 _)⟩
        · exact Or.inr (Or.inl ⟨.o :: v, by simpa using n, by simpa [okW, step] using a, leW_cons b (by omega) (by omega) (f1 _) (f2 _)⟩)
        · exact Or.inr (Or.inr (Or.inl ⟨.o :: v, by simpa using n, by simpa [okW, step] using a, leW_cons b (by omega) (by omega) (f1 _) (f2 _)⟩))
        · exact Or.inr (Or.inr (Or.inr (Or.inl ⟨.o :: v, by simpa using n, by simpa [okW, step] using a,
            leW_cons b (by omega) (by omega) (f1 _) (f2 _)⟩)))
        · exact Or.inr (Or.inr (Or.inr (Or.inr (leW_cons h4 le_rfl le_rfl (f1 _) (f2 _)))))
      · exfalso
        have : ∀ w : List L3, (∀ p ∈ w, p = .a) → colsW 0 w = 0 := by
          intro w
          induction w with
          | nil => intro _; rfl
          | cons q w ihw =>
            intro hw
            obtain rfl := hw q (by simp)
            exact ihw (fun p hp => hw p (by simp [hp]))
        have := this w h2
        rw [h1] at hc
        simp only [colsW] at hc
        omega
    · refine Or.inr (Or.inr (Or.inr (Or.inr (leW_bs h1 hl ?_ le_rfl))))
      have : ∀ w : List L3, (∀ p ∈ w, p = .b) → colsW 0 w = 0 := by
        intro w
        induction w with
        | nil => intro _; rfl
        | cons q w ihw =>
          intro hw
          obtain rfl := hw q (by simp)
          exact ihw (fun p hp => hw p (by simp [hp]))
      have := this _ h1
      omega

/-- the exponent of `x` -/
theorem runW_bound {u : List L3} : ∀ {w : List L3} {s t : St} {i j : ℕ}, runW s u w = some (t, i, j) →
    (t = .z ∨ t = .lr) → (s.dA : ℤ) - s.dB = (colsW 0 w : ℤ) - colsW 0 u →
    (j : ℤ) + t.dA ≤ u.length + max (colsW 0 u) (colsW 0 w) + (if s = .lr then 1 else 0) ∧
    (s = .lr → u ≠ w → (j : ℤ) + t.dA ≤ u.length + colsW 0 u) := by
  induction u with
  | nil =>
    intro w s t i j h ht hc
    cases w with
    | cons q w => simp [runW] at h
    | nil =>
      simp only [runW, Option.some.injEq, Prod.mk.injEq] at h
      obtain ⟨rfl, rfl, rfl⟩ := h
      rcases ht with rfl | rfl <;> simp [St.dA]
  | cons p u ih =>
    intro w s t i j h ht hc
    cases w with
    | nil => simp [runW] at h
    | cons q w =>
      simp only [runW] at h
      rcases hs : step s p q with _ | ⟨s', i', j'⟩
      · simp [hs] at h
      · simp only [hs] at h
        rcases hr : runW s' u w with _ | ⟨t', i2, j2⟩
        · simp [hr] at h
        · simp only [hr, Option.some.injEq, Prod.mk.injEq] at h
          obtain ⟨rfl, rfl, rfl⟩ := h
          have key := fun hc => ih hr ht hc
          cases s <;> cases p <;> cases q <;> simp only [step, Option.some.injEq, Prod.mk.injEq, reduceCtorEq] at hs <;>
            obtain ⟨rfl, rfl, rfl⟩ := hs <;>
            simp only [colsW, St.dA, St.dB, List.length_cons, reduceCtorEq, if_true, if_false, false_implies, forall_const, and_true, ne_eq,
              List.cons.injEq, true_and, false_and, not_false_eq_true] at key hc ⊢ <;>
            (have hk := key (by push_cast at hc ⊢; omega); push_cast at hc hk ⊢; first | omega | (refine ⟨by omega, fun hn => ?_⟩; have := hk.2 hn; omega))

theorem okW_run {u : List L3} : ∀ {w : List L3} {s : St}, okW s u w → ∃ t i j, runW s u w = some (t, i, j) ∧ (t = .z ∨ t = .lr) := by
  induction u with
  | nil =>
    intro w s h
    cases w with
    | nil => exact ⟨s, 0, 0, rfl, h⟩
    | cons q w => simp [okW] at h
  | cons p u ih =>
    intro w s h
    cases w with
    | nil => simp [okW] at h
    | cons q w =>
      simp only [okW] at h
      rcases hs : step s p q with _ | ⟨t, i, j⟩
      · simp [hs] at h
      · simp only [hs] at h
        obtain ⟨t', i', j', h1, h2⟩ := ih h
        exact ⟨t', i + i', j + j', by simp [runW, hs, h1], h2⟩

/-- a walk with `q` to another word belongs to a special class -/
theorem okW_sumQ {n k : ℕ} {u w : List L3} (hu : u ∈ Wd n k) (hw : w ∈ Wd n k) (h : okW .lr u w) (hne : u ≠ w) :
    ∃ N : ℕ, 1 ≤ N ∧ N ≤ n + k ∧ gcf true k N (labW u) (((n : Int) + k + 1) :: labW w) ≠ 0 := by
  have m1 := mem_Wd.1 hu
  have m2 := mem_Wd.1 hw
  have hc : colsW 0 (L3.b :: u) = colsW 0 (L3.a :: w) := by simp only [colsW]; omega
  have hl : (L3.b :: u).length = (L3.a :: w).length := by simp only [List.length_cons]; omega
  have hz : okW .z (L3.b :: u) (L3.a :: w) := by simpa [okW, step] using h
  have hs := (okW_iff hl hc).1 hz
  obtain ⟨_, _, h3⟩ := wt_pieri (Polynomial.X : Polynomial ℚ) hl
  obtain ⟨N, e1, e2, _⟩ := h3 hc hs
  have ek : colsW 0 (L3.b :: u) = k := by simp only [colsW]; exact m1.2
  obtain ⟨t, i, j, hr, ht⟩ := okW_run h
  have hb := (runW_bound hr ht (by simp [St.dA, St.dB]; omega)).2 rfl hne
  rw [← wt_lr, wt_run, hr] at e2
  have hN : (j : ℤ) + t.dA = N := by
    have e3 : (1 : Polynomial ℚ) = Polynomial.C 1 := rfl
    have two : ∀ c : ℕ, (2 : Polynomial ℚ) ^ c = Polynomial.C (2 ^ c) := fun c => by rw [Polynomial.C_pow, Polynomial.C_ofNat]
    rcases ht with rfl | rfl
    · simp only [endW, mul_one, two] at e2
      have := congrArg Polynomial.natDegree e2
      rw [Polynomial.natDegree_C_mul_X_pow _ _ (by positivity), Polynomial.natDegree_C_mul_X_pow _ _ (by positivity)] at this
      simp [St.dA, this]
    · simp only [endW, one_mul, two, mul_assoc, ← pow_succ] at e2
      have := congrArg Polynomial.natDegree e2
      rw [Polynomial.natDegree_C_mul_X_pow _ _ (by positivity), Polynomial.natDegree_C_mul_X_pow _ _ (by positivity)] at this
      simp [St.dA, ← this]
  refine ⟨N, ?_, by omega, ?_⟩
  · by_contra h0
    obtain rfl : N = 0 := by omega
    have h1 := wt_zero (1 : ℚ) (L3.b :: u) (L3.a :: w) .z hl
    obtain ⟨_, _, h4⟩ := wt_pieri (Polynomial.X : Polynomial ℚ) hl
    obtain ⟨M, f1, f2, _⟩ := h4 hc hs
    obtain rfl : M = 0 := by omega
    rw [Polynomial.C_1, f2, if_neg (fun h => absurd h.2 (by simp)), pow_zero, mul_one, ← Polynomial.C_ofNat, ← Polynomial.C_pow,
      Polynomial.coeff_C_zero] at h1
    exact pow_ne_zero _ two_ne_zero h1
  · rw [labW_b, labW_a, ek] at hs
    rw [labW_b, labW_a] at e1
    rw [m2.1, m2.2] at hs e1
    unfold gcf
    rw [if_pos ⟨hs, e1⟩]
    positivity

/-- comparison of the parts larger than `k`, without the first `d` rows -/
def Spec.topLeQ (d : ℕ) (k : Int) (l mu : List Int) : Prop := ∀ i, k < part l (i + d) → part l (i + d) ≤ part mu i

theorem topLeQ_iff {n k d : ℕ} {u w : List L3} (hu : u ∈ Wd n k) (hw : w ∈ Wd n k) :
    topLeQ d k (labW u) (labW w) ↔ ∀ v ≤ n, alW u v ≤ d + alW w v := by
  rw [mem_Wd] at hu hw
  have c1 := (coded_labW u).hex
  have c2 := (coded_labW w).hex
  rw [hu.2] at c1
  rw [hw.2] at c2
  constructor
  · intro h v _
    by_contra hc
    have h1 := (c1 (alW w v + d) v).2 (by omega)
    have h2 := (c2 (alW w v) v).not.2 (by omega)
    have h3 := h (alW w v)
    unfold ex at h1 h2
    omega
  · intro h i hi
    by_contra hc
    obtain ⟨v, hv⟩ : ∃ v : ℕ, part (labW u) (i + d) = k + v + 1 := ⟨(part (labW u) (i + d) - k - 1).toNat, by omega⟩
    have h1 := (c1 (i + d) v).1 (by unfold ex; omega)
    have h2 : v ≤ n := by
      by_contra h2
      rw [alW_top (by omega)] at h1
      omega
    have h3 := (c2 i v).2 (by have := h v h2; omega)
    unfold ex at h3
    omega

/-- the relation of the classes, with a power of `q` -/
def leC (n k : ℕ) (d : ℕ) (l nu : List Int) : Prop := ∃ u ∈ Wd n k, ∃ w ∈ Wd n k, labW u = l ∧ labW w = nu ∧ leW d d u w

theorem leC_labW {n k d : ℕ} {u w : List L3} (hu : u ∈ Wd n k) (hw : w ∈ Wd n k) : leC n k d (labW u) (labW w) ↔ leW d d u w := by
  constructor
  · rintro ⟨u', hu', w', hw', e1, e2, h⟩
    rwa [Wd_inj u' hu' u hu e1, Wd_inj w' hw' w hw e2] at h
  · intro h
    exact ⟨u, hu, w, hw, rfl, rfl, h⟩

theorem leC_iff {n k d : ℕ} (hk : k ≤ n) {l nu : List Int} (hl : clsBC n k l) (hn : clsBC n k nu) :
    leC n k d l nu ↔ topLeQ d k l nu ∧ topLeQ d k (dlBC n k nu) (dlBC n k l) := by
  obtain ⟨u, hu, rfl⟩ := (Wd_cls hk l).1 hl
  obtain ⟨w, hw, rfl⟩ := (Wd_cls hk nu).1 hn
  have m1 := mem_Wd.1 hu
  have m2 := mem_Wd.1 hw
  rw [leC_labW hu hw, leW_iff (by omega) (by omega), dlBC_labW hk hu, dlBC_labW hk hw, topLeQ_iff hu hw, topLeQ_iff (dualW_mem hw) (dualW_mem hu), m1.1]
  constructor
  · intro h
    exact ⟨fun v hv => by have := h v hv; omega, fun v hv => by have := h v hv; omega⟩
  · rintro ⟨h1, h2⟩ v hv
    have := h1 v hv
    have := h2 v hv
    omega

theorem leC_trans {n k : ℕ} (d e : ℕ) (a b c : List Int) (h1 : leC n k d a b) (h2 : leC n k e b c) : leC n k (d + e) a c := by
  obtain ⟨u, hu, v, hv, rfl, rfl, h⟩ := h1
  obtain ⟨v', hv', w, hw, e, rfl, h'⟩ := h2
  obtain rfl := Wd_inj v' hv' v hv e
  refine ⟨u, hu, w, hw, rfl, rfl, ?_⟩
  push_cast
  exact leW_trans h h'

theorem leC_refl {n k : ℕ} (hk : k ≤ n) (l : List Int) (hl : clsBC n k l) : leC n k 0 l l := by
  obtain ⟨u, hu, rfl⟩ := (Wd_cls hk l).1 hl
  exact ⟨u, hu, u, hu, rfl, rfl, leW_refl u⟩

theorem leC_mono {n k : ℕ} (d e : ℕ) (a b : List Int) (h : leC n k d a b) : leC n k (d + e) a b := by
  obtain ⟨u, hu, w, hw, rfl, rfl, h⟩ := h
  exact ⟨u, hu, w, hw, rfl, rfl, leW_mono h (by push_cast; omega)⟩

section
variable {n k : ℕ} (hk : k ≤ n) {pieri : Int → List Int → Except PyErr Poly} {K : ℤ} (Y : GiamSys K pieri (stdSpc (n + k)) (clsBC n k))
  (hY : ∀ p, Y.t p = tM (Wd n k) labW (MC (Polynomial.C (1 / 2) * Polynomial.X)) p.toNat)
include hY

theorem coeffQC (p : ℤ) {u w : List L3} (hu : u ∈ Wd n k) (hw : w ∈ Wd n k) (d : ℕ) : (Y.t p (labW u) (labW w)).coeff d =
    if d = 0 then gcf true k p.toNat (labW u) (labW w)
    else if d = 1 then 1 / 2 * gcf true k p.toNat (labW u) (((n : Int) + k + 1) :: labW w) else 0 := by
  rw [hY, tM_apply _ Wd_inj _ hu hw, MC_eq _ _ hu hw, Polynomial.coeff_add, mul_assoc, Polynomial.coeff_C_mul, Polynomial.X_mul_C,
    Polynomial.coeff_C_mul, Polynomial.coeff_C, Polynomial.coeff_X]
  rcases d with _ | _ | d
  · simp
  · simp
  · simp

include hk

theorem upQC {p : ℤ} {l m : List Int} (hl : clsBC n k l) {d : ℕ} (h : (Y.t p l m).coeff d ≠ 0) : leC n k d l m := by
  obtain ⟨u, hu, rfl⟩ := (Wd_cls hk l).1 hl
  obtain ⟨w, hw, rfl⟩ := (Wd_cls hk m).1 (Y.closed p _ m (Finsupp.mem_support_iff.2 (fun h0 => h (by rw [h0, Polynomial.coeff_zero]))))
  rw [coeffQC Y hY p hu hw] at h
  have m1 := mem_Wd.1 hu
  have m2 := mem_Wd.1 hw
  rw [leC_labW hu hw]
  split at h
  · rename_i e
    subst e
    unfold gcf at h
    split at h
    · rename_i hs
      exact okW_le ((okW_iff (u := u) (w := w) (by omega) (by omega)).2 (by rw [m1.2]; exact hs.1))
    · exact absurd rfl h
  · split at h
    · rename_i e
      subst e
      have h := right_ne_zero_of_mul h
      unfold gcf at h
      split at h
      · rename_i hs
        have := (okW_iff (u := L3.b :: u) (w := L3.a :: w) (by simp; omega) (by simp only [colsW]; omega)).2 (by
          rw [labW_b, labW_a, m2.1, m2.2, show colsW 0 (L3.b :: u) = k by simp only [colsW]; exact m1.2]
          exact hs.1)
        exact okW_le (s := .lr) (by simpa [okW, step] using this)
      · exact absurd rfl h
    · exact absurd rfl h

theorem posQC {p : ℤ} {l : List Int} (hl : clsBC n k l) : PosQ (Y.t p l) := by
  intro m d
  by_cases h : (Y.t p l m).coeff d = 0
  · rw [h]
  obtain ⟨u, hu, rfl⟩ := (Wd_cls hk l).1 hl
  obtain ⟨w, hw, rfl⟩ := (Wd_cls hk m).1 (Y.closed p _ m (Finsupp.mem_support_iff.2 (fun h0 => h (by rw [h0, Polynomial.coeff_zero]))))
  rw [coeffQC Y hY p hu hw]
  have hg : ∀ mu, 0 ≤ gcf true k p.toNat (labW u) mu := by
    intro mu
    unfold gcf
    split <;> positivity
  split
  · exact hg _
  · split
    · exact mul_nonneg (by norm_num) (hg _)
    · exact le_rfl

theorem okQC {u w : List L3} (hu : u ∈ Wd n k) (hw : w ∈ Wd n k) (hne : u ≠ w) :
    (okW .z u w → ∃ p, stdSpc (n + k) p ∧ (labW u).sum < (labW w).sum ∧ (Y.t p (labW u) (labW w)).coeff 0 ≠ 0) ∧
    (okW .lr u w → ∃ p, stdSpc (n + k) p ∧ (Y.t p (labW u) (labW w)).coeff 1 ≠ 0) := by
  constructor
  · intro h
    obtain ⟨N, h1, h2, h3, h4⟩ := okW_sum hk hu hw h hne
    refine ⟨N, ⟨by omega, by push_cast; omega⟩, by omega, ?_⟩
    rw [coeffQC Y hY _ hu hw, if_pos rfl, Int.toNat_natCast]
    unfold gcf
    rw [if_pos ⟨h3, h4⟩]
    positivity
  · intro h
    obtain ⟨N, h1, h2, h3⟩ := okW_sumQ hu hw h hne
    refine ⟨N, ⟨by omega, by push_cast; omega⟩, ?_⟩
    rw [coeffQC Y hY _ hu hw, if_neg one_ne_zero, if_pos rfl, Int.toNat_natCast]
    exact mul_ne_zero (by norm_num) h3

theorem stepQC (d : ℕ) (l nu : List Int) (hl : clsBC n k l) (hn : clsBC n k nu) (h : leC n k d l nu) (hne : l ≠ nu) :
    (∃ p m a e, stdSpc (n + k) p ∧ clsBC n k m ∧ a + e ≤ d ∧ (a = 0 → l.sum < m.sum) ∧ (Y.t p l m).coeff a ≠ 0 ∧ leC n k e m nu) ∨
      ∃ p m a e, stdSpc (n + k) p ∧ clsBC n k m ∧ a + e ≤ d ∧ (a = 0 → m.sum < nu.sum) ∧ (Y.t p m nu).coeff a ≠ 0 ∧ leC n k e l m := by
  obtain ⟨u, hu, rfl⟩ := (Wd_cls hk l).1 hl
  obtain ⟨w, hw, rfl⟩ := (Wd_cls hk nu).1 hn
  rw [leC_labW hu hw] at h
  have m1 := mem_Wd.1 hu
  have m2 := mem_Wd.1 hw
  have inl : ∀ {v : List L3} {e : ℤ}, leW e e v w → v ∈ Wd n k := by
    intro v e h3
    have := leW_len h3
    have := leW_cols h3
    rw [mem_Wd]
    omega
  have inr : ∀ {v : List L3} {e : ℤ}, leW e e u v → v ∈ Wd n k := by
    intro v e h3
    have := leW_len h3
    have := leW_cols h3
    rw [mem_Wd]
    omega
  have lo : ∀ {v : List L3}, v ≠ u → okW .z u v → leW d d v w →
      ∃ p m a e, stdSpc (n + k) p ∧ clsBC n k m ∧ a + e ≤ d ∧ (a = 0 → (labW u).sum < m.sum) ∧ (Y.t p (labW u) m).coeff a ≠ 0 ∧ leC n k e m (labW w) := fun {v} n1 a b => by
    have hv := inl b
    obtain ⟨p, f1, f2, f3⟩ := (okQC hk Y hY hu hv (Ne.symm n1)).1 a
    exact ⟨p, labW v, 0, d, f1, (Wd_cls hk _).2 ⟨v, hv, rfl⟩, by omega, fun _ => f2, f3, (leC_labW hv hw).2 b⟩
  have hi : ∀ {v : List L3}, v ≠ w → okW .z v w → leW d d u v →
      ∃ p m a e, stdSpc (n + k) p ∧ clsBC n k m ∧ a + e ≤ d ∧ (a = 0 → m.sum < (labW w).sum) ∧ (Y.t p m (labW w)).coeff a ≠ 0 ∧ leC n k e (labW u) m := fun {v} n1 a b => by
    have hv := inr b
    obtain ⟨p, f1, f2, f3⟩ := (okQC hk Y hY hv hw n1).1 a
    exact ⟨p, labW v, 0, d, f1, (Wd_cls hk _).2 ⟨v, hv, rfl⟩, by omega, fun _ => f2, f3, (leC_labW hu hv).2 b⟩
  have fin : leW 0 0 u w → (∃ p m a e, stdSpc (n + k) p ∧ clsBC n k m ∧ a + e ≤ d ∧ (a = 0 → (labW u).sum < m.sum) ∧ (Y.t p (labW u) m).coeff a ≠ 0 ∧ leC n k e m (labW w)) ∨
      ∃ p m a e, stdSpc (n + k) p ∧ clsBC n k m ∧ a + e ≤ d ∧ (a = 0 → m.sum < (labW w).sum) ∧ (Y.t p m (labW w)).coeff a ≠ 0 ∧ leC n k e (labW u) m := fun h0 => by
    rcases walk_step h0 (fun e => hne (by rw [e])) with ⟨v, n1, a, b⟩ | ⟨v, n1, a, b⟩
    · exact Or.inl (lo n1 a (leW_mono b (by omega)))
    · exact Or.inr (hi n1 a (leW_mono b (by omega)))
  cases d with
  | zero => exact fin h
  | succ d =>
    have e1 : ((d + 1 : ℕ) : ℤ) - 1 = d := by push_cast; ring
    rcases walk_stepQ h (by push_cast; omega) with ⟨v, n1, a, b⟩ | ⟨v, n1, a, b⟩ | ⟨v, n1, a, b⟩ | ⟨v, n1, a, b⟩ | h0
    · exact Or.inl (lo n1 a b)
    · rw [e1] at b
      have hv := inl b
      obtain ⟨p, f1, f3⟩ := (okQC hk Y hY hu hv (Ne.symm n1)).2 a
      exact Or.inl ⟨p, labW v, 1, d, f1, (Wd_cls hk _).2 ⟨v, hv, rfl⟩, by omega, by omega, f3, (leC_labW hv hw).2 b⟩
    · exact Or.inr (hi n1 a b)
    · rw [e1] at b
      have hv := inr b
      obtain ⟨p, f1, f3⟩ := (okQC hk Y hY hv hw n1).2 a
      exact Or.inr ⟨p, labW v, 1, d, f1, (Wd_cls hk _).2 ⟨v, hv, rfl⟩, by omega, by omega, f3, (leC_labW hu hv).2 b⟩
    · exact fin h0

/-- **Type C**: the smallest power of `q` in a quantum product, and the terms with each power. -/
theorem prodQ_C {l mu : List Int} (hl : clsBC n k l) (hm : clsBC n k mu) :
    (∀ d, (∃ e ≤ d, ∃ nu, (Y.prod (Finsupp.single l 1) (Finsupp.single mu 1) nu).coeff e ≠ 0) ↔
      topLeQ d k l (dlBC n k mu) ∧ topLeQ d k mu (dlBC n k l)) ∧
    ∀ d nu, (Y.prod (Finsupp.single l 1) (Finsupp.single mu 1) nu).coeff d ≠ 0 → clsBC n k nu ∧
      (topLeQ d k l nu ∧ topLeQ d k (dlBC n k nu) (dlBC n k l)) ∧ topLeQ d k mu nu ∧ topLeQ d k (dlBC n k nu) (dlBC n k mu) := by
  have hup : ∀ p, stdSpc (n + k) p → ∀ l, clsBC n k l → ∀ m d, (Y.t p l m).coeff d ≠ 0 → leC n k d l m := fun p _ l hl m d h => upQC hk Y hY hl h
  have hmono : ∀ d e a b, clsBC n k a → clsBC n k b → leC n k d a b → leC n k (d + e) a b := fun d e a b _ _ h => leC_mono d e a b h
  refine ⟨fun d => ?_, fun d nu h => ?_⟩
  · rw [Y.prod_leQ (leC_refl hk) leC_trans hmono hup (fun p _ l hl => posQC hk Y hY hl) (stepQC hk Y hY)
      (N := (Wd n k).sup (fun u => (labW u).sum.toNat)) ?_ (dlBC n k) (dlBC_cls hk) (dlBC_dlBC hk) ?_ hl hm d,
      leC_iff hk hl (dlBC_cls hk mu hm), dlBC_dlBC hk mu hm]
    · intro l hl
      obtain ⟨u, hu, rfl⟩ := (Wd_cls hk l).1 hl
      have h0 := isPartition_sum_nonneg hl.2.isPart
      have := Finset.le_sup (f := fun u => (labW u).sum.toNat) hu
      omega
    · intro p l nu _ hl hn
      rw [hY]
      exact tM_dual hk _ (MC_dual _) _ hl hn
  · have hc : clsBC n k nu := Y.prod_support _ (supp_single hm 1) nu (Finsupp.mem_support_iff.2 (fun h0 => h (by rw [h0, Polynomial.coeff_zero])))
    obtain ⟨h1, h2⟩ := Y.support_leQ (leC_refl hk) leC_trans hmono hup hl hm h
    exact ⟨hc, (leC_iff hk hl hc).1 h1, (leC_iff hk hm hc).1 h2⟩

end

end Verif
