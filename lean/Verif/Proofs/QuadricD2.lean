import Verif.Proofs.QuadricD
import Verif.Spec.QuadricD
/-!
# Products on the even quadrics

The matrices of the special classes (`Verif.Proofs.QuadricD`) compared with the table `Spec.quadTerms`.
-/

namespace Verif
open Spec

/-! ### the last row -/

section
variable {R : Type*} [CommRing R] (x : R) {N : ℕ}

def cr (N : ℕ) : Kd → ℕ × ℕ
  | .lo v => (1, v + 1)
  | .mid _ => (1, N + 1)
  | .hi v => (2, 2 * N + 1 - v)

theorem gD_r_kd {W : Kd} (hW : W.ok N) : gD x .r (os N, .o) (W.wd N) = ((cr N W).1 : R) * x ^ (cr N W).2 := by
  unfold gD
  rcases W with v | s | v <;> simp only [Kd.ok] at hW <;> simp only [Kd.wd, cr]
  · obtain ⟨j, rfl⟩ : ∃ j, N = v + 1 + j := ⟨N - (v + 1), by omega⟩
    rw [show v + 1 + j - 1 - v = j by omega, wtE_one_l, wtE_os_r, wtE]
    simp only [step, wtE_end_z, endG]; push_cast; ring
  · rw [wtE_end_r]
    cases s <;> simp [tyL, endG] <;> ring
  · obtain ⟨j, rfl⟩ : ∃ j, N = v + 1 + j := ⟨N - (v + 1), by omega⟩
    rw [show v + 1 + j - 1 - v = j by omega, wtE_one_l, wtE_os_r, wtE]
    simp only [step, wtE_end_lr, endG]
    rw [show 2 * (v + 1 + j) + 1 - v = v + 1 + 2 * j + 2 by omega]; push_cast; ring

theorem cr_lt {W : Kd} (hW : W.ok N) : (cr N W).2 < 2 * N + 2 := by
  cases W <;> simp only [cr, Kd.ok] at * <;> omega

end

open Polynomial in
theorem NG_top {N w : ℕ} (h h' : Polynomial ℚ) (s t : Bool) (hw : w ≤ 2 * N + 2) :
    NG h h' (2 * N + 2) (qwd N (2 * N + 2) s) (qwd N w t) = if w = 0 then 2 * h' else 0 := by
  unfold NG opG
  rw [qwd, if_neg (by omega), if_pos rfl]
  by_cases h0 : w = 0
  · subst h0
    rw [qwd, if_pos rfl, if_pos rfl]
    simp only [opGE, kerE, opGO, kerO, swD, L3.sw]
    rw [gD, wtE_end_lr]
    simp only [endG]
    rw [add_zero, coeff_C_mul, show (X : (Polynomial ℚ)[X]) ^ (2 * N) * (2 * X ^ 2) = ((2 : ℕ) : (Polynomial ℚ)[X]) * X ^ (2 * N + 2) by push_cast; ring,
      coeff_num, if_pos rfl]
    push_cast; ring
  rw [if_neg h0]
  by_cases h2 : w = 2 * N + 2
  · subst h2
    rw [qwd, if_neg (by omega), if_pos rfl]
    simp only [opGE, kerE, opGO, kerO, swD, L3.sw]
    rw [gD, wtE_end_z]
    simp only [endG]
    rw [add_zero, coeff_one, if_neg (by omega)]
  have hW := kd_ok (N := N) t (Nat.pos_of_ne_zero h0) (by omega)
  rw [qwd, if_neg h0, if_neg h2]
  have esw : ∀ V : WordD, swD (L3.o :: V.1, V.2) = (L3.o :: (swD V).1, (swD V).2) := fun V => rfl
  rw [esw, Kd.swD_wd]
  simp only [opGE, kerE, opGO, kerO]
  rw [gD_r_kd _ (Kd.sw_ok hW), zero_add, coeff_C_mul, coeff_num, if_neg, mul_zero]
  have := cr_lt (Kd.sw_ok hW)
  omega

/-! ### labels -/

theorem colsW_os1 (k0 m : ℕ) (v : List L3) : colsW k0 (os m ++ v) = colsW k0 v + m := by
  rw [colsW_add, colsW_os, colsW_add k0 v]; omega

theorem colsW_os1' (k0 m : ℕ) : colsW k0 (os m) = k0 + m := by
  have := colsW_os1 k0 m []
  simpa [colsW] using this

theorem shapeW_os1 (k0 r0 m : ℕ) (v : List L3) : shapeW k0 r0 (os m ++ v) = (shapeW k0 r0 v).map (· + (m : Int)) := by
  induction m with
  | zero => simp [os]
  | succ m ih =>
    rw [os_succ, List.cons_append, shapeW, ih, List.map_map]
    refine List.map_congr_left fun x _ => ?_
    simp; ring

theorem shapeW_os1' (k0 r0 m : ℕ) : shapeW k0 r0 (os m) = List.replicate r0 (m : Int) := by
  have := shapeW_os1 k0 r0 m []
  simpa [shapeW] using this

theorem qwd_mem {N c : ℕ} (t : Bool) (hc : c ≤ 2 * N + 2) : qwd N c t ∈ WdD (N + 1) (N + 1) := by
  rw [mem_WdD]
  refine ⟨?_, ?_, by omega⟩
  · unfold qwd kd
    split_ifs <;> simp [os, Kd.wd] <;> omega
  · unfold qwd kd colsD
    split_ifs <;> simp only [Kd.wd, colsW, L3.k0, colsW_os1', colsW_os1]
    · omega
    · omega
    · omega
    · cases t <;> simp [tyL, L3.k0, colsW_os1']
    · omega

theorem shD_qwd {N c : ℕ} (t : Bool) (hc : c ≤ 2 * N + 2) : shD (qwd N c t) = [(c : Int)] := by
  unfold qwd kd shD
  split_ifs with h1 h2 h3 h4
  · subst h1; simp [shapeW, shapeW_os1', L3.r0]
  · subst h2; simp only [shapeW, shapeW_os1', colsW_os1', L3.r0, L3.k0]; simp [os]; omega
  · simp only [Kd.wd, shapeW, shapeW_os1, shapeW_os1', L3.r0, L3.k0]; simp; omega
  · subst h4; cases t <;> simp [Kd.wd, shapeW, shapeW_os1', L3.r0, tyL]
  · simp only [Kd.wd, shapeW, shapeW_os1, shapeW_os1', colsW_os1', L3.r0, L3.k0]; simp [os]; omega

theorem qwd_snd {N c : ℕ} (t : Bool) : (qwd N c t).2 = .b ↔ c = N + 1 ∧ t = true := by
  unfold qwd kd
  split_ifs with h1 h2 h3 h4 <;> simp [Kd.wd] <;> first | omega | skip
  · cases t <;> simp [tyL, h4]

theorem labD_qwd {N c : ℕ} (t : Bool) (hc : c ≤ 2 * N + 2) : labD (qwd N c t) = quadCls (N + 1) c t := by
  unfold labD clD quadCls
  rw [shD_qwd t hc]
  simp only [qwd_snd]
  by_cases h : c = N + 1 ∧ t = true
  · rw [if_pos h, if_pos h, h.1]
    rw [partClip_of_noTrailing]
    · simp
    · intro h; simp at h; omega
  · rw [if_neg h, if_neg h, List.append_nil]
    split
    · rename_i h0; subst h0; rfl
    · rename_i h0
      apply partClip_of_noTrailing
      intro h; exact h0 (by simpa using h)

theorem quadCls_inj {n c c' : ℕ} {t t' : Bool} (h : quadCls n c t = quadCls n c' t') : c = c' ∧ (c = n → t = t') := by
  unfold quadCls at h
  by_cases h1 : c = n ∧ t = true <;> by_cases h2 : c' = n ∧ t' = true
  · exact ⟨by omega, fun _ => by rw [h1.2, h2.2]⟩
  · rw [if_pos h1, if_neg h2] at h
    split at h <;> simp at h
  · rw [if_neg h1, if_pos h2] at h
    split at h <;> simp at h
  · rw [if_neg h1, if_neg h2] at h
    have : c = c' := by split at h <;> split at h <;> simp at h <;> omega
    subst this
    refine ⟨rfl, fun e => ?_⟩
    cases t <;> cases t' <;> simp_all

theorem mem_qwd {N : ℕ} {W : WordD} (hW : W ∈ WdD (N + 1) (N + 1)) : ∃ c ≤ 2 * N + 2, ∃ t, qwd N c t = W := by
  have hc : clsD (N + 1) (N + 1) (labD W) := (WdD_cls (by omega) _).2 ⟨W, hW, rfl⟩
  have hl : ∃ c ≤ 2 * N + 2, ∃ t, labD W = quadCls (N + 1) c t := by
    obtain ⟨mu, hr, hb, hy⟩ := hc
    have h1 := hb.rows
    have h2 := hb.cols
    match mu with
    | [] =>
      refine ⟨0, by omega, false, ?_⟩
      rcases hy with hy | hy
      · rw [hy]; rfl
      · simp at hy
    | [a] =>
      have h6 : 0 < a := hr.2 a (by simp)
      simp only [part] at h2
      rcases hy with hy | hy
      · refine ⟨a.toNat, by simp at h2; omega, false, ?_⟩
        rw [hy]; unfold quadCls
        rw [if_neg (by simp), if_neg (by omega)]
        simp; omega
      · refine ⟨N + 1, by omega, true, ?_⟩
        obtain ⟨h7, h8⟩ := hy
        rw [h8]; unfold quadCls
        simp at h7
        rw [if_pos ⟨rfl, rfl⟩, ← h7]
        simp
    | a :: b :: r =>
      have h6 : 0 < b := hr.2 b (by simp)
      have h7 := h1 1 (by push_cast; omega)
      simp [part] at h7
      omega
  obtain ⟨c, hc, t, e⟩ := hl
  exact ⟨c, hc, t, WdD_inj _ (qwd_mem t hc) _ hW (by rw [labD_qwd t hc, e])⟩

/-! ### the matrices and the table of products -/

/-- the coefficient of `q^d` and a class in a list of terms -/
def termAt (n : ℕ) (L : List (ℕ × (ℕ × Bool) × ℚ)) (d w : ℕ) (r : Bool) : ℚ :=
  (L.map fun z => if z.1 = d ∧ z.2.1.1 = w ∧ (w = n → z.2.1.2 = r) then z.2.2 else 0).sum

def sgQ (t : Bool) : ℚ := if t then -1 else 1

def alQ (n c : ℕ) : ℚ := if c < n then 1 else 1 / 2

def beQ (n c : ℕ) (t : Bool) : ℚ := if c = n then sgQ t else 0

/-- the classical coefficients of the first operator -/
def nzQ (n c u : ℕ) (s : Bool) (w : ℕ) (r : Bool) : ℚ :=
  if w = u + c then (if u < n ∧ n < w then 2 else if u = n ∧ w = n ∧ s ≠ r then 0 else 1) else 0

/-- the quantum coefficients of the first operator -/
def nqQ (n c u : ℕ) (s : Bool) (w : ℕ) (r : Bool) : ℚ :=
  if w + 2 * n = u + c then
    (if w = 0 then (if u < n then 2 else 1) else if u = n ∧ w = n then (if s = r then 0 else 2)
      else if w = u then 2 else if (u < n ∧ w < n) ∨ (n < u ∧ n < w) then 4 else 2) else 0

theorem term_z {n c u w : ℕ} (t s r : Bool) (hn : 0 < n) (hc0 : 0 < c) (hc : c ≤ 2 * n) (hu0 : 0 < u) (hu : u < 2 * n) (hw : w ≤ 2 * n) :
    termAt n (quadTerms n c t u s) 0 w r =
      alQ n c * (nzQ n c u s w r + beQ n c t * (if u = n ∧ w = 2 * n then (-1) ^ n * sgQ s else 0)) := by
  have hpar : ((-1) ^ n : ℚ) = if n % 2 = 0 then 1 else -1 := by
    rcases Nat.even_or_odd n with h | h
    · rw [h.neg_one_pow, if_pos (Nat.even_iff.1 h)]
    · rw [h.neg_one_pow, if_neg (by rw [Nat.odd_iff.1 h]; decide)]
  rw [hpar]
  unfold quadTerms
  simp only [hc0.ne', hu0.ne', hu.ne, if_false]
  by_cases hc2 : c = 2 * n
  · rw [if_pos hc2]
    simp only [termAt, nzQ, beQ, List.map_cons, List.map_nil, List.sum_cons, List.sum_nil]
    rw [if_neg (c := w = u + c) (by omega), if_neg (c := c = n) (by omega)]
    simp
  rw [if_neg hc2]
  by_cases hcu : c = n ∧ u = n
  · rw [if_pos hcu]
    obtain ⟨rfl, rfl⟩ := hcu
    simp only [alQ, beQ, nzQ, lt_irrefl, if_false, if_true, false_and, true_and]
    by_cases hw2 : w = 2 * u
    · subst hw2
      have h1 : ¬ (2 * u = u) := by omega
      have h2 : 2 * u = u + u := by omega
      cases t <;> cases s <;> rcases Nat.mod_two_eq_zero_or_one u with h | h <;> simp [termAt, sgQ, h, h1, ← h2] <;> norm_num
    · have h1 : ¬ (2 * u = w) := by omega
      have h2 : ¬ (w = u + u) := by omega
      cases t <;> cases s <;> rcases Nat.mod_two_eq_zero_or_one u with h | h <;> simp [termAt, sgQ, h, h1, h2, hw2]
  rw [if_neg hcu]
  have hb : beQ n c t * (if u = n ∧ w = 2 * n then ((if n % 2 = 0 then 1 else -1) * sgQ s : ℚ) else 0) = 0 := by
    unfold beQ
    split_ifs <;> first | omega | simp
  rw [hb, add_zero]
  have hz : nzQ n c u s w r = if w = u + c then (if u < n ∧ n < w then 2 else 1) else 0 := by
    unfold nzQ
    split_ifs <;> first | rfl | omega
  rw [hz]
  clear hz hb hpar
  unfold hypTerms alQ
  by_cases hw' : w = u + c
  · subst hw'
    rw [if_pos rfl]
    split_ifs <;> first
        | (exfalso; omega)
        | (simp only [termAt, List.map_cons, List.map_nil, List.sum_cons, List.sum_nil]
           cases r <;> simp <;> first | done | (intros; omega) | (split_ifs <;> first | done | omega | norm_num))
  · rw [if_neg hw', mul_zero]
    split_ifs <;> first
        | (exfalso; omega)
        | (simp only [termAt, List.map_cons, List.map_nil, List.sum_cons, List.sum_nil]
           cases r <;> simp <;> first | done | (intros; omega) | (split_ifs <;> first | done | omega | norm_num))

theorem term_q {n c u w : ℕ} (t s r : Bool) (hn : 0 < n) (hc0 : 0 < c) (hc : c ≤ 2 * n) (hu0 : 0 < u) (hu : u < 2 * n) (hw : w ≤ 2 * n) :
    termAt n (quadTerms n c t u s) 1 w r =
      alQ n c * (nqQ n c u s w r - beQ n c t * (if u = n ∧ w = 0 then (-1) ^ n * sgQ s else 0)) := by
  have hpar : ((-1) ^ n : ℚ) = if n % 2 = 0 then 1 else -1 := by
    rcases Nat.even_or_odd n with h | h
    · rw [h.neg_one_pow, if_pos (Nat.even_iff.1 h)]
    · rw [h.neg_one_pow, if_neg (by rw [Nat.odd_iff.1 h]; decide)]
  rw [hpar]
  unfold quadTerms
  simp only [hc0.ne', hu0.ne', hu.ne, if_false]
  by_cases hc2 : c = 2 * n
  · rw [if_pos hc2]
    subst hc2
    simp only [termAt, nqQ, beQ, alQ, List.map_cons, List.map_nil, List.sum_cons, List.sum_nil]
    have h1 : ¬ (2 * n = n) := by omega
    have h2 : ¬ (2 * n < n) := by omega
    by_cases hwu : w = u
    · subst hwu
      by_cases hwn : w = n
      · subst hwn
        cases s <;> cases r <;> simp [h1, h2, hu0.ne']
      · simp [h1, h2, hu0.ne', hwn]
    · have h3 : ¬ (u = w) := by omega
      simp [h1, h2, h3, hwu]
  rw [if_neg hc2]
  by_cases hcu : c = n ∧ u = n
  · rw [if_pos hcu]
    obtain ⟨rfl, rfl⟩ := hcu
    simp only [alQ, beQ, nqQ, lt_irrefl, if_false, if_true, false_and, true_and]
    by_cases hw2 : w = 0
    · subst hw2
      have h1 : ¬ (0 = u) := by omega
      have h2 : 2 * u = u + u := by omega
      cases t <;> cases s <;> rcases Nat.mod_two_eq_zero_or_one u with h | h <;> simp [termAt, sgQ, h, h1, ← h2] <;> norm_num
    · have h1 : ¬ (0 = w) := by omega
      have h2 : ¬ (w + 2 * u = u + u) := by omega
      cases t <;> cases s <;> rcases Nat.mod_two_eq_zero_or_one u with h | h <;> simp [termAt, sgQ, h, h1, h2, hw2]
  rw [if_neg hcu]
  have hb : beQ n c t * (if u = n ∧ w = 0 then ((if n % 2 = 0 then 1 else -1) * sgQ s : ℚ) else 0) = 0 := by
    unfold beQ
    split_ifs <;> first | omega | simp
  rw [hb, sub_zero]
  have hz : nqQ n c u s w r = if w + 2 * n = u + c then (if w = 0 then (if u < n then 2 else 1)
      else if (u < n ∧ w < n) ∨ (n < u ∧ n < w) then 4 else 2) else 0 := by
    unfold nqQ
    split_ifs <;> first | rfl | omega
  rw [hz]
  clear hz hb hpar
  unfold hypTerms alQ
  by_cases hw' : w + 2 * n = u + c
  · rw [if_pos hw']
    have e1 : c + u - 2 * n = w := by omega
    rw [e1]
    split_ifs <;> first
        | (exfalso; omega)
        | (simp only [termAt, List.map_cons, List.map_nil, List.sum_cons, List.sum_nil]
           cases r <;> simp <;> first | done | (norm_num; done) | (intros; omega) | (split_ifs <;> first | done | omega | norm_num))
  · rw [if_neg hw', mul_zero]
    split_ifs <;> first
        | (exfalso; omega)
        | (simp only [termAt, List.map_cons, List.map_nil, List.sum_cons, List.sum_nil]
           cases r <;> simp <;> first | done | (norm_num; done) | (intros; omega) | (split_ifs <;> first | done | omega | norm_num))

set_option maxHeartbeats 1000000 in
theorem quad_deg {n c u : ℕ} (t s : Bool) (hn : 0 < n) (hc : c ≤ 2 * n) (hu : u ≤ 2 * n) :
    ∀ z ∈ quadTerms n c t u s, z.1 ≤ 2 ∧ z.2.1.1 ≤ 2 * n ∧ (u < 2 * n → z.1 ≤ 1) := by
  intro z hz
  unfold quadTerms hypTerms at hz
  split_ifs at hz <;> simp only [List.mem_cons, List.not_mem_nil, or_false] at hz <;> first
    | (subst hz; refine ⟨?_, ?_, ?_⟩ <;> dsimp only <;> omega)
    | (rcases hz with hz | hz <;> subst hz <;> refine ⟨?_, ?_, ?_⟩ <;> dsimp only <;> omega)

theorem term_2 {n c u w : ℕ} (t s r : Bool) (hn : 0 < n) (hc : c ≤ 2 * n) (hu : u < 2 * n) : termAt n (quadTerms n c t u s) 2 w r = 0 := by
  unfold termAt
  apply List.sum_eq_zero
  intro x hx
  obtain ⟨z, hz, rfl⟩ := List.mem_map.1 hx
  have := (quad_deg t s hn hc hu.le z hz).2.2 hu
  rw [if_neg (by omega)]

/-- the special class of degree `c` as the argument of the Pieri rule -/
def pQ (n c : ℕ) (t : Bool) : Int := if c = n ∧ t = true then -(n : Int) else c

theorem pQ_natAbs (n c : ℕ) (t : Bool) : (pQ n c t).natAbs = c := by
  unfold pQ; split <;> omega

theorem pQ_spec {n c : ℕ} (t : Bool) (h : 0 < c) : num2spec (pQ n c t) = quadCls n c t := by
  unfold num2spec pQ quadCls
  split_ifs <;> first | omega | simp

theorem pQ_spc {n c : ℕ} (t : Bool) (h : 0 < c) (h2 : c ≤ 2 * n) : spcD n n (pQ n c t) := by
  unfold spcD pQ
  split_ifs <;> omega

theorem alD_pQ (n c : ℕ) (t : Bool) : alD n (pQ n c t) = alQ n c := by
  unfold alD alQ; rw [pQ_natAbs]

theorem beD_pQ {n c : ℕ} (t : Bool) (h : 0 < c) : beD n (pQ n c t) = beQ n c t := by
  unfold beD beQ; rw [pQ_natAbs]
  split
  · unfold sgD sgQ pQ
    rename_i hcn
    subst hcn
    cases t
    · simp
    · simp; omega
  · rfl

/-- the entries of the matrices, by the table -/
theorem MDg_row {N c u w : ℕ} (h h' : Polynomial ℚ) (t s r : Bool) (hc0 : 0 < c) (hc : c ≤ 2 * (N + 1)) (hu0 : 0 < u) (hu : u < 2 * (N + 1))
    (hw : w ≤ 2 * (N + 1)) :
    MDg h h' (N + 1) (pQ (N + 1) c t) (qwd N u s) (qwd N w r) =
      Polynomial.C (termAt (N + 1) (quadTerms (N + 1) c t u s) 0 w r) + Polynomial.C (termAt (N + 1) (quadTerms (N + 1) c t u s) 1 w r) * h +
        Polynomial.C (termAt (N + 1) (quadTerms (N + 1) c t u s) 2 w r) * h' := by
  rw [term_z t s r (by omega) hc0 hc hu0 hu hw, term_q t s r (by omega) hc0 hc hu0 hu hw, term_2 t s r (by omega) hc hu]
  unfold MDg
  rw [alD_pQ, beD_pQ t hc0, pQ_natAbs]
  have e1 := NG_row (p := c) h h' s r hu0 (by omega) (show w ≤ 2 * N + 2 by omega) (by omega)
  unfold NG at e1
  rw [e1, opS_row h s r hu0 (by omega) (by omega)]
  have e2 : (if w = u + c then (if u ≤ N ∧ N + 1 < w then 2 else if u = N + 1 ∧ w = N + 1 ∧ s ≠ r then 0 else 1) else 0 : Polynomial ℚ) =
      Polynomial.C (nzQ (N + 1) c u s w r) := by
    unfold nzQ
    have h1 : ∀ a, a < N + 1 ↔ a ≤ N := fun a => Nat.lt_succ_iff
    simp only [h1]
    split_ifs <;> first | rfl | simp
  have e3 : (if w + (2 * N + 2) = u + c then
        (if w = 0 then (if u ≤ N then 2 else 1) else if u = N + 1 ∧ w = N + 1 then (if s = r then 0 else 2)
          else if w = u then 2 else if (u ≤ N ∧ w ≤ N) ∨ (N + 1 < u ∧ N + 1 < w) then 4 else 2) else 0 : Polynomial ℚ) =
      Polynomial.C (nqQ (N + 1) c u s w r) := by
    unfold nqQ
    have h1 : ∀ a, a < N + 1 ↔ a ≤ N := fun a => Nat.lt_succ_iff
    simp only [h1, Nat.mul_add, Nat.mul_one]
    split_ifs <;> first | rfl | simp
  have e4 : (if u = N + 1 then (-1) ^ (N + 1) * sgT s * ((if w = 2 * N + 2 then 1 else 0) - h * (if w = 0 then 1 else 0)) else 0 : Polynomial ℚ) =
      Polynomial.C (if u = N + 1 ∧ w = 2 * (N + 1) then (-1) ^ (N + 1) * sgQ s else 0) -
        Polynomial.C (if u = N + 1 ∧ w = 0 then (-1) ^ (N + 1) * sgQ s else 0) * h := by
    have es : sgT s = Polynomial.C (sgQ s) := by unfold sgT sgQ; split <;> simp
    have ep : ((-1) ^ (N + 1) : Polynomial ℚ) = Polynomial.C ((-1) ^ (N + 1)) := by simp
    rw [es, ep, ← Polynomial.C_mul]
    simp only [Nat.mul_add, Nat.mul_one]
    split_ifs <;> first | omega | (simp; done) | (simp; ring)
  rw [e2, e3, e4]
  simp only [Polynomial.C_mul, Polynomial.C_add, Polynomial.C_sub, Polynomial.C_0]
  ring

/-- the value of a list of terms, with weights for the powers of `q` -/
noncomputable def termVal (n : ℕ) (h h' : Polynomial ℚ) (L : List (ℕ × (ℕ × Bool) × ℚ)) : LMod :=
  (L.map fun z => Finsupp.single (quadCls n z.2.1.1 z.2.1.2)
    (Polynomial.C z.2.2 * if z.1 = 0 then 1 else if z.1 = 1 then h else h')).sum

theorem termVal_apply (n : ℕ) (h h' : Polynomial ℚ) (L : List (ℕ × (ℕ × Bool) × ℚ)) (hL : ∀ z ∈ L, z.1 ≤ 2) (w : ℕ) (r : Bool) :
    termVal n h h' L (quadCls n w r) = Polynomial.C (termAt n L 0 w r) + Polynomial.C (termAt n L 1 w r) * h + Polynomial.C (termAt n L 2 w r) * h' := by
  induction L with
  | nil => simp [termVal, termAt]
  | cons z L ih =>
    have e1 : termVal n h h' (z :: L) = Finsupp.single (quadCls n z.2.1.1 z.2.1.2)
      (Polynomial.C z.2.2 * if z.1 = 0 then 1 else if z.1 = 1 then h else h') + termVal n h h' L := by simp [termVal]
    have e2 : ∀ d, termAt n (z :: L) d w r = (if z.1 = d ∧ z.2.1.1 = w ∧ (w = n → z.2.1.2 = r) then z.2.2 else 0) + termAt n L d w r := by
      intro d; simp [termAt]
    rw [e1, e2, e2, e2, Finsupp.add_apply, ih (fun z hz => hL z (by simp [hz])), Finsupp.single_apply]
    have h3 := hL z (by simp)
    by_cases hq : quadCls n z.2.1.1 z.2.1.2 = quadCls n w r
    · obtain ⟨h4, h5⟩ := quadCls_inj hq
      rw [if_pos hq]
      have h6 : z.2.1.1 = w ∧ (w = n → z.2.1.2 = r) := ⟨h4, by rw [← h4]; exact h5⟩
      obtain h7 | h7 | h7 : z.1 = 0 ∨ z.1 = 1 ∨ z.1 = 2 := by omega
      · rw [if_pos h7, if_pos ⟨h7, h6⟩, if_neg (by omega), if_neg (by omega)]; simp; ring
      · rw [if_neg (by omega), if_pos h7, if_neg (by omega), if_pos ⟨h7, h6⟩, if_neg (by omega)]; simp; ring
      · rw [if_neg (by omega), if_neg (by omega), if_neg (by omega), if_neg (by omega), if_pos ⟨h7, h6⟩]; simp; ring
    · rw [if_neg hq]
      have h6 : ¬ (z.2.1.1 = w ∧ (w = n → z.2.1.2 = r)) := by
        rintro ⟨h4, h5⟩
        apply hq
        unfold quadCls
        by_cases hn : w = n
        · rw [h4, h5 hn]
        · rw [h4, if_neg (c := w = n ∧ _) (by tauto), if_neg (c := w = n ∧ _) (by tauto)]
      simp [h6]

section
variable {X : Space} {pieri : Int → List Int → Except PyErr Poly} {N B : ℕ} {h h' : Polynomial ℚ}
  (Z : RingOn X pieri (spcD (N + 1) (N + 1)) (clsD (N + 1) (N + 1)) B) (ht : Z.Y.t = tDD h h' (N + 1) (N + 1))

theorem quad_cls {N c : ℕ} (t : Bool) (hc : c ≤ 2 * (N + 1)) : clsD (N + 1) (N + 1) (quadCls (N + 1) c t) :=
  (WdD_cls (by omega) _).2 ⟨qwd N c t, qwd_mem t (by omega), labD_qwd t (by omega)⟩

include ht in
theorem quad_row {c u : ℕ} (t s : Bool) (hc0 : 0 < c) (hc : c ≤ 2 * (N + 1)) (hu : u ≤ 2 * (N + 1)) {L : List (ℕ × (ℕ × Bool) × ℚ)}
    (hL : ∀ z ∈ L, z.1 ≤ 2 ∧ z.2.1.1 ≤ 2 * (N + 1) ∧ (u < 2 * (N + 1) → z.1 ≤ 1))
    (H : ∀ w ≤ 2 * (N + 1), ∀ r, MDg h h' (N + 1) (pQ (N + 1) c t) (qwd N u s) (qwd N w r) =
      Polynomial.C (termAt (N + 1) L 0 w r) + Polynomial.C (termAt (N + 1) L 1 w r) * h + Polynomial.C (termAt (N + 1) L 2 w r) * h') :
    Z.Y.prod (Finsupp.single (quadCls (N + 1) c t) 1) (Finsupp.single (quadCls (N + 1) u s) 1) = termVal (N + 1) h h' L := by
  rw [← pQ_spec t hc0, ← tDD_prod le_rfl Z ht (pQ_spc t hc0 hc) (quad_cls s hu)]
  ext1 l
  by_cases hl : clsD (N + 1) (N + 1) l
  · obtain ⟨W, hW, rfl⟩ := (WdD_cls (by omega) l).1 hl
    obtain ⟨w, hw, r, rfl⟩ := mem_qwd hW
    have e := labD_qwd (N := N) s (show u ≤ 2 * N + 2 by omega)
    rw [← e, tDD_apply h h' _ (qwd_mem s (by omega)) hW, labD_qwd r hw, termVal_apply _ _ _ _ (fun z hz => (hL z hz).1), H w (by omega)]
  · have e1 : tDD h h' (N + 1) (N + 1) (pQ (N + 1) c t) (quadCls (N + 1) u s) l = 0 := by
      by_contra h0
      exact hl (tDD_closed h h' (by omega) _ _ l (Finsupp.mem_support_iff.2 h0))
    rw [e1]
    symm
    clear H
    induction L with
    | nil => rfl
    | cons z L ih =>
      have e2 : termVal (N + 1) h h' (z :: L) = Finsupp.single (quadCls (N + 1) z.2.1.1 z.2.1.2)
        (Polynomial.C z.2.2 * if z.1 = 0 then 1 else if z.1 = 1 then h else h') + termVal (N + 1) h h' L := by simp [termVal]
      rw [e2, Finsupp.add_apply, ih (fun z hz => hL z (by simp [hz])), Finsupp.single_apply, if_neg, add_zero]
      rintro rfl
      exact hl (quad_cls _ (hL z (by simp)).2.1)

include ht in
/-- **Products on the even quadrics.** -/
theorem quad_prod {c u : ℕ} (t s : Bool) (hc : c ≤ 2 * (N + 1)) (hu : u ≤ 2 * (N + 1)) :
    Z.Y.prod (Finsupp.single (quadCls (N + 1) c t) 1) (Finsupp.single (quadCls (N + 1) u s) 1) =
      termVal (N + 1) h h' (quadTerms (N + 1) c t u s) := by
  have e0 : ∀ t, quadCls (N + 1) 0 t = [] := by intro t; unfold quadCls; rw [if_neg (by omega), if_pos rfl]
  rcases Nat.eq_zero_or_pos c with h0 | h0
  · subst h0
    rw [e0, Z.Y.one_prod, quadTerms, if_pos rfl]
    simp [termVal]
  have comm := Z.Y.prod_comm (supp_single (quad_cls t hc) 1) (supp_single (quad_cls s hu) 1)
  rcases Nat.eq_zero_or_pos u with h1 | h1
  · subst h1
    rw [comm, e0, Z.Y.one_prod, quadTerms, if_neg (by omega), if_pos rfl]
    simp [termVal]
  rcases hu.lt_or_eq with h2 | h2
  · exact quad_row Z ht t s h0 hc hu (quad_deg t s (by omega) hc hu) (fun w hw r => MDg_row h h' t s r h0 hc h1 h2 hw)
  subst h2
  rcases hc.lt_or_eq with h3 | h3
  · rw [comm, quad_row Z ht s t (by omega) hu hc (quad_deg s t (by omega) hu hc) (fun w hw r => MDg_row h h' s t r (by omega) hu h0 h3 hw)]
    congr 1
    unfold quadTerms
    rw [if_neg (by omega), if_neg (by omega), if_pos rfl, if_neg (by omega), if_neg (by omega), if_neg (by omega), if_neg (by omega), if_pos rfl]
  subst h3
  refine quad_row Z ht t s (by omega) hc hu (quad_deg t s (by omega) hc hu) fun w hw r => ?_
  have e1 := NG_top (N := N) h h' s r (show w ≤ 2 * N + 2 by omega)
  rw [NG_large (k := N + 1) (by omega), one_mul] at e1
  have e2 : pQ (N + 1) (2 * (N + 1)) t = ((2 * N + 2 : ℕ) : Int) := by unfold pQ; rw [if_neg (by omega)]; push_cast; ring
  have e3 : ∀ x y : Polynomial ℚ, x + x = 2 * y → x = y := by
    intro x y hxy
    have : (2 : Polynomial ℚ) ≠ 0 := two_ne_zero
    rw [← two_mul] at hxy
    exact mul_left_cancel₀ this hxy
  rw [e2, show 2 * (N + 1) = 2 * N + 2 by ring]
  refine e3 _ _ (e1.trans ?_)
  have e4 : quadTerms (N + 1) (2 * N + 2) t (2 * N + 2) s = [(2, (0, false), 1)] := by
    unfold quadTerms
    rw [if_neg (by omega), if_neg (by omega), if_pos (by omega), if_pos (by omega)]
  rw [e4]
  by_cases hw0 : w = 0
  · subst hw0; simp [termAt]
  · rw [if_neg hw0]
    simp [termAt, Ne.symm hw0]

end

end Verif
