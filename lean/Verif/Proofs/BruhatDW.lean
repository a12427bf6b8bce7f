import Verif.Proofs.BruhatBC
import Verif.Proofs.WordDDual
/-!
# The order of the words with an inner letter

The prefixes are compared as in types B and C. Two words with different inner letters `a`, `b` are comparable if a word with the inner letter
`o` lies between them.
-/

namespace Verif
open Spec

/-- the order of the words without the condition on the number of letters `o` -/
def leP : ℤ → ℤ → List L3 → List L3 → Prop
  | d, e, [], [] => 0 ≤ d ∧ 0 ≤ e
  | d, e, p :: u, q :: w => 0 ≤ d ∧ 0 ≤ e ∧ leP (d + q.isA - p.isA) (e + p.isB - q.isB) u w
  | _, _, _, _ => False

/-- after some prefix the words have equally many letters `a` and `b`, and no letter `o` remains -/
def badP : ℤ → ℤ → List L3 → List L3 → Prop
  | d, e, p :: u, q :: w => (d = 0 ∧ e = 0 ∧ colsW 0 (p :: u) = 0 ∧ colsW 0 (q :: w) = 0) ∨ badP (d + q.isA - p.isA) (e + p.isB - q.isB) u w
  | d, e, _, _ => d = 0 ∧ e = 0

theorem leP_len {d e : ℤ} {u w : List L3} (h : leP d e u w) : u.length = w.length := by
  induction u generalizing d e w with
  | nil => cases w <;> simp_all [leP]
  | cons p u ih =>
    cases w with
    | nil => simp [leP] at h
    | cons q w => simpa using ih h.2.2

theorem leP_d {d e : ℤ} {u w : List L3} (h : leP d e u w) : 0 ≤ d ∧ 0 ≤ e := by
  cases u <;> cases w <;> simp [leP] at h <;> omega

theorem leP_refl (u : List L3) : ∀ {d e : ℤ}, 0 ≤ d → 0 ≤ e → leP d e u u := by
  induction u with
  | nil => intro d e hd he; simp [leP, hd, he]
  | cons p u ih =>
    intro d e hd he
    exact ⟨hd, he, ih (by omega) (by omega)⟩

theorem leP_trans {u v w : List L3} : ∀ {d e d' e' : ℤ}, leP d e u v → leP d' e' v w → leP (d + d') (e + e') u w := by
  induction u generalizing v w with
  | nil =>
    intro d e d' e' h1 h2
    cases v <;> cases w <;> simp [leP] at h1 h2 ⊢
    omega
  | cons p u ih =>
    intro d e d' e' h1 h2
    cases v with
    | nil => simp [leP] at h1
    | cons q v =>
      cases w with
      | nil => simp [leP] at h2
      | cons r w =>
        obtain ⟨a1, a2, a3⟩ := h1
        obtain ⟨b1, b2, b3⟩ := h2
        refine ⟨by omega, by omega, ?_⟩
        have := ih a3 b3
        convert this using 1 <;> ring

theorem leP_iff {u : List L3} : ∀ {w : List L3} {d e : ℤ}, u.length = w.length →
    (leP d e u w ↔ ∀ v ≤ u.length, (alW u v : ℤ) ≤ d + alW w v ∧ (alW (dualW w) v : ℤ) ≤ e + alW (dualW u) v) := by
  induction u with
  | nil =>
    intro w d e hl
    cases w with
    | cons q w => simp at hl
    | nil =>
      simp only [leP, dualW, List.map_nil, alW, List.length_nil]
      constructor
      · intro h v _; omega
      · intro h; have := h 0 le_rfl; omega
  | cons p u ih =>
    intro w d e hl
    cases w with
    | nil => simp at hl
    | cons q w =>
      have hl' : u.length = w.length := by simpa using hl
      rw [leP, ih hl']
      have a1 : ∀ (p : L3) (u : List L3) (v : ℕ), v ≤ u.length → (alW (p :: u) v : ℤ) = alW u v + p.isA := by
        intro p u v hv
        rw [alW_le p hv]
        cases p <;> simp [L3.isA]
      have a2 : ∀ (p : L3) (u : List L3) (v : ℕ), v ≤ u.length → (alW (dualW (p :: u)) v : ℤ) = alW (dualW u) v + p.isB := by
        intro p u v hv
        rw [show dualW (p :: u) = p.dual :: dualW u from rfl, a1 _ _ _ (by simpa using hv)]
        cases p <;> simp [L3.isA, L3.isB, L3.dual]
      constructor
      · rintro ⟨h1, h2, h3⟩ v hv
        rcases Nat.lt_or_ge u.length v with h | h
        · rw [alW_top (u := p :: u) (by simpa using h), alW_top (u := dualW (q :: w)) (by simp; omega)]
          omega
        · rw [a1 p u v h, a1 q w v (by omega), a2 p u v h, a2 q w v (by omega)]
          have := h3 v h
          omega
      · intro h
        have h0 := h (u.length + 1) (by simp)
        rw [alW_top (u := p :: u) (by simp), alW_top (u := dualW (q :: w)) (by simp; omega), alW_top (u := q :: w) (by simp; omega),
          alW_top (u := dualW (p :: u)) (by simp)] at h0
        refine ⟨by omega, by omega, fun v hv => ?_⟩
        have := h v (by simp; omega)
        rw [a1 p u v hv, a1 q w v (by omega), a2 p u v hv, a2 q w v (by omega)] at this
        omega

theorem badP_iff {u : List L3} : ∀ {w : List L3} {d e : ℤ}, u.length = w.length → d - e = (colsW 0 w : ℤ) - colsW 0 u →
    (badP d e u w ↔ ∃ v ≤ u.length, (alW u v : ℤ) = d + alW w v ∧ (alW (dualW w) v : ℤ) = e + alW (dualW u) v ∧
      alW u v + alW (dualW u) v + v + colsW 0 u = u.length) := by
  induction u with
  | nil =>
    intro w d e hl hc
    cases w with
    | cons q w => simp at hl
    | nil =>
      simp only [badP, dualW, List.map_nil, alW, List.length_nil, colsW]
      constructor
      · intro h; exact ⟨0, le_rfl, by omega, by omega, by omega⟩
      · rintro ⟨v, hv, h⟩; omega
  | cons p u ih =>
    intro w d e hl hc
    cases w with
    | nil => simp at hl
    | cons q w =>
      have hl' : u.length = w.length := by simpa using hl
      have hc' : (d + q.isA - p.isA) - (e + p.isB - q.isB) = (colsW 0 w : ℤ) - colsW 0 u := by
        cases p <;> cases q <;> simp [colsW, L3.isA, L3.isB] at hc ⊢ <;> omega
      rw [badP, ih hl' hc']
      have a1 : ∀ (p : L3) (u : List L3) (v : ℕ), v ≤ u.length → (alW (p :: u) v : ℤ) = alW u v + p.isA := by
        intro p u v hv
        rw [alW_le p hv]
        cases p <;> simp [L3.isA]
      have a2 : ∀ (p : L3) (u : List L3) (v : ℕ), v ≤ u.length → (alW (dualW (p :: u)) v : ℤ) = alW (dualW u) v + p.isB := by
        intro p u v hv
        rw [show dualW (p :: u) = p.dual :: dualW u from rfl, a1 _ _ _ (by simpa using hv)]
        cases p <;> simp [L3.isA, L3.isB, L3.dual]
      have a3 : p.isA + p.isB + (colsW 0 (p :: u) : ℤ) = colsW 0 u + 1 := by
        cases p <;> simp [L3.isA, L3.isB, colsW] <;> ring
      constructor
      · rintro (⟨h1, h2, h3, h4⟩ | ⟨v, hv, h1, h2, h3⟩)
        · refine ⟨u.length + 1, by simp, ?_⟩
          rw [alW_top (u := p :: u) (by simp), alW_top (u := dualW (q :: w)) (by simp; omega), alW_top (u := q :: w) (by simp; omega),
            alW_top (u := dualW (p :: u)) (by simp)]
          simp only [List.length_cons]
          omega
        · refine ⟨v, by simp; omega, ?_⟩
          have e1 := a1 p u v hv
          have e2 := a2 p u v hv
          rw [a1 q w v (by omega), a2 q w v (by omega)]
          simp only [List.length_cons]
          omega
      · rintro ⟨v, hv, h1, h2, h3⟩
        rcases Nat.lt_or_ge u.length v with h | h
        · left
          rw [alW_top (u := p :: u) (by simpa using h), alW_top (u := q :: w) (by simp; omega)] at h1
          rw [alW_top (u := dualW (p :: u)) (by simpa using h), alW_top (u := dualW (q :: w)) (by simp; omega)] at h2
          rw [alW_top (u := p :: u) (by simpa using h), alW_top (u := dualW (p :: u)) (by simpa using h)] at h3
          simp only [List.length_cons] at h3
          omega
        · right
          have e1 := a1 p u v h
          have e2 := a2 p u v h
          rw [a1 q w v (by omega)] at h1
          rw [a2 q w v (by omega)] at h2
          simp only [List.length_cons] at h3
          exact ⟨v, h, by omega, by omega, by omega⟩

/-- with different inner letters: a word between, or no way -/
theorem mid_exists {u : List L3} : ∀ {w : List L3} {d e : ℤ}, leP d e u w → d - e = (colsW 0 w : ℤ) - colsW 0 u →
    (∃ v, colsW 0 v + 1 = colsW 0 u ∧ leP 0 0 u v ∧ leP d e v w) ∨ (∃ v, colsW 0 v + 1 = colsW 0 w ∧ leP d e u v ∧ leP 0 0 v w) ∨
    badP d e u w ∨ (leP (d - 1) e u w ∧ colsW 0 u = 0) ∨ (leP d (e - 1) u w ∧ colsW 0 w = 0) := by
  induction u with
  | nil =>
    intro w d e h hc
    cases w with
    | cons q w => simp [leP] at h
    | nil =>
      simp only [leP, badP, colsW] at h hc ⊢
      by_cases h0 : d = 0
      · right; right; left; omega
      · exact Or.inr (Or.inr (Or.inr (Or.inl ⟨⟨by omega, by omega⟩, trivial⟩)))
  | cons p u ih =>
    intro w d e h hc
    cases w with
    | nil => simp [leP] at h
    | cons q w =>
      obtain ⟨hd, he, h3⟩ := h
      have hc' : (d + q.isA - p.isA) - (e + p.isB - q.isB) = (colsW 0 w : ℤ) - colsW 0 u := by
        cases p <;> cases q <;> simp [colsW, L3.isA, L3.isB] at hc ⊢ <;> omega
      have cc : ∀ (p : L3) (v u : List L3), colsW 0 v + 1 = colsW 0 u → colsW 0 (p :: v) + 1 = colsW 0 (p :: u) := by
        intro p v u h; cases p <;> simp only [colsW] <;> omega
      rcases ih h3 hc' with ⟨v, e1, e2, e3⟩ | ⟨v, e1, e2, e3⟩ | hb | ⟨e1, e2⟩ | ⟨e1, e2⟩
      · exact Or.inl ⟨p :: v, cc _ _ _ e1, ⟨le_rfl, le_rfl, by simpa using e2⟩, ⟨hd, he, e3⟩⟩
      · exact Or.inr (Or.inl ⟨q :: v, cc _ _ _ e1, ⟨hd, he, e2⟩, ⟨le_rfl, le_rfl, by simpa using e3⟩⟩)
      · exact Or.inr (Or.inr (Or.inl (Or.inr hb)))
      · by_cases hp : p = .o
        · subst hp
          refine Or.inl ⟨.a :: u, by simp [colsW], ⟨le_rfl, le_rfl, leP_refl u (by simp [L3.isA]) (by simp [L3.isB])⟩, ⟨hd, he, ?_⟩⟩
          convert e1 using 1 <;> simp [L3.isA, L3.isB]
        · have h0 : colsW 0 (p :: u) = 0 := by cases p <;> simp_all [colsW]
          by_cases hd0 : d = 0
          · exact Or.inr (Or.inr (Or.inl (Or.inl ⟨hd0, by omega, h0, by omega⟩)))
          · refine Or.inr (Or.inr (Or.inr (Or.inl ⟨⟨by omega, he, ?_⟩, h0⟩)))
            convert e1 using 1; ring
      · by_cases hq : q = .o
        · subst hq
          refine Or.inr (Or.inl ⟨.b :: w, by simp [colsW], ⟨hd, he, ?_⟩, ⟨le_rfl, le_rfl, leP_refl w (by simp [L3.isA]) (by simp [L3.isB])⟩⟩)
          convert e1 using 1 <;> simp [L3.isA, L3.isB]
        · have h0 : colsW 0 (q :: w) = 0 := by cases q <;> simp_all [colsW]
          by_cases he0 : e = 0
          · exact Or.inr (Or.inr (Or.inl (Or.inl ⟨by omega, he0, by omega, h0⟩)))
          · refine Or.inr (Or.inr (Or.inr (Or.inr ⟨⟨hd, by omega, ?_⟩, h0⟩)))
            convert e1 using 1; ring

theorem mid_not_bad {u : List L3} : ∀ {v w : List L3} {d e d' e' : ℤ}, leP d e u v → leP d' e' v w → d - e = (colsW 0 v : ℤ) - colsW 0 u + 1 →
    ¬ badP (d + d') (e + e') u w := by
  induction u with
  | nil =>
    intro v w d e d' e' h1 h2 hc
    cases v <;> cases w <;> simp [leP] at h1 h2
    simp only [badP, colsW] at hc ⊢
    omega
  | cons p u ih =>
    intro v w d e d' e' h1 h2 hc
    cases v with
    | nil => simp [leP] at h1
    | cons q v =>
      cases w with
      | nil => simp [leP] at h2
      | cons r w =>
        obtain ⟨a1, a2, a3⟩ := h1
        obtain ⟨b1, b2, b3⟩ := h2
        have hc' : (d + q.isA - p.isA) - (e + p.isB - q.isB) = (colsW 0 v : ℤ) - colsW 0 u + 1 := by
          cases p <;> cases q <;> simp [colsW, L3.isA, L3.isB] at hc ⊢ <;> omega
        have := ih a3 b3 hc'
        rintro (⟨g1, g2, g3, g4⟩ | hb)
        · omega
        · apply this
          convert hb using 1 <;> ring

/-! ### The last letter -/

theorem leP_snoc {i j : L3} {u w : List L3} : ∀ {d e : ℤ}, leP d e (u ++ [i]) (w ++ [j]) → leP d e u w := by
  induction u generalizing w with
  | nil =>
    intro d e h
    cases w with
    | nil => exact ⟨h.1, h.2.1⟩
    | cons q w => have := leP_len h; simp at this
  | cons p u ih =>
    intro d e h
    cases w with
    | nil => have := leP_len h; simp at this
    | cons q w => exact ⟨h.1, h.2.1, ih h.2.2⟩

theorem leP_of_leW {u w : List L3} : ∀ {d e : ℤ}, leW d e u w → leP d e u w := by
  induction u generalizing w with
  | nil => intro d e h; cases w <;> simp [leW, leP] at h ⊢; omega
  | cons p u ih =>
    intro d e h
    cases w with
    | nil => simp [leW] at h
    | cons q w => exact ⟨h.1, h.2.1, ih h.2.2⟩

theorem leW_of_leP {u w : List L3} : ∀ {d e : ℤ}, leP d e u w → d - e = (colsW 0 w : ℤ) - colsW 0 u → leW d e u w := by
  induction u generalizing w with
  | nil =>
    intro d e h hc
    cases w with
    | nil => simp only [leW, leP, colsW] at h hc ⊢; omega
    | cons q w => simp [leP] at h
  | cons p u ih =>
    intro d e h hc
    cases w with
    | nil => simp [leP] at h
    | cons q w =>
      refine ⟨h.1, h.2.1, ih h.2.2 ?_⟩
      cases p <;> cases q <;> simp [colsW, L3.isA, L3.isB] at hc ⊢ <;> omega

theorem leW_snoc {i j : L3} {u w : List L3} (ht : tyOk i j = true) : ∀ {d e : ℤ}, leP d e u w →
    d - e = (colsW j.k0 w : ℤ) - colsW i.k0 u → leW d e (u ++ [i]) (w ++ [j]) := by
  induction u generalizing w with
  | nil =>
    intro d e h hc
    cases w with
    | cons q w => simp [leP] at h
    | nil =>
      simp only [leP, colsW] at h hc
      cases i <;> cases j <;> simp [leW, L3.isA, L3.isB, L3.k0, tyOk] at hc ht ⊢ <;> omega
  | cons p u ih =>
    intro d e h hc
    cases w with
    | nil => simp [leP] at h
    | cons q w =>
      refine ⟨h.1, h.2.1, ih h.2.2 ?_⟩
      cases p <;> cases q <;> simp [colsW, L3.isA, L3.isB] at hc ⊢ <;> omega

/-! ### Steps -/

/-- a step of the Pieri rule -/
def okD (U W : WordD) : Prop := tyOk U.2 W.2 = true ∧ okW .z (U.1 ++ [U.2]) (W.1 ++ [W.2])

theorem gD_ok {u w : List L3} {i j : L3} : ∀ {s : St}, tyOk i j = true →
    (okW s (u ++ [i]) (w ++ [j]) → 0 < gD (1 : ℚ) s (u, i) (w, j)) ∧ (¬ okW s (u ++ [i]) (w ++ [j]) → gD (1 : ℚ) s (u, i) (w, j) = 0) := by
  induction u generalizing w with
  | nil =>
    intro s ht
    cases w with
    | nil => cases s <;> cases i <;> cases j <;> simp [okW, gD, wtE, endG, step, tyOk] at ht ⊢
    | cons q w =>
      refine ⟨fun h => ?_, fun _ => rfl⟩
      have := leW_len (okW_le h); simp at this
  | cons p u ih =>
    intro s ht
    cases w with
    | nil =>
      refine ⟨fun h => ?_, fun _ => rfl⟩
      have := leW_len (okW_le h); simp at this
    | cons q w =>
      have e : gD (1 : ℚ) s (p :: u, i) (q :: w, j) = match step s p q with
        | some (t, i', j') => 2 ^ i' * 1 ^ j' * gD (1 : ℚ) t (u, i) (w, j)
        | none => 0 := rfl
      rw [e]
      simp only [List.cons_append, okW]
      rcases step s p q with _ | ⟨t, i', j'⟩
      · simp
      · obtain ⟨h1, h2⟩ := ih (w := w) (s := t) ht
        refine ⟨fun h => ?_, fun h => ?_⟩
        · have := h1 h; positivity
        · simp only [h2 h, mul_zero]

theorem okD_iff {U W : WordD} : okD U W ↔ gD (1 : ℚ) .z U W ≠ 0 := by
  unfold okD
  by_cases ht : tyOk U.2 W.2 = true
  · obtain ⟨h1, h2⟩ := gD_ok (u := U.1) (w := W.1) (s := .z) ht
    rw [and_iff_right ht]
    refine ⟨fun h => (h1 h).ne', fun h => ?_⟩
    by_contra hn
    exact h (h2 hn)
  · rw [gD_mixed 1 .z (by simpa using ht)]
    simp [ht]

theorem okD_sw {U W : WordD} : okD (swD U) (swD W) ↔ okD U W := by
  rw [okD_iff, okD_iff, gD_sw]

theorem okW_same {u w : List L3} (i : L3) : ∀ {s : St}, okW s u w → okW s (u ++ [i]) (w ++ [i]) := by
  induction u generalizing w with
  | nil =>
    intro s h
    cases w with
    | nil => cases s <;> cases i <;> simp [okW, step] at h ⊢
    | cons q w => simp [okW] at h
  | cons p u ih =>
    intro s h
    cases w with
    | nil => simp [okW] at h
    | cons q w =>
      simp only [List.cons_append, okW] at h ⊢
      rcases hs : step s p q with _ | ⟨t, _, _⟩
      · rw [hs] at h; exact h
      · rw [hs] at h; exact ih h

/-- another pair of last letters that leads to the end from the same states -/
theorem okW_repl {i j i' j' : L3} (h0 : ∀ s, okW s [i] [j] → okW s [i'] [j']) {u w : List L3} : ∀ {s : St}, u.length = w.length →
    okW s (u ++ [i]) (w ++ [j]) → okW s (u ++ [i']) (w ++ [j']) := by
  induction u generalizing w with
  | nil =>
    intro s hl h
    cases w with
    | nil => exact h0 s h
    | cons q w => simp at hl
  | cons p u ih =>
    intro s hl h
    cases w with
    | nil => simp at hl
    | cons q w =>
      simp only [List.cons_append, okW] at h ⊢
      rcases hs : step s p q with _ | ⟨t, _, _⟩
      · rw [hs] at h; exact h
      · rw [hs] at h; exact ih (by simpa using hl) h

theorem not_ok_ab (u : List L3) : ¬ okW .z (u ++ [.a]) (u ++ [.b]) := by
  induction u with
  | nil => simp [okW, step]
  | cons p u ih => cases p <;> simpa [okW, step] using ih

end Verif
