import Verif.Proofs.BruhatQB
/-!
# Powers of q in the quantum products of OG(m,2n+1) for m < n

The terms with `q` depend on the first letters of the words. For odd powers of `q` the order of the words has a condition on the prefixes without the
letter `o`.
-/

namespace Verif
open Spec

/-- some prefixes without `o` differ by exactly `d` letters -/
def badW : ℤ → List L3 → List L3 → Prop
  | d, [], [] => d = 0
  | d, p :: u, q :: w => d = 0 ∨ p ≠ .o ∧ q ≠ .o ∧ badW (d + q.isA - p.isA) u w
  | _, _, _ => False

theorem badW_zero {u w : List L3} (hl : u.length = w.length) : badW 0 u w := by
  cases u <;> cases w <;> simp_all [badW]

theorem badW_dual {u : List L3} : ∀ {w : List L3} {d : ℤ}, badW d u w → badW d (dualW w) (dualW u) := by
  induction u with
  | nil => intro w d h; cases w <;> simp_all [badW, dualW]
  | cons p u ih =>
    intro w d h
    cases w with
    | nil => simp [badW] at h
    | cons q w =>
      rcases h with h | ⟨h1, h2, h3⟩
      · exact Or.inl h
      · refine Or.inr ⟨by cases q <;> simp_all [L3.dual], by cases p <;> simp_all [L3.dual], ?_⟩
        have := ih h3
        have e : d + p.dual.isA - q.dual.isA = d + q.isA - p.isA := by cases p <;> cases q <;> simp_all [L3.dual, L3.isA]
        show badW (d + p.dual.isA - q.dual.isA) (dualW w) (dualW u)
        rw [e]
        exact this

theorem badW_self {u : List L3} {d : ℤ} (h : badW d u u) : d = 0 := by
  induction u with
  | nil => exact h
  | cons p u ih =>
    rcases h with h | ⟨_, _, h⟩
    · exact h
    · rw [add_sub_cancel_right] at h
      exact ih h

theorem badW_off {u : List L3} : ∀ {v w : List L3} {D d1 d2 e1 e2 : ℤ}, badW D u w → leW d1 d2 u v → leW e1 e2 v w → D = d1 + e1 → D = d2 + e2 →
    d1 < d2 → False := by
  induction u with
  | nil =>
    intro v w D d1 d2 e1 e2 h h1 h2 g1 g2 g3
    cases v <;> cases w <;> simp [badW, leW] at h h1 h2
    omega
  | cons p u ih =>
    intro v w D d1 d2 e1 e2 h h1 h2 g1 g2 g3
    cases v with
    | nil => simp [leW] at h1
    | cons r v =>
      cases w with
      | nil => simp [leW] at h2
      | cons q w =>
        have k1 := leW_d h1
        have k2 := leW_e h1
        have k3 := leW_d h2
        have k4 := leW_e h2
        rcases h with h | ⟨n1, n2, h⟩
        · omega
        · refine ih h h1.2.2 h2.2.2 ?_ ?_ ?_
          · omega
          · cases p <;> cases q <;> simp_all [L3.isA, L3.isB] <;> omega
          · cases p <;> cases r <;> simp_all [L3.isA, L3.isB] <;> omega

theorem badW_split {u : List L3} : ∀ {v w : List L3} {d e : ℤ}, badW (d + e) u w → leW d d u v → leW e e v w → badW d u v ∧ badW e v w := by
  induction u with
  | nil =>
    intro v w d e h h1 h2
    cases v <;> cases w <;> simp [badW, leW] at h h1 h2 ⊢
    omega
  | cons p u ih =>
    intro v w d e h h1 h2
    cases v with
    | nil => simp [leW] at h1
    | cons r v =>
      cases w with
      | nil => simp [leW] at h2
      | cons q w =>
        have k1 := leW_d h1
        have k3 := leW_d h2
        rcases h with h | ⟨n1, n2, h⟩
        · exact ⟨Or.inl (by omega), Or.inl (by omega)⟩
        · have t1 := h1.2.2
          have t2 := h2.2.2
          by_cases hr : r = .o
          · exfalso
            subst hr
            refine badW_off h t1 t2 ?_ ?_ ?_
            · simp [L3.isA]; omega
            · cases p <;> cases q <;> simp_all [L3.isA, L3.isB] <;> omega
            · cases p <;> simp_all [L3.isA, L3.isB] <;> omega
          · have f1 : d + p.isB - r.isB = d + r.isA - p.isA := by cases p <;> cases r <;> simp_all [L3.isA, L3.isB]
            have f2 : e + r.isB - q.isB = e + q.isA - r.isA := by cases q <;> cases r <;> simp_all [L3.isA, L3.isB]
            rw [f1] at t1
            rw [f2] at t2
            have := ih (d := d + r.isA - p.isA) (e := e + q.isA - r.isA) (by convert h using 1; ring) t1 t2
            exact ⟨Or.inr ⟨n1, hr, this.1⟩, Or.inr ⟨hr, n2, this.2⟩⟩

/-- the order of the words for `q^d` -/
def leO (d : ℕ) (u w : List L3) : Prop := leW d d u w ∧ (Odd d → ¬ badW d u w)

theorem leO_refl (u : List L3) : leO 0 u u := ⟨leW_refl u, fun h => absurd h (by decide)⟩

theorem leO_trans {d e : ℕ} {u v w : List L3} (h1 : leO d u v) (h2 : leO e v w) : leO (d + e) u w := by
  constructor
  · push_cast
    exact leW_trans h1.1 h2.1
  · intro ho hb
    push_cast at hb
    obtain ⟨b1, b2⟩ := badW_split hb h1.1 h2.1
    rcases Nat.even_or_odd d with hd | hd
    · rcases Nat.even_or_odd e with he | he
      · exact absurd (hd.add he) (Nat.not_even_iff_odd.2 ho)
      · exact h2.2 he b2
    · exact h1.2 hd b1

theorem leO_mono {d e : ℕ} {u w : List L3} (h : leO d u w) : leO (d + e) u w := by
  have : leO e u u := ⟨leW_refl' u (by omega), fun ho hb => by
    have := badW_self hb
    have : e = 0 := by exact_mod_cast this
    subst this
    exact absurd ho (by decide)⟩
  rw [add_comm]
  exact leO_trans this h

theorem leO_dual {d : ℕ} {u w : List L3} (h : leO d u w) : leO d (dualW w) (dualW u) :=
  ⟨leW_dual h.1, fun ho hb => h.2 ho (by have := badW_dual hb; rwa [dualW_dualW, dualW_dualW] at this)⟩

theorem leO_zero {u w : List L3} (h : leW 0 0 u w) (d : ℕ) : leO d u w := by
  have := leO_mono (d := 0) (e := d) ⟨h, fun h => absurd h (by decide)⟩
  rwa [zero_add] at this

/-! ### Steps -/

/-- a continuation of a walk after the first letter -/
def Low (f : Prop) (D : ℤ) (u w : List L3) : Prop :=
  (∃ v, v ≠ u ∧ okW .z u v ∧ leW D D v w ∧ (f → ¬ badW D v w)) ∨
  (∃ v, okW .lr u v ∧ leW (D - 1) (D - 1) v w ∧ (f → ¬ badW (D - 1) v w)) ∨
  ∃ v, okW .r u v ∧ leW D (D - 1) v w

section
variable {f : Prop} {D : ℤ} {u w : List L3}

theorem low_bb (hD : 1 ≤ D) (h : Low f D u w) : Low f D (.b :: u) (.b :: w) := by
  rcases h with ⟨v, n, a, b, g⟩ | ⟨v, a, b, g⟩ | ⟨v, a, b⟩
  · refine Or.inl ⟨.b :: v, by simpa using n, by simpa [okW, step] using a,
      leW_cons b (by omega) (by omega) (by simp [L3.isA]) (by simp [L3.isB]), fun hf hb => g hf ?_⟩
    rcases hb with hb | ⟨_, _, hb⟩
    · omega
    · simpa [L3.isA] using hb
  · refine Or.inr (Or.inl ⟨.b :: v, by simpa [okW, step] using a,
      leW_cons b (by omega) (by omega) (by simp [L3.isA]) (by simp [L3.isB]), fun hf hb => g hf ?_⟩)
    rcases hb with hb | ⟨_, _, hb⟩
    · rw [hb]; exact badW_zero (leW_len b)
    · simpa [L3.isA] using hb
  · refine Or.inl ⟨.o :: v, by simp, by simpa [okW, step] using a,
      leW_cons b (by omega) (by omega) (by simp [L3.isA]) (by simp [L3.isB]), fun hf hb => ?_⟩
    rcases hb with hb | ⟨hb, _, _⟩
    · omega
    · exact hb rfl

theorem low_aa (hD : 1 ≤ D) (h : Low f D u w) : Low f D (.a :: u) (.a :: w) := by
  rcases h with ⟨v, n, a, b, g⟩ | ⟨v, a, b, g⟩ | ⟨v, a, b⟩
  · refine Or.inl ⟨.a :: v, by simpa using n, by simpa [okW, step] using a,
      leW_cons b (by omega) (by omega) (by simp [L3.isA]) (by simp [L3.isB]), fun hf hb => g hf ?_⟩
    rcases hb with hb | ⟨_, _, hb⟩
    · omega
    · simpa [L3.isA] using hb
  · refine Or.inr (Or.inl ⟨.a :: v, by simpa [okW, step] using a,
      leW_cons b (by omega) (by omega) (by simp [L3.isA]) (by simp [L3.isB]), fun hf hb => g hf ?_⟩)
    rcases hb with hb | ⟨_, _, hb⟩
    · rw [hb]; exact badW_zero (leW_len b)
    · simpa [L3.isA] using hb
  · exact Or.inr (Or.inr ⟨.a :: v, by simpa [okW, step] using a,
      leW_cons b (by omega) (by omega) (by simp [L3.isA]) (by simp [L3.isB])⟩)

theorem low_ba (hD : 1 ≤ D) (h : Low f (D + 1) u w) : Low f D (.b :: u) (.a :: w) := by
  rcases h with ⟨v, n, a, b, g⟩ | ⟨v, a, b, g⟩ | ⟨v, a, b⟩
  · refine Or.inl ⟨.b :: v, by simpa using n, by simpa [okW, step] using a,
      leW_cons b (by omega) (by omega) (by simp [L3.isA]) (by simp [L3.isB]), fun hf hb => g hf ?_⟩
    rcases hb with hb | ⟨_, _, hb⟩
    · omega
    · simpa [L3.isA] using hb
  · rw [add_sub_cancel_right] at b g
    refine Or.inl ⟨.a :: v, by simp, by simpa [okW, step] using a,
      leW_cons b (by omega) (by omega) (by simp [L3.isA]) (by simp [L3.isB]), fun hf hb => g hf ?_⟩
    rcases hb with hb | ⟨_, _, hb⟩
    · omega
    · simpa [L3.isA] using hb
  · rw [add_sub_cancel_right] at b
    refine Or.inl ⟨.o :: v, by simp, by simpa [okW, step] using a,
      leW_cons b (by omega) (by omega) (by simp [L3.isA]) (by simp [L3.isB]), fun hf hb => ?_⟩
    rcases hb with hb | ⟨hb, _, _⟩
    · omega
    · exact hb rfl

end

theorem low_o {f : Prop} {D : ℤ} {u w : List L3} (h : leW D D (.o :: u) w) (hD : 1 ≤ D) : Low f D (.o :: u) w := by
  have hl := leW_len h
  cases w with
  | nil => simp at hl
  | cons q w =>
    exact Or.inr (Or.inr ⟨.b :: u, by simpa [okW, step] using okW_refl u,
      leW_cons h.2.2 (by omega) (by omega) (by simp [L3.isA]) (by simp [L3.isB])⟩)

/-- **A step after the first letters**, at the lower or at the upper end. -/
theorem low_step {f : Prop} {u : List L3} : ∀ {w : List L3} {D : ℤ}, leW D D u w → 1 ≤ D → (f → ¬ badW D u w) → 1 ≤ colsW 0 u →
    Low f D u w ∨ Low f D (dualW w) (dualW u) := by
  induction u with
  | nil => intro w D h hD g hc; simp [colsW] at hc
  | cons p u ih =>
    intro w D h hD g hc
    have hl := leW_len h
    cases w with
    | nil => simp at hl
    | cons q w =>
      by_cases hp : p = .o
      · subst hp
        exact Or.inl (low_o h hD)
      by_cases hq : q = .o
      · subst hq
        exact Or.inr (low_o (u := dualW w) (leW_dual h) hD)
      have hc' : 1 ≤ colsW 0 u := by cases p <;> simp_all [colsW]
      have h3 := h.2.2
      have f1 : D + p.isB - q.isB = D + q.isA - p.isA := by cases p <;> cases q <;> simp_all [L3.isA, L3.isB]
      rw [f1] at h3
      have g3 : f → ¬ badW (D + q.isA - p.isA) u w := fun hf hb => g hf (Or.inr ⟨hp, hq, hb⟩)
      have dd : ∀ (p : L3) (u : List L3), dualW (p :: u) = p.dual :: dualW u := fun _ _ => rfl
      rw [dd, dd]
      cases p <;> cases q <;> first | exact absurd rfl hp | exact absurd rfl hq | skip
      · simp only [L3.isA] at h3 g3
        rw [add_sub_cancel_right] at h3 g3
        exact (ih h3 hD g3 hc').imp (low_aa hD) (low_bb hD)
      · simp only [L3.isA] at h3 g3
        rw [add_zero] at h3 g3
        refine Or.inl (Or.inr (Or.inl ⟨.b :: u, by simpa [okW, step] using okW_refl u,
          leW_cons h3 (by omega) (by omega) (by simp [L3.isA]) (by simp [L3.isB]), fun hf hb => g3 hf ?_⟩))
        rcases hb with hb | ⟨_, _, hb⟩
        · rw [hb]; exact badW_zero (leW_len h3)
        · simpa [L3.isA] using hb
      · simp only [L3.isA] at h3 g3
        rw [sub_zero] at h3 g3
        exact (ih h3 (by omega) g3 hc').imp (low_ba hD) (low_ba hD)
      · simp only [L3.isA] at h3 g3
        rw [add_zero, sub_zero] at h3 g3
        exact (ih h3 hD g3 hc').imp (low_bb hD) (low_aa hD)

/-- one of the continuations of a walk that begins with `r` -/
theorem walk_r {u : List L3} : ∀ {d e : ℤ} {w : List L3}, leW d e u w → 1 ≤ e →
    (∃ v, okW .r u v ∧ leW d (e - 1) v w) ∨ (∃ v, v ≠ u ∧ okW .z u v ∧ leW d e v w) ∨
    (1 ≤ d ∧ ∃ v, okW .lr u v ∧ leW (d - 1) (e - 1) v w) := by
  induction u with
  | nil =>
    intro d e w h he
    cases w with
    | cons q w => simp [leW] at h
    | nil =>
      simp only [leW] at h
      exact Or.inr (Or.inr ⟨by omega, [], by simp [okW], by simp only [leW]; omega⟩)
  | cons p u ih =>
    intro d e w h he
    cases w with
    | nil => simp [leW] at h
    | cons q w =>
      obtain ⟨h1, h2, h3⟩ := h
      have f1 : L3.o.isA = 0 := rfl
      have f2 : L3.o.isB = 0 := rfl
      have f3 : L3.a.isA = 1 := rfl
      have f4 : L3.a.isB = 0 := rfl
      have f5 : L3.b.isA = 0 := rfl
      have f6 : L3.b.isB = 1 := rfl
      have hq : 0 ≤ q.isA ∧ q.isA ≤ 1 := by cases q <;> simp [L3.isA]
      have hqb : 0 ≤ q.isB ∧ q.isA + q.isB ≤ 1 := by cases q <;> simp [L3.isB, L3.isA]
      cases p
      · exact Or.inl ⟨.b :: u, by simpa [okW, step] using okW_refl u, leW_cons h3 (by omega) (by omega) (by omega) (by omega)⟩
      · by_cases hd : 1 ≤ d
        · exact Or.inr (Or.inr ⟨hd, .b :: u, by simpa [okW, step] using okW_refl u,
            leW_cons h3 (by omega) (by omega) (by omega) (by omega)⟩)
        · have := leW_d h3
          rcases ih h3 (by omega) with ⟨v, a, b⟩ | ⟨v, n, a, b⟩ | ⟨c, _⟩
          · exact Or.inl ⟨.a :: v, by simpa [okW, step] using a, leW_cons b (by omega) (by omega) (by omega) (by omega)⟩
          · exact Or.inr (Or.inl ⟨.a :: v, by simpa using n, by simpa [okW, step] using a, leW_cons b (by omega) (by omega) (by omega) (by omega)⟩)
          · omega
      · rcases ih h3 (by omega) with ⟨v, a, b⟩ | ⟨v, n, a, b⟩ | ⟨c, v, a, b⟩
        · exact Or.inr (Or.inl ⟨.o :: v, by simp, by simpa [okW, step] using a, leW_cons b (by omega) (by omega) (by omega) (by omega)⟩)
        · exact Or.inr (Or.inl ⟨.b :: v, by simpa using n, by simpa [okW, step] using a, leW_cons b (by omega) (by omega) (by omega) (by omega)⟩)
        · exact Or.inr (Or.inl ⟨.a :: v, by simp, by simpa [okW, step] using a, leW_cons b (by omega) (by omega) (by omega) (by omega)⟩)

/-- the state after the first letters, and the exponent of `x`, for a term with `q^d` -/
def frontQ : L3 → L3 → ℕ → Option (St × ℕ)
  | .o, .o, 0 => some (.z, 0)
  | .o, .o, 1 => some (.lr, 1)
  | .o, .a, 0 => some (.l, 0)
  | .o, .b, 1 => some (.l, 0)
  | .a, .o, 1 => some (.r, 0)
  | .a, .a, 0 => some (.z, 0)
  | .a, .b, 2 => some (.lr, 0)
  | .b, .o, 0 => some (.r, 0)
  | .b, .a, 0 => some (.lr, 0)
  | .b, .b, 0 => some (.z, 0)
  | _, _, _ => none

/-- there is a term with `q^d` -/
def okQ (d : ℕ) : List L3 → List L3 → Prop
  | p :: u, q :: w => ∃ s i, frontQ p q d = some (s, i) ∧ okW s u w
  | _, _ => False

theorem okQ_dual {d : ℕ} {u w : List L3} (h : okQ d u w) : okQ d (dualW w) (dualW u) := by
  cases u with
  | nil => simp [okQ] at h
  | cons p u =>
    cases w with
    | nil => simp [okQ] at h
    | cons q w =>
      obtain ⟨s, i, h1, h2⟩ := h
      refine ⟨s.dual, i, ?_, okW_dual h2⟩
      rcases d with _ | _ | _ | d <;> cases p <;> cases q <;> simp only [frontQ, Option.some.injEq, Prod.mk.injEq, reduceCtorEq] at h1 <;>
        obtain ⟨rfl, rfl⟩ := h1 <;> rfl

theorem okQ_le {d : ℕ} {u w : List L3} (h : okQ d u w) : leO d u w := by
  cases u with
  | nil => simp [okQ] at h
  | cons p u =>
    cases w with
    | nil => simp [okQ] at h
    | cons q w =>
      obtain ⟨s, i, h1, h2⟩ := h
      have h3 := okW_le h2
      rcases d with _ | _ | _ | d <;> cases p <;> cases q <;> simp only [frontQ, Option.some.injEq, Prod.mk.injEq, reduceCtorEq] at h1 <;>
        obtain ⟨rfl, rfl⟩ := h1 <;>
        exact ⟨leW_cons h3 (by simp) (by simp) (by simp [L3.isA, St.dA]) (by simp [L3.isB, St.dB]), by simp [badW, Nat.odd_iff]⟩

/-- a step from a word -/
def LowS (d : ℕ) (u w : List L3) : Prop :=
  (∃ v, v ≠ u ∧ okW .z u v ∧ leO d v w) ∨ ∃ a v, 1 ≤ a ∧ a ≤ d ∧ okQ a u v ∧ leO (d - a) v w

theorem notBad_o {d : ℕ} (hd : Odd d) {p q : L3} {u w : List L3} (h : p = .o ∨ q = .o) : ¬ badW d (p :: u) (q :: w) := by
  rintro (h0 | ⟨h1, h2, _⟩)
  · have : d = 0 := by exact_mod_cast h0
    subst this
    exact absurd hd (by decide)
  · rcases h with h | h
    · exact h1 h
    · exact h2 h

theorem lowS_b {d : ℕ} {u w : List L3} (h : leW d d (.b :: u) (.o :: w)) (hd : 1 ≤ d) (hc : 1 ≤ colsW 0 u) : LowS d (.b :: u) (.o :: w) := by
  have h3 : leW d (d + 1) u w := by
    have := h.2.2
    simpa [L3.isA, L3.isB] using this
  rcases walk_lr' h3 (by omega) (by omega) with ⟨v, n, a, b⟩ | ⟨v, n, a, b⟩ | ⟨u', rfl⟩ | hb
  · exact Or.inl ⟨.b :: v, by simpa using n, by simpa [okW, step] using a,
      leW_cons b (by omega) (by omega) (by simp [L3.isA]) (by simp [L3.isB]), fun ho => notBad_o ho (Or.inr rfl)⟩
  · exact Or.inl ⟨.a :: v, by simp, by simpa [okW, step] using a,
      leW_cons b (by omega) (by omega) (by simp [L3.isA]) (by simp [L3.isB]), fun ho => notBad_o ho (Or.inr rfl)⟩
  · have hl := leW_len h3
    cases w with
    | nil => simp at hl
    | cons r w =>
      refine Or.inl ⟨.o :: .b :: u', by simp, by simpa [okW, step] using okW_refl u', ?_, fun ho => notBad_o ho (Or.inr rfl)⟩
      have hrb : r.isB ≤ 1 := by cases r <;> simp [L3.isB]
      refine leW_cons (leW_cons (d := d) (e := d) h3.2.2 (by omega) (by omega) (by simp [L3.isA]) (by simp [L3.isB])) (by omega) (by omega)
        (by simp [L3.isA]) (by simp [L3.isB])
  · exfalso
    have : ∀ w : List L3, (∀ p ∈ w, p = .b) → colsW 0 w = 0 := by
      intro w
      induction w with
      | nil => intro _; rfl
      | cons q w ihw =>
        intro hw
        obtain rfl := hw q (by simp)
        exact ihw (fun p hp => hw p (by simp [hp]))
    have := this _ hb
    omega

theorem lowS_a {d : ℕ} {u w : List L3} (h : leW d d (.a :: u) (.o :: w)) (hd : 1 ≤ d) : LowS d (.a :: u) (.o :: w) := by
  have h3 : leW (d - 1) d u w := by
    have := h.2.2
    simpa [L3.isA, L3.isB] using this
  have e1 : ((d - 1 : ℕ) : ℤ) = d - 1 := by omega
  rcases walk_r h3 (by omega) with ⟨v, a, b⟩ | ⟨v, n, a, b⟩ | ⟨c, v, a, b⟩
  · refine Or.inr ⟨1, .o :: v, le_rfl, hd, ⟨.r, 0, rfl, a⟩, ?_, fun ho => notBad_o ho (Or.inr rfl)⟩
    rw [e1]
    exact leW_cons b (by omega) (by omega) (by simp [L3.isA]) (by simp [L3.isB])
  · exact Or.inl ⟨.a :: v, by simpa using n, by simpa [okW, step] using a,
      leW_cons b (by omega) (by omega) (by simp [L3.isA]) (by simp [L3.isB]), fun ho => notBad_o ho (Or.inr rfl)⟩
  · refine Or.inr ⟨2, .b :: v, by omega, by omega, ⟨.lr, 0, rfl, a⟩, ?_, fun ho => notBad_o ho (Or.inr rfl)⟩
    rw [show ((d - 2 : ℕ) : ℤ) = d - 2 by omega]
    exact leW_cons b (by omega) (by omega) (by simp [L3.isA]; ring) (by simp [L3.isB]; ring)

/-- the steps for first letters that are not `o` -/
theorem lowS_of {d : ℕ} {p q : L3} {u w : List L3} (hd : 1 ≤ d) (hp : p ≠ .o) (hq : q ≠ .o)
    (h : Low (Odd d) (d + q.isA - p.isA) u w) : LowS d (p :: u) (q :: w) := by
  have hodd : Odd (d - 2) → 2 ≤ d → Odd d := fun h h2 => by rw [Nat.odd_iff] at h ⊢; omega
  rcases h with ⟨v, n, a, b, g⟩ | ⟨v, a, b, g⟩ | ⟨v, a, b⟩
  · refine Or.inl ⟨p :: v, by simpa using n, by cases p <;> simpa [okW, step] using a, leW_cons b (by omega) (by omega) rfl ?_, fun ho hb => ?_⟩
    · cases p <;> cases q <;> simp_all [L3.isA, L3.isB]
    · rcases hb with hb | ⟨_, _, hb⟩
      · omega
      · exact g ho hb
  · have hD := leW_d b
    cases p
    · exact absurd rfl hp
    · have h2 : 2 ≤ d := by
        by_contra h2
        obtain rfl : d = 1 := by omega
        cases q
        · exact absurd rfl hq
        · simp [L3.isA] at b g
          exact g (badW_zero (leW_len b))
        · simp [L3.isA] at hD
      refine Or.inr ⟨2, .b :: v, by omega, h2, ⟨.lr, 0, rfl, a⟩, ?_, fun ho hb => g (hodd ho h2) ?_⟩
      · rw [show ((d - 2 : ℕ) : ℤ) = d - 2 by omega]
        refine leW_cons b (by omega) (by omega) (by simp [L3.isA]; ring) ?_
        cases q <;> simp_all [L3.isA, L3.isB] <;> ring
      · rw [show ((d - 2 : ℕ) : ℤ) = d - 2 by omega] at hb
        rcases hb with hb | ⟨_, _, hb⟩
        · rw [Nat.odd_iff] at ho
          omega
        · convert hb using 1
          simp [L3.isA]
          ring
    · refine Or.inl ⟨.a :: v, by simp, by simpa [okW, step] using a, leW_cons b (by omega) (by omega) (by simp [L3.isA]) ?_, fun ho hb => g ho ?_⟩
      · cases q <;> simp_all [L3.isA, L3.isB]
      · rcases hb with hb | ⟨_, _, hb⟩
        · omega
        · convert hb using 1
          simp [L3.isA]
  · have hD := leW_e b
    cases p
    · exact absurd rfl hp
    · refine Or.inr ⟨1, .o :: v, le_rfl, hd, ⟨.r, 0, rfl, a⟩, ?_, fun ho => notBad_o ho (Or.inl rfl)⟩
      rw [show ((d - 1 : ℕ) : ℤ) = d - 1 by omega]
      refine leW_cons b (by omega) (by omega) (by simp [L3.isA]; ring) ?_
      cases q <;> simp_all [L3.isA, L3.isB] <;> ring
    · refine Or.inl ⟨.o :: v, by simp, by simpa [okW, step] using a, leW_cons b (by omega) (by omega) (by simp [L3.isA]) ?_,
        fun ho => notBad_o ho (Or.inl rfl)⟩
      cases q <;> simp_all [L3.isA, L3.isB]

/-- **Between two words with a power of `q` there is a step, at the lower or at the upper end.** -/
theorem lowS_step {d : ℕ} {u w : List L3} (h : leO d u w) (hd : 1 ≤ d) (hc : 1 ≤ colsW 0 u) :
    LowS d u w ∨ LowS d (dualW w) (dualW u) ∨ leW 0 0 u w := by
  obtain ⟨h, hb⟩ := h
  have hl := leW_len h
  have hcw : colsW 0 w = colsW 0 u := by have := leW_cols h; omega
  cases u with
  | nil => simp [colsW] at hc
  | cons p u =>
    cases w with
    | nil => simp at hl
    | cons q w =>
      have dd : ∀ (p : L3) (u : List L3), dualW (p :: u) = p.dual :: dualW u := fun _ _ => rfl
      have f1 : ∀ d : ℤ, d + L3.o.isA - L3.o.isA = d := fun d => by ring
      have f2 : ∀ d : ℤ, d + L3.o.isB - L3.o.isB = d := fun d => by ring
      have e1 : ((d - 1 : ℕ) : ℤ) = d - 1 := by omega
      by_cases hp : p = .o
      · subst hp
        cases q
        · have h3 := h.2.2
          rw [f1, f2] at h3
          rcases walk_stepQ h3 (by omega) with ⟨v, n, a, b⟩ | ⟨v, n, a, b⟩ | ⟨v, n, a, b⟩ | ⟨v, n, a, b⟩ | h4
          · exact Or.inl (Or.inl ⟨.o :: v, by simpa using n, by simpa [okW, step] using a, leW_cons b (by omega) (by omega) (f1 _) (f2 _),
              fun ho => notBad_o ho (Or.inl rfl)⟩)
          · exact Or.inl (Or.inr ⟨1, .o :: v, le_rfl, hd, ⟨.lr, 1, rfl, a⟩, by rw [e1]; exact leW_cons b (by omega) (by omega) (f1 _) (f2 _),
              fun ho => notBad_o ho (Or.inl rfl)⟩)
          · have a' := okW_dual a
            have b' := leW_dual b
            refine Or.inr (Or.inl (Or.inl ⟨.o :: dualW v, ?_, a',
              leW_cons b' (by omega) (by omega) (f1 _) (f2 _), fun ho => notBad_o ho (Or.inl rfl)⟩))
            rw [dd]
            intro e
            have := (List.cons.inj e).2
            exact n (by rw [← dualW_dualW v, this, dualW_dualW])
          · have a' := okW_dual a
            have b' := leW_dual b
            exact Or.inr (Or.inl (Or.inr ⟨1, .o :: dualW v, le_rfl, hd, ⟨.lr, 1, rfl, a'⟩,
              by rw [e1]; exact leW_cons b' (by omega) (by omega) (f1 _) (f2 _), fun ho => notBad_o ho (Or.inl rfl)⟩))
          · exact Or.inr (Or.inr (leW_cons h4 le_rfl le_rfl (f1 _) (f2 _)))
        · refine Or.inr (Or.inl (lowS_b (u := dualW w) (w := dualW u) (leW_dual h) hd ?_))
          rw [colsW_dual]
          simp only [colsW] at hcw
          omega
        · exact Or.inr (Or.inl (lowS_a (u := dualW w) (w := dualW u) (leW_dual h) hd))
      · have hc' : 1 ≤ colsW 0 u := by cases p <;> simp_all [colsW]
        by_cases hq : q = .o
        · subst hq
          cases p
          · exact absurd rfl hp
          · exact Or.inl (lowS_a h hd)
          · exact Or.inl (lowS_b h hd hc')
        · have h3 := h.2.2
          rw [show (d : ℤ) + p.isB - q.isB = d + q.isA - p.isA by cases p <;> cases q <;> simp_all [L3.isA, L3.isB]] at h3
          have g3 : Odd d → ¬ badW (d + q.isA - p.isA) u w := fun ho h0 => hb ho (Or.inr ⟨hp, hq, h0⟩)
          by_cases hD : 1 ≤ (d : ℤ) + q.isA - p.isA
          · rcases low_step h3 hD g3 hc' with h4 | h4
            · exact Or.inl (lowS_of hd hp hq h4)
            · refine Or.inr (Or.inl (lowS_of (p := q.dual) (q := p.dual) hd (by cases q <;> simp_all [L3.dual]) (by cases p <;> simp_all [L3.dual]) ?_))
              rwa [show (d : ℤ) + p.dual.isA - q.dual.isA = d + q.isA - p.isA by cases p <;> cases q <;> simp_all [L3.isA, L3.dual]]
          · exfalso
            have h0 := leW_d h3
            have hz : (d : ℤ) + q.isA - p.isA = 0 := by omega
            have hq1 : 0 ≤ q.isA := by cases q <;> simp [L3.isA]
            have hp1 : p.isA ≤ 1 := by cases p <;> simp [L3.isA]
            obtain rfl : d = 1 := by omega
            rw [hz] at g3 h3
            exact g3 (by decide) (badW_zero (leW_len h3))

/-! ### The coefficients of the operators -/

theorem wt_not {R : Type*} [CommRing R] (c x : R) {u : List L3} : ∀ {w : List L3} {s : St}, ¬ okW s u w → wt c x s u w = 0 := by
  induction u with
  | nil =>
    intro w s h
    cases w with
    | nil => cases s <;> simp_all [okW, wt, endW]
    | cons q w => simp [wt]
  | cons p u ih =>
    intro w s h
    cases w with
    | nil => simp [wt]
    | cons q w =>
      simp only [wt, okW] at h ⊢
      rcases hs : step s p q with _ | ⟨t, i, j⟩
      · rfl
      · simp only [hs] at h
        simp only [ih h, mul_zero]

open Polynomial in
theorem wtN {u w : List L3} {s : St} (h : okW s u w) : ∃ (N : ℕ) (r : ℚ) (t : St) (i j : ℕ), 0 < r ∧ runW s u w = some (t, i, j) ∧ (t = .z ∨ t = .lr) ∧
    (N : ℤ) = j + t.dA ∧ wt (2 : ℚ[X]) X s u w = C r * X ^ N := by
  obtain ⟨t, i, j, hr, ht⟩ := okW_run h
  have two : ∀ c : ℕ, (2 : ℚ[X]) ^ c = C (2 ^ c) := fun c => by rw [C_pow, C_ofNat]
  rcases ht with rfl | rfl
  · refine ⟨j, 2 ^ i, .z, i, j, by positivity, hr, Or.inl rfl, by simp [St.dA], ?_⟩
    rw [wt_run, hr]
    simp only [endW, mul_one, two]
  · refine ⟨j + 1, 2 ^ (i + 1), .lr, i, j, by positivity, hr, Or.inr rfl, by simp [St.dA], ?_⟩
    rw [wt_run, hr, ← two]
    simp only [endW]
    ring

open Polynomial in
theorem MQB_front {k : ℕ} (hk : k ≠ 0) (p : ℕ) (x y : L3) (u w : List L3) (d : ℕ) : (MQB k p (x :: u) (y :: w)).coeff d =
    match frontQ x y d with
    | some (s, i) => scB k p * (X ^ i * wt (2 : ℚ[X]) X s u w).coeff p
    | none => 0 := by
  have hw : ∀ s, wt (C 2) (X : (ℚ[X])[X]) s u w = (wt (2 : ℚ[X]) X s u w).map C := by
    intro s
    have := wt_map (mapRingHom (C : ℚ →+* ℚ[X])) (2 : ℚ[X]) X s u w
    simp only [coe_mapRingHom, map_X, Polynomial.map_ofNat] at this
    rw [this, C_ofNat]
  have hx : ∀ P : ℚ[X], (X : (ℚ[X])[X]) * P.map C = (X * P).map C := fun P => by rw [Polynomial.map_mul, map_X]
  unfold MQB
  rw [coeff_C_mul, if_neg hk]
  cases x <;> cases y <;> simp only [opQ, hw, hx, coeff_add, coeff_C_mul, coeff_map] <;> rcases d with _ | _ | _ | d <;>
    simp [frontQ, coeff_C, coeff_X, coeff_X_pow]

/-- the relation of the classes -/
def leB (n k : ℕ) (d : ℕ) (l nu : List Int) : Prop := ∃ u ∈ Wd n k, ∃ w ∈ Wd n k, labW u = l ∧ labW w = nu ∧ leO d u w

theorem leB_labW {n k d : ℕ} {u w : List L3} (hu : u ∈ Wd n k) (hw : w ∈ Wd n k) : leB n k d (labW u) (labW w) ↔ leO d u w := by
  constructor
  · rintro ⟨u', hu', w', hw', e1, e2, h⟩
    rwa [Wd_inj u' hu' u hu e1, Wd_inj w' hw' w hw e2] at h
  · intro h
    exact ⟨u, hu, w, hw, rfl, rfl, h⟩

theorem leB_trans {n k : ℕ} (d e : ℕ) (a b c : List Int) (h1 : leB n k d a b) (h2 : leB n k e b c) : leB n k (d + e) a c := by
  obtain ⟨u, hu, v, hv, rfl, rfl, h⟩ := h1
  obtain ⟨v', hv', w, hw, e, rfl, h'⟩ := h2
  obtain rfl := Wd_inj v' hv' v hv e
  exact ⟨u, hu, w, hw, rfl, rfl, leO_trans h h'⟩

theorem leB_refl {n k : ℕ} (hk : k ≤ n) (l : List Int) (hl : clsBC n k l) : leB n k 0 l l := by
  obtain ⟨u, hu, rfl⟩ := (Wd_cls hk l).1 hl
  exact ⟨u, hu, u, hu, rfl, rfl, leO_refl u⟩

theorem leB_mono {n k : ℕ} (d e : ℕ) (a b : List Int) (h : leB n k d a b) : leB n k (d + e) a b := by
  obtain ⟨u, hu, w, hw, rfl, rfl, h⟩ := h
  exact ⟨u, hu, w, hw, rfl, rfl, leO_mono h⟩

section
variable {n k : ℕ} (hk : k ≤ n) (hk0 : k ≠ 0) {pieri : Int → List Int → Except PyErr Poly} {K : ℤ}
  (Y : GiamSys K pieri (stdSpc (n + k)) (clsBC n k)) (hY : ∀ p, Y.t p = tM (Wd n k) labW (MQB k) p.toNat)
include hk hk0 hY

theorem upQO {p : ℤ} {l m : List Int} (hl : clsBC n k l) {d : ℕ} (h : (Y.t p l m).coeff d ≠ 0) : leB n k d l m := by
  obtain ⟨u, hu, rfl⟩ := (Wd_cls hk l).1 hl
  obtain ⟨w, hw, rfl⟩ := (Wd_cls hk m).1 (Y.closed p _ m (Finsupp.mem_support_iff.2 (fun h0 => h (by rw [h0, Polynomial.coeff_zero]))))
  rw [hY, tM_apply _ Wd_inj _ hu hw] at h
  rw [leB_labW hu hw]
  have m1 := mem_Wd.1 hu
  have m2 := mem_Wd.1 hw
  cases u with
  | nil => simp at m1; omega
  | cons x u =>
    cases w with
    | nil => simp at m2; omega
    | cons y w =>
      rw [MQB_front hk0] at h
      rcases hf : frontQ x y d with _ | ⟨s, i⟩
      · simp [hf] at h
      · simp only [hf] at h
        refine okQ_le ⟨s, i, hf, ?_⟩
        by_contra hn
        rw [wt_not _ _ hn, mul_zero, Polynomial.coeff_zero, mul_zero] at h
        exact h rfl

theorem posQO {p : ℤ} {l : List Int} (hl : clsBC n k l) : PosQ (Y.t p l) := by
  intro m d
  by_cases h : (Y.t p l m).coeff d = 0
  · rw [h]
  obtain ⟨u, hu, rfl⟩ := (Wd_cls hk l).1 hl
  obtain ⟨w, hw, rfl⟩ := (Wd_cls hk m).1 (Y.closed p _ m (Finsupp.mem_support_iff.2 (fun h0 => h (by rw [h0, Polynomial.coeff_zero]))))
  rw [hY, tM_apply _ Wd_inj _ hu hw]
  have m1 := mem_Wd.1 hu
  have m2 := mem_Wd.1 hw
  have hsc : 0 ≤ scB k p.toNat := by unfold scB; split <;> norm_num
  cases u with
  | nil => simp at m1; omega
  | cons x u =>
    cases w with
    | nil => simp at m2; omega
    | cons y w =>
      rw [MQB_front hk0]
      split
      · rename_i s i _
        refine mul_nonneg hsc ?_
        by_cases ho : okW s u w
        · obtain ⟨N, r, _, _, _, hr, _, _, _, e⟩ := wtN ho
          rw [e, mul_left_comm, ← pow_add, Polynomial.coeff_C_mul, Polynomial.coeff_X_pow]
          split
          · rw [mul_one]; exact hr.le
          · rw [mul_zero]
        · rw [wt_not _ _ ho, mul_zero, Polynomial.coeff_zero]
      · exact le_rfl

theorem okQO {u w : List L3} (hu : u ∈ Wd n k) (hw : w ∈ Wd n k) (hne : u ≠ w) (h : okW .z u w) :
    ∃ p, stdSpc (n + k) p ∧ (labW u).sum < (labW w).sum ∧ (Y.t p (labW u) (labW w)).coeff 0 ≠ 0 := by
  obtain ⟨N, h1, h2, h3, h4⟩ := okW_sum hk hu hw h hne
  refine ⟨N, ⟨by omega, by push_cast; omega⟩, by omega, ?_⟩
  rw [hY, tM_apply _ Wd_inj _ hu hw, MQB_coeff _ hu hw, if_pos rfl, if_neg (by decide), if_neg (by unfold qexp; split <;> decide), add_zero, add_zero,
    Int.toNat_natCast]
  refine mul_ne_zero (scB_ne _ _) ?_
  unfold gcf
  rw [if_pos ⟨h3, h4⟩]
  positivity

theorem okQO1 {u w : List L3} (hu : u ∈ Wd n k) (hw : w ∈ Wd n k) {d : ℕ} (hd : 1 ≤ d) (h : okQ d u w) :
    ∃ p, stdSpc (n + k) p ∧ (Y.t p (labW u) (labW w)).coeff d ≠ 0 := by
  have m1 := mem_Wd.1 hu
  have m2 := mem_Wd.1 hw
  cases u with
  | nil => simp [okQ] at h
  | cons x u =>
    cases w with
    | nil => simp [okQ] at h
    | cons y w =>
      obtain ⟨s, i, hf, ho⟩ := h
      obtain ⟨N, r, t, a, b, hr, hrun, ht, hN, e⟩ := wtN ho
      have hlen : u.length = w.length := by simp only [List.length_cons] at m1 m2; omega
      have hsz : s ≠ .z := by
        rcases d with _ | _ | _ | d <;> cases x <;> cases y <;> simp [frontQ] at hf hd <;> rw [← hf.1] <;> simp
      have hN0 : N ≠ 0 := by
        rintro rfl
        have h1 := wt_zero (2 : ℚ) u w s hlen
        rw [if_neg (fun h => hsz h.1), Polynomial.C_ofNat, e] at h1
        simp at h1
        exact hr.ne' h1
      have hb : i + N ≤ n + k := by
        simp only [List.length_cons] at m1 m2
        rcases d with _ | _ | _ | d <;> cases x <;> cases y <;> simp only [frontQ, Option.some.injEq, Prod.mk.injEq, reduceCtorEq] at hf <;>
          first | omega | skip
        all_goals
          obtain ⟨rfl, rfl⟩ := hf
          simp only [colsW] at m1 m2
          have hb := (runW_bound hrun ht (by simp [St.dA, St.dB]; omega)).1
          simp at hb
          omega
      refine ⟨((i + N : ℕ) : ℤ), ⟨by push_cast; omega, by push_cast; omega⟩, ?_⟩
      rw [hY, tM_apply _ Wd_inj _ hu hw, MQB_front hk0, hf, Int.toNat_natCast]
      refine mul_ne_zero (scB_ne _ _) ?_
      rw [e, mul_left_comm, ← pow_add, Polynomial.coeff_C_mul, Polynomial.coeff_X_pow, if_pos rfl, mul_one]
      exact hr.ne'

theorem stepQO (d : ℕ) (l nu : List Int) (hl : clsBC n k l) (hn : clsBC n k nu) (h : leB n k d l nu) (hne : l ≠ nu) :
    (∃ p m a e, stdSpc (n + k) p ∧ clsBC n k m ∧ a + e ≤ d ∧ (a = 0 → l.sum < m.sum) ∧ (Y.t p l m).coeff a ≠ 0 ∧ leB n k e m nu) ∨
      ∃ p m a e, stdSpc (n + k) p ∧ clsBC n k m ∧ a + e ≤ d ∧ (a = 0 → m.sum < nu.sum) ∧ (Y.t p m nu).coeff a ≠ 0 ∧ leB n k e l m := by
  obtain ⟨u, hu, rfl⟩ := (Wd_cls hk l).1 hl
  obtain ⟨w, hw, rfl⟩ := (Wd_cls hk nu).1 hn
  rw [leB_labW hu hw] at h
  have m1 := mem_Wd.1 hu
  have m2 := mem_Wd.1 hw
  have inl : ∀ {v : List L3} {e : ℕ}, leO e v w → v ∈ Wd n k := by
    intro v e h3
    have := leW_len h3.1
    have := leW_cols h3.1
    rw [mem_Wd]
    omega
  have inr : ∀ {v : List L3} {e : ℕ}, leO e u v → v ∈ Wd n k := by
    intro v e h3
    have := leW_len h3.1
    have := leW_cols h3.1
    rw [mem_Wd]
    omega
  have lo : LowS d u w →
      ∃ p m a e, stdSpc (n + k) p ∧ clsBC n k m ∧ a + e ≤ d ∧ (a = 0 → (labW u).sum < m.sum) ∧ (Y.t p (labW u) m).coeff a ≠ 0 ∧
        leB n k e m (labW w) := fun hh => by
    rcases hh with ⟨v, n1, a, b⟩ | ⟨a, v, a1, a2, a3, b⟩
    · have hv := inl b
      obtain ⟨p, f1, f2, f3⟩ := okQO hk hk0 Y hY hu hv (Ne.symm n1) a
      exact ⟨p, labW v, 0, d, f1, (Wd_cls hk _).2 ⟨v, hv, rfl⟩, by omega, fun _ => f2, f3, (leB_labW hv hw).2 b⟩
    · have hv := inl b
      obtain ⟨p, f1, f3⟩ := okQO1 hk hk0 Y hY hu hv a1 a3
      exact ⟨p, labW v, a, d - a, f1, (Wd_cls hk _).2 ⟨v, hv, rfl⟩, by omega, by omega, f3, (leB_labW hv hw).2 b⟩
  have hi : LowS d (dualW w) (dualW u) →
      ∃ p m a e, stdSpc (n + k) p ∧ clsBC n k m ∧ a + e ≤ d ∧ (a = 0 → m.sum < (labW w).sum) ∧ (Y.t p m (labW w)).coeff a ≠ 0 ∧
        leB n k e (labW u) m := fun hh => by
    rcases hh with ⟨v, n1, a, b⟩ | ⟨a, v, a1, a2, a3, b⟩
    · have b' := leO_dual b
      have a' := okW_dual a
      rw [dualW_dualW] at b' a'
      have hv := inr b'
      obtain ⟨p, f1, f2, f3⟩ := okQO hk hk0 Y hY hv hw (fun e => n1 (by rw [← e, dualW_dualW])) a'
      exact ⟨p, _, 0, d, f1, (Wd_cls hk _).2 ⟨_, hv, rfl⟩, by omega, fun _ => f2, f3, (leB_labW hu hv).2 b'⟩
    · have b' := leO_dual b
      have a' := okQ_dual a3
      rw [dualW_dualW] at b' a'
      have hv := inr b'
      obtain ⟨p, f1, f3⟩ := okQO1 hk hk0 Y hY hv hw a1 a'
      exact ⟨p, _, a, d - a, f1, (Wd_cls hk _).2 ⟨_, hv, rfl⟩, by omega, by omega, f3, (leB_labW hu hv).2 b'⟩
  have fin : leW 0 0 u w → (∃ p m a e, stdSpc (n + k) p ∧ clsBC n k m ∧ a + e ≤ d ∧ (a = 0 → (labW u).sum < m.sum) ∧ (Y.t p (labW u) m).coeff a ≠ 0 ∧
      leB n k e m (labW w)) ∨ ∃ p m a e, stdSpc (n + k) p ∧ clsBC n k m ∧ a + e ≤ d ∧ (a = 0 → m.sum < (labW w).sum) ∧
        (Y.t p m (labW w)).coeff a ≠ 0 ∧ leB n k e (labW u) m := fun h0 => by
    rcases walk_step h0 (fun e => hne (by rw [e])) with ⟨v, n1, a, b⟩ | ⟨v, n1, a, b⟩
    · exact Or.inl (lo (Or.inl ⟨v, n1, a, leO_zero b d⟩))
    · have hv := inr (leO_zero b d)
      obtain ⟨p, f1, f2, f3⟩ := okQO hk hk0 Y hY hv hw n1 a
      exact Or.inr ⟨p, labW v, 0, d, f1, (Wd_cls hk _).2 ⟨v, hv, rfl⟩, by omega, fun _ => f2, f3, (leB_labW hu hv).2 (leO_zero b d)⟩
  rcases Nat.eq_zero_or_pos d with rfl | hd
  · exact fin h.1
  · rcases lowS_step h hd (by omega) with h1 | h1 | h1
    · exact Or.inl (lo h1)
    · exact Or.inr (hi h1)
    · exact fin h1

end

/-! ### The order in terms of the parts -/

/-- the number of parts larger than `t` -/
def Spec.rowsAbove (t : Int) (l : List Int) : ℕ := (l.filter (fun x => decide (t < x))).length

/-- for some bound `t` the parts of a class and of its dual above `t` are as many as possible, for both classes, and the classes differ by exactly `d`
such parts -/
def Spec.clashQ (N k : Int) (d : ℕ) (l l' nu nu' : List Int) : Prop :=
  ∃ t, k ≤ t ∧ t ≤ N ∧ rowsAbove t l + rowsAbove t l' + t = N ∧ rowsAbove t nu + rowsAbove t nu' + t = N ∧ rowsAbove t l = d + rowsAbove t nu

theorem rowsAbove_eq {t : Int} (ht : 0 ≤ t) {l : List Int} : ∀ {A : ℕ}, (∀ i, t < part l i ↔ i < A) → rowsAbove t l = A := by
  induction l with
  | nil =>
    intro A h
    have := (h 0).not.1 (by rw [part_of_ge (by simp)]; omega)
    simp [rowsAbove]
    omega
  | cons x l ih =>
    intro A h
    have h0 := h 0
    have hx : part (x :: l) 0 = x := rfl
    rw [hx] at h0
    have hs : ∀ i, t < part l i ↔ i + 1 < A := fun i => h (i + 1)
    unfold rowsAbove at ih ⊢
    cases A with
    | zero =>
      rw [List.filter_cons_of_neg (by simpa using h0)]
      exact ih (fun i => by rw [hs i]; omega)
    | succ A =>
      rw [List.filter_cons_of_pos (by simpa using h0), List.length_cons, ih (A := A) (fun i => by rw [hs i]; omega)]

theorem rowsAbove_labW {n k : ℕ} {u : List L3} (hu : u ∈ Wd n k) (v : ℕ) : rowsAbove ((k : Int) + v) (labW u) = alW u v := by
  have c1 := (coded_labW u).hex
  rw [(mem_Wd.1 hu).2] at c1
  refine rowsAbove_eq (by omega) (fun i => ?_)
  rw [← c1 i v]
  unfold ex
  omega

theorem alW_dual_le {u : List L3} {v : ℕ} (hv : v ≤ u.length) : alW u v + alW (dualW u) v + v ≤ u.length := by
  induction u with
  | nil =>
    obtain rfl : v = 0 := by simpa using hv
    exact le_rfl
  | cons p u ih =>
    rcases Nat.lt_or_ge u.length v with h | h
    · rw [alW_top (u := p :: u) (by simp; omega), alW_top (u := dualW (p :: u)) (by simp; omega)]
      simp at hv ⊢
      omega
    · rw [show dualW (p :: u) = p.dual :: dualW u from rfl, alW_le p h, alW_le p.dual (by simpa using h)]
      have := ih h
      cases p <;> simp [L3.dual] <;> omega

theorem badW_iff {u : List L3} : ∀ {w : List L3} {d : ℤ}, u.length = w.length → (badW d u w ↔ ∃ v ≤ u.length,
    alW u v + alW (dualW u) v + v = u.length ∧ alW w v + alW (dualW w) v + v = u.length ∧ (alW u v : ℤ) = d + alW w v) := by
  induction u with
  | nil =>
    intro w d hl
    obtain rfl : w = [] := List.length_eq_zero_iff.1 (by simpa using hl.symm)
    simp only [badW]
    constructor
    · rintro rfl
      exact ⟨0, le_rfl, rfl, rfl, by simp⟩
    · rintro ⟨v, _, _, _, h⟩
      omega
  | cons p u ih =>
    intro w d hl
    cases w with
    | nil => simp at hl
    | cons q w =>
      have hl' : u.length = w.length := by simpa using hl
      have dd : ∀ (p : L3) (u : List L3), dualW (p :: u) = p.dual :: dualW u := fun _ _ => rfl
      simp only [badW]
      rw [ih hl']
      constructor
      · rintro (h | ⟨h1, h2, v, hv, e1, e2, e3⟩)
        · refine ⟨u.length + 1, by simp, ?_, ?_, ?_⟩
          · rw [alW_top (u := p :: u) (by simp), alW_top (u := dualW (p :: u)) (by simp)]; simp
          · rw [alW_top (u := q :: w) (by simp; omega), alW_top (u := dualW (q :: w)) (by simp; omega)]; simp
          · rw [alW_top (u := p :: u) (by simp), alW_top (u := q :: w) (by simp; omega)]
            simp [h]
        · refine ⟨v, by simp; omega, ?_, ?_, ?_⟩
          · rw [dd, alW_le p hv, alW_le p.dual (by simpa using hv)]
            cases p <;> simp_all [L3.dual] <;> omega
          · rw [dd, alW_le q (by omega), alW_le q.dual (by simp; omega)]
            cases q <;> simp_all [L3.dual] <;> omega
          · rw [alW_le p hv, alW_le q (by omega)]
            cases p <;> cases q <;> simp_all [L3.isA] <;> omega
      · rintro ⟨v, hv, e1, e2, e3⟩
        rcases Nat.lt_or_ge u.length v with h | h
        · rw [alW_top (u := p :: u) (by simp; omega), alW_top (u := q :: w) (by simp; omega)] at e3
          left
          simpa using e3.symm
        · right
          have g1 := alW_dual_le h
          have g2 := alW_dual_le (u := w) (v := v) (by omega)
          rw [dd, alW_le p h, alW_le p.dual (by simpa using h), List.length_cons] at e1
          rw [dd, alW_le q (by omega), alW_le q.dual (by simp; omega), List.length_cons] at e2
          rw [alW_le p h, alW_le q (by omega)] at e3
          have hp : p ≠ .o := by rintro rfl; simp [L3.dual] at e1; omega
          have hq : q ≠ .o := by rintro rfl; simp [L3.dual] at e2; omega
          refine ⟨hp, hq, v, h, ?_, ?_, ?_⟩
          · cases p <;> simp_all [L3.dual] <;> omega
          · cases q <;> simp_all [L3.dual] <;> omega
          · cases p <;> cases q <;> simp_all [L3.isA] <;> omega

theorem leB_iff {n k d : ℕ} (hk : k ≤ n) {l nu : List Int} (hl : clsBC n k l) (hn : clsBC n k nu) :
    leB n k d l nu ↔ topLeQ d k l nu ∧ topLeQ d k (dlBC n k nu) (dlBC n k l) ∧
      (Odd d → ¬ clashQ (n + k) k d l (dlBC n k l) nu (dlBC n k nu)) := by
  rw [← and_assoc, ← leC_iff hk hl hn]
  obtain ⟨u, hu, rfl⟩ := (Wd_cls hk l).1 hl
  obtain ⟨w, hw, rfl⟩ := (Wd_cls hk nu).1 hn
  have m1 := mem_Wd.1 hu
  have m2 := mem_Wd.1 hw
  rw [leB_labW hu hw, leC_labW hu hw]
  refine and_congr_right (fun _ => imp_congr_right (fun _ => not_congr ?_))
  rw [badW_iff (by omega), dlBC_labW hk hu, dlBC_labW hk hw]
  constructor
  · rintro ⟨v, hv, e1, e2, e3⟩
    refine ⟨k + v, by omega, by omega, ?_, ?_, ?_⟩ <;>
      simp only [rowsAbove_labW hu, rowsAbove_labW hw, rowsAbove_labW (dualW_mem hu), rowsAbove_labW (dualW_mem hw)] <;> omega
  · rintro ⟨t, ht, ht', e1, e2, e3⟩
    obtain ⟨v, rfl⟩ : ∃ v : ℕ, t = k + v := ⟨(t - k).toNat, by omega⟩
    simp only [rowsAbove_labW hu, rowsAbove_labW hw, rowsAbove_labW (dualW_mem hu), rowsAbove_labW (dualW_mem hw)] at e1 e2 e3
    exact ⟨v, by omega, by omega, by omega, by omega⟩

section
variable {n k : ℕ} (hk : k ≤ n) (hk0 : k ≠ 0) {pieri : Int → List Int → Except PyErr Poly} {K : ℤ}
  (Y : GiamSys K pieri (stdSpc (n + k)) (clsBC n k)) (hY : ∀ p, Y.t p = tM (Wd n k) labW (MQB k) p.toNat)
include hk hk0 hY

/-- **OG(m,2n+1)** for `m < n`: the smallest power of `q` in a quantum product, and the terms with each power. -/
theorem prodQ_O {l mu : List Int} (hl : clsBC n k l) (hm : clsBC n k mu) :
    (∀ d, (∃ e ≤ d, ∃ nu, (Y.prod (Finsupp.single l 1) (Finsupp.single mu 1) nu).coeff e ≠ 0) ↔
      topLeQ d k l (dlBC n k mu) ∧ topLeQ d k mu (dlBC n k l) ∧ (Odd d → ¬ clashQ (n + k) k d l (dlBC n k l) (dlBC n k mu) mu)) ∧
    ∀ d nu, (Y.prod (Finsupp.single l 1) (Finsupp.single mu 1) nu).coeff d ≠ 0 → clsBC n k nu ∧
      (topLeQ d k l nu ∧ topLeQ d k (dlBC n k nu) (dlBC n k l) ∧ (Odd d → ¬ clashQ (n + k) k d l (dlBC n k l) nu (dlBC n k nu))) ∧
      topLeQ d k mu nu ∧ topLeQ d k (dlBC n k nu) (dlBC n k mu) ∧ (Odd d → ¬ clashQ (n + k) k d mu (dlBC n k mu) nu (dlBC n k nu)) := by
  have hup : ∀ p, stdSpc (n + k) p → ∀ l, clsBC n k l → ∀ m d, (Y.t p l m).coeff d ≠ 0 → leB n k d l m :=
    fun p _ l hl m d h => upQO hk hk0 Y hY hl h
  have hmono : ∀ d e a b, clsBC n k a → clsBC n k b → leB n k d a b → leB n k (d + e) a b := fun d e a b _ _ h => leB_mono d e a b h
  refine ⟨fun d => ?_, fun d nu h => ?_⟩
  · rw [Y.prod_leQ (leB_refl hk) leB_trans hmono hup (fun p _ l hl => posQO hk hk0 Y hY hl) (stepQO hk hk0 Y hY)
      (N := (Wd n k).sup (fun u => (labW u).sum.toNat)) ?_ (dlBC n k) (dlBC_cls hk) (dlBC_dlBC hk) ?_ hl hm d,
      leB_iff hk hl (dlBC_cls hk mu hm), dlBC_dlBC hk mu hm]
    · intro l hl
      obtain ⟨u, hu, rfl⟩ := (Wd_cls hk l).1 hl
      have h0 := isPartition_sum_nonneg hl.2.isPart
      have := Finset.le_sup (f := fun u => (labW u).sum.toNat) hu
      omega
    · intro p l nu _ hl hn
      rw [hY]
      exact tM_dual hk _ (MQB_dual k) _ hl hn
  · have hc : clsBC n k nu := Y.prod_support _ (supp_single hm 1) nu (Finsupp.mem_support_iff.2 (fun h0 => h (by rw [h0, Polynomial.coeff_zero])))
    obtain ⟨h1, h2⟩ := Y.support_leQ (leB_refl hk) leB_trans hmono hup hl hm h
    exact ⟨hc, (leB_iff hk hl hc).1 h1, (leB_iff hk hm hc).1 h2⟩

end

end Verif
