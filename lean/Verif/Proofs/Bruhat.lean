import Verif.Proofs.StableBC
import Verif.Proofs.WordDual
/-!
# The order of the words

A word is above another one if it has at least as many letters `a` and at most as many letters `b` among its first `j` letters, for all `j`.
The special classes lead upwards in this order, and every larger word is reached by special classes.
-/

namespace Verif
open Spec

def L3.isA : L3 → ℤ
  | .a => 1
  | _ => 0

def L3.isB : L3 → ℤ
  | .b => 1
  | _ => 0

/-- the order of the words, after prefixes that differ by `d` letters `a` and `e` letters `b` -/
def leW : ℤ → ℤ → List L3 → List L3 → Prop
  | d, e, [], [] => d = e ∧ 0 ≤ d
  | d, e, p :: u, q :: w => 0 ≤ d ∧ 0 ≤ e ∧ leW (d + q.isA - p.isA) (e + p.isB - q.isB) u w
  | _, _, _, _ => False

/-- there is a walk of the transfer matrix -/
def okW : St → List L3 → List L3 → Prop
  | s, [], [] => s = .z ∨ s = .lr
  | s, p :: u, q :: w => match step s p q with
    | some (t, _, _) => okW t u w
    | none => False
  | _, _, _ => False

theorem leW_d {d e : ℤ} {u w : List L3} (h : leW d e u w) : 0 ≤ d := by
  cases u <;> cases w <;> simp [leW] at h <;> omega

theorem leW_e {d e : ℤ} {u w : List L3} (h : leW d e u w) : 0 ≤ e := by
  cases u <;> cases w <;> simp [leW] at h <;> omega

theorem leW_len {d e : ℤ} {u w : List L3} (h : leW d e u w) : u.length = w.length := by
  induction u generalizing d e w with
  | nil => cases w <;> simp_all [leW]
  | cons p u ih =>
    cases w with
    | nil => simp [leW] at h
    | cons q w => simpa using ih h.2.2

theorem leW_cols {d e : ℤ} {u w : List L3} (h : leW d e u w) : d - e = (colsW 0 w : ℤ) - colsW 0 u := by
  induction u generalizing d e w with
  | nil => cases w <;> simp_all [leW, colsW]
  | cons p u ih =>
    cases w with
    | nil => simp [leW] at h
    | cons q w =>
      have := ih h.2.2
      cases p <;> cases q <;> simp [colsW, L3.isA, L3.isB] at this ⊢ <;> omega

theorem leW_refl (u : List L3) : leW 0 0 u u := by
  induction u with
  | nil => simp [leW]
  | cons p u ih =>
    simp only [leW]
    refine ⟨le_rfl, le_rfl, ?_⟩
    simpa using ih

theorem leW_trans {u v w : List L3} : ∀ {d e d' e' : ℤ}, leW d e u v → leW d' e' v w → leW (d + d') (e + e') u w := by
  induction u generalizing v w with
  | nil =>
    intro d e d' e' h1 h2
    cases v <;> cases w <;> simp [leW] at h1 h2 ⊢
    omega
  | cons p u ih =>
    intro d e d' e' h1 h2
    cases v with
    | nil => simp [leW] at h1
    | cons q v =>
      cases w with
      | nil => simp [leW] at h2
      | cons r w =>
        obtain ⟨a1, a2, a3⟩ := h1
        obtain ⟨b1, b2, b3⟩ := h2
        refine ⟨by omega, by omega, ?_⟩
        have := ih a3 b3
        convert this using 1 <;> ring

theorem leW_dual {u w : List L3} : ∀ {d e : ℤ}, leW d e u w → leW e d (dualW w) (dualW u) := by
  induction u generalizing w with
  | nil =>
    intro d e h
    cases w with
    | nil => simp only [leW, dualW, List.map_nil] at h ⊢; omega
    | cons q w => simp [leW] at h
  | cons p u ih =>
    intro d e h
    cases w with
    | nil => simp [leW] at h
    | cons q w =>
      obtain ⟨a1, a2, a3⟩ := h
      have := ih a3
      show 0 ≤ e ∧ 0 ≤ d ∧ leW (e + p.dual.isA - q.dual.isA) (d + q.dual.isB - p.dual.isB) (dualW w) (dualW u)
      refine ⟨a2, a1, ?_⟩
      have e1 : ∀ p : L3, p.dual.isA = p.isB := by intro p; cases p <;> rfl
      have e2 : ∀ p : L3, p.dual.isB = p.isA := by intro p; cases p <;> rfl
      rw [e1, e1, e2, e2]
      exact this

theorem okW_dual {u w : List L3} : ∀ {s : St}, okW s u w → okW s.dual (dualW w) (dualW u) := by
  induction u generalizing w with
  | nil => intro s h; cases w <;> cases s <;> simp_all [okW, dualW, St.dual]
  | cons p u ih =>
    intro s h
    cases w with
    | nil => simp [okW] at h
    | cons q w =>
      have e1 : dualW (p :: u) = p.dual :: dualW u := rfl
      have e2 : dualW (q :: w) = q.dual :: dualW w := rfl
      rw [e1, e2]
      simp only [okW, step_dual] at h ⊢
      rcases hs : step s p q with _ | ⟨t, i, j⟩
      · rw [hs] at h; exact h
      · rw [hs] at h; exact ih h

theorem okW_refl (u : List L3) : okW .z u u := by
  induction u with
  | nil => simp [okW]
  | cons p u ih => cases p <;> simpa [okW, step] using ih

theorem leW_cons {d e d' e' : ℤ} {p q : L3} {u w : List L3} (h : leW d' e' u w) (hd : 0 ≤ d) (he : 0 ≤ e) (h1 : d + q.isA - p.isA = d')
    (h2 : e + p.isB - q.isB = e') : leW d e (p :: u) (q :: w) := by
  subst h1 h2
  exact ⟨hd, he, h⟩

/-- the differences of the prefixes in a state -/
def St.dA : St → ℤ
  | .l => 1
  | .lr => 1
  | _ => 0

def St.dB : St → ℤ
  | .r => 1
  | .lr => 1
  | _ => 0

theorem okW_le {u w : List L3} : ∀ {s : St}, okW s u w → leW s.dA s.dB u w := by
  induction u generalizing w with
  | nil => intro s h; cases w <;> cases s <;> simp_all [okW, leW, St.dA, St.dB]
  | cons p u ih =>
    intro s h
    cases w with
    | nil => simp [okW] at h
    | cons q w =>
      simp only [okW] at h
      cases s <;> cases p <;> cases q <;> simp only [step] at h <;> first
        | exact absurd h id
        | exact ⟨by simp [St.dA], by simp [St.dB], by simpa [St.dA, St.dB, L3.isA, L3.isB] using ih h⟩

/-! ### Every larger word is reached -/

/-- one of the continuations of a walk, keeping below `w` -/
theorem walk_l {u : List L3} : ∀ {d e : ℤ} {w : List L3}, leW d e u w → 1 ≤ d →
    (∃ v, okW .l u v ∧ leW (d - 1) e v w) ∨ (∃ v, v ≠ u ∧ okW .z u v ∧ leW d e v w) ∨
    (1 ≤ e ∧ ∃ v, okW .lr u v ∧ leW (d - 1) (e - 1) v w) ∨ (1 ≤ e ∧ ∃ v, okW .r u v ∧ leW d (e - 1) v w) := by
  induction u with
  | nil =>
    intro d e w h hd
    cases w with
    | cons q w => simp [leW] at h
    | nil =>
      simp only [leW] at h
      exact Or.inr (Or.inr (Or.inl ⟨by omega, [], by simp [okW], by simp only [leW]; omega⟩))
  | cons p u ih =>
    intro d e w h hd
    cases w with
    | nil => simp [leW] at h
    | cons q w =>
      obtain ⟨h1, h2, h3⟩ := h
      have f1 : L3.o.isA = 0 := rfl
      have f2 : L3.o.isB = 0 := rfl
      have f3 : L3.a.isA = 1 := rfl
      have f4 : L3.a.isB = 0 := rfl
      have f5 : L3.b.isA = 0 := rfl
      have f6 : L3.b.isB = 1 := rfl
      have hq : 0 ≤ q.isA := by cases q <;> simp [L3.isA]
      have hqb : 0 ≤ q.isB := by cases q <;> simp [L3.isB]
      cases p
      · have close : 1 ≤ e → ∃ v, okW .r (.o :: u) v ∧ leW d (e - 1) v (q :: w) := fun he =>
          ⟨.b :: u, by simpa [okW, step] using okW_refl u, leW_cons h3 h1 (by omega) (by omega) (by omega)⟩
        rcases ih h3 (by omega) with ⟨v, a, b⟩ | ⟨v, n, a, b⟩ | ⟨c, _⟩ | ⟨c, _⟩
        · exact Or.inr (Or.inl ⟨.a :: v, by simp, by simpa [okW, step] using a,
            leW_cons b h1 h2 (by omega) (by omega)⟩)
        · exact Or.inr (Or.inl ⟨.o :: v, by simpa using n, by simpa [okW, step] using a,
            leW_cons b h1 h2 (by omega) (by omega)⟩)
        · exact Or.inr (Or.inr (Or.inr ⟨by omega, close (by omega)⟩))
        · exact Or.inr (Or.inr (Or.inr ⟨by omega, close (by omega)⟩))
      · exact Or.inl ⟨.o :: u, by simpa [okW, step] using okW_refl u,
          leW_cons h3 (by omega) h2 (by omega) (by omega)⟩
      · rcases ih h3 (by omega) with ⟨v, a, b⟩ | ⟨v, n, a, b⟩ | ⟨c, v, a, b⟩ | ⟨c, v, a, b⟩
        · exact Or.inl ⟨.b :: v, by simpa [okW, step] using a, leW_cons b (by omega) h2 (by omega) (by omega)⟩
        · exact Or.inr (Or.inl ⟨.b :: v, by simpa using n, by simpa [okW, step] using a,
            leW_cons b h1 h2 (by omega) (by omega)⟩)
        · exact Or.inl ⟨.o :: v, by simpa [okW, step] using a, leW_cons b (by omega) h2 (by omega) (by omega)⟩
        · exact Or.inr (Or.inl ⟨.o :: v, by simp, by simpa [okW, step] using a,
            leW_cons b h1 h2 (by omega) (by omega)⟩)

theorem walk_lr {u : List L3} : ∀ {d e : ℤ} {w : List L3}, leW d e u w → 1 ≤ d → 1 ≤ e →
    (∃ v, v ≠ u ∧ okW .z u v ∧ leW d e v w) ∨
    (∃ v, okW .lr u v ∧ leW (d - 1) (e - 1) v w) ∨ (∃ v, okW .r u v ∧ leW d (e - 1) v w) := by
  induction u with
  | nil =>
    intro d e w h hd he
    cases w with
    | cons q w => simp [leW] at h
    | nil =>
      simp only [leW] at h
      exact Or.inr (Or.inl ⟨[], by simp [okW], by simp only [leW]; omega⟩)
  | cons p u ih =>
    intro d e w h hd he
    cases w with
    | nil => simp [leW] at h
    | cons q w =>
      obtain ⟨h1, h2, h3⟩ := h
      have f1 : L3.o.isA = 0 := rfl
      have f2 : L3.o.isB = 0 := rfl
      have f3 : L3.a.isA = 1 := rfl
      have f4 : L3.a.isB = 0 := rfl
      have f5 : L3.b.isA = 0 := rfl
      have f6 : L3.b.isB = 1 := rfl
      have hq : 0 ≤ q.isA := by cases q <;> simp [L3.isA]
      have hqb : q.isB ≤ 1 := by cases q <;> simp [L3.isB]
      cases p
      · exact Or.inr (Or.inr ⟨.b :: u, by simpa [okW, step] using okW_refl u,
          leW_cons h3 h1 (by omega) (by omega) (by omega)⟩)
      · exact Or.inr (Or.inl ⟨.b :: u, by simpa [okW, step] using okW_refl u,
          leW_cons h3 (by omega) (by omega) (by omega) (by omega)⟩)
      · rcases ih h3 (by omega) (by omega) with ⟨v, n, a, b⟩ | ⟨v, a, b⟩ | ⟨v, a, b⟩
        · exact Or.inl ⟨.b :: v, by simpa using n, by simpa [okW, step] using a,
            leW_cons b h1 h2 (by omega) (by omega)⟩
        · exact Or.inr (Or.inl ⟨.b :: v, by simpa [okW, step] using a,
            leW_cons b (by omega) (by omega) (by omega) (by omega)⟩)
        · exact Or.inl ⟨.o :: v, by simp, by simpa [okW, step] using a,
            leW_cons b h1 h2 (by omega) (by omega)⟩

/-- the first letters `o` and `a` -/
theorem walk_oa {u w : List L3} (h : leW 0 0 (.o :: u) (.a :: w)) : ∃ v, v ≠ .o :: u ∧ okW .z (.o :: u) v ∧ leW 0 0 v (.a :: w) := by
  have h3 : leW 1 0 u w := h.2.2
  rcases walk_l h3 le_rfl with ⟨v, a, b⟩ | ⟨v, n, a, b⟩ | ⟨c, _⟩ | ⟨c, _⟩
  · exact ⟨.a :: v, by simp, by simpa [okW, step] using a, leW_cons b le_rfl le_rfl rfl rfl⟩
  · exact ⟨.o :: v, by simpa using n, by simpa [okW, step] using a, leW_cons b le_rfl le_rfl rfl rfl⟩
  · omega
  · omega

/-- **Between two words there is a step, at the lower or at the upper end.** -/
theorem walk_step {u w : List L3} (h : leW 0 0 u w) (hne : u ≠ w) :
    (∃ v, v ≠ u ∧ okW .z u v ∧ leW 0 0 v w) ∨ ∃ v, v ≠ w ∧ okW .z v w ∧ leW 0 0 u v := by
  induction u generalizing w with
  | nil =>
    cases w with
    | nil => exact absurd rfl hne
    | cons q w => simp [leW] at h
  | cons p u ih =>
    cases w with
    | nil => simp [leW] at h
    | cons q w =>
      by_cases hpq : p = q
      · subst hpq
        have h3 : leW 0 0 u w := by simpa using h.2.2
        rcases ih h3 (fun e => hne (by rw [e])) with ⟨v, n, a, b⟩ | ⟨v, n, a, b⟩
        · exact Or.inl ⟨p :: v, by simpa using n, by cases p <;> simpa [okW, step] using a, leW_cons b le_rfl le_rfl (by simp) (by simp)⟩
        · exact Or.inr ⟨p :: v, by simpa using n, by cases p <;> simpa [okW, step] using a, leW_cons b le_rfl le_rfl (by simp) (by simp)⟩
      · have hd := leW_d h.2.2
        have he := leW_e h.2.2
        cases p <;> cases q <;> simp [L3.isA, L3.isB] at hd he hpq
        · exact Or.inl (walk_oa h)
        · obtain ⟨v, n, a, b⟩ := walk_oa (u := dualW w) (w := dualW u) (leW_dual h)
          refine Or.inr ⟨dualW v, fun e => n ?_, ?_, ?_⟩
          · rw [← dualW_dualW v, e]; rfl
          · have := okW_dual a
            rwa [show dualW (.o :: dualW w) = .o :: w by show L3.o :: dualW (dualW w) = _; rw [dualW_dualW]] at this
          · have := leW_dual b
            rwa [show dualW (.a :: dualW u) = .b :: u by show L3.b :: dualW (dualW u) = _; rw [dualW_dualW]] at this
        · have h3 : leW 1 1 u w := h.2.2
          rcases walk_lr h3 le_rfl le_rfl with ⟨v, n, a, b⟩ | ⟨v, a, b⟩ | ⟨v, a, b⟩
          · exact Or.inl ⟨.b :: v, by simpa using n, by simpa [okW, step] using a, leW_cons b le_rfl le_rfl rfl rfl⟩
          · exact Or.inl ⟨.a :: v, by simp, by simpa [okW, step] using a, leW_cons b le_rfl le_rfl rfl rfl⟩
          · exact Or.inl ⟨.o :: v, by simp, by simpa [okW, step] using a, leW_cons b le_rfl le_rfl rfl rfl⟩

end Verif
