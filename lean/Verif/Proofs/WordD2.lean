import Verif.Proofs.WordDOps
import Mathlib.Algebra.Polynomial.Expand
/-!
# The Pieri operators of `OG(n, 2n+2)` commute

The quantum ring of `OG(n, 2n+2)` has two parameters `q1` and `q2`. The operators are those of `WordDQ.lean` for `k = 1`,
where the quantum terms that exchange the types have weight `q1` or `q2`, depending on the inner letters of the two words.
-/

namespace Verif
open Spec

section
variable {R : Type*} [CommRing R]

/-! ### The parameter of a term -/

/-- the parameter that belongs to an inner letter -/
def qOf (q1 q2 : R) : L3 → R
  | .o => 0
  | .a => q1
  | .b => q2

/-- the parameter of a term: one of the inner letters is not `o` -/
def qw (q1 q2 : R) : L3 → L3 → R
  | .o, j => qOf q1 q2 j
  | i, _ => qOf q1 q2 i

/-- the first operator with two parameters -/
def op2G (q1 q2 x : R) (U W : WordD) : R := opGE (q1 * q2) x U W + qw q1 q2 U.2 (swD W).2 * opGO 1 x U (swD W)

/-- the second operator with two parameters -/
def op2S (q1 q2 : R) (U W : WordD) : R := opSE U W + qw q1 q2 U.2 (swD W).2 * opSO 1 U (swD W)

/-! ### Supports -/

/-- the support of `endG` -/
def endB : St → L3 → L3 → Bool
  | .z, .o, .o => true
  | .z, .a, .a => true
  | .z, .b, .b => true
  | .lr, .o, .o => true
  | .lr, .a, .a => true
  | .lr, .b, .b => true
  | .l, .a, .o => true
  | .l, .b, .o => true
  | .r, .o, .a => true
  | .r, .o, .b => true
  | _, _, _ => false

/-- whether there is a path through the states -/
def runB (i j : L3) : St → List L3 → List L3 → Bool
  | s, [], [] => endB s i j
  | s, p :: u, q :: w =>
    match step s p q with
    | some (t, _, _) => runB i j t u w
    | none => false
  | _, _, _ => false

theorem gD_run (x : R) (i j : L3) : ∀ (u w : List L3) (s : St), runB i j s u w = false → gD x s (u, i) (w, j) = 0 := by
  intro u
  induction u with
  | nil =>
    intro w s h
    cases w
    · cases s <;> cases i <;> cases j <;> simp [runB, endB] at h <;> simp [gD, wtE, endG]
    · simp [gD, wtE]
  | cons p u ih =>
    intro w s h
    cases w with
    | nil => simp [gD, wtE]
    | cons q w =>
      simp only [runB, gD, wtE] at h ⊢
      rcases hs : step s p q with _ | ⟨t, a, b⟩
      · rfl
      · rw [hs] at h
        have := ih w t h
        simp only [gD] at this
        simp only [this, mul_zero]

theorem stepSg_step {s : St} {p q : L3} {t : St} {a : Int} (h : stepSg s p q = some (t, a)) :
    ∃ b c, step s p q = some (t, b, c) := by
  cases s <;> cases p <;> cases q <;> simp [stepSg] at h <;> simp [step, h]

theorem sD_run (i j : L3) : ∀ (u w : List L3) (s : St), runB i j s u w = false → (sD s (u, i) (w, j) : R) = 0 := by
  intro u
  induction u with
  | nil =>
    intro w s h
    cases w
    · cases s <;> cases i <;> cases j <;> simp [runB, endB] at h <;> simp [sD, wtS, endSg]
    · simp [sD, wtS]
  | cons p u ih =>
    intro w s h
    cases w with
    | nil => simp [sD, wtS]
    | cons q w =>
      simp only [runB, sD, wtS] at h ⊢
      rcases hs : stepSg s p q with _ | ⟨t, a⟩
      · rfl
      · obtain ⟨b, c, e⟩ := stepSg_step hs
        rw [e] at h
        have := ih w t h
        simp only [sD] at this
        simp only [this, mul_zero]

/-- both inner letters different from `o`: they agree -/
theorem run_inner {i j : L3} (hi : i ≠ .o) (hj : j ≠ .o) : ∀ (u w : List L3) (s : St), runB i j s u w = true → i = j := by
  intro u
  induction u with
  | nil =>
    intro w s h
    cases w
    · cases s <;> cases i <;> cases j <;> simp [runB, endB] at h hi hj ⊢
    · simp [runB] at h
  | cons p u ih =>
    intro w s h
    cases w with
    | nil => simp [runB] at h
    | cons q w =>
      simp only [runB] at h
      rcases hs : step s p q with _ | ⟨t, a, b⟩
      · rw [hs] at h; simp at h
      · rw [hs] at h; exact ih w t h

/-- an open interval of the first kind that meets no `o` of the second word -/
theorem run_l {i j : L3} : ∀ (u w : List L3), .o ∉ w → runB i j .l u w = true → (∀ p ∈ u, p = .b) ∧ (∀ p ∈ w, p = .b) ∧ j = .o := by
  intro u
  induction u with
  | nil =>
    intro w _ h
    cases w
    · cases i <;> cases j <;> simp [runB, endB] at h ⊢
    · simp [runB] at h
  | cons p u ih =>
    intro w hw h
    cases w with
    | nil => simp [runB] at h
    | cons q w =>
      have hw' : L3.o ∉ w := fun hc => hw (List.mem_cons_of_mem _ hc)
      cases p <;> cases q <;> simp [runB, step] at h hw
      obtain ⟨h1, h2, h3⟩ := ih w hw' h
      exact ⟨by simpa using h1, by simpa using h2, h3⟩

/-- an open interval of the second kind that meets no `o` of the first word -/
theorem run_r {i j : L3} : ∀ (u w : List L3), .o ∉ u → runB i j .r u w = true → (∀ p ∈ u, p = .a) ∧ (∀ p ∈ w, p = .a) ∧ i = .o := by
  intro u
  induction u with
  | nil =>
    intro w _ h
    cases w
    · cases i <;> cases j <;> simp [runB, endB] at h ⊢
    · simp [runB] at h
  | cons p u ih =>
    intro w hu h
    cases w with
    | nil => simp [runB] at h
    | cons q w =>
      have hu' : L3.o ∉ u := fun hc => hu (List.mem_cons_of_mem _ hc)
      cases p <;> cases q <;> simp [runB, step] at h hu
      obtain ⟨h1, h2, h3⟩ := ih w hu' h
      exact ⟨by simpa using h1, by simpa using h2, h3⟩

theorem run_l_empty {i j : L3} {u w : List L3} (hl : u.length = w.length) (hu : ∀ p ∈ u, p = .a) (hw : .o ∉ w)
    (h : runB i j .l u w = true) : u = [] := by
  obtain ⟨h1, _⟩ := run_l u w hw h
  cases u with
  | nil => rfl
  | cons p u =>
    have a := hu p (by simp)
    have b := h1 p (by simp)
    rw [a] at b; cases b

theorem run_l_empty' {i j : L3} {u w : List L3} (hl : u.length = w.length) (hw : ∀ p ∈ w, p = .a)
    (h : runB i j .l u w = true) : u = [] := by
  obtain ⟨_, h1, _⟩ := run_l u w (fun hc => by have := hw _ hc; cases this) h
  cases w with
  | nil => simpa using hl
  | cons p w =>
    have a := hw p (by simp)
    have b := h1 p (by simp)
    rw [a] at b; cases b

theorem run_r_empty {i j : L3} {u w : List L3} (hl : u.length = w.length) (hu : .o ∉ u) (hw : ∀ p ∈ w, p = .b)
    (h : runB i j .r u w = true) : u = [] := by
  obtain ⟨_, h1, _⟩ := run_r u w hu h
  cases w with
  | nil => simpa using hl
  | cons p w =>
    have a := hw p (by simp)
    have b := h1 p (by simp)
    rw [a] at b; cases b

/-- the state after the first letters, for the terms that keep the types -/
def stpE : L3 → L3 → Option St
  | .o, .o => some .z
  | .o, .a => some .l
  | .a, .a => some .z
  | .a, .b => some .lr
  | .b, .o => some .r
  | .b, .a => some .lr
  | .b, .b => some .z
  | _, _ => none

/-- the state after the first letters, for the terms that exchange the types -/
def stpO : L3 → L3 → Option St
  | .o, .o => some .lr
  | .o, .b => some .l
  | .a, .o => some .r
  | _, _ => none

/-- the support of the operators -/
def suppD (st : L3 → L3 → Option St) (U W : WordD) : Bool :=
  match U.1, W.1 with
  | p :: u, q :: w => match st p q with
    | some s => runB U.2 W.2 s u w
    | none => false
  | _, _ => false

theorem opGE_supp (h' x : R) {U W : WordD} (hn : U.1 ≠ []) (h : suppD stpE U W = false) : opGE h' x U W = 0 := by
  rcases U with ⟨_ | ⟨p, u⟩, i⟩ <;> rcases W with ⟨_ | ⟨q, w⟩, j⟩
  · simp at hn
  · simp at hn
  · simp [opGE, gD, wtE]
  · cases p <;> cases q <;> simp only [suppD, stpE] at h <;> simp [opGE, kerE] <;> simp [gD_run x i j u w _ h]

theorem opGO_supp (h x : R) {U W : WordD} (hs : suppD stpO U W = false) : opGO h x U W = 0 := by
  rcases U with ⟨_ | ⟨p, u⟩, i⟩ <;> rcases W with ⟨_ | ⟨q, w⟩, j⟩
  · simp [opGO]
  · simp [opGO]
  · simp [opGO]
  · cases p <;> cases q <;> simp only [suppD, stpO] at hs <;> simp [opGO, kerO] <;> simp [gD_run x i j u w _ hs]

theorem opSE_supp {U W : WordD} (hn : U.1 ≠ []) (h : suppD stpE U W = false) : (opSE U W : R) = 0 := by
  rcases U with ⟨_ | ⟨p, u⟩, i⟩ <;> rcases W with ⟨_ | ⟨q, w⟩, j⟩
  · simp at hn
  · simp at hn
  · simp [opSE, sD, wtS]
  · cases p <;> cases q <;> simp only [suppD, stpE] at h <;> simp [opSE, kerSE] <;> simp [sD_run i j u w _ h]

theorem opSO_supp (h : R) {U W : WordD} (hs : suppD stpO U W = false) : opSO h U W = 0 := by
  rcases U with ⟨_ | ⟨p, u⟩, i⟩ <;> rcases W with ⟨_ | ⟨q, w⟩, j⟩
  · simp [opSO]
  · simp [opSO]
  · simp [opSO]
  · cases p <;> cases q <;> simp only [suppD, stpO] at hs <;> simp [opSO, kerSO] <;> simp [sD_run i j u w _ hs]

/-! ### The parameters of compositions -/

/-- an inner letter `o` is the only `o` -/
def Lone (U : WordD) : Prop := U.2 = .o → .o ∉ U.1

theorem suppD_inner {st : L3 → L3 → Option St} {U W : WordD} (h : suppD st U W = true) (hi : U.2 ≠ .o) (hj : W.2 ≠ .o) : U.2 = W.2 := by
  rcases U with ⟨_ | ⟨p, u⟩, i⟩ <;> rcases W with ⟨_ | ⟨q, w⟩, j⟩ <;> simp [suppD] at h
  rcases hs : st p q with _ | s
  · rw [hs] at h; simp at h
  · rw [hs] at h
    exact run_inner hi hj u w s h

theorem suppO_oo {U W : WordD} (h : suppD stpO U W = true) (hU : Lone U) (hW : Lone W) (hi : U.2 = .o) : W.2 ≠ .o := by
  intro hj
  have h1 := hU hi
  have h2 := hW hj
  rcases U with ⟨_ | ⟨p, u⟩, i⟩ <;> rcases W with ⟨_ | ⟨q, w⟩, j⟩ <;> simp [suppD] at h
  cases p <;> cases q <;> simp [stpO] at h h1 h2

/-- the terms that exchange the types and have an inner letter `o` in the second word -/
theorem suppO_snd {U W : WordD} (h : suppD stpO U W = true) (hW : Lone W) (hj : W.2 = .o) :
    ∃ u w, U.1 = .o :: u ∧ W.1 = .b :: w ∧ (∀ p ∈ u, p = .b) ∧ ∀ p ∈ w, p = .b := by
  have h2 := hW hj
  rcases U with ⟨_ | ⟨p, u⟩, i⟩ <;> rcases W with ⟨_ | ⟨q, w⟩, j⟩ <;> simp [suppD] at h
  cases p <;> cases q <;> simp [stpO] at h h2
  obtain ⟨a, b, _⟩ := run_l u w h2 h
  exact ⟨u, w, rfl, rfl, a, b⟩

/-- the terms that exchange the types and have an inner letter `o` in the first word -/
theorem suppO_fst {U W : WordD} (h : suppD stpO U W = true) (hU : Lone U) (hj : U.2 = .o) :
    ∃ u w, U.1 = .a :: u ∧ W.1 = .o :: w ∧ (∀ p ∈ u, p = .a) ∧ ∀ p ∈ w, p = .a := by
  have h2 := hU hj
  rcases U with ⟨_ | ⟨p, u⟩, i⟩ <;> rcases W with ⟨_ | ⟨q, w⟩, j⟩ <;> simp [suppD] at h
  cases p <;> cases q <;> simp [stpO] at h h2
  obtain ⟨a, b, _⟩ := run_r u w h2 h
  exact ⟨u, w, rfl, rfl, a, b⟩

/-- the parameter of a composition with one exchange of the types -/
def qtau (q1 q2 : R) (U V : WordD) : R :=
  if U.2 = .o then qOf q1 q2 V.2 else if V.2 = .o then qOf q1 q2 U.2 else
    if U.1.head? = some .o then qOf q1 q2 U.2 else qOf q1 q2 V.2

theorem qw_fst (q1 q2 : R) {i : L3} (h : i ≠ .o) (j : L3) : qw q1 q2 i j = qOf q1 q2 i := by
  cases i <;> simp [qw] at h ⊢

theorem qw_o (q1 q2 : R) (j : L3) : qw q1 q2 .o j = qOf q1 q2 j := rfl

theorem tau_OO (q1 q2 : R) {U W V : WordD} (h1 : suppD stpO U W = true) (h2 : suppD stpO W V = true) (hU : Lone U) (hW : Lone W) :
    qw q1 q2 U.2 W.2 * qw q1 q2 W.2.sw V.2.sw = q1 * q2 := by
  by_cases hm : W.2 = .o
  · obtain ⟨u, w, _, e, _⟩ := suppO_snd h1 hW hm
    obtain ⟨u', w', e', _⟩ := suppO_fst h2 hW hm
    rw [e] at e'; simp at e'
  · have a : qw q1 q2 U.2 W.2 = qOf q1 q2 W.2 := by
      by_cases hi : U.2 = .o
      · rw [hi]; rfl
      · rw [qw_fst _ _ hi, suppD_inner h1 hi hm]
    have hm' : W.2.sw ≠ .o := by cases h : W.2 <;> simp [h, L3.sw] at hm ⊢
    rw [a, qw_fst _ _ hm']
    cases h : W.2 <;> simp [h, qOf, L3.sw] at hm ⊢
    ring

theorem tau_EO (q1 q2 : R) {U W V : WordD} (h1 : suppD stpE U W = true) (h2 : suppD stpO W V = true) (hU : Lone U) (hW : Lone W)
    (hV : Lone V) (hl : U.1.length = W.1.length) (hl' : W.1.length = V.1.length) (hn : 2 ≤ U.1.length) :
    qw q1 q2 W.2 V.2 = qtau q1 q2 U V := by
  unfold qtau
  by_cases hi : U.2 = .o
  · rw [if_pos hi]
    by_cases hj : V.2 = .o
    · exfalso
      obtain ⟨w, v, e1, e2, b1, b2⟩ := suppO_snd h2 hV hj
      have hu := hU hi
      rcases U with ⟨_ | ⟨p, u⟩, i⟩
      · simp at hn
      · rcases W with ⟨_, m⟩
        simp only at e1
        subst e1
        simp only [List.length_cons, List.mem_cons, not_or] at hl hu hn
        cases p <;> simp [suppD, stpE] at h1 hu
        have := run_r_empty (by omega) hu b1 h1
        subst this; simp at hn
    · by_cases hm : W.2 = .o
      · rw [hm]; rfl
      · rw [qw_fst _ _ hm, suppD_inner h2 hm hj]
  · rw [if_neg hi]
    by_cases hj : V.2 = .o
    · rw [if_pos hj]
      have hm : W.2 ≠ .o := fun hm => suppO_oo h2 hW hV hm hj
      rw [qw_fst _ _ hm, suppD_inner h1 hi hm]
    · rw [if_neg hj]
      by_cases hm : W.2 = .o
      · rw [hm, qw_o]
        by_cases hij : U.2 = V.2
        · rw [hij, ite_self]
        · rw [if_neg]
          intro hc
          obtain ⟨w, v, e1, e2, b1, b2⟩ := suppO_fst h2 hW hm
          rcases U with ⟨_ | ⟨p, u⟩, i⟩
          · simp at hn
          · rcases W with ⟨_, m⟩
            simp only at e1
            subst e1
            simp only [List.head?_cons, Option.some.injEq] at hc
            subst hc
            simp only [List.length_cons] at hl hn
            simp [suppD, stpE] at h1
            have := run_l_empty' (by omega) b1 h1
            subst this; simp at hn
      · rw [qw_fst _ _ hm]
        have e1 := suppD_inner h1 hi hm
        have e2 := suppD_inner h2 hm hj
        rw [e1, e2, ite_self]

theorem tau_OE (q1 q2 : R) {U W V : WordD} (h1 : suppD stpO U W = true) (h2 : suppD stpE W V = true) (hU : Lone U) (hW : Lone W)
    (hV : Lone V) (hl : U.1.length = W.1.length) (hl' : W.1.length = V.1.length) (hn : 2 ≤ U.1.length) :
    qw q1 q2 U.2 W.2 = qtau q1 q2 U V := by
  unfold qtau
  by_cases hi : U.2 = .o
  · rw [if_pos hi, hi, qw_o]
    have hm := suppO_oo h1 hU hW hi
    by_cases hj : V.2 = .o
    · exfalso
      obtain ⟨u, w, e1, e2, b1, b2⟩ := suppO_fst h1 hU hi
      have hv := hV hj
      rcases V with ⟨_ | ⟨q, v⟩, j⟩
      · have : W.1.length = 0 := hl'
        omega
      · rcases W with ⟨_, m⟩
        simp only at e2
        subst e2
        simp only [List.length_cons, List.mem_cons, not_or] at hl hl' hv hn
        cases q <;> simp [suppD, stpE] at h2 hv
        have := run_l_empty (by omega) b2 hv h2
        subst this
        simp at hl
        omega
    · rw [suppD_inner h2 hm hj]
  · rw [if_neg hi, qw_fst _ _ hi]
    by_cases hj : V.2 = .o
    · rw [if_pos hj]
    · rw [if_neg hj]
      by_cases hij : U.2 = V.2
      · rw [hij, ite_self]
      · rw [if_pos]
        by_cases hm : W.2 = .o
        · obtain ⟨u, w, e1, _⟩ := suppO_snd h1 hW hm
          rw [e1]; rfl
        · exact absurd ((suppD_inner h1 hi hm).trans (suppD_inner h2 hm hj)) hij

/-- the composition of two operators with two parameters -/
theorem twist2 (n : Nat) (E O E' O' : WordD → WordD → R) (e q1 q2 τ : R) (hE : ∀ U W, E' (swD U) (swD W) = e * E' U W)
    (hO : ∀ U W, O' (swD U) (swD W) = e * O' U W) (U V : WordD)
    (H1 : ∀ W : WordD, W.1.length = n →
      qw q1 q2 U.2 W.2 * qw q1 q2 W.2.sw V.2.sw * (O U W * O' W V) = q1 * q2 * (O U W * O' W V))
    (H2 : ∀ W : WordD, W.1.length = n → qw q1 q2 W.2 V.2.sw * (E U W * O' W (swD V)) = τ * (E U W * O' W (swD V)))
    (H3 : ∀ W : WordD, W.1.length = n → qw q1 q2 U.2 W.2 * (O U W * E' W (swD V)) = τ * (O U W * E' W (swD V))) :
    sumD n (fun W => (E U W + qw q1 q2 U.2 (swD W).2 * O U (swD W)) * (E' W V + qw q1 q2 W.2 (swD V).2 * O' W (swD V))) =
      sumD n (fun W => E U W * E' W V + e * (q1 * q2 * (O U W * O' W V))) +
        τ * sumD n (fun W => E U W * O' W (swD V) + e * (O U W * E' W (swD V))) := by
  have h1 : sumD n (fun W => (E U W + qw q1 q2 U.2 (swD W).2 * O U (swD W)) * (E' W V + qw q1 q2 W.2 (swD V).2 * O' W (swD V))) =
      sumD n (fun W => E U W * E' W V + E U W * (qw q1 q2 W.2 (swD V).2 * O' W (swD V))) +
        sumD n (fun W => qw q1 q2 U.2 (swD W).2 * O U (swD W) * (E' W V + qw q1 q2 W.2 (swD V).2 * O' W (swD V))) := by
    rw [← sumD_add]; exact sumD_congr (fun W _ => by ring)
  have h2 : sumD n (fun W => qw q1 q2 U.2 (swD W).2 * O U (swD W) * (E' W V + qw q1 q2 W.2 (swD V).2 * O' W (swD V))) =
      sumD n (fun W => qw q1 q2 U.2 W.2 * O U W * (E' (swD W) V + qw q1 q2 (swD W).2 (swD V).2 * O' (swD W) (swD V))) := by
    rw [← sumD_sw]; simp only [swD_swD]
  rw [h1, h2, ← sumD_mul, ← sumD_add, ← sumD_add]
  refine sumD_congr (fun W hW => ?_)
  rw [hO, show E' (swD W) V = e * E' W (swD V) by rw [← hE, swD_swD]]
  have a := H1 W hW
  have b := H2 W hW
  have c := H3 W hW
  show _ + qw q1 q2 U.2 W.2 * O U W * (_ + qw q1 q2 W.2.sw V.2.sw * _) = _
  rw [show (swD V).2 = V.2.sw from rfl]
  linear_combination e * a + b + e * c


/-! ### The one-parameter identities, by parity -/

theorem opGO_mul (h x : R) (U W : WordD) : opGO h x U W = h * opGO 1 x U W := by
  rcases U with ⟨_ | ⟨p, u⟩, i⟩ <;> rcases W with ⟨_ | ⟨q, w⟩, j⟩ <;> simp only [opGO, mul_zero]
  cases p <;> cases q <;> simp [kerO]

theorem opSO_mul (h : R) (U W : WordD) : opSO h U W = h * opSO 1 U W := by
  rcases U with ⟨_ | ⟨p, u⟩, i⟩ <;> rcases W with ⟨_ | ⟨q, w⟩, j⟩ <;> simp only [opSO, mul_zero]
  cases p <;> cases q <;> simp [kerSO]

theorem parG [IsDomain R] (h2 : (2 : R) ≠ 0) (h : R) (h0 : h ≠ 0) {x y : R} (hx : x ≠ 0) (hy : y ≠ 0) (hxy : x + y ≠ 0) {U V : WordD}
    (hl : U.1.length = V.1.length) :
    sumD U.1.length (fun W => opGE (h ^ 2) x U W * opGE (h ^ 2) y W V + h ^ 2 * (opGO 1 x U W * opGO 1 y W V)) =
      sumD U.1.length (fun W => opGE (h ^ 2) y U W * opGE (h ^ 2) x W V + h ^ 2 * (opGO 1 y U W * opGO 1 x W V)) ∧
    sumD U.1.length (fun W => opGE (h ^ 2) x U W * opGO 1 y W V + opGO 1 x U W * opGE (h ^ 2) y W V) =
      sumD U.1.length (fun W => opGE (h ^ 2) y U W * opGO 1 x W V + opGO 1 y U W * opGE (h ^ 2) x W V) := by
  have key : ∀ g : R, g ^ 2 = h ^ 2 → sumD U.1.length (fun W => (opGE (h ^ 2) x U W + opGO g x U W) * (opGE (h ^ 2) y W V + opGO g y W V)) =
        sumD U.1.length (fun W => (opGE (h ^ 2) y U W + opGO g y U W) * (opGE (h ^ 2) x W V + opGO g x W V)) := by
    intro g hg
    rcases U with ⟨_ | ⟨p, u⟩, i⟩
    · rcases V with ⟨_ | ⟨q, v⟩, j⟩
      · simp [sumD, sumW, opGE, opGO, gD_z_nil]
      · simp at hl
    · rcases V with ⟨_ | ⟨q, v⟩, j⟩
      · simp at hl
      · have e := ker_comp g (h ^ 2) x y p q (u, i) (v, j)
        have e' := ker_comp g (h ^ 2) y x p q (u, i) (v, j)
        simp only [List.length_cons] at e e' ⊢
        rw [e, e']
        exact compQ_comm hx hy hxy (fGG_inter x y (by simpa using hl)) _ _ (Or.inl hg.symm)
  have P := half_parts h2 (key h rfl) (by
      have := key (-h) (by ring)
      simp only [opGO_neg, ← sub_eq_add_neg] at this
      exact this)
  constructor
  · refine Eq.trans (sumD_congr fun W _ => ?_) (P.1.trans (sumD_congr fun W _ => ?_))
    · rw [opGO_mul h x, opGO_mul h y]; ring
    · rw [opGO_mul h x, opGO_mul h y]; ring
  · apply mul_left_cancel₀ h0
    rw [← sumD_mul, ← sumD_mul]
    refine Eq.trans (sumD_congr fun W _ => ?_) (P.2.trans (sumD_congr fun W _ => ?_))
    · rw [opGO_mul h x, opGO_mul h y]; ring
    · rw [opGO_mul h x, opGO_mul h y]; ring

theorem parS [IsDomain R] (h2 : (2 : R) ≠ 0) (h : R) (h0 : h ≠ 0) {y : R} (hy : y ≠ 0) {U V : WordD} (hl : U.1.length = V.1.length) :
    sumD U.1.length (fun W => opSE U W * opGE (h ^ 2) y W V + h ^ 2 * (opSO 1 U W * opGO 1 y W V)) =
      sumD U.1.length (fun W => opGE (h ^ 2) y U W * opSE W V + -(h ^ 2) * (opGO 1 y U W * opSO 1 W V)) ∧
    sumD U.1.length (fun W => opSE U W * opGO 1 y W V + opSO 1 U W * opGE (h ^ 2) y W V) =
      sumD U.1.length (fun W => opGE (h ^ 2) y U W * opSO 1 W V + -(opGO 1 y U W * opSE W V)) := by
  have key : ∀ g : R, g ^ 2 = h ^ 2 → sumD U.1.length (fun W => (opSE U W + opSO g U W) * (opGE (h ^ 2) y W V + opGO g y W V)) =
        sumD U.1.length (fun W => (opGE (h ^ 2) y U W + opGO (-g) y U W) * (opSE W V + opSO g W V)) := by
    intro g hg
    rcases U with ⟨_ | ⟨p, u⟩, i⟩
    · rcases V with ⟨_ | ⟨q, v⟩, j⟩
      · cases i <;> cases j <;> simp [sumD, sumW, opGE, opGO, opSE, opSO, gD_z_nil, sD, wtS, endSg]
      · simp at hl
    · rcases V with ⟨_ | ⟨q, v⟩, j⟩
      · simp at hl
      · have e := ker_compSG g (h ^ 2) y p q (u, i) (v, j)
        have e' := ker_compGS g (h ^ 2) y p q (u, i) (v, j)
        simp only [List.length_cons] at e e' ⊢
        rw [e, e', ← hg]
        exact compS_comm hy (fS_inter y (by simpa using hl)) p q
  have P := half_parts h2 (key h rfl) (by
      have := key (-h) (by ring)
      simp only [opGO_neg, opSO_neg, ← sub_eq_add_neg, neg_neg] at this ⊢
      simp only [sub_neg_eq_add]
      exact this)
  constructor
  · refine Eq.trans (sumD_congr fun W _ => ?_) (P.1.trans (sumD_congr fun W _ => ?_))
    · rw [opSO_mul h, opGO_mul h y]; ring
    · rw [opSO_mul h, opGO_mul (-h) y]; ring
  · apply mul_left_cancel₀ h0
    rw [← sumD_mul, ← sumD_mul]
    refine Eq.trans (sumD_congr fun W _ => ?_) (P.2.trans (sumD_congr fun W _ => ?_))
    · rw [opSO_mul h, opGO_mul h y]; ring
    · rw [opSO_mul h, opGO_mul (-h) y]; ring

end

section
variable {R S : Type*} [CommRing R] [CommRing S] (φ : R →+* S)

theorem opGE_map (h' x : R) (U W : WordD) : φ (opGE h' x U W) = opGE (φ h') (φ x) U W := by
  rcases U with ⟨_ | ⟨p, u⟩, i⟩ <;> rcases W with ⟨_ | ⟨q, w⟩, j⟩ <;> simp only [opGE, gD_map]
  cases p <;> cases q <;> simp [kerE, gD_map]

theorem opGO_map (x : R) (U W : WordD) : φ (opGO 1 x U W) = opGO 1 (φ x) U W := by
  rcases U with ⟨_ | ⟨p, u⟩, i⟩ <;> rcases W with ⟨_ | ⟨q, w⟩, j⟩ <;> simp only [opGO, map_zero]
  cases p <;> cases q <;> simp [kerO, gD_map]

theorem opSE_map (U W : WordD) : φ (opSE U W) = opSE U W := by
  rcases U with ⟨_ | ⟨p, u⟩, i⟩ <;> rcases W with ⟨_ | ⟨q, w⟩, j⟩ <;> simp only [opSE, sD_map]
  cases p <;> cases q <;> simp [kerSE, sD_map]

theorem opSO_map (U W : WordD) : φ (opSO 1 U W) = opSO 1 U W := by
  rcases U with ⟨_ | ⟨p, u⟩, i⟩ <;> rcases W with ⟨_ | ⟨q, w⟩, j⟩ <;> simp only [opSO, map_zero]
  cases p <;> cases q <;> simp [kerSO, sD_map]

theorem qw_map (q1 q2 : R) (i j : L3) : φ (qw q1 q2 i j) = qw (φ q1) (φ q2) i j := by
  cases i <;> cases j <;> simp [qw, qOf]

theorem op2G_map (q1 q2 x : R) (U W : WordD) : φ (op2G q1 q2 x U W) = op2G (φ q1) (φ q2) (φ x) U W := by
  unfold op2G
  rw [map_add, map_mul, opGE_map, opGO_map, qw_map, map_mul]

theorem op2S_map (q1 q2 : R) (U W : WordD) : φ (op2S q1 q2 U W) = op2S (φ q1) (φ q2) U W := by
  unfold op2S
  rw [map_add, map_mul, opSE_map, opSO_map, qw_map]

theorem sumW_map (n : Nat) (f : List L3 → R) : φ (sumW n f) = sumW n (fun w => φ (f w)) := by
  induction n generalizing f with
  | zero => rfl
  | succ n ih => simp only [sumW, map_add, ih]

theorem sumD_map (n : Nat) (f : WordD → R) : φ (sumD n f) = sumD n (fun w => φ (f w)) := by
  simp only [sumD, map_add, sumW_map]

end

section
variable {R : Type*} [CommRing R] [IsDomain R]
open Polynomial

/-- the same with an arbitrary weight `c` in place of a square -/
theorem parG' (h2 : (2 : R) ≠ 0) (c : R) {x y : R} (hx : x ≠ 0) (hy : y ≠ 0) (hxy : x + y ≠ 0) {U V : WordD} (hl : U.1.length = V.1.length) :
    sumD U.1.length (fun W => opGE c x U W * opGE c y W V + c * (opGO 1 x U W * opGO 1 y W V)) =
      sumD U.1.length (fun W => opGE c y U W * opGE c x W V + c * (opGO 1 y U W * opGO 1 x W V)) ∧
    sumD U.1.length (fun W => opGE c x U W * opGO 1 y W V + opGO 1 x U W * opGE c y W V) =
      sumD U.1.length (fun W => opGE c y U W * opGO 1 x W V + opGO 1 y U W * opGE c x W V) := by
  have hx' : (C x : R[X]) ≠ 0 := by simpa using hx
  have hy' : (C y : R[X]) ≠ 0 := by simpa using hy
  have hxy' : (C x + C y : R[X]) ≠ 0 := by rw [← C_add]; exact C_ne_zero.2 hxy
  have h2' : (2 : R[X]) ≠ 0 := by
    rw [show (2 : R[X]) = C 2 by rw [map_ofNat]]; simpa using h2
  obtain ⟨P, Q⟩ := parG h2' (X : R[X]) X_ne_zero hx' hy' hxy' hl
  have inj := expand_injective (R := R) (n := 2) (by omega)
  have ex : ∀ z : R, (expand R 2 : R[X] →+* R[X]) (C z) = C z := fun z => by simp
  have eX : (expand R 2 : R[X] →+* R[X]) X = X ^ 2 := by simp
  have ev : ∀ z : R, (evalRingHom c) (C z) = z := fun z => by simp
  have eV : (evalRingHom c) X = c := by simp
  constructor
  · have F : sumD U.1.length (fun W => opGE X (C x) U W * opGE X (C y) W V + X * (opGO 1 (C x) U W * opGO 1 (C y) W V)) =
        sumD U.1.length (fun W => opGE X (C y) U W * opGE X (C x) W V + X * (opGO 1 (C y) U W * opGO 1 (C x) W V)) := by
      apply inj
      show (expand R 2 : R[X] →+* R[X]) _ = (expand R 2 : R[X] →+* R[X]) _
      simp only [sumD_map, map_add, map_mul, opGE_map, opGO_map, ex, eX]
      exact P
    have G := congrArg (evalRingHom c) F
    simpa only [sumD_map, map_add, map_mul, opGE_map, opGO_map, ev, eV] using G
  · have F : sumD U.1.length (fun W => opGE X (C x) U W * opGO 1 (C y) W V + opGO 1 (C x) U W * opGE X (C y) W V) =
        sumD U.1.length (fun W => opGE X (C y) U W * opGO 1 (C x) W V + opGO 1 (C y) U W * opGE X (C x) W V) := by
      apply inj
      show (expand R 2 : R[X] →+* R[X]) _ = (expand R 2 : R[X] →+* R[X]) _
      simp only [sumD_map, map_add, map_mul, opGE_map, opGO_map, ex, eX]
      exact Q
    have G := congrArg (evalRingHom c) F
    simpa only [sumD_map, map_add, map_mul, opGE_map, opGO_map, ev, eV] using G

theorem parS' (h2 : (2 : R) ≠ 0) (c : R) {y : R} (hy : y ≠ 0) {U V : WordD} (hl : U.1.length = V.1.length) :
    sumD U.1.length (fun W => opSE U W * opGE c y W V + c * (opSO 1 U W * opGO 1 y W V)) =
      sumD U.1.length (fun W => opGE c y U W * opSE W V + -c * (opGO 1 y U W * opSO 1 W V)) ∧
    sumD U.1.length (fun W => opSE U W * opGO 1 y W V + opSO 1 U W * opGE c y W V) =
      sumD U.1.length (fun W => opGE c y U W * opSO 1 W V + -(opGO 1 y U W * opSE W V)) := by
  have hy' : (C y : R[X]) ≠ 0 := by simpa using hy
  have h2' : (2 : R[X]) ≠ 0 := by
    rw [show (2 : R[X]) = C 2 by rw [map_ofNat]]; simpa using h2
  obtain ⟨P, Q⟩ := parS h2' (X : R[X]) X_ne_zero hy' hl
  have inj := expand_injective (R := R) (n := 2) (by omega)
  have ex : ∀ z : R, (expand R 2 : R[X] →+* R[X]) (C z) = C z := fun z => by simp
  have eX : (expand R 2 : R[X] →+* R[X]) X = X ^ 2 := by simp
  have ev : ∀ z : R, (evalRingHom c) (C z) = z := fun z => by simp
  have eV : (evalRingHom c) X = c := by simp
  constructor
  · have F : sumD U.1.length (fun W => opSE U W * opGE X (C y) W V + X * (opSO 1 U W * opGO 1 (C y) W V)) =
        sumD U.1.length (fun W => opGE X (C y) U W * opSE W V + -X * (opGO 1 (C y) U W * opSO 1 W V)) := by
      apply inj
      show (expand R 2 : R[X] →+* R[X]) _ = (expand R 2 : R[X] →+* R[X]) _
      simp only [sumD_map, map_add, map_mul, map_neg, opGE_map, opGO_map, opSE_map, opSO_map, ex, eX]
      exact P
    have G := congrArg (evalRingHom c) F
    simpa only [sumD_map, map_add, map_mul, map_neg, opGE_map, opGO_map, opSE_map, opSO_map, ev, eV] using G
  · have F : sumD U.1.length (fun W => opSE U W * opGO 1 (C y) W V + opSO 1 U W * opGE X (C y) W V) =
        sumD U.1.length (fun W => opGE X (C y) U W * opSO 1 W V + -(opGO 1 (C y) U W * opSE W V)) := by
      apply inj
      show (expand R 2 : R[X] →+* R[X]) _ = (expand R 2 : R[X] →+* R[X]) _
      simp only [sumD_map, map_add, map_mul, map_neg, opGE_map, opGO_map, opSE_map, opSO_map, ex, eX]
      exact Q
    have G := congrArg (evalRingHom c) F
    simpa only [sumD_map, map_add, map_mul, map_neg, opGE_map, opGO_map, opSE_map, opSO_map, ev, eV] using G

end

/-! ### Commutation -/

theorem lone_of_mem {n : Nat} {U : WordD} (h : U ∈ WdD n 1) : Lone U := by
  intro ho hm
  rw [mem_WdD] at h
  have h1 := h.2.1
  unfold colsD at h1
  have e := colsW_add U.2.k0 U.1
  rw [ho] at h1 e
  simp only [L3.k0] at h1 e
  have h2 : colsW 0 U.1 = 0 := by omega
  clear h1 e h ho
  revert hm h2
  generalize U.1 = u
  induction u with
  | nil => simp
  | cons p u ih => cases p <;> simp [colsW] <;> exact fun a b => ih a b

theorem swD_mem_one {n : Nat} {U : WordD} (h : U ∈ WdD n 1) : swD U ∈ WdD n 1 := by
  rw [mem_WdD] at h ⊢
  exact ⟨h.1, (colsD_sw U).trans h.2.1, fun h0 => absurd h0 (by omega)⟩

section
variable {R : Type*} [CommRing R]

/-- a pair of operators with the supports of the Pieri operators -/
structure Supp2 (E O : WordD → WordD → R) : Prop where
  sE : ∀ {U W : WordD}, U.1 ≠ [] → suppD stpE U W = false → E U W = 0
  sO : ∀ {U W : WordD}, suppD stpO U W = false → O U W = 0
  cE : ∀ {U W : WordD}, U.1.length = W.1.length → colsD U ≠ colsD W → E U W = 0
  cO : ∀ {U W : WordD}, U.1.length = W.1.length → colsD U ≠ colsD W → O U W = 0

theorem supp2G (c x : R) : Supp2 (opGE c x) (opGO 1 x) where
  sE := opGE_supp c x
  sO := opGO_supp 1 x
  cE := opGE_cols c x
  cO := opGO_cols 1 x

theorem supp2S : Supp2 (opSE : WordD → WordD → R) (opSO 1) where
  sE := opSE_supp
  sO := opSO_supp 1
  cE := opSE_cols
  cO := opSO_cols 1

theorem compo2 {n : Nat} (hn : 2 ≤ n) {E O E' O' : WordD → WordD → R} (S : Supp2 E O) (S' : Supp2 E' O') (e q1 q2 : R)
    (hE : ∀ U W, E' (swD U) (swD W) = e * E' U W) (hO : ∀ U W, O' (swD U) (swD W) = e * O' U W) {U V : WordD}
    (hU : U ∈ WdD n 1) (hV : V ∈ WdD n 1) :
    sumD n (fun W => (E U W + qw q1 q2 U.2 (swD W).2 * O U (swD W)) * (E' W V + qw q1 q2 W.2 (swD V).2 * O' W (swD V))) =
      sumD n (fun W => E U W * E' W V + e * (q1 * q2 * (O U W * O' W V))) +
        qtau q1 q2 U (swD V) * sumD n (fun W => E U W * O' W (swD V) + e * (O U W * E' W (swD V))) := by
  have lU := lone_of_mem hU
  have hV2 := swD_mem_one hV
  have lV := lone_of_mem hV2
  have lV1 := lone_of_mem hV
  have aU := mem_WdD.1 hU
  have aV := mem_WdD.1 hV
  have aV2 := mem_WdD.1 hV2
  have mem : ∀ {W : WordD}, W.1.length = n → colsD W = 1 → Lone W := fun h h1 =>
    lone_of_mem (mem_WdD.2 ⟨h, h1, fun h0 => absurd h0 (by omega)⟩)
  apply twist2 n E O E' O' e q1 q2 _ hE hO U V
  · intro W hW
    by_cases hc : colsD W = 1
    · rcases h1 : suppD stpO U W with _ | _
      · rw [S.sO h1]; ring
      · rcases h2 : suppD stpO W V with _ | _
        · rw [S'.sO h2]; ring
        · rw [tau_OO q1 q2 h1 h2 lU (mem hW hc)]
    · rw [S.cO (by omega) (by omega)]; ring
  · intro W hW
    by_cases hc : colsD W = 1
    · rcases h1 : suppD stpE U W with _ | _
      · rw [S.sE (by intro h0; rw [h0] at aU; simp at aU; omega) h1]; ring
      · rcases h2 : suppD stpO W (swD V) with _ | _
        · rw [S'.sO h2]; ring
        · rw [show V.2.sw = (swD V).2 from rfl, tau_EO q1 q2 h1 h2 lU (mem hW hc) lV (by omega) (by omega) (by omega)]
    · rw [S.cE (by omega) (by omega)]; ring
  · intro W hW
    by_cases hc : colsD W = 1
    · rcases h1 : suppD stpO U W with _ | _
      · rw [S.sO h1]; ring
      · rcases h2 : suppD stpE W (swD V) with _ | _
        · rw [S'.sE (by intro h0; rw [h0] at hW; simp at hW; omega) h2]; ring
        · rw [tau_OE q1 q2 h1 h2 lU (mem hW hc) lV (by omega) (by omega) (by omega)]
    · rw [S.cO (by omega) (by omega)]; ring

theorem mem_WdD_one {U : WordD} (h : U ∈ WdD 1 1) : U = ([.o], .a) ∨ U = ([.o], .b) ∨ U = ([.a], .o) ∨ U = ([.b], .o) := by
  rw [mem_WdD] at h
  rcases U with ⟨u, i⟩
  obtain ⟨p, rfl⟩ := List.length_eq_one_iff.1 h.1
  have := h.2.1
  cases p <;> cases i <;> simp [colsD, colsW, L3.k0] at this ⊢

/-- **Commutation of the first operators with two parameters.** -/
theorem op2G_comm [IsDomain R] (h2 : (2 : R) ≠ 0) (q1 q2 : R) {x y : R} (hx : x ≠ 0) (hy : y ≠ 0) (hxy : x + y ≠ 0) {n : Nat} (hn : 1 ≤ n)
    {U V : WordD} (hU : U ∈ WdD n 1) (hV : V ∈ WdD n 1) :
    sumD n (fun W => op2G q1 q2 x U W * op2G q1 q2 y W V) = sumD n (fun W => op2G q1 q2 y U W * op2G q1 q2 x W V) := by
  rcases Nat.lt_or_ge n 2 with h1 | h1
  · obtain rfl : n = 1 := by omega
    rcases mem_WdD_one hU with rfl | rfl | rfl | rfl <;> rcases mem_WdD_one hV with rfl | rfl | rfl | rfl <;>
      simp [sumD, sumW, op2G, opGE, opGO, kerE, kerO, gD, wtE, endG, swD, L3.sw, qw, qOf] <;> ring
  · unfold op2G
    rw [compo2 h1 (supp2G _ x) (supp2G _ y) 1 q1 q2 (opGE_sw _ y) (opGO_sw 1 y) hU hV,
      compo2 h1 (supp2G _ y) (supp2G _ x) 1 q1 q2 (opGE_sw _ x) (opGO_sw 1 x) hU hV]
    have aU := mem_WdD.1 hU
    have aV := mem_WdD.1 hV
    have A := (parG' h2 (q1 * q2) hx hy hxy (U := U) (V := V) (by omega)).1
    have B := (parG' h2 (q1 * q2) hx hy hxy (U := U) (V := swD V) (by unfold swD; simp only; omega)).2
    rw [aU.1] at A B
    simp only [one_mul]
    rw [A, B]

/-- **Commutation of the two operators with two parameters.** -/
theorem op2S_comm [IsDomain R] (h2 : (2 : R) ≠ 0) (q1 q2 : R) {y : R} (hy : y ≠ 0) {n : Nat} (hn : 1 ≤ n)
    {U V : WordD} (hU : U ∈ WdD n 1) (hV : V ∈ WdD n 1) :
    sumD n (fun W => op2S q1 q2 U W * op2G q1 q2 y W V) = sumD n (fun W => op2G q1 q2 y U W * op2S q1 q2 W V) := by
  rcases Nat.lt_or_ge n 2 with h1 | h1
  · obtain rfl : n = 1 := by omega
    rcases mem_WdD_one hU with rfl | rfl | rfl | rfl <;> rcases mem_WdD_one hV with rfl | rfl | rfl | rfl <;>
      simp [sumD, sumW, op2G, op2S, opGE, opGO, opSE, opSO, kerE, kerO, kerSE, kerSO, gD, sD, wtE, wtS, endG, endSg, swD, L3.sw, qw, qOf] <;> first | ring1 | (left; ring1)
  · unfold op2G op2S
    rw [compo2 h1 supp2S (supp2G _ y) 1 q1 q2 (opGE_sw _ y) (opGO_sw 1 y) hU hV,
      compo2 h1 (supp2G _ y) supp2S (-1) q1 q2 opSE_sw (opSO_sw 1) hU hV]
    have aU := mem_WdD.1 hU
    have aV := mem_WdD.1 hV
    have A := (parS' h2 (q1 * q2) hy (U := U) (V := V) (by omega)).1
    have B := (parS' h2 (q1 * q2) hy (U := U) (V := swD V) (by unfold swD; simp only; omega)).2
    rw [aU.1] at A B
    simp only [one_mul, neg_mul, neg_one_mul] at A B ⊢
    rw [A, B]

end

end Verif
