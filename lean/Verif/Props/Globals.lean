import Verif.Model.Globals
import Verif.Model.SpaceMaps
import Verif.Proofs.RingAbs
import Verif.Spec.Ring
import Mathlib.Algebra.MvPolynomial.NoZeroDivisors
/-!
# C90: the module-level interface of `qcalc.py`
-/

namespace Verif
open Spec MvPolynomial

/-- No Schubert symbol occurs in the expression. -/
def Spec.SFree (p : Poly) : Prop := ∀ t ∈ p, ∀ l, Sym.S l ∉ t.1

/-! ### `apply_lc` with a function that always raises -/

theorem applyMono_raises {e : PyErr} {m : Mono} {l : List Int} (h : Sym.S l ∈ m) :
    Poly.applyMono (fun _ => .error e) m = .error e := by
  induction m with
  | nil => simp at h
  | cons s m ih =>
    cases s with
    | S p => rfl
    | q => rw [Poly.applyMono, ih (by simpa using h)]; rfl
    | q1 => rw [Poly.applyMono, ih (by simpa using h)]; rfl
    | q2 => rw [Poly.applyMono, ih (by simpa using h)]; rfl

theorem applyMono_free {f : List Int → Except PyErr Poly} {m : Mono} (h : ∀ l, Sym.S l ∉ m) :
    Returns (Poly.applyMono f m) (monoDen m) := by
  have := applyMono_spec (f := f) (σ := fun l => X (.S l)) m (fun l hl => absurd hl (h l))
  have e : subst (fun l => X (.S l)) = AlgHom.id ℚ P := by
    apply MvPolynomial.algHom_ext
    intro s
    cases s <;> simp
  rwa [e] at this

theorem apply_raises {e : PyErr} {p : Poly} (h : ¬ SFree p) : Poly.apply (fun _ => .error e) p = .error e := by
  induction p with
  | nil => exact absurd (by intro t ht; simp at ht) h
  | cons t p ih =>
    obtain ⟨m, c⟩ := t
    by_cases hm : ∃ l, Sym.S l ∈ m
    · obtain ⟨l, hl⟩ := hm
      rw [Poly.apply, applyMono_raises hl]
      rfl
    · push Not at hm
      obtain ⟨a, ha, -, -⟩ := applyMono_free (f := fun _ => .error e) hm
      rw [Poly.apply, ha, ih]
      · rfl
      · intro h'
        apply h
        intro t ht
        rcases List.mem_cons.1 ht with rfl | ht
        · exact hm
        · exact h' t ht

theorem subst_free {p : Poly} (h : SFree p) (σ : List Int → P) : subst σ (den p) = den p := by
  induction p with
  | nil => simp
  | cons t p ih =>
    have hm : ∀ m : Mono, (∀ l, Sym.S l ∉ m) → subst σ (monoDen m) = monoDen m := by
      intro m
      induction m with
      | nil => intro _; simp [monoDen]
      | cons s m ihm =>
        intro h
        rw [monoDen_cons, map_mul, ihm (fun l hl => h l (by simp [hl]))]
        cases s with
        | S l => exact absurd (by simp) (h l)
        | _ => simp
    rw [den_cons, map_add, map_mul, subst_C, hm _ (h t (by simp)), ih (fun t ht => h t (by simp [ht]))]

theorem apply_free {f : List Int → Except PyErr Poly} {p : Poly} (h : SFree p) : Returns (Poly.apply f p) (den p) := by
  have := apply_spec (f := f) (σ := fun _ => 0) p (fun t ht l hl => absurd hl (h t ht l))
  rwa [subst_free h] at this

/-! ### symbols and degrees -/

theorem degreeOf_den_zero {p : Poly} {s : Sym} (h : ∀ t ∈ p, s ∉ t.1) : degreeOf s (den p) = 0 := by
  have hm : ∀ m : Mono, s ∉ m → degreeOf s (monoDen m) = 0 := by
    intro m
    induction m with
    | nil => intro _; simp [monoDen, degreeOf_one]
    | cons a m ihm =>
      intro h
      rw [List.mem_cons, not_or] at h
      rw [monoDen_cons]
      have := degreeOf_mul_le s (X a : P) (monoDen m)
      rw [ihm h.2, degreeOf_X, if_neg h.1] at this
      omega
  induction p with
  | nil => simp
  | cons t p ih =>
    rw [den_cons]
    have h1 := degreeOf_add_le s (C t.2 * monoDen t.1 : P) (den p)
    have h2 := degreeOf_C_mul_le (monoDen t.1) s t.2
    rw [hm _ (h t (by simp))] at h2
    rw [ih (fun t ht => h t (by simp [ht]))] at h1
    omega

theorem degreeOf_den_pos {p : Poly} (hp : WF p) {s : Sym} {t : Mono × ℚ} (ht : t ∈ p) (hs : s ∈ t.1) : degreeOf s (den p) ≠ 0 := by
  have h1 := coeff_den_mem hp ht
  have h2 : expo t.1 ∈ (den p).support := by
    rw [mem_support_iff, h1]
    exact (hp.2 t ht).1
  have h3 := monomial_le_degreeOf s h2
  have h4 : expo t.1 s ≠ 0 := by
    rw [expo, Multiset.toFinsupp_apply, Multiset.coe_count]
    exact (List.count_pos_iff.2 hs).ne'
  omega

theorem not_sfree_mul {a b : Poly} (ha : den a ≠ 0) (hb : WF b) (h : ¬ SFree b) : ¬ SFree (Poly.mul a b) := by
  unfold SFree at h
  push Not at h
  obtain ⟨t, ht, l, hl⟩ := h
  intro h'
  have h1 := degreeOf_den_zero (fun t ht => h' t ht l)
  have h2 := degreeOf_den_pos hb ht hl
  have hb0 : den b ≠ 0 := by
    intro h0
    rw [h0] at h2
    simp at h2
  rw [den_mul, degreeOf_mul_eq ha hb0] at h1
  omega

theorem sfree_of_den {p : Poly} (hp : WF p) (h : ∀ l, degreeOf (.S l) (den p) = 0) : SFree p := fun _ ht l hl =>
  degreeOf_den_pos hp ht hl (h l)

theorem den_ne_zero {p : Poly} (hp : WF p) (h : p ≠ []) : den p ≠ 0 := by
  obtain ⟨t, p, rfl⟩ := List.exists_cons_of_ne_nil h
  intro h0
  have := coeff_den_mem hp (m := t.1) (c := t.2) (by simp)
  rw [h0] at this
  exact (hp.2 t (by simp)).1 (by simpa using this.symm)

/-! ### one step of `act_lc` -/

theorem act_step {e : Poly} (he : WF e) {v : Sym} (hv : leastSym e.vars = some v) :
    WF (e.subs0 v) ∧ WF ((Poly.sub e (e.subs0 v)).divVar v) ∧ (Poly.sub e (e.subs0 v)).divVar v ≠ [] ∧
      (e.subs0 v).size < e.size ∧ ((Poly.sub e (e.subs0 v)).divVar v).size < e.size ∧
      X v * den ((Poly.sub e (e.subs0 v)).divVar v) + den (e.subs0 v) = den e ∧
      (∀ s ∈ (e.subs0 v).vars, s ∈ e.vars) ∧ ∀ s ∈ ((Poly.sub e (e.subs0 v)).divVar v).vars, s ∈ e.vars := by
  have hmem := leastSym_mem hv
  obtain ⟨hvq, t, ht, hvt⟩ := mem_vars_iff.1 hmem
  have hp := sub_subs0_perm he v
  have hall : ∀ t ∈ Poly.sub e (e.subs0 v), v ∈ t.1 := by
    intro t ht
    have := (List.mem_filter.1 (hp.mem_iff.1 ht)).2
    simpa using this
  have hne : Poly.sub e (e.subs0 v) ≠ [] := by
    intro h0
    rw [h0] at hp
    have : t ∈ e.filter (fun t => decide (v ∈ t.1)) := List.mem_filter.2 ⟨ht, by simpa using hvt⟩
    rw [List.nil_perm.1 hp] at this
    cases this
  have w0 : WF (e.subs0 v) := wf_filter he _
  refine ⟨w0, wf_divVar v (wf_sub he w0) hall, ?_, ?_, ?_, ?_, ?_, ?_⟩
  · unfold Poly.divVar
    simpa using hne
  · have := size_filter_lt (f := fun t => decide (v ∉ t.1)) ht (by simpa using hvt) (List.length_pos_of_mem hvt)
    exact this
  · have h1 := size_divVar_lt hall hne
    have h2 := size_perm hp
    have h3 := size_filter_le e (fun t => decide (v ∈ t.1))
    omega
  · rw [den_divVar v hall, den_sub]
    ring
  · intro s hs
    obtain ⟨h1, t, ht, h2⟩ := mem_vars_iff.1 hs
    exact mem_vars_iff.2 ⟨h1, t, List.mem_of_mem_filter ht, h2⟩
  · intro s hs
    obtain ⟨h1, t, ht, h2⟩ := mem_vars_iff.1 hs
    unfold Poly.divVar at ht
    rw [List.mem_map] at ht
    obtain ⟨a, ha, rfl⟩ := ht
    exact mem_vars_iff.2 ⟨h1, a, List.mem_of_mem_filter (hp.mem_iff.1 ha), List.mem_of_mem_erase h2⟩

namespace Globals

/-- Exceptions of the code: anything but an exhausted recursion bound. -/
def IsExc {α : Type} (r : Except PyErr α) : Prop := ∃ err, r = .error err ∧ err ≠ .outOfFuel

theorem spec_cases (s : Sym) : IsExc (spec2num s) ∨ ∃ i, s = .S [i] ∧ spec2num s = .ok i := by
  cases s with
  | S p =>
    match p with
    | [] => exact Or.inl ⟨_, rfl, by decide⟩
    | [i] => exact Or.inr ⟨i, rfl, rfl⟩
    | i :: j :: p => exact Or.inl ⟨.valueError, by simp [spec2num], by decide⟩
  | q => exact Or.inl ⟨_, rfl, by decide⟩
  | q1 => exact Or.inl ⟨_, rfl, by decide⟩
  | q2 => exact Or.inl ⟨_, rfl, by decide⟩

theorem loop_raises (f : ℕ) : ∀ {e lc : Poly}, WF e → e.size < f → WF lc → ¬ SFree lc →
    (e.vars = [] ∧ actLoop spec2num (fun i p => pieriVar i p) f e lc = .ok (Poly.mul e lc)) ∨
      IsExc (actLoop spec2num (fun i p => pieriVar i p) f e lc) := by
  induction f with
  | zero => intro e lc _ h; omega
  | succ f ih =>
    intro e lc he hf hlc hS
    rw [actLoop]
    cases hv : leastSym e.vars with
    | none => exact Or.inl ⟨leastSym_none hv, rfl⟩
    | some v =>
      right
      obtain ⟨w0, w1, hne, l0, l1, -, -, -⟩ := act_step he hv
      rcases spec_cases v with ⟨err, h1, h2⟩ | ⟨i, -, h1⟩
      · exact ⟨err, by simp only [h1]; rfl, h2⟩
      · simp only [h1]
        rcases ih w1 (by omega) hlc hS with ⟨-, h3⟩ | ⟨err, h3, h4⟩
        · rcases ih w0 (by omega) hlc hS with ⟨-, h5⟩ | ⟨err, h5, h6⟩
          · have := apply_raises (e := .typeError) (not_sfree_mul (den_ne_zero w1 hne) hlc hS)
            refine ⟨.typeError, ?_, by decide⟩
            simp only [bind, Except.bind, h3, h5]
            have e0 : pieriVar i = fun _ => .error .typeError := rfl
            rw [e0, this]
          · refine ⟨err, ?_, h6⟩
            simp only [bind, Except.bind, h3, h5]
        · refine ⟨err, ?_, h4⟩
          simp only [bind, Except.bind, h3]

/-- special symbols: one row -/
def Row (s : Sym) : Prop := ∃ i, s = .S [i]

theorem loop_free (f : ℕ) : ∀ {e lc : Poly}, WF e → e.size < f → WF lc → SFree lc →
    ((∀ s ∈ e.vars, Row s) → ∃ w, actLoop spec2num (fun i p => pieriVar i p) f e lc = .ok w ∧ WF w ∧ SFree w ∧
      den w = subst (fun _ => 1) (den e) * den lc) ∧
    ((∃ s ∈ e.vars, ¬ Row s) → IsExc (actLoop spec2num (fun i p => pieriVar i p) f e lc)) := by
  induction f with
  | zero => intro e lc _ h; omega
  | succ f ih =>
    intro e lc he hf hlc hS
    rw [actLoop]
    cases hv : leastSym e.vars with
    | none =>
      have h0 := leastSym_none hv
      constructor
      · intro _
        have hfree : SFree e := fun t ht l hl => by
          have := mem_vars_iff.2 ⟨by simp, t, ht, hl⟩
          rw [h0] at this
          cases this
        refine ⟨_, rfl, wf_mul hlc, sfree_of_den (wf_mul hlc) (fun l => ?_), by rw [den_mul, subst_free hfree]⟩
        rw [den_mul]
        have h1 := degreeOf_mul_le (.S l) (den e) (den lc)
        rw [degreeOf_den_zero (fun t ht => hfree t ht l), degreeOf_den_zero (fun t ht => hS t ht l)] at h1
        omega
      · rintro ⟨s, hs, -⟩
        rw [h0] at hs
        cases hs
    | some v =>
      obtain ⟨w0, w1, hne, l0, l1, hd, v0, v1⟩ := act_step he hv
      rcases spec_cases v with ⟨err, h1, h2⟩ | ⟨i, hvi, h1⟩
      · constructor
        · intro hr
          obtain ⟨i, rfl⟩ := hr v (leastSym_mem hv)
          cases h1
        · intro _
          exact ⟨err, by simp only [h1]; rfl, h2⟩
      · simp only [h1]
        obtain ⟨a1, a2⟩ := ih w1 (by omega) hlc hS
        obtain ⟨b1, b2⟩ := ih w0 (by omega) hlc hS
        constructor
        · intro hr
          obtain ⟨p1, c1, c2, c3, c4⟩ := a1 (fun s hs => hr s (v1 s hs))
          obtain ⟨p2, d1, d2, d3, d4⟩ := b1 (fun s hs => hr s (v0 s hs))
          obtain ⟨r, e1, e2, e3⟩ := apply_free (f := pieriVar i) c3
          refine ⟨Poly.add r p2, ?_, wf_add e2.sorted d2, sfree_of_den (wf_add e2.sorted d2) (fun l => ?_), ?_⟩
          · simp only [bind, Except.bind, c1, d1, e1]
          · rw [den_add]
            have h1 := degreeOf_add_le (.S l) (den r) (den p2)
            rw [e3, degreeOf_den_zero (fun t ht => c3 t ht l), degreeOf_den_zero (fun t ht => d3 t ht l)] at h1
            rw [e3]
            omega
          · rw [den_add, e3, c4, d4, ← hd, map_add, map_mul, hvi, subst_S]
            ring
        · rintro ⟨s, hs, hns⟩
          by_cases h : (∀ s ∈ ((Poly.sub e (e.subs0 v)).divVar v).vars, Row s)
          · obtain ⟨p1, c1, -, -, -⟩ := a1 h
            have h0 : ∃ s ∈ (e.subs0 v).vars, ¬ Row s := by
              refine ⟨s, ?_, hns⟩
              by_contra hs0
              obtain ⟨hq, t, ht, hst⟩ := mem_vars_iff.1 hs
              have hsv : s ≠ v := by rintro rfl; exact hns ⟨i, hvi⟩
              by_cases hvt : v ∈ t.1
              · refine hns (h s (mem_vars_iff.2 ⟨hq, (t.1.erase v, t.2), ?_, (List.mem_erase_of_ne hsv).2 hst⟩))
                unfold Poly.divVar
                refine List.mem_map.2 ⟨t, (sub_subs0_perm he v).mem_iff.2 (List.mem_filter.2 ⟨ht, by simpa using hvt⟩), rfl⟩
              · exact hs0 (mem_vars_iff.2 ⟨hq, t, List.mem_filter.2 ⟨ht, by simpa using hvt⟩, hst⟩)
            obtain ⟨err, d1, d2⟩ := b2 h0
            exact ⟨err, by simp only [bind, Except.bind, c1, d1], d2⟩
          · push Not at h
            obtain ⟨err, d1, d2⟩ := a2 h
            exact ⟨err, by simp only [bind, Except.bind, d1], d2⟩

end Globals

open Globals

/-! ### C90 -/

/-- **C90**: `pieri`, `qpieri` and `part2pair` of the module raise `TypeError` as soon as a Schubert symbol occurs, and leave other
expressions unchanged. -/
theorem C90_pieri (i : Int) (lc : Poly) :
    (¬ SFree lc → Globals.pieri i lc = .error .typeError ∧ Globals.qpieri i lc = .error .typeError ∧
      Globals.part2pair lc = .error .typeError) ∧
    (SFree lc → Returns (Globals.pieri i lc) (den lc) ∧ Returns (Globals.qpieri i lc) (den lc) ∧
      Returns (Globals.part2pair lc) (den lc)) := by
  have hq : Globals.qpieri i lc = Globals.pieri i lc ∨ (¬ SFree lc ∧ Globals.qpieri i lc = .error .typeError) := by
    unfold Globals.qpieri
    split
    · split
      · rename_i p c hc
        exact Or.inr ⟨fun h => h _ (List.mem_singleton.2 rfl) p (by simp), rfl⟩
      · exact Or.inl rfl
    · exact Or.inl rfl
  constructor
  · intro h
    have h1 : Globals.pieri i lc = .error .typeError := apply_raises h
    refine ⟨h1, ?_, apply_raises h⟩
    rcases hq with hq | hq
    · rw [hq, h1]
    · exact hq.2
  · intro h
    refine ⟨apply_free h, ?_, apply_free h⟩
    rcases hq with hq | hq
    · rw [hq]; exact apply_free h
    · exact absurd h hq.1

/-- **C90**: `act` and `qact` of the module. With a Schubert symbol in the second argument they raise unless the first
argument is a polynomial in `q`, and then they return the product; otherwise they work for polynomials in one-row symbols,
all of which are treated as the number 1. -/
theorem C90_act {e lc : Poly} (he : WF e) (hlc : WF lc) :
    Globals.qact e lc = Globals.act e lc ∧
    (¬ SFree lc → (∀ t ∈ e, ∀ s ∈ t.1, s = .q) → Globals.act e lc = .ok (Poly.mul e lc)) ∧
    (¬ SFree lc → (∃ t ∈ e, ∃ s ∈ t.1, s ≠ .q) → IsExc (Globals.act e lc)) ∧
    (SFree lc → (∀ t ∈ e, ∀ s ∈ t.1, s = .q ∨ Row s) → Returns (Globals.act e lc) (subst (fun _ => 1) (den e) * den lc)) ∧
    (SFree lc → (∃ t ∈ e, ∃ s ∈ t.1, s ≠ .q ∧ ¬ Row s) → IsExc (Globals.act e lc)) := by
  refine ⟨rfl, fun hS h => ?_, fun hS h => ?_, fun hS h => ?_, fun hS h => ?_⟩
  · have hv : e.vars = [] := by
      rw [List.eq_nil_iff_forall_not_mem]
      intro s hs
      obtain ⟨h1, t, ht, h2⟩ := mem_vars_iff.1 hs
      exact h1 (h t ht s h2)
    unfold Globals.act actLc
    rw [actLoop, hv]
    rfl
  · obtain ⟨t, ht, s, hs, hq⟩ := h
    rcases loop_raises (e.size + 1) he (by omega) hlc hS with ⟨h1, -⟩ | h1
    · have := mem_vars_iff.2 ⟨hq, t, ht, hs⟩
      rw [h1] at this
      cases this
    · exact h1
  · obtain ⟨w, h1, h2, -, h3⟩ := (loop_free (e.size + 1) he (by omega) hlc hS).1 (fun s hs => by
      obtain ⟨h1, t, ht, h2⟩ := mem_vars_iff.1 hs
      exact (h t ht s h2).resolve_left h1)
    exact ⟨w, h1, h2, h3⟩
  · obtain ⟨t, ht, s, hs, hq, hr⟩ := h
    exact (loop_free (e.size + 1) he (by omega) hlc hS).2 ⟨s, mem_vars_iff.2 ⟨hq, t, ht, hs⟩, hr⟩

/-- **C90**: the remaining functions always raise, each its own exception. -/
theorem C90_raise (a b : Poly) (i : Int) (p : List Int) :
    (Globals.giambelli a = .error .nameError ∧ Globals.qgiambelli a = .error .nameError ∧ Globals.mult a b = .error .nameError ∧
      Globals.toS a = .error .nameError ∧ Globals.qtoS a = .error .nameError) ∧
      (Globals.part2index a = .error .valueError ∧ Globals.index2part a = .error .valueError ∧
        Globals.schubType p = .error .valueError) ∧
      Globals.pieriList i p = .error .typeError ∧ Globals.part2pairList p = .error .typeError :=
  ⟨⟨rfl, rfl, rfl, rfl, rfl⟩, ⟨rfl, rfl, rfl⟩, rfl, rfl⟩

/-- **C90**: the method `part2index` of a space, given a list, runs into the function of the module and raises its exception,
on every space. -/
theorem C90_part2index_list (X : Space) (l : List Int) :
    Globals.part2index (Poly.sym (.S l)) = .error .valueError ∧ X.part2indexList l = .error .valueError := ⟨rfl, rfl⟩

example : mkGr 2 5 = .ok ⟨.A, 3, 5⟩ ∧ (Space.mk .A 3 5).part2index [2, 1] = [2, 4] ∧
    (Space.mk .A 3 5).part2indexList [2, 1] = .error .valueError := by decide +kernel

example : Globals.pieri 1 (Poly.sym (.S [2, 1])) = .error .typeError := by decide +kernel

/-- The action "succeeds" on `q`: `act(S[1]*q + S[2], q) = q^2 + q`. -/
example : Globals.act [([.q, .S [1]], 1), ([.S [2]], 1)] (Poly.sym .q) = .ok [([.q], 1), ([.q, .q], 1)] := by decide +kernel

example : Globals.act (Poly.sym (.S [1])) (Poly.sym (.S [2])) = .error .typeError ∧
    Globals.act (Poly.sym (.S [1, 1])) (Poly.sym .q) = .error .valueError ∧
    Globals.act (Poly.sym (.S [])) (Poly.sym .q) = .error .indexError := by decide +kernel

end Verif
