import Verif.Spec.Denote
import Verif.Proofs.Sort
import Mathlib.Data.Finsupp.Multiset
import Mathlib.Tactic.Ring
/-! # Polynomial arithmetic of the model is polynomial arithmetic -/

namespace Verif
open Spec MvPolynomial

theorem code_inj {a b : Sym} (h : a.code = b.code) : a = b := by
  cases a <;> cases b <;> simp_all [Sym.code]

def MSorted (m : Mono) : Prop := m.Pairwise (fun a b => listLt b.code a.code = false)

theorem ins_perm (s : Sym) (m : Mono) : (Mono.ins s m).Perm (s :: m) := by
  induction m with
  | nil => exact List.Perm.refl _
  | cons t m ih =>
    unfold Mono.ins
    split
    · exact ((List.Perm.cons t ih)).trans (List.Perm.swap s t m)
    · exact List.Perm.refl _

theorem symLe_trans {a b c : Sym} (h1 : listLt b.code a.code = false)
    (h2 : listLt c.code b.code = false) : listLt c.code a.code = false := by
  have := listLe_trans a.code b.code c.code (by simp [listLe, h1]) (by simp [listLe, h2])
  simpa [listLe] using this

theorem ins_sorted {s : Sym} {m : Mono} (h : MSorted m) : MSorted (Mono.ins s m) := by
  induction m with
  | nil => simp [Mono.ins, MSorted]
  | cons t m ih =>
    unfold Mono.ins
    have ht := List.pairwise_cons.1 h
    split
    · rename_i hlt
      refine List.pairwise_cons.2 ⟨?_, ih ht.2⟩
      intro u hu
      rcases List.mem_cons.1 ((ins_perm s m).mem_iff.1 hu) with rfl | hu
      · exact listLt_asymm hlt
      · exact ht.1 u hu
    · rename_i hlt
      refine List.pairwise_cons.2 ⟨?_, h⟩
      have hlt' : listLt t.code s.code = false := by simpa using hlt
      intro u hu
      rcases List.mem_cons.1 hu with rfl | hu
      · exact hlt'
      · exact symLe_trans hlt' (ht.1 u hu)

theorem mono_mul_perm (a b : Mono) : (Mono.mul a b).Perm (a ++ b) := by
  induction a with
  | nil => exact List.Perm.refl _
  | cons s a ih => exact (ins_perm s _).trans (List.Perm.cons s ih)

theorem mono_mul_sorted {a b : Mono} (h : MSorted b) : MSorted (Mono.mul a b) := by
  induction a with
  | nil => exact h
  | cons s a ih => exact ins_sorted ih

theorem sorted_unique {a b : Mono} (ha : MSorted a) (hb : MSorted b) (h : a.Perm b) : a = b := by
  apply List.Perm.eq_of_pairwise _ ha hb h
  intro x y _ _ h1 h2
  rcases listLt_total x.code y.code with h | h | h
  · rw [h] at h2; cases h2
  · exact code_inj h
  · rw [h] at h1; cases h1

theorem monoDen_perm {a b : Mono} (h : a.Perm b) : monoDen a = monoDen b :=
  (h.map _).prod_eq

@[simp] theorem monoDen_nil : monoDen [] = 1 := rfl
@[simp] theorem monoDen_cons (s : Sym) (m : Mono) : monoDen (s :: m) = X s * monoDen m := by
  simp [monoDen]

theorem monoDen_mul (a b : Mono) : monoDen (Mono.mul a b) = monoDen a * monoDen b := by
  rw [monoDen_perm (mono_mul_perm a b)]
  simp [monoDen]

/-- exponent vector -/
noncomputable def expo (m : Mono) : Sym →₀ ℕ := Multiset.toFinsupp (m : Multiset Sym)

theorem monoDen_eq (m : Mono) : monoDen m = monomial (expo m) 1 := by
  induction m with
  | nil => simp [expo]
  | cons s m ih =>
    rw [monoDen_cons, ih, X, monomial_mul]
    congr 1
    · unfold expo
      rw [← Multiset.cons_coe, ← Multiset.singleton_add, map_add, Multiset.toFinsupp_singleton]
    · simp

theorem expo_inj {a b : Mono} (ha : MSorted a) (hb : MSorted b) (h : expo a = expo b) : a = b := by
  apply sorted_unique ha hb
  unfold expo at h
  have := Multiset.toFinsupp.injective h
  exact Multiset.coe_eq_coe.1 this

@[simp] theorem den_nil : den [] = 0 := rfl
@[simp] theorem den_cons (t : Mono × ℚ) (p : Poly) : den (t :: p) = C t.2 * monoDen t.1 + den p := by
  simp [den]
theorem den_append (p r : Poly) : den (p ++ r) = den p + den r := by simp [den]

theorem den_addTerm (m : Mono) (c : ℚ) (p : Poly) :
    den (Poly.addTerm m c p) = C c * monoDen m + den p := by
  induction p with
  | nil =>
    unfold Poly.addTerm
    split
    · rename_i h; simp [h]
    · simp
  | cons t p ih =>
    obtain ⟨m', c'⟩ := t
    unfold Poly.addTerm
    split
    · rename_i h
      subst h
      split
      · rename_i h
        rw [den_cons, ← add_assoc, ← add_mul, ← C_add, h]; simp
      · rw [den_cons, den_cons, ← add_assoc, ← add_mul, ← C_add]
    · rw [den_cons, ih, den_cons]; ring

theorem den_add (a b : Poly) : den (Poly.add a b) = den a + den b := by
  unfold Poly.add
  induction a with
  | nil => simp
  | cons t a ih => rw [List.foldr_cons, den_addTerm, ih, den_cons]; ring

theorem den_scale (c : ℚ) (a : Poly) : den (Poly.scale c a) = C c * den a := by
  unfold Poly.scale
  split
  · rename_i h; simp [h]
  · induction a with
    | nil => simp
    | cons t a ih => rw [List.map_cons, den_cons, ih, den_cons]; simp only [C_mul]; ring

theorem den_sub (a b : Poly) : den (Poly.sub a b) = den a - den b := by
  rw [Poly.sub, den_add, den_scale]; simp; ring

theorem den_mulTerm (m : Mono) (c : ℚ) (a : Poly) :
    den (Poly.mulTerm m c a) = C c * monoDen m * den a := by
  unfold Poly.mulTerm
  induction a with
  | nil => simp
  | cons t a ih =>
    rw [List.foldr_cons, den_addTerm, ih, den_cons, monoDen_mul]; simp only [C_mul]; ring

theorem den_mul (a b : Poly) : den (Poly.mul a b) = den a * den b := by
  unfold Poly.mul
  induction a with
  | nil => simp
  | cons t a ih => rw [List.foldr_cons, den_add, ih, den_mulTerm, den_cons]; ring

theorem den_const (c : ℚ) : den (Poly.const c) = C c := by
  unfold Poly.const
  split
  · rename_i h; simp [h]
  · simp

@[simp] theorem den_sym (s : Sym) : den (Poly.sym s) = X s := by simp [Poly.sym]

theorem den_pow (a : Poly) (n : Nat) : den (Poly.pow a n) = den a ^ n := by
  induction n with
  | zero => simp [Poly.pow, den_const]
  | succ n ih => rw [Poly.pow, den_mul, ih]; ring

theorem den_expand (e : Expr) : den e.expand = exprDen e := by
  induction e with
  | num c => exact den_const c
  | sym s => exact den_sym s
  | add a b iha ihb => rw [Expr.expand, den_add, iha, ihb]; rfl
  | mul a b iha ihb => rw [Expr.expand, den_mul, iha, ihb]; rfl
  | pow a n ih => rw [Expr.expand, den_pow, ih]; rfl

/-! ### Well-formedness -/

theorem wf_nil : WF [] := ⟨by simp, by simp⟩

theorem mem_addTerm_fst {m m' : Mono} {c : ℚ} {p : Poly}
    (h : m' ∈ (Poly.addTerm m c p).map Prod.fst) : m' = m ∨ m' ∈ p.map Prod.fst := by
  induction p with
  | nil =>
    unfold Poly.addTerm at h
    split at h
    · simp at h
    · left; simpa using h
  | cons t p ih =>
    obtain ⟨m2, c2⟩ := t
    unfold Poly.addTerm at h
    split at h
    · split at h
      · right; simp only [List.map_cons, List.mem_cons]; exact Or.inr h
      · simp only [List.map_cons, List.mem_cons] at h ⊢
        rcases h with h | h
        · exact Or.inl h
        · exact Or.inr (Or.inr h)
    · simp only [List.map_cons, List.mem_cons] at h ⊢
      rcases h with h | h
      · exact Or.inr (Or.inl h)
      · rcases ih h with h | h
        · exact Or.inl h
        · exact Or.inr (Or.inr h)

theorem wf_cons {t : Mono × ℚ} {p : Poly} :
    WF (t :: p) ↔ t.1 ∉ p.map Prod.fst ∧ t.2 ≠ 0 ∧ MSorted t.1 ∧ WF p := by
  unfold WF
  simp only [List.map_cons, List.nodup_cons, List.forall_mem_cons]
  constructor
  · rintro ⟨⟨h1, h2⟩, ⟨h3, h4⟩, h5⟩; exact ⟨h1, h3, h4, h2, h5⟩
  · rintro ⟨h1, h3, h4, h2, h5⟩; exact ⟨⟨h1, h2⟩, ⟨h3, h4⟩, h5⟩

theorem wf_addTerm {m : Mono} (c : ℚ) {p : Poly} (hm : MSorted m) (hp : WF p) :
    WF (Poly.addTerm m c p) := by
  induction p with
  | nil =>
    unfold Poly.addTerm
    split
    · exact wf_nil
    · rename_i h
      exact wf_cons.2 ⟨by simp, h, hm, wf_nil⟩
  | cons t p ih =>
    obtain ⟨m', c'⟩ := t
    obtain ⟨h1, h2, h3, h4⟩ := wf_cons.1 hp
    unfold Poly.addTerm
    split
    · rename_i h
      subst h
      split
      · exact h4
      · rename_i h
        exact wf_cons.2 ⟨h1, h, hm, h4⟩
    · rename_i h
      refine wf_cons.2 ⟨?_, h2, h3, ih h4⟩
      intro hmem
      rcases mem_addTerm_fst hmem with h' | h'
      · exact h h'.symm
      · exact h1 h'

theorem wf_add {a b : Poly} (ha : ∀ t ∈ a, MSorted t.1) (hb : WF b) : WF (Poly.add a b) := by
  unfold Poly.add
  induction a with
  | nil => exact hb
  | cons t a ih =>
    rw [List.foldr_cons]
    exact wf_addTerm _ (ha t (by simp)) (ih (fun u hu => ha u (by simp [hu])))

theorem Spec.WF.sorted {a : Poly} (h : WF a) : ∀ t ∈ a, MSorted t.1 := fun t ht => (h.2 t ht).2

theorem scale_sorted (c : ℚ) {a : Poly} (h : ∀ t ∈ a, MSorted t.1) : ∀ t ∈ Poly.scale c a, MSorted t.1 := by
  unfold Poly.scale
  split
  · simp
  · intro t ht
    rw [List.mem_map] at ht
    obtain ⟨u, hu, rfl⟩ := ht
    exact h u hu

theorem wf_scale (c : ℚ) {a : Poly} (h : WF a) : WF (Poly.scale c a) := by
  unfold Poly.scale
  split
  · exact wf_nil
  · rename_i hc
    refine ⟨?_, ?_⟩
    · rw [List.map_map]; exact h.1
    · intro t ht
      rw [List.mem_map] at ht
      obtain ⟨u, hu, rfl⟩ := ht
      exact ⟨mul_ne_zero hc (h.2 u hu).1, (h.2 u hu).2⟩

theorem wf_sub {a b : Poly} (ha : WF a) (hb : WF b) : WF (Poly.sub a b) :=
  wf_add ha.sorted (wf_scale _ hb)

theorem wf_mulTerm (m : Mono) (c : ℚ) {a : Poly} (ha : ∀ t ∈ a, MSorted t.1) :
    WF (Poly.mulTerm m c a) := by
  unfold Poly.mulTerm
  induction a with
  | nil => exact wf_nil
  | cons t a ih =>
    rw [List.foldr_cons]
    exact wf_addTerm _ (mono_mul_sorted (ha t (by simp))) (ih (fun u hu => ha u (by simp [hu])))

theorem wf_mul {a b : Poly} (hb : WF b) : WF (Poly.mul a b) := by
  unfold Poly.mul
  induction a with
  | nil => exact wf_nil
  | cons t a ih =>
    rw [List.foldr_cons]
    exact wf_add (wf_mulTerm _ _ hb.sorted).sorted ih

theorem wf_const (c : ℚ) : WF (Poly.const c) := by
  unfold Poly.const
  split
  · exact wf_nil
  · rename_i h
    exact wf_cons.2 ⟨by simp, h, by simp [MSorted], wf_nil⟩

theorem wf_sym (s : Sym) : WF (Poly.sym s) := wf_cons.2 ⟨by simp, by simp, by simp [MSorted], wf_nil⟩

theorem wf_pow {a : Poly} (n : Nat) : WF (Poly.pow a n) := by
  induction n with
  | zero => exact wf_const 1
  | succ n ih => exact wf_mul ih

theorem wf_expand (e : Expr) : WF e.expand := by
  induction e with
  | num c => exact wf_const c
  | sym s => exact wf_sym s
  | add a b iha ihb => exact wf_add iha.sorted ihb
  | mul a b iha ihb => exact wf_mul ihb
  | pow a n ih => exact wf_pow n

theorem coeff_den_not_mem {p : Poly} (h : WF p) {m : Mono} (hm : MSorted m)
    (hn : m ∉ p.map Prod.fst) : coeff (expo m) (den p) = 0 := by
  induction p with
  | nil => simp
  | cons t p ih =>
    obtain ⟨h1, h2, h3, h4⟩ := wf_cons.1 h
    simp only [List.map_cons, List.mem_cons, not_or] at hn
    rw [den_cons, coeff_add, ih h4 hn.2, monoDen_eq, C_mul_monomial, coeff_monomial, if_neg, add_zero]
    intro he
    exact hn.1 (expo_inj h3 hm he).symm

/-- In a well-formed polynomial the listed coefficients are the coefficients. -/
theorem coeff_den_mem {p : Poly} (h : WF p) {m : Mono} {c : ℚ} (hm : (m, c) ∈ p) :
    coeff (expo m) (den p) = c := by
  induction p with
  | nil => simp at hm
  | cons t p ih =>
    obtain ⟨h1, h2, h3, h4⟩ := wf_cons.1 h
    rcases List.mem_cons.1 hm with rfl | hm
    · rw [den_cons, coeff_add, coeff_den_not_mem h4 h3 h1, monoDen_eq, C_mul_monomial, coeff_monomial]
      simp
    · rw [den_cons, coeff_add, ih h4 hm, monoDen_eq, C_mul_monomial, coeff_monomial, if_neg, zero_add]
      intro he
      have hs := (h4.2 _ hm).2
      have := expo_inj h3 hs he
      exact h1 (this ▸ List.mem_map.2 ⟨_, hm, rfl⟩)

theorem mem_of_coeff_ne {p : Poly} (h : WF p) {m : Mono} (hm : MSorted m)
    (hc : coeff (expo m) (den p) ≠ 0) : (m, coeff (expo m) (den p)) ∈ p := by
  by_cases hn : m ∈ p.map Prod.fst
  · rw [List.mem_map] at hn
    obtain ⟨⟨m', c⟩, ht, rfl⟩ := hn
    rw [coeff_den_mem h ht]
    exact ht
  · exact absurd (coeff_den_not_mem h hm hn) hc

/-- Expanded form is canonical up to the order of the terms. -/
theorem perm_of_den_eq {p r : Poly} (hp : WF p) (hr : WF r) (h : den p = den r) : p.Perm r := by
  have nd : ∀ {p : Poly}, WF p → p.Nodup := fun hp => List.Nodup.of_map _ hp.1
  rw [List.perm_ext_iff_of_nodup (nd hp) (nd hr)]
  have one : ∀ {p r : Poly}, WF p → WF r → den p = den r → ∀ t, t ∈ p → t ∈ r := by
    intro p r hp hr h t ht
    obtain ⟨m, c⟩ := t
    have h1 := coeff_den_mem hp ht
    have hc := (hp.2 _ ht).1
    have := mem_of_coeff_ne hr (hp.2 _ ht).2 (by rw [← h, h1]; exact hc)
    rwa [← h, h1] at this
  intro t
  exact ⟨one hp hr h t, one hr hp h.symm t⟩

/-! ### `apply` is substitution -/

@[simp] theorem subst_S (σ : List Int → P) (l : List Int) : subst σ (X (.S l)) = σ l := by simp [subst]
@[simp] theorem subst_q (σ : List Int → P) : subst σ (X .q) = X .q := by simp [subst]
@[simp] theorem subst_q1 (σ : List Int → P) : subst σ (X .q1) = X .q1 := by simp [subst]
@[simp] theorem subst_q2 (σ : List Int → P) : subst σ (X .q2) = X .q2 := by simp [subst]
@[simp] theorem subst_C (σ : List Int → P) (c : ℚ) : subst σ (C c) = C c := by
  rw [show (C c : P) = algebraMap ℚ P c from rfl, AlgHom.commutes]

/-- `f` returns on `l` an expanded expression with value `v`. -/
def Returns (r : Except PyErr Poly) (v : P) : Prop := ∃ w, r = .ok w ∧ WF w ∧ den w = v

theorem applySym_spec {f : List Int → Except PyErr Poly} {σ : List Int → P} (s : Sym)
    (h : ∀ l, s = .S l → Returns (f l) (σ l)) : Returns (Poly.applySym f s) (subst σ (X s)) := by
  cases s with
  | S l => simpa [Poly.applySym] using h l rfl
  | q => exact ⟨_, rfl, wf_sym _, by simp⟩
  | q1 => exact ⟨_, rfl, wf_sym _, by simp⟩
  | q2 => exact ⟨_, rfl, wf_sym _, by simp⟩

theorem applyMono_spec {f : List Int → Except PyErr Poly} {σ : List Int → P} (m : Mono)
    (h : ∀ l, Sym.S l ∈ m → Returns (f l) (σ l)) : Returns (Poly.applyMono f m) (subst σ (monoDen m)) := by
  induction m with
  | nil => exact ⟨_, rfl, wf_const 1, by simp [den_const]⟩
  | cons s m ih =>
    obtain ⟨a, ha, ha', ha''⟩ := applySym_spec (f := f) (σ := σ) s (fun l hl => h l (by simp [hl]))
    obtain ⟨b, hb, hb', hb''⟩ := ih (fun l hl => h l (by simp [hl]))
    refine ⟨Poly.mul a b, ?_, wf_mul hb', ?_⟩
    · simp only [Poly.applyMono, ha, hb]; rfl
    · rw [den_mul, ha'', hb'', monoDen_cons, map_mul]

theorem apply_spec {f : List Int → Except PyErr Poly} {σ : List Int → P} (p : Poly)
    (h : ∀ t ∈ p, ∀ l, Sym.S l ∈ t.1 → Returns (f l) (σ l)) :
    Returns (Poly.apply f p) (subst σ (den p)) := by
  induction p with
  | nil => exact ⟨_, rfl, wf_nil, by simp⟩
  | cons t p ih =>
    obtain ⟨m, c⟩ := t
    obtain ⟨a, ha, ha', ha''⟩ := applyMono_spec (f := f) (σ := σ) m (fun l hl => h (m, c) (by simp) l hl)
    obtain ⟨b, hb, hb', hb''⟩ := ih (fun t ht l hl => h t (by simp [ht]) l hl)
    refine ⟨_, ?_, wf_add (wf_scale c ha').sorted hb', ?_⟩
    · simp only [Poly.apply, ha, hb]; rfl
    · rw [den_add, den_scale, ha'', hb'', den_cons, map_add, map_mul, subst_C]

/-- symbols of a tree -/
def Expr.syms : Expr → List Sym
  | .num _ => []
  | .sym s => [s]
  | .add a b => a.syms ++ b.syms
  | .mul a b => a.syms ++ b.syms
  | .pow a _ => a.syms

theorem expr_apply_spec {f : List Int → Except PyErr Poly} {σ : List Int → P} (e : Expr)
    (h : ∀ l, Sym.S l ∈ e.syms → Returns (f l) (σ l)) :
    Returns (e.apply f) (subst σ (exprDen e)) := by
  induction e with
  | num c => exact ⟨_, rfl, wf_const c, by simp [den_const, exprDen]⟩
  | sym s => exact applySym_spec s (fun l hl => h l (by simp [Expr.syms, hl]))
  | add a b iha ihb =>
    obtain ⟨x, hx, hx', hx''⟩ := iha (fun l hl => h l (by simp [Expr.syms, hl]))
    obtain ⟨y, hy, hy', hy''⟩ := ihb (fun l hl => h l (by simp [Expr.syms, hl]))
    refine ⟨_, ?_, wf_add hx'.sorted hy', ?_⟩
    · simp only [Expr.apply, hx, hy]; rfl
    · rw [den_add, hx'', hy'', exprDen, map_add]
  | mul a b iha ihb =>
    obtain ⟨x, hx, hx', hx''⟩ := iha (fun l hl => h l (by simp [Expr.syms, hl]))
    obtain ⟨y, hy, hy', hy''⟩ := ihb (fun l hl => h l (by simp [Expr.syms, hl]))
    refine ⟨Poly.mul x y, ?_, wf_mul hy', ?_⟩
    · simp only [Expr.apply, hx, hy]; rfl
    · rw [den_mul, hx'', hy'', exprDen, map_mul]
  | pow a n ih =>
    obtain ⟨x, hx, hx', hx''⟩ := ih (fun l hl => h l (by simp [Expr.syms, hl]))
    refine ⟨Poly.pow x n, ?_, wf_pow n, ?_⟩
    · simp only [Expr.apply, hx]; rfl
    · rw [den_pow, hx'', exprDen, map_pow]

end Verif
