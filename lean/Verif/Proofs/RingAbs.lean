import Verif.Proofs.LinMod
import Verif.Model.Ring
/-!
# The action of polynomials in special classes, abstractly

A `PSys` is a Pieri function whose special operators commute. Everything that `act`, `giambelli` and
`mult` compute is then governed by one ring homomorphism `PSys.act`.
-/

namespace Verif
open Spec MvPolynomial

/-- A Pieri rule `pieri` for the special classes `S[1..K]` on the classes `cls`. -/
structure PSys (pieri : Int → List Int → Except PyErr Poly) (K : Nat) (cls : List Int → Prop) where
  t : Nat → List Int → LMod
  closed : ∀ p l, ∀ mu ∈ (t p l).support, cls mu
  ret : ∀ p l, 1 ≤ p → p ≤ K → cls l → Returns (pieri p l) (ev (t p l))
  comm : ∀ a b l, 1 ≤ a → a ≤ K → 1 ≤ b → b ≤ K → lin (t a) (t b l) = lin (t b) (t a l)

/-- The symbols `q`, `S[1]`, ..., `S[K]`. -/
def special (K : Nat) : Set Sym := {s | s = .q ∨ ∃ i : Nat, 1 ≤ i ∧ i ≤ K ∧ s = .S [(i : Int)]}

namespace PSys
variable {pieri : Int → List Int → Except PyErr Poly} {K : Nat} {cls : List Int → Prop}
  (Y : PSys pieri K cls)

/-- The operator of a symbol. -/
noncomputable def op : Sym → Module.End (Polynomial ℚ) LMod
  | .q => algebraMap (Polynomial ℚ) (Module.End (Polynomial ℚ) LMod) Polynomial.X
  | .S [i] => if 1 ≤ i ∧ i ≤ K then lin (Y.t i.toNat) else 0
  | _ => 0

theorem op_cases (s : Sym) : Y.op s = algebraMap (Polynomial ℚ) (Module.End (Polynomial ℚ) LMod) Polynomial.X ∨ Y.op s = 0 ∨
    ∃ i : Nat, 1 ≤ i ∧ i ≤ K ∧ Y.op s = lin (Y.t i) := by
  unfold op
  split
  · exact Or.inl rfl
  · rename_i i
    split
    · rename_i h
      exact Or.inr (Or.inr ⟨i.toNat, by omega, by omega, rfl⟩)
    · exact Or.inr (Or.inl rfl)
  · exact Or.inr (Or.inl rfl)

theorem lin_comm {a b : Nat} (ha : 1 ≤ a) (ha' : a ≤ K) (hb : 1 ≤ b) (hb' : b ≤ K) :
    (lin (Y.t a) : Module.End (Polynomial ℚ) LMod) * lin (Y.t b) = lin (Y.t b) * lin (Y.t a) := by
  apply Finsupp.lhom_ext'
  intro l
  apply LinearMap.ext_ring
  simpa [lin] using Y.comm a b l ha ha' hb hb'

theorem op_comm (a b : Sym) : Y.op a * Y.op b = Y.op b * Y.op a := by
  rcases Y.op_cases a with h | h | ⟨i, h1, h2, h⟩
  · rw [h]; exact Algebra.commutes _ _
  · rw [h]; simp
  · rcases Y.op_cases b with h' | h' | ⟨j, h1', h2', h'⟩
    · rw [h']; exact (Algebra.commutes _ _).symm
    · rw [h']; simp
    · rw [h, h']; exact Y.lin_comm h1 h2 h1' h2'

/-- The action of a polynomial on linear combinations. -/
noncomputable def act : P →ₐ[ℚ] Module.End (Polynomial ℚ) LMod := commAct Y.op Y.op_comm

@[simp] theorem act_X (s : Sym) : Y.act (X s) = Y.op s := commAct_X _ _ _

theorem act_q (x : LMod) : Y.act (X .q) x = (Polynomial.X : Polynomial ℚ) • x := by
  rw [act_X]; rfl

theorem act_special {i : Nat} (h1 : 1 ≤ i) (h2 : i ≤ K) (x : LMod) :
    Y.act (X (.S [(i : Int)])) x = lin (Y.t i) x := by
  rw [act_X]
  unfold op
  simp only
  rw [if_pos (by omega)]
  rfl

theorem act_inq (a : Polynomial ℚ) (x : LMod) : Y.act (inq a) x = a • x := by
  have h : Y.act (inq a) =
      ((Algebra.ofId (Polynomial ℚ) (Module.End (Polynomial ℚ) LMod)).restrictScalars ℚ) a := by
    rw [inq, ← Polynomial.aeval_algHom_apply, act_X]
    conv_rhs => rw [← Polynomial.aeval_X_left_apply (R := ℚ) a, ← Polynomial.aeval_algHom_apply]
    rfl
  rw [h]; rfl

theorem act_C (c : ℚ) (x : LMod) : Y.act (C c) x = (Polynomial.C c : Polynomial ℚ) • x := by
  rw [← act_inq Y]
  congr 2
  simp [inq]

theorem act_comm (a b : P) (x : LMod) : Y.act a (Y.act b x) = Y.act b (Y.act a x) := by
  rw [← Module.End.mul_apply, ← Module.End.mul_apply, ← map_mul, ← map_mul, mul_comm]

theorem op_support (s : Sym) {x : LMod} (hx : ∀ l ∈ x.support, cls l) :
    ∀ l ∈ (Y.op s x).support, cls l := by
  rcases Y.op_cases s with h | h | ⟨i, h1, h2, h⟩
  · rw [h]
    intro l hl
    exact hx l (Finsupp.support_smul hl)
  · rw [h]; simp
  · rw [h]; exact lin_support (Y.closed i) x

theorem act_support (g : P) {x : LMod} (hx : ∀ l ∈ x.support, cls l) :
    ∀ l ∈ (Y.act g x).support, cls l := by
  classical
  induction g using MvPolynomial.induction_on generalizing x with
  | C c =>
    rw [act_C]
    intro l hl
    exact hx l (Finsupp.support_smul hl)
  | add p r hp hr =>
    intro l hl
    rw [map_add, LinearMap.add_apply] at hl
    rcases Finset.mem_union.1 (Finsupp.support_add hl) with h | h
    · exact hp hx l h
    · exact hr hx l h
  | mul_X p s hp =>
    rw [map_mul, Module.End.mul_apply, act_X]
    exact hp (Y.op_support s hx)

/-- Applying the Pieri function to a linear combination. -/
theorem apply_pieri {p : Nat} (h1 : 1 ≤ p) (h2 : p ≤ K) {w : Poly} {x : LMod} (hw : WF w)
    (hx : den w = ev x) (hc : ∀ l ∈ x.support, cls l) :
    Returns (Poly.apply (pieri p) w) (ev (lin (Y.t p) x)) := by
  have := apply_ev (f := pieri p) (σ := fun l => ev (Y.t p l)) hw hx
    (fun l hl => Y.ret p l h1 h2 (hc l hl))
  rwa [subst_ev x (fun l _ => rfl)] at this

end PSys

/-! ### `act_lc` -/

theorem leastSym_none {l : List Sym} (h : leastSym l = none) : l = [] := by
  cases l with
  | nil => rfl
  | cons s r =>
    unfold leastSym at h
    split at h
    · cases h
    · split at h <;> cases h

theorem leastSym_mem {l : List Sym} {v : Sym} (h : leastSym l = some v) : v ∈ l := by
  induction l with
  | nil => cases h
  | cons s r ih =>
    unfold leastSym at h
    split at h
    · injection h with h; simp [h]
    · rename_i t ht
      split at h
      · injection h with h; subst h; exact List.mem_cons_of_mem _ (ih ht)
      · injection h with h; simp [h]

theorem mem_vars_iff {e : Poly} {v : Sym} : v ∈ e.vars ↔ v ≠ .q ∧ ∃ t ∈ e, v ∈ t.1 := by
  unfold Poly.vars
  rw [List.mem_filter, List.mem_flatMap]
  simp [and_comm]

theorem den_perm {a b : Poly} (h : a.Perm b) : den a = den b := (h.map _).sum_eq

theorem wf_filter {e : Poly} (h : WF e) (f : Mono × ℚ → Bool) : WF (e.filter f) :=
  ⟨h.1.sublist (List.Sublist.map _ List.filter_sublist),
    fun t ht => h.2 t (List.mem_of_mem_filter ht)⟩

theorem den_filter_add (e : Poly) (f : Mono × ℚ → Bool) :
    den (e.filter f) + den (e.filter (fun t => !f t)) = den e := by
  rw [← den_append]
  exact den_perm (List.filter_append_perm f e)

theorem sub_subs0_perm {e : Poly} (h : WF e) (v : Sym) :
    (Poly.sub e (e.subs0 v)).Perm (e.filter (fun t => decide (v ∈ t.1))) := by
  apply perm_of_den_eq (wf_sub h (wf_filter h _)) (wf_filter h _)
  have hadd := den_filter_add e (fun t => decide (v ∈ t.1))
  have : (fun t : Mono × ℚ => !decide (v ∈ t.1)) = (fun t => decide (v ∉ t.1)) := by
    funext t; simp
  rw [this] at hadd
  rw [den_sub, ← hadd]
  ring

theorem den_divVar {e : Poly} (v : Sym) (h : ∀ t ∈ e, v ∈ t.1) : X v * den (e.divVar v) = den e := by
  unfold Poly.divVar
  induction e with
  | nil => simp
  | cons t e ih =>
    have h1 : v ∈ t.1 := h t (by simp)
    rw [List.map_cons, den_cons, den_cons, mul_add, ih (fun t ht => h t (by simp [ht]))]
    congr 1
    rw [monoDen_perm (List.perm_cons_erase h1), monoDen_cons]
    ring

theorem wf_divVar {e : Poly} (v : Sym) (hw : WF e) (h : ∀ t ∈ e, v ∈ t.1) : WF (e.divVar v) := by
  refine ⟨?_, ?_⟩
  · unfold Poly.divVar
    rw [List.map_map]
    have : e.Nodup := List.Nodup.of_map _ hw.1
    refine this.map_on ?_
    intro a ha b hb hab
    simp only [Function.comp_apply] at hab
    have h1 : a.1 = b.1 := by
      apply sorted_unique (hw.2 a ha).2 (hw.2 b hb).2
      exact (List.perm_cons_erase (h a ha)).trans ((hab ▸ (List.perm_cons_erase (h b hb)).symm))
    exact List.inj_on_of_nodup_map hw.1 ha hb h1
  · intro t ht
    unfold Poly.divVar at ht
    rw [List.mem_map] at ht
    obtain ⟨a, ha, rfl⟩ := ht
    exact ⟨(hw.2 a ha).1, (hw.2 a ha).2.sublist List.erase_sublist⟩

theorem size_perm {a b : Poly} (h : a.Perm b) : a.size = b.size := (h.map _).sum_eq

theorem size_filter_le (e : Poly) (f : Mono × ℚ → Bool) : Poly.size (e.filter f) ≤ e.size := by
  unfold Poly.size
  exact List.Sublist.sum_le_sum (List.Sublist.map _ List.filter_sublist) (by simp)

theorem size_filter_lt {e : Poly} {f : Mono × ℚ → Bool} {t : Mono × ℚ} (ht : t ∈ e) (hf : f t = false)
    (hl : 0 < t.1.length) : Poly.size (e.filter f) < e.size := by
  have h := size_perm (List.filter_append_perm f e)
  have h2 : t ∈ e.filter (fun t => !f t) := List.mem_filter.2 ⟨ht, by simp [hf]⟩
  have h3 : t.1.length ≤ Poly.size (e.filter (fun t => !f t)) := by
    unfold Poly.size
    exact List.single_le_sum (by simp) _ (List.mem_map.2 ⟨t, h2, rfl⟩)
  have h4 : Poly.size (e.filter f ++ e.filter (fun t => !f t)) =
      Poly.size (e.filter f) + Poly.size (e.filter (fun t => !f t)) := by
    simp [Poly.size]
  omega

theorem size_divVar_lt {e : Poly} {v : Sym} (h : ∀ t ∈ e, v ∈ t.1) (hne : e ≠ []) :
    Poly.size (e.divVar v) < e.size := by
  have hle : ∀ e : Poly, Poly.size (e.divVar v) ≤ e.size := by
    intro e
    induction e with
    | nil => simp [Poly.divVar, Poly.size]
    | cons t e ih =>
      simp only [Poly.divVar, Poly.size, List.map_cons, List.sum_cons] at ih ⊢
      have := List.length_erase_le (a := v) (l := t.1)
      omega
  cases e with
  | nil => exact absurd rfl hne
  | cons t e =>
    have h1 := List.length_erase_of_mem (h t (by simp))
    have h2 := hle e
    have h3 := List.length_pos_of_mem (h t (by simp))
    simp only [Poly.divVar, Poly.size, List.map_cons, List.sum_cons] at h2 ⊢
    omega

namespace PSys
variable {pieri : Int → List Int → Except PyErr Poly} {K : Nat} {cls : List Int → Prop}
  (Y : PSys pieri K cls)

theorem act_qonly {e : Poly} (h : ∀ t ∈ e, ∀ s ∈ t.1, s = .q) (x : LMod) :
    ev (Y.act (den e) x) = den e * ev x := by
  induction e with
  | nil => simp
  | cons t e ih =>
    rw [den_cons, map_add, LinearMap.add_apply, map_add, ih (fun t ht => h t (by simp [ht])), add_mul]
    congr 1
    have hm : ∀ (m : Mono), (∀ s ∈ m, s = .q) → ∀ x, ev (Y.act (monoDen m) x) = monoDen m * ev x := by
      intro m
      induction m with
      | nil => intro _ x; simp
      | cons s m ihm =>
        intro hm x
        have : s = .q := hm s (by simp)
        subst this
        rw [monoDen_cons, map_mul, Module.End.mul_apply, act_q, ev_smul, ihm (fun s hs => hm s (by simp [hs]))]
        simp [mul_assoc]
    rw [map_mul, Module.End.mul_apply, act_C, ev_smul, hm t.1 (h t (by simp))]
    simp [mul_assoc]

/-- `act_lc` computes the action. -/
theorem actLoop_spec {spec : Sym → Except PyErr Int}
    (hspec : ∀ i : Nat, 1 ≤ i → i ≤ K → spec (.S [(i : Int)]) = .ok i) :
    ∀ (fuel : Nat) (e lc : Poly) (x : LMod), WF e → den e ∈ supported ℚ (special K) → e.size < fuel →
      WF lc → den lc = ev x → (∀ l ∈ x.support, cls l) →
      Returns (actLoop spec pieri fuel e lc) (ev (Y.act (den e) x)) := by
  intro fuel
  induction fuel with
  | zero => intro e lc x _ _ h; omega
  | succ fuel ih =>
    intro e lc x he hs hf hlc hx hc
    unfold actLoop
    split
    · rename_i hv
      have hv := leastSym_none hv
      refine ⟨_, rfl, wf_mul hlc, ?_⟩
      rw [den_mul, hx, Y.act_qonly]
      intro t ht s hst
      by_contra hne
      have : s ∈ e.vars := mem_vars_iff.2 ⟨hne, t, ht, hst⟩
      rw [hv] at this
      cases this
    · rename_i v hv
      obtain ⟨hvq, t, ht, hvt⟩ := mem_vars_iff.1 (leastSym_mem hv)
      have hvs := sym_mem_supported he hs ht hvt
      rcases hvs with h | ⟨i, hi1, hi2, hvi⟩
      · exact absurd h hvq
      · have hp := sub_subs0_perm he v
        have hall : ∀ t ∈ Poly.sub e (e.subs0 v), v ∈ t.1 := by
          intro t ht
          have := (List.mem_filter.1 (hp.mem_iff.1 ht)).2
          simpa using this
        have hne : Poly.sub e (e.subs0 v) ≠ [] := by
          intro h0
          rw [h0] at hp
          have : t ∈ e.filter (fun t => decide (v ∈ t.1)) := List.mem_filter.2 ⟨ht, by simpa using hvt⟩
          rw [List.nil_perm.1 hp] at this
          cases this
        have w0 : WF (e.subs0 v) := wf_filter he _
        have w1 : WF ((Poly.sub e (e.subs0 v)).divVar v) := wf_divVar v (wf_sub he w0) hall
        have hsp : ∀ {w : Poly}, WF w → (∀ t ∈ w, ∀ s ∈ t.1, s ∈ special K) → den w ∈ supported ℚ (special K) := by
          intro w _ hw
          unfold den
          apply Subalgebra.list_sum_mem
          intro y hy
          rw [List.mem_map] at hy
          obtain ⟨t, ht, rfl⟩ := hy
          apply Subalgebra.mul_mem
          · exact Subalgebra.algebraMap_mem _ _
          · unfold monoDen
            apply Subalgebra.list_prod_mem
            intro z hz
            rw [List.mem_map] at hz
            obtain ⟨s, hs, rfl⟩ := hz
            exact X_mem_supported.2 (hw t ht s hs)
        have s0 : den (e.subs0 v) ∈ supported ℚ (special K) :=
          hsp w0 (fun t ht s hs' => sym_mem_supported he hs (List.mem_of_mem_filter ht) hs')
        have s1 : den ((Poly.sub e (e.subs0 v)).divVar v) ∈ supported ℚ (special K) := by
          apply hsp w1
          intro t ht s hs'
          unfold Poly.divVar at ht
          rw [List.mem_map] at ht
          obtain ⟨a, ha, rfl⟩ := ht
          exact sym_mem_supported he hs (List.mem_of_mem_filter (hp.mem_iff.1 ha)) (List.mem_of_mem_erase hs')
        have l0 : (e.subs0 v).size < fuel := by
          have := size_filter_lt (f := fun t => decide (v ∉ t.1)) ht (by simpa using hvt)
            (List.length_pos_of_mem hvt)
          unfold Poly.subs0
          omega
        have l1 : ((Poly.sub e (e.subs0 v)).divVar v).size < fuel := by
          have h1 := size_divVar_lt hall hne
          have h2 := size_perm hp
          have h3 := size_filter_le e (fun t => decide (v ∈ t.1))
          omega
        obtain ⟨p1, hp1, hp1', hp1''⟩ := ih _ lc x w1 s1 l1 hlc hx hc
        obtain ⟨p2, hp2, hp2', hp2''⟩ := ih _ lc x w0 s0 l0 hlc hx hc
        obtain ⟨r, hr, hr', hr''⟩ := Y.apply_pieri hi1 hi2 hp1' hp1'' (Y.act_support _ hc)
        refine ⟨Poly.add r p2, ?_, wf_add hr'.sorted hp2', ?_⟩
        · rw [hvi] at hp1 hp2 ⊢
          simp only [hspec i hi1 hi2]
          simp only [bind, Except.bind, hp1, hp2, hr]
        · rw [den_add, hr'', hp2'', ← map_add]
          congr 1
          rw [← Y.act_special hi1 hi2, ← Module.End.mul_apply, ← map_mul, ← hvi, den_divVar v hall,
            ← LinearMap.add_apply, ← map_add]
          congr 2
          rw [den_sub]; ring

end PSys

/-! ### Giambelli polynomials -/

theorem subst_ev_congr {σ σ' : List Int → P} (x : LMod) (h : ∀ l ∈ x.support, σ l = σ' l) :
    subst σ (ev x) = subst σ' (ev x) := by
  rw [ev_apply, Finsupp.sum, map_sum, map_sum]
  apply Finset.sum_congr rfl
  intro l hl
  rw [map_mul, map_mul, subst_inq, subst_inq, subst_S, subst_S, h l hl]

theorem subst_ev_eq (σ : List Int → P) (x : LMod) :
    subst σ (ev x) = ∑ l ∈ x.support, inq (x l) * σ l := by
  rw [ev_apply, Finsupp.sum, map_sum]
  apply Finset.sum_congr rfl
  intro l _
  rw [map_mul, subst_inq, subst_S]

/-- What makes the Giambelli recursion work: removing the first row and multiplying back gives the class
plus smaller ones. -/
structure GSys (pieri : Int → List Int → Except PyErr Poly) (K : Nat) (cls : List Int → Prop) extends
    PSys pieri K cls where
  meas : List Int → Nat
  red : ∀ l, cls l → ReducedPart l
  step : ∀ p l, cls (p :: l) → 1 ≤ p ∧ p ≤ K ∧ cls l ∧ meas l < meas (p :: l) ∧
    ∀ mu ∈ (t p.toNat l - Finsupp.single (p :: l) 1).support, cls mu ∧ meas mu < meas (p :: l)

namespace GSys
variable {pieri : Int → List Int → Except PyErr Poly} {K : Nat} {cls : List Int → Prop}
  (Y : GSys pieri K cls)

/-- The other terms of `S[p] * S[l]`. -/
noncomputable def rest (p : Int) (l : List Int) : LMod := Y.t p.toNat l - Finsupp.single (p :: l) 1

/-- The Giambelli recursion. -/
noncomputable def Gf : Nat → List Int → P
  | 0, _ => 0
  | _ + 1, [] => 1
  | f + 1, p :: l => X (.S [p]) * Gf f l - subst (Gf f) (ev (Y.rest p l))

theorem Gf_stable : ∀ (f g : Nat) (l : List Int), cls l → Y.meas l < f → Y.meas l < g → Y.Gf f l = Y.Gf g l := by
  intro f
  induction f with
  | zero => intro g l _ h; omega
  | succ f ih =>
    intro g l hl hf hg
    cases g with
    | zero => omega
    | succ g =>
      cases l with
      | nil => rfl
      | cons p l =>
        obtain ⟨h1, h2, h3, h4, h5⟩ := Y.step p l hl
        unfold Gf
        rw [ih g l h3 (by omega) (by omega)]
        congr 1
        apply subst_ev_congr
        intro mu hmu
        obtain ⟨h6, h7⟩ := h5 mu hmu
        exact ih g mu h6 (by omega) (by omega)

/-- The Giambelli polynomial. -/
noncomputable def G (l : List Int) : P := Y.Gf (Y.meas l + 1) l

theorem G_nil : Y.G [] = 1 := rfl

theorem G_cons {p : Int} {l : List Int} (h : cls (p :: l)) :
    Y.G (p :: l) = X (.S [p]) * Y.G l - subst Y.G (ev (Y.rest p l)) := by
  obtain ⟨h1, h2, h3, h4, h5⟩ := Y.step p l h
  unfold G
  rw [Gf, Y.Gf_stable _ (Y.meas l + 1) l h3 h4 (by omega)]
  congr 1
  apply subst_ev_congr
  intro mu hmu
  obtain ⟨h6, h7⟩ := h5 mu hmu
  exact Y.Gf_stable _ _ mu h6 h7 (by omega)

/-- The recursion terminates and computes the Giambelli polynomial. -/
theorem giamInner_returns (k : Int) : ∀ (f : Nat) (l : List Int), cls l → Y.meas l < f →
    Returns (giamInner pieri k f l) (Y.G l) := by
  intro f
  induction f with
  | zero => intro l _ h; omega
  | succ f ih =>
    intro l hl hf
    cases l with
    | nil => exact ⟨_, rfl, wf_const 1, by rw [den_const, G_nil]; simp⟩
    | cons p l =>
      obtain ⟨h1, h2, h3, h4, h5⟩ := Y.step p l hl
      have hlast : ¬ last' (p :: l) = 0 := by
        have := (Y.red _ hl).2 (last' (p :: l)) (by
          unfold last'
          rw [List.getLastD_eq_getLast?, List.getLast?_eq_some_getLast (by simp)]
          exact List.getLast_mem _)
        omega
      have hp : ((p.toNat : Nat) : Int) = p := by omega
      obtain ⟨w, hw, hw', hw''⟩ := Y.ret p.toNat l (by omega) (by omega) h3
      rw [hp] at hw
      obtain ⟨a, ha, ha', ha''⟩ := ih l h3 (by omega)
      have hden : den (Poly.sub w (Poly.sym (.S (p :: l)))) = ev (Y.rest p l) := by
        rw [den_sub, hw'', den_sym, rest, map_sub, ev_single]
        simp [inq]
      obtain ⟨b, hb, hb', hb''⟩ := apply_ev (f := giamInner pieri k f) (σ := Y.G)
        (wf_sub hw' (wf_sym _)) hden (fun mu hmu => ih mu (h5 mu hmu).1 (by have := (h5 mu hmu).2; omega))
      refine ⟨Poly.sub (Poly.mul (Poly.sym (.S [p])) a) b, ?_, wf_sub (wf_mul ha') hb', ?_⟩
      · unfold giamInner
        rw [if_neg (by simp)]
        have e1 : at' (p :: l) 0 = p := rfl
        have e2 : num2spec p = [p] := by unfold num2spec; rw [if_pos (by omega)]
        simp only [hlast, and_false, false_and, if_false, e1, List.tail_cons, e2, bind, Except.bind, hw, ha, hb]
      · rw [den_sub, den_mul, den_sym, ha'', hb'', Y.G_cons hl]

theorem G_induction {Q : List Int → Prop} (h0 : cls [] → Q [])
    (hs : ∀ p l, cls (p :: l) → 1 ≤ p → p ≤ K → cls l → Q l → (∀ mu ∈ (Y.rest p l).support, cls mu ∧ Q mu) →
      Q (p :: l)) : ∀ l, cls l → Q l := by
  have : ∀ (n : Nat) (l : List Int), cls l → Y.meas l < n → Q l := by
    intro n
    induction n with
    | zero => intro l _ h; omega
    | succ n ih =>
      intro l hl hn
      cases l with
      | nil => exact h0 hl
      | cons p l =>
        obtain ⟨h1, h2, h3, h4, h5⟩ := Y.step p l hl
        exact hs p l hl h1 h2 h3 (ih l h3 (by omega))
          (fun mu hmu => ⟨(h5 mu hmu).1, ih mu (h5 mu hmu).1 (by have := (h5 mu hmu).2; omega)⟩)
  intro l hl
  exact this _ l hl (Nat.lt_succ_self _)

theorem G_supported : ∀ l, cls l → Y.G l ∈ supported ℚ (special K) := by
  refine Y.G_induction (Q := fun l => Y.G l ∈ supported ℚ (special K)) ?_ ?_
  · intro _; rw [G_nil]; exact Subalgebra.one_mem _
  · intro p l hl h1 h2 _ ih ihr
    rw [Y.G_cons hl, subst_ev_eq]
    apply Subalgebra.sub_mem
    · apply Subalgebra.mul_mem _ _ ih
      rw [X_mem_supported]
      exact Or.inr ⟨p.toNat, by omega, by omega, by rw [show ((p.toNat : Nat) : Int) = p by omega]⟩
    · exact Subalgebra.sum_mem _ (fun mu hmu =>
        Subalgebra.mul_mem _ (inq_mem _ (Or.inl rfl) _) (ihr mu hmu).2)

/-- The class `S[l]` is its Giambelli polynomial applied to the unit. -/
theorem act_G : ∀ l, cls l → Y.act (Y.G l) (Finsupp.single [] 1) = Finsupp.single l 1 := by
  refine Y.G_induction (Q := fun l => Y.act (Y.G l) (Finsupp.single [] 1) = Finsupp.single l 1) ?_ ?_
  · intro _; rw [G_nil]; simp
  · intro p l hl h1 h2 _ ih ihr
    have hp : ((p.toNat : Nat) : Int) = p := by omega
    have hX := Y.act_special (i := p.toNat) (by omega) (by omega) (Finsupp.single l 1)
    rw [hp] at hX
    rw [Y.G_cons hl, map_sub, LinearMap.sub_apply, map_mul, Module.End.mul_apply, ih, hX, subst_ev_eq, map_sum,
      LinearMap.sum_apply]
    have : ∑ mu ∈ (Y.rest p l).support, Y.act (inq (Y.rest p l mu) * Y.G mu) (Finsupp.single [] 1) =
        Y.rest p l := by
      conv_rhs => rw [← Finsupp.sum_single (Y.rest p l), Finsupp.sum]
      apply Finset.sum_congr rfl
      intro mu hmu
      rw [map_mul, Module.End.mul_apply, (ihr mu hmu).2, Y.act_inq]
      simp
    rw [this, rest]
    simp [lin]

/-- Giambelli polynomial of a linear combination. -/
noncomputable def GL (x : LMod) : P := subst Y.G (ev x)

theorem giamRec_returns (k : Int) (f : Nat) {w : Poly} {x : LMod} (hw : WF w) (hx : den w = ev x)
    (hc : ∀ l ∈ x.support, cls l) (hf : ∀ l, cls l → Y.meas l < f) :
    Returns (giamRec pieri k f w) (Y.GL x) :=
  apply_ev hw hx (fun l hl => Y.giamInner_returns k f l (hc l hl) (hf l (hc l hl)))

theorem GL_supported {x : LMod} (hc : ∀ l ∈ x.support, cls l) : Y.GL x ∈ supported ℚ (special K) := by
  rw [GL, subst_ev_eq]
  exact Subalgebra.sum_mem _ (fun mu hmu =>
    Subalgebra.mul_mem _ (inq_mem _ (Or.inl rfl) _) (Y.G_supported mu (hc mu hmu)))

theorem act_GL {x : LMod} (hc : ∀ l ∈ x.support, cls l) :
    Y.act (Y.GL x) (Finsupp.single [] 1) = x := by
  rw [GL, subst_ev_eq, map_sum, LinearMap.sum_apply]
  conv_rhs => rw [← Finsupp.sum_single x, Finsupp.sum]
  apply Finset.sum_congr rfl
  intro mu hmu
  rw [map_mul, Module.End.mul_apply, Y.act_G mu (hc mu hmu), Y.act_inq]
  simp

/-- The product of two linear combinations. -/
noncomputable def prod (x y : LMod) : LMod := Y.act (Y.GL x) y

theorem prod_support (x : LMod) {y : LMod} (hy : ∀ l ∈ y.support, cls l) : ∀ l ∈ (Y.prod x y).support, cls l :=
  Y.act_support _ hy

theorem prod_comm {x y : LMod} (hx : ∀ l ∈ x.support, cls l) (hy : ∀ l ∈ y.support, cls l) :
    Y.prod x y = Y.prod y x := by
  unfold prod
  conv_lhs => rw [← Y.act_GL hy, Y.act_comm, Y.act_GL hx]

theorem prod_assoc (x : LMod) {y z : LMod} (hy : ∀ l ∈ y.support, cls l)
    (hz : ∀ l ∈ z.support, cls l) : Y.prod (Y.prod x y) z = Y.prod x (Y.prod y z) := by
  rw [Y.prod_comm (Y.prod_support x hy) hz, Y.prod_comm hy hz]
  unfold prod
  rw [Y.act_comm]

theorem one_prod (y : LMod) : Y.prod (Finsupp.single [] 1) y = y := by
  unfold prod GL
  rw [ev_single, map_mul, subst_inq, subst_S, G_nil]
  simp [inq]

theorem prod_add_left (x x' y : LMod) : Y.prod (x + x') y = Y.prod x y + Y.prod x' y := by
  simp [prod, GL]

theorem prod_add_right (x y y' : LMod) : Y.prod x (y + y') = Y.prod x y + Y.prod x y' := by
  simp [prod]

theorem prod_smul_right (a : Polynomial ℚ) (x y : LMod) : Y.prod x (a • y) = a • Y.prod x y := by
  simp [prod]

end GSys

end Verif
