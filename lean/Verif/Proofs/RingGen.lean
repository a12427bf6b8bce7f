import Verif.Proofs.RingA2
/-!
# Rings generated by special classes, for any set of special classes

The same development as `RingAbs`, with the special classes given by an arbitrary predicate on the numbers `p` that stand for them (in type D
there is also `p = -k`, standing for `S[k,0]`), and with the first step of the Giambelli recursion as the code
computes it. Used for types B, C and D.
-/

namespace Verif
open Spec MvPolynomial

/-- A Pieri rule `pieri` for the special classes numbered by `spc` on the classes `cls`. -/
structure PieriSys (pieri : Int → List Int → Except PyErr Poly) (spc : Int → Prop) (cls : List Int → Prop) where
  t : Int → List Int → LMod
  nz : ∀ p, spc p → p ≠ 0
  closed : ∀ p l, ∀ mu ∈ (t p l).support, cls mu
  ret : ∀ p l, spc p → cls l → Returns (pieri p l) (ev (t p l))
  comm : ∀ a b l, spc a → spc b → lin (t a) (t b l) = lin (t b) (t a l)

/-- The symbols `q` and the special classes. -/
def specialSet (spc : Int → Prop) : Set Sym := {s | s = .q ∨ ∃ p, spc p ∧ s = .S (num2spec p)}

/-- The number of a special class. -/
def specNo : List Int → Int
  | [i] => i
  | i :: _ => -i
  | [] => 0

theorem specNo_num2spec {p : Int} : specNo (num2spec p) = p := by
  unfold num2spec
  split <;> simp [specNo]

namespace PieriSys
variable {pieri : Int → List Int → Except PyErr Poly} {spc : Int → Prop} {cls : List Int → Prop}
  (Y : PieriSys pieri spc cls)

open Classical in
/-- The operator of a symbol. -/
noncomputable def op : Sym → Module.End (Polynomial ℚ) LMod
  | .q => algebraMap (Polynomial ℚ) (Module.End (Polynomial ℚ) LMod) Polynomial.X
  | .S l => if spc (specNo l) then lin (Y.t (specNo l)) else 0
  | _ => 0

theorem op_cases (s : Sym) : Y.op s = algebraMap (Polynomial ℚ) (Module.End (Polynomial ℚ) LMod) Polynomial.X ∨ Y.op s = 0 ∨
    ∃ p, spc p ∧ Y.op s = lin (Y.t p) := by
  unfold op
  split
  · exact Or.inl rfl
  · split
    · rename_i h
      exact Or.inr (Or.inr ⟨_, h, rfl⟩)
    · exact Or.inr (Or.inl rfl)
  · exact Or.inr (Or.inl rfl)

theorem lin_comm {a b : Int} (ha : spc a) (hb : spc b) :
    (lin (Y.t a) : Module.End (Polynomial ℚ) LMod) * lin (Y.t b) = lin (Y.t b) * lin (Y.t a) := by
  apply Finsupp.lhom_ext'
  intro l
  apply LinearMap.ext_ring
  simpa [lin] using Y.comm a b l ha hb

theorem op_comm (a b : Sym) : Y.op a * Y.op b = Y.op b * Y.op a := by
  rcases Y.op_cases a with h | h | ⟨i, h1, h⟩
  · rw [h]; exact Algebra.commutes _ _
  · rw [h]; simp
  · rcases Y.op_cases b with h' | h' | ⟨j, h1', h'⟩
    · rw [h']; exact (Algebra.commutes _ _).symm
    · rw [h']; simp
    · rw [h, h']; exact Y.lin_comm h1 h1'

/-- The action of a polynomial on linear combinations. -/
noncomputable def act : P →ₐ[ℚ] Module.End (Polynomial ℚ) LMod := commAct Y.op Y.op_comm

@[simp] theorem act_X (s : Sym) : Y.act (X s) = Y.op s := commAct_X _ _ _

theorem act_q (x : LMod) : Y.act (X .q) x = (Polynomial.X : Polynomial ℚ) • x := by
  rw [act_X]; rfl

theorem act_special_op {p : Int} (h : spc p) : Y.act (X (.S (num2spec p))) = lin (Y.t p) := by
  rw [act_X]
  unfold op
  simp only
  rw [specNo_num2spec, if_pos h]

theorem act_special {p : Int} (h : spc p) (x : LMod) :
    Y.act (X (.S (num2spec p))) x = lin (Y.t p) x := by
  rw [Y.act_special_op h]

theorem act_inq (a : Polynomial ℚ) (x : LMod) : Y.act (inq a) x = a • x := by
  have h : Y.act (inq a) =
      ((Algebra.ofId (Polynomial ℚ) (Module.End (Polynomial ℚ) LMod)).restrictScalars ℚ) a := by
    rw [inq, ← Polynomial.aeval_algHom_apply, act_X]
    conv_rhs => rw [← Polynomial.aeval_X_left_apply (R := ℚ) a, ← Polynomial.aeval_algHom_apply]
    rfl
  rw [h]; rfl

theorem act_C (c : ℚ) (x : LMod) : Y.act (C c) x = (Polynomial.C c : Polynomial ℚ) • x := by
  rw [← act_inq Y]
  congr 2
  simp [inq]

theorem act_comm (a b : P) (x : LMod) : Y.act a (Y.act b x) = Y.act b (Y.act a x) := by
  rw [← Module.End.mul_apply, ← Module.End.mul_apply, ← map_mul, ← map_mul, mul_comm]

theorem op_support (s : Sym) {x : LMod} (hx : ∀ l ∈ x.support, cls l) :
    ∀ l ∈ (Y.op s x).support, cls l := by
  rcases Y.op_cases s with h | h | ⟨i, h1, h⟩
  · rw [h]
    intro l hl
    exact hx l (Finsupp.support_smul hl)
  · rw [h]; simp
  · rw [h]; exact lin_support (Y.closed i) x

theorem act_support (g : P) {x : LMod} (hx : ∀ l ∈ x.support, cls l) :
    ∀ l ∈ (Y.act g x).support, cls l := by
  classical
  induction g using MvPolynomial.induction_on generalizing x with
  | C c =>
    rw [act_C]
    intro l hl
    exact hx l (Finsupp.support_smul hl)
  | add p r hp hr =>
    intro l hl
    rw [map_add, LinearMap.add_apply] at hl
    rcases Finset.mem_union.1 (Finsupp.support_add hl) with h | h
    · exact hp hx l h
    · exact hr hx l h
  | mul_X p s hp =>
    rw [map_mul, Module.End.mul_apply, act_X]
    exact hp (Y.op_support s hx)

/-- Applying the Pieri function to a linear combination. -/
theorem apply_pieri {p : Int} (h : spc p) {w : Poly} {x : LMod} (hw : WF w)
    (hx : den w = ev x) (hc : ∀ l ∈ x.support, cls l) :
    Returns (Poly.apply (pieri p) w) (ev (lin (Y.t p) x)) := by
  have := apply_ev (f := pieri p) (σ := fun l => ev (Y.t p l)) hw hx
    (fun l hl => Y.ret p l h (hc l hl))
  rwa [subst_ev x (fun l _ => rfl)] at this

theorem act_qonly {e : Poly} (h : ∀ t ∈ e, ∀ s ∈ t.1, s = .q) (x : LMod) :
    ev (Y.act (den e) x) = den e * ev x := by
  induction e with
  | nil => simp
  | cons t e ih =>
    rw [den_cons, map_add, LinearMap.add_apply, map_add, ih (fun t ht => h t (by simp [ht])), add_mul]
    congr 1
    have hm : ∀ (m : Mono), (∀ s ∈ m, s = .q) → ∀ x, ev (Y.act (monoDen m) x) = monoDen m * ev x := by
      intro m
      induction m with
      | nil => intro _ x; simp
      | cons s m ihm =>
        intro hm x
        have : s = .q := hm s (by simp)
        subst this
        rw [monoDen_cons, map_mul, Module.End.mul_apply, act_q, ev_smul, ihm (fun s hs => hm s (by simp [hs]))]
        simp [mul_assoc]
    rw [map_mul, Module.End.mul_apply, act_C, ev_smul, hm t.1 (h t (by simp))]
    simp [mul_assoc]

theorem supported_of_syms {A : Set Sym} {w : Poly} (hw : ∀ t ∈ w, ∀ s ∈ t.1, s ∈ A) : den w ∈ supported ℚ A := by
  unfold den
  apply Subalgebra.list_sum_mem
  intro y hy
  rw [List.mem_map] at hy
  obtain ⟨t, ht, rfl⟩ := hy
  apply Subalgebra.mul_mem
  · exact Subalgebra.algebraMap_mem _ _
  · unfold monoDen
    apply Subalgebra.list_prod_mem
    intro z hz
    rw [List.mem_map] at hz
    obtain ⟨s, hs, rfl⟩ := hz
    exact X_mem_supported.2 (hw t ht s hs)

/-- `act_lc` computes the action. -/
theorem actLoop_spec {spec : Sym → Except PyErr Int}
    (hspec : ∀ p, spc p → spec (.S (num2spec p)) = .ok p) :
    ∀ (fuel : Nat) (e lc : Poly) (x : LMod), WF e → den e ∈ supported ℚ (specialSet spc) → e.size < fuel →
      WF lc → den lc = ev x → (∀ l ∈ x.support, cls l) →
      Returns (actLoop spec pieri fuel e lc) (ev (Y.act (den e) x)) := by
  intro fuel
  induction fuel with
  | zero => intro e lc x _ _ h; omega
  | succ fuel ih =>
    intro e lc x he hs hf hlc hx hc
    unfold actLoop
    split
    · rename_i hv
      have hv := leastSym_none hv
      refine ⟨_, rfl, wf_mul hlc, ?_⟩
      rw [den_mul, hx, Y.act_qonly]
      intro t ht s hst
      by_contra hne
      have : s ∈ e.vars := mem_vars_iff.2 ⟨hne, t, ht, hst⟩
      rw [hv] at this
      cases this
    · rename_i v hv
      obtain ⟨hvq, t, ht, hvt⟩ := mem_vars_iff.1 (leastSym_mem hv)
      have hvs := sym_mem_supported he hs ht hvt
      rcases hvs with h | ⟨i, hi, hvi⟩
      · exact absurd h hvq
      · have hp := sub_subs0_perm he v
        have hall : ∀ t ∈ Poly.sub e (e.subs0 v), v ∈ t.1 := by
          intro t ht
          have := (List.mem_filter.1 (hp.mem_iff.1 ht)).2
          simpa using this
        have hne : Poly.sub e (e.subs0 v) ≠ [] := by
          intro h0
          rw [h0] at hp
          have : t ∈ e.filter (fun t => decide (v ∈ t.1)) := List.mem_filter.2 ⟨ht, by simpa using hvt⟩
          rw [List.nil_perm.1 hp] at this
          cases this
        have w0 : WF (e.subs0 v) := wf_filter he _
        have w1 : WF ((Poly.sub e (e.subs0 v)).divVar v) := wf_divVar v (wf_sub he w0) hall
        have s0 : den (e.subs0 v) ∈ supported ℚ (specialSet spc) :=
          supported_of_syms (fun t ht s hs' => sym_mem_supported he hs (List.mem_of_mem_filter ht) hs')
        have s1 : den ((Poly.sub e (e.subs0 v)).divVar v) ∈ supported ℚ (specialSet spc) := by
          apply supported_of_syms
          intro t ht s hs'
          unfold Poly.divVar at ht
          rw [List.mem_map] at ht
          obtain ⟨a, ha, rfl⟩ := ht
          exact sym_mem_supported he hs (List.mem_of_mem_filter (hp.mem_iff.1 ha)) (List.mem_of_mem_erase hs')
        have l0 : (e.subs0 v).size < fuel := by
          have := size_filter_lt (f := fun t => decide (v ∉ t.1)) ht (by simpa using hvt)
            (List.length_pos_of_mem hvt)
          unfold Poly.subs0
          omega
        have l1 : ((Poly.sub e (e.subs0 v)).divVar v).size < fuel := by
          have h1 := size_divVar_lt hall hne
          have h2 := size_perm hp
          have h3 := size_filter_le e (fun t => decide (v ∈ t.1))
          omega
        obtain ⟨p1, hp1, hp1', hp1''⟩ := ih _ lc x w1 s1 l1 hlc hx hc
        obtain ⟨p2, hp2, hp2', hp2''⟩ := ih _ lc x w0 s0 l0 hlc hx hc
        obtain ⟨r, hr, hr', hr''⟩ := Y.apply_pieri hi hp1' hp1'' (Y.act_support _ hc)
        refine ⟨Poly.add r p2, ?_, wf_add hr'.sorted hp2', ?_⟩
        · rw [hvi] at hp1 hp2 ⊢
          simp only [hspec i hi]
          simp only [bind, Except.bind, hp1, hp2, hr]
        · rw [den_add, hr'', hp2'', ← map_add]
          congr 1
          rw [← Y.act_special hi, ← Module.End.mul_apply, ← map_mul, ← hvi, den_divVar v hall,
            ← LinearMap.add_apply, ← map_add]
          congr 2
          rw [den_sub]; ring

end PieriSys

/-! ### Giambelli polynomials -/

/-- The special class split off by `giambelli_rec_inner`. -/
def hdK (k : Int) (l : List Int) : Int := if at' l 0 = k ∧ last' l = 0 then -k else at' l 0

/-- The class that is left. -/
def tlK (k : Int) (l : List Int) : List Int := if last' l = 0 ∧ at' l 1 < k then l.tail.dropLast else l.tail

/-- What makes the Giambelli recursion work: removing the first row and multiplying back gives the class
plus smaller ones. -/
structure GiamSys (k : Int) (pieri : Int → List Int → Except PyErr Poly) (spc : Int → Prop) (cls : List Int → Prop) extends
    PieriSys pieri spc cls where
  meas : List Int → Nat
  deg : ∀ l, cls l → l ≠ [] → (num2spec (hdK k l)).sum + (tlK k l).sum = l.sum
  step : ∀ l, cls l → l ≠ [] → ¬ (last' l = 0 ∧ l.length = 1) ∧ spc (hdK k l) ∧ cls (tlK k l) ∧ meas (tlK k l) < meas l ∧
    ∀ mu ∈ (t (hdK k l) (tlK k l) - Finsupp.single l 1).support, cls mu ∧ meas mu < meas l

namespace GiamSys
variable {k : Int} {pieri : Int → List Int → Except PyErr Poly} {spc : Int → Prop} {cls : List Int → Prop}
  (Y : GiamSys k pieri spc cls)

/-- The other terms of the product of the first row and the rest. -/
noncomputable def rest (l : List Int) : LMod := Y.t (hdK k l) (tlK k l) - Finsupp.single l 1

/-- The Giambelli recursion. -/
noncomputable def Gf : Nat → List Int → P
  | 0, _ => 0
  | _ + 1, [] => 1
  | f + 1, l => X (.S (num2spec (hdK k l))) * Gf f (tlK k l) - subst (Gf f) (ev (Y.rest l))

theorem Gf_succ (f : Nat) {l : List Int} (h : l ≠ []) :
    Y.Gf (f + 1) l = X (.S (num2spec (hdK k l))) * Y.Gf f (tlK k l) - subst (Y.Gf f) (ev (Y.rest l)) := by
  cases l with
  | nil => exact absurd rfl h
  | cons a l => rfl

theorem Gf_stable : ∀ (f g : Nat) (l : List Int), cls l → Y.meas l < f → Y.meas l < g → Y.Gf f l = Y.Gf g l := by
  intro f
  induction f with
  | zero => intro g l _ h; omega
  | succ f ih =>
    intro g l hl hf hg
    cases g with
    | zero => omega
    | succ g =>
      by_cases h0 : l = []
      · subst h0; rfl
      · obtain ⟨h1, h2, h3, h4, h5⟩ := Y.step l hl h0
        rw [Y.Gf_succ f h0, Y.Gf_succ g h0, ih g _ h3 (by omega) (by omega)]
        congr 1
        apply subst_ev_congr
        intro mu hmu
        obtain ⟨h6, h7⟩ := h5 mu hmu
        exact ih g mu h6 (by omega) (by omega)

/-- The Giambelli polynomial. -/
noncomputable def G (l : List Int) : P := Y.Gf (Y.meas l + 1) l

theorem G_nil : Y.G [] = 1 := rfl

theorem G_cons {l : List Int} (h : cls l) (h0 : l ≠ []) :
    Y.G l = X (.S (num2spec (hdK k l))) * Y.G (tlK k l) - subst Y.G (ev (Y.rest l)) := by
  obtain ⟨h1, h2, h3, h4, h5⟩ := Y.step l h h0
  unfold G
  rw [Y.Gf_succ _ h0, Y.Gf_stable _ (Y.meas (tlK k l) + 1) _ h3 h4 (by omega)]
  congr 1
  apply subst_ev_congr
  intro mu hmu
  obtain ⟨h6, h7⟩ := h5 mu hmu
  exact Y.Gf_stable _ _ mu h6 h7 (by omega)

/-- The recursion terminates and computes the Giambelli polynomial. -/
theorem giamInner_returns : ∀ (f : Nat) (l : List Int), cls l → Y.meas l < f →
    Returns (giamInner pieri k f l) (Y.G l) := by
  intro f
  induction f with
  | zero => intro l _ h; omega
  | succ f ih =>
    intro l hl hf
    by_cases h0 : l = []
    · subst h0; exact ⟨_, rfl, wf_const 1, by rw [den_const, G_nil]; simp⟩
    · obtain ⟨h1, h2, h3, h4, h5⟩ := Y.step l hl h0
      obtain ⟨w, hw, hw', hw''⟩ := Y.ret _ _ h2 h3
      obtain ⟨a, ha, ha', ha''⟩ := ih _ h3 (by omega)
      have hden : den (Poly.sub w (Poly.sym (.S l))) = ev (Y.rest l) := by
        rw [den_sub, hw'', den_sym, rest, map_sub, ev_single]
        simp [inq]
      obtain ⟨b, hb, hb', hb''⟩ := apply_ev (f := giamInner pieri k f) (σ := Y.G)
        (wf_sub hw' (wf_sym _)) hden (fun mu hmu => ih mu (h5 mu hmu).1 (by have := (h5 mu hmu).2; omega))
      refine ⟨Poly.sub (Poly.mul (Poly.sym (.S (num2spec (hdK k l)))) a) b, ?_, wf_sub (wf_mul ha') hb', ?_⟩
      · unfold giamInner
        rw [if_neg (by simpa using h0), if_neg h1]
        unfold hdK tlK at *
        simp only [bind, Except.bind, hw, ha, hb]
      · rw [den_sub, den_mul, den_sym, ha'', hb'', Y.G_cons hl h0]

theorem G_induction {Q : List Int → Prop} (h0 : cls [] → Q [])
    (hs : ∀ l, cls l → l ≠ [] → spc (hdK k l) → cls (tlK k l) → Q (tlK k l) →
      (∀ mu ∈ (Y.rest l).support, cls mu ∧ Q mu) → Q l) : ∀ l, cls l → Q l := by
  have : ∀ (n : Nat) (l : List Int), cls l → Y.meas l < n → Q l := by
    intro n
    induction n with
    | zero => intro l _ h; omega
    | succ n ih =>
      intro l hl hn
      by_cases he : l = []
      · subst he; exact h0 hl
      · obtain ⟨h1, h2, h3, h4, h5⟩ := Y.step l hl he
        exact hs l hl he h2 h3 (ih _ h3 (by omega))
          (fun mu hmu => ⟨(h5 mu hmu).1, ih mu (h5 mu hmu).1 (by have := (h5 mu hmu).2; omega)⟩)
  intro l hl
  exact this _ l hl (Nat.lt_succ_self _)

theorem G_supported : ∀ l, cls l → Y.G l ∈ supported ℚ (specialSet spc) := by
  refine Y.G_induction (Q := fun l => Y.G l ∈ supported ℚ (specialSet spc)) ?_ ?_
  · intro _; rw [G_nil]; exact Subalgebra.one_mem _
  · intro l hl h0 h1 _ ih ihr
    rw [Y.G_cons hl h0, subst_ev_eq]
    apply Subalgebra.sub_mem
    · apply Subalgebra.mul_mem _ _ ih
      rw [X_mem_supported]
      exact Or.inr ⟨_, h1, rfl⟩
    · exact Subalgebra.sum_mem _ (fun mu hmu =>
        Subalgebra.mul_mem _ (inq_mem _ (Or.inl rfl) _) (ihr mu hmu).2)

theorem act_rest {l : List Int} (y : LMod) (F : List Int → LMod) (h : ∀ mu ∈ (Y.rest l).support, Y.act (Y.G mu) y = F mu) :
    Y.act (subst Y.G (ev (Y.rest l))) y = ∑ mu ∈ (Y.rest l).support, (Y.rest l mu) • F mu := by
  rw [subst_ev_eq, map_sum, LinearMap.sum_apply]
  apply Finset.sum_congr rfl
  intro mu hmu
  rw [map_mul, Module.End.mul_apply, Y.act_inq, h mu hmu]

/-- The class `S[l]` is its Giambelli polynomial applied to the unit. -/
theorem act_G : ∀ l, cls l → Y.act (Y.G l) (Finsupp.single [] 1) = Finsupp.single l 1 := by
  refine Y.G_induction (Q := fun l => Y.act (Y.G l) (Finsupp.single [] 1) = Finsupp.single l 1) ?_ ?_
  · intro _; rw [G_nil]; simp
  · intro l hl h0 h1 _ ih ihr
    rw [Y.G_cons hl h0, map_sub, LinearMap.sub_apply, map_mul, Module.End.mul_apply, ih, Y.act_special h1,
      Y.act_rest _ (fun mu => Finsupp.single mu 1) (fun mu hmu => (ihr mu hmu).2)]
    have : ∑ mu ∈ (Y.rest l).support, Y.rest l mu • Finsupp.single mu (1 : Polynomial ℚ) = Y.rest l := by
      conv_rhs => rw [← Finsupp.sum_single (Y.rest l), Finsupp.sum]
      apply Finset.sum_congr rfl
      intro mu _
      simp
    rw [this, rest]
    simp [lin]

/-- Giambelli polynomial of a linear combination. -/
noncomputable def GL (x : LMod) : P := subst Y.G (ev x)

theorem giamRec_returns (f : Nat) {w : Poly} {x : LMod} (hw : WF w) (hx : den w = ev x)
    (hc : ∀ l ∈ x.support, cls l) (hf : ∀ l, cls l → Y.meas l < f) :
    Returns (giamRec pieri k f w) (Y.GL x) :=
  apply_ev hw hx (fun l hl => Y.giamInner_returns f l (hc l hl) (hf l (hc l hl)))

theorem GL_supported {x : LMod} (hc : ∀ l ∈ x.support, cls l) : Y.GL x ∈ supported ℚ (specialSet spc) := by
  rw [GL, subst_ev_eq]
  exact Subalgebra.sum_mem _ (fun mu hmu =>
    Subalgebra.mul_mem _ (inq_mem _ (Or.inl rfl) _) (Y.G_supported mu (hc mu hmu)))

theorem act_GL {x : LMod} (hc : ∀ l ∈ x.support, cls l) :
    Y.act (Y.GL x) (Finsupp.single [] 1) = x := by
  rw [GL, subst_ev_eq, map_sum, LinearMap.sum_apply]
  conv_rhs => rw [← Finsupp.sum_single x, Finsupp.sum]
  apply Finset.sum_congr rfl
  intro mu hmu
  rw [map_mul, Module.End.mul_apply, Y.act_G mu (hc mu hmu), Y.act_inq]
  simp

/-- The product of two linear combinations. -/
noncomputable def prod (x y : LMod) : LMod := Y.act (Y.GL x) y

theorem prod_single (l : List Int) (y : LMod) : Y.prod (Finsupp.single l 1) y = Y.act (Y.G l) y := by
  rw [prod, GL, ev_single, map_mul, subst_inq, subst_S, map_mul, Module.End.mul_apply, Y.act_inq, one_smul]

theorem prod_support (x : LMod) {y : LMod} (hy : ∀ l ∈ y.support, cls l) : ∀ l ∈ (Y.prod x y).support, cls l :=
  Y.act_support _ hy

theorem prod_comm {x y : LMod} (hx : ∀ l ∈ x.support, cls l) (hy : ∀ l ∈ y.support, cls l) :
    Y.prod x y = Y.prod y x := by
  unfold prod
  conv_lhs => rw [← Y.act_GL hy, Y.act_comm, Y.act_GL hx]

theorem prod_assoc (x : LMod) {y z : LMod} (hy : ∀ l ∈ y.support, cls l)
    (hz : ∀ l ∈ z.support, cls l) : Y.prod (Y.prod x y) z = Y.prod x (Y.prod y z) := by
  rw [Y.prod_comm (Y.prod_support x hy) hz, Y.prod_comm hy hz]
  unfold prod
  rw [Y.act_comm]

theorem one_prod (y : LMod) : Y.prod (Finsupp.single [] 1) y = y := by
  rw [prod_single, G_nil]; simp

theorem prod_add_left (x x' y : LMod) : Y.prod (x + x') y = Y.prod x y + Y.prod x' y := by
  simp [prod, GL]

theorem prod_add_right (x y y' : LMod) : Y.prod x (y + y') = Y.prod x y + Y.prod x y' := by
  simp [prod]

theorem prod_smul_right (a : Polynomial ℚ) (x y : LMod) : Y.prod x (a • y) = a • Y.prod x y := by
  simp [prod]

theorem prod_smul_left (a : Polynomial ℚ) (x y : LMod) : Y.prod (a • x) y = a • Y.prod x y := by
  unfold prod GL
  rw [ev_smul, map_mul, subst_inq, map_mul, Module.End.mul_apply, Y.act_inq]

theorem prod_one {x : LMod} (h : cls []) (hx : ∀ l ∈ x.support, cls l) : Y.prod x e1 = x := by
  rw [Y.prod_comm hx (GSys.one_cls h)]; exact Y.one_prod x

theorem prod_special {p : Int} (h : spc p) (hc : cls (num2spec p)) (h0 : cls [])
    (ht : Y.t p [] = Finsupp.single (num2spec p) 1) {y : LMod} (hy : ∀ l ∈ y.support, cls l) :
    Y.prod (Finsupp.single (num2spec p) 1) y = lin (Y.t p) y := by
  have h1 : Finsupp.single (num2spec p) 1 = Y.act (X (.S (num2spec p))) e1 := by
    rw [Y.act_special h, e1]
    simp [lin, ht]
  rw [Y.prod_comm (by
    intro l hl
    rw [Finset.mem_singleton.1 (Finsupp.support_single_subset hl)]; exact hc) hy, h1, prod, Y.act_comm]
  show Y.act _ (Y.prod y e1) = _
  rw [Y.prod_one h0 hy, Y.act_special h]

theorem mult_returns {spec : Sym → Except PyErr Int}
    (hspec : ∀ p, spc p → spec (.S (num2spec p)) = .ok p) (f : Nat)
    {a b : Poly} {x y : LMod} (ha : WF a) (hx : den a = ev x) (hxc : ∀ l ∈ x.support, cls l)
    (hb : WF b) (hy : den b = ev y) (hyc : ∀ l ∈ y.support, cls l) (hf : ∀ l, cls l → Y.meas l < f) :
    Returns (giamRec pieri k f a >>= fun g => actLoop spec pieri (g.size + 1) g b) (ev (Y.prod x y)) := by
  refine (Y.giamRec_returns f ha hx hxc hf).bind (fun g hg hg' => ?_)
  have := Y.actLoop_spec hspec (g.size + 1) g b y hg (by rw [hg']; exact Y.GL_supported hxc) (by omega) hb hy hyc
  rwa [hg'] at this

/-! ### Properties of operators -/

/-- If operators `D_a` (additive, closed under composition with indices adding) contain the Pieri
operators, they contain multiplication by classes. -/
theorem G_operator (D : ℤ → Module.End (Polynomial ℚ) LMod → Prop)
    (h1 : D 0 1) (hmul : ∀ a b S T, D a S → D b T → D (a + b) (S * T))
    (hsub : ∀ a S T, D a S → D a T → D a (S - T)) (hzero : ∀ a, D a 0) (hadd : ∀ a S T, D a S → D a T → D a (S + T))
    (hp : ∀ p, spc p → D (num2spec p).sum (lin (Y.t p)))
    (hr : ∀ l, cls l → l ≠ [] → ∀ mu ∈ (Y.rest l).support, ∀ T, D mu.sum T →
      D l.sum (((Y.rest l) mu) • T)) :
    ∀ l, cls l → D l.sum (Y.act (Y.G l)) := by
  refine Y.G_induction (Q := fun l => D l.sum (Y.act (Y.G l))) ?_ ?_
  · intro _; rw [Y.G_nil, map_one]; simpa using h1
  · intro l hl h0 hs hl' ih ihr
    rw [Y.G_cons hl h0, map_sub, map_mul, Y.act_special_op hs, subst_ev_eq, map_sum]
    apply hsub
    · have h := hmul _ _ _ _ (hp _ hs) ih
      rwa [Y.deg l hl h0] at h
    · apply Finset.sum_induction _ (D l.sum) (hadd _) (hzero _)
      intro mu hmu
      have := hr l hl h0 mu hmu _ (ihr mu hmu).2
      have he : Y.act (inq ((Y.rest l) mu) * Y.G mu) = ((Y.rest l) mu) • Y.act (Y.G mu) := by
        apply LinearMap.ext
        intro x
        rw [map_mul, Module.End.mul_apply, Y.act_inq, LinearMap.smul_apply]
      rw [he]; exact this

/-- Multiplication by a class raises the degree by its size. -/
theorem G_hom {n : ℤ} (hp : ∀ p, spc p → HomT n (num2spec p).sum (lin (Y.t p))) :
    ∀ l, cls l → HomT n l.sum (Y.act (Y.G l)) := by
  apply Y.G_operator (HomT n)
  · intro D x hx; simpa using hx
  · intro a b S T hS hT D x hx
    have := hS _ _ (hT D x hx)
    rwa [← add_assoc] at this
  · intro a S T hS hT D x hx
    rw [LinearMap.sub_apply, sub_eq_add_neg]
    exact (hS D x hx).add (hT D x hx).neg
  · intro a D x hx; exact HomX.zero _
  · intro a S T hS hT D x hx; exact (hS D x hx).add (hT D x hx)
  · exact hp
  · intro l hl h0 mu hmu T hT D x hx
    have hs := (Y.step l hl h0).2.1
    have hrest : HomX n l.sum (Y.rest l) := by
      unfold GiamSys.rest
      rw [sub_eq_add_neg]
      apply HomX.add
      · have := hp _ hs _ _ (hom_single (tlK k l))
        rw [lin, Finsupp.linearCombination_single, one_smul] at this
        rwa [Y.deg l hl h0] at this
      · exact (hom_single _).neg
    intro l' d' hne
    rw [LinearMap.smul_apply, Finsupp.smul_apply, smul_eq_mul, Polynomial.coeff_mul] at hne
    obtain ⟨⟨i, j⟩, hij, hne⟩ := Finset.exists_ne_zero_of_sum_ne_zero hne
    rw [Finset.mem_antidiagonal] at hij
    have h1 := hrest mu i (fun h => hne (by simp [h]))
    have h2 := hT D x hx l' j (fun h => hne (by simp [h]))
    simp only at hij
    rw [← hij]
    push_cast
    linarith

theorem G_int (hp : ∀ p l, spc p → IntX (Y.t p l)) :
    ∀ l, cls l → ∀ x, IntX x → IntX (Y.act (Y.G l) x) := by
  have := Y.G_operator (fun _ T => ∀ x, IntX x → IntX (T x))
  refine this ?_ ?_ ?_ ?_ ?_ ?_ ?_
  · intro x hx; exact hx
  · intro a b S T hS hT x hx; exact hS _ (hT x hx)
  · intro a S T hS hT x hx; exact (hS x hx).sub (hT x hx)
  · intro a x hx; exact IntX.zero
  · intro a S T hS hT x hx; exact (hS x hx).add (hT x hx)
  · intro p h x hx; exact intT_of_basis (fun l => hp p l h) hx
  · intro l hl h0 mu hmu T hT x hx
    apply IntX.smul _ (hT x hx)
    have hs := (Y.step l hl h0).2.1
    have : IntX (Y.rest l) := (hp _ _ hs).sub (by simpa using IntX.single l 0 1)
    exact this mu

/-! ### Setting `q = 0` -/

section
variable {pieri' : Int → List Int → Except PyErr Poly} (Z : GiamSys k pieri' spc cls)
  (hq : ∀ p l, spc p → q0 (Y.t p l) = Z.t p l)
include hq

theorem q0_lin' {p : Int} (h : spc p) (x : LMod) : q0 (lin (Y.t p) x) = lin (Z.t p) (q0 x) :=
  q0_lin (fun l => hq p l h) x

theorem q0_rest_eq {l : List Int} (hl : cls l) (h0 : l ≠ []) : q0 (Y.rest l) = Z.rest l := by
  have hs := (Y.step l hl h0).2.1
  rw [rest, rest, map_sub, hq _ _ hs, q0_single]; simp

theorem q0_actG : ∀ l, cls l → ∀ y, q0 (Y.act (Y.G l) y) = Z.act (Z.G l) (q0 y) := by
  refine Y.G_induction (Q := fun l => ∀ y, q0 (Y.act (Y.G l) y) = Z.act (Z.G l) (q0 y)) ?_ ?_
  · intro _ y; rw [G_nil, G_nil, map_one, map_one]; rfl
  · intro l hl h0 hs hl' ih ihr y
    rw [Y.G_cons hl h0, Z.G_cons hl h0, map_sub, map_sub, map_mul, map_mul,
      LinearMap.sub_apply, LinearMap.sub_apply, Module.End.mul_apply, Module.End.mul_apply,
      Y.act_special hs, Z.act_special hs, map_sub, Y.q0_lin' Z hq hs, ih,
      Y.act_rest y _ (fun mu _ => rfl), Z.act_rest (q0 y) _ (fun mu _ => rfl), map_sum]
    congr 1
    rw [← Y.q0_rest_eq Z hq hl h0]
    have h1 : ∀ mu ∈ (Y.rest l).support, q0 (Y.rest l mu • Y.act (Y.G mu) y) =
        (q0 (Y.rest l) mu) • Z.act (Z.G mu) (q0 y) := by
      intro mu hmu
      rw [q0_smul, (ihr mu hmu).2, q0_apply]
    rw [Finset.sum_congr rfl h1]
    symm
    apply Finset.sum_subset
    · intro mu hmu
      rw [Finsupp.mem_support_iff] at hmu ⊢
      intro h; apply hmu; rw [q0_apply, h]; simp
    · intro mu _ hmu
      rw [Finsupp.notMem_support_iff.1 hmu, zero_smul]

theorem q0_prod' {x : LMod} (hx : ∀ l ∈ x.support, cls l) (y : LMod) :
    q0 (Y.prod x y) = Z.prod (q0 x) (q0 y) := by
  classical
  have hs : ∀ (l : List Int) (a : Polynomial ℚ), cls l →
      q0 (Y.prod (Finsupp.single l a) y) = Z.prod (q0 (Finsupp.single l a)) (q0 y) := by
    intro l a hl
    rw [q0_single, GiamSys.prod, GiamSys.prod, GiamSys.GL, GiamSys.GL, ev_single, ev_single, map_mul (subst _), map_mul (subst _), subst_inq,
      subst_inq, subst_S, subst_S, map_mul, map_mul, Module.End.mul_apply, Module.End.mul_apply, PieriSys.act_inq,
      PieriSys.act_inq, q0_smul, Y.q0_actG Z hq l hl]
  have key : ∀ s : Finset (List Int), (∀ l ∈ s, cls l) →
      q0 (Y.prod (∑ l ∈ s, Finsupp.single l (x l)) y) =
        Z.prod (q0 (∑ l ∈ s, Finsupp.single l (x l))) (q0 y) := by
    intro s
    induction s using Finset.induction_on with
    | empty => intro _; simp [GiamSys.prod, GiamSys.GL]
    | insert l s hl ih =>
      intro h
      rw [Finset.sum_insert hl, GiamSys.prod_add_left, map_add, map_add, GiamSys.prod_add_left,
        hs l _ (h l (by simp)), ih (fun l' hl' => h l' (by simp [hl']))]
  have := key x.support hx
  rwa [show ∑ l ∈ x.support, Finsupp.single l (x l) = x from Finsupp.sum_single x] at this

end

/-! ### Duality -/

/-- The coefficient of the point class, when the Pieri operators are self-adjoint for an involution. -/
theorem dual_coeff (dl : List Int → List Int) (hcl : ∀ l, cls l → cls (dl l)) (hdd : ∀ l, cls l → dl (dl l) = l)
    (hadj : ∀ p l nu, spc p → cls l → cls nu → Y.t p l (dl nu) = Y.t p nu (dl l)) :
    ∀ l, cls l → ∀ y : LMod, (∀ l ∈ y.support, cls l) → Y.act (Y.G l) y (dl []) = y (dl l) := by
  refine Y.G_induction (Q := fun l => ∀ y : LMod,
    (∀ l ∈ y.support, cls l) → Y.act (Y.G l) y (dl []) = y (dl l)) ?_ ?_
  · intro _ y _; rw [G_nil, map_one]; rfl
  · intro l hl h0 hs hl' ih ihr y hy
    have hcons : ∀ mu ∈ (Y.t (hdK k l) (tlK k l)).support, cls mu := Y.closed _ _
    rw [Y.G_cons hl h0, map_sub, LinearMap.sub_apply, mul_comm, map_mul, Module.End.mul_apply, Y.act_special hs,
      Finsupp.sub_apply, ih _ (lin_support (Y.closed _) y), subst_ev_eq, map_sum, LinearMap.sum_apply,
      Finsupp.finsetSum_apply]
    have e1 : lin (Y.t (hdK k l)) y (dl (tlK k l)) =
        ∑ mu ∈ (Y.t (hdK k l) (tlK k l)).support, Y.t (hdK k l) (tlK k l) mu * y (dl mu) := by
      rw [lin, Finsupp.linearCombination_apply, Finsupp.sum, Finsupp.finsetSum_apply]
      have e2 : ∑ nu ∈ y.support, (y nu • Y.t (hdK k l) nu) (dl (tlK k l)) =
          ∑ nu ∈ y.support, y nu * Y.t (hdK k l) (tlK k l) (dl nu) := by
        apply Finset.sum_congr rfl
        intro nu hnu
        rw [Finsupp.smul_apply, smul_eq_mul, hadj _ _ _ hs hl' (hy nu hnu)]
      rw [e2]
      rw [← Finset.sum_filter_of_ne (p := fun nu => dl nu ∈ (Y.t (hdK k l) (tlK k l)).support) (by
        intro nu _ hne
        rw [Finsupp.mem_support_iff]
        intro h0; rw [h0, mul_zero] at hne; exact hne rfl)]
      rw [← Finset.sum_filter_of_ne (s := (Y.t (hdK k l) (tlK k l)).support) (p := fun mu => dl mu ∈ y.support) (by
        intro nu _ hne
        rw [Finsupp.mem_support_iff]
        intro h0; rw [h0, mul_zero] at hne; exact hne rfl)]
      refine Finset.sum_bij' (fun nu _ => dl nu) (fun mu _ => dl mu) ?_ ?_ ?_ ?_ ?_
      · intro nu hnu
        rw [Finset.mem_filter] at hnu ⊢
        rw [hdd nu (hy nu hnu.1)]
        exact ⟨hnu.2, hnu.1⟩
      · intro nu hnu
        rw [Finset.mem_filter] at hnu ⊢
        rw [hdd nu (hcons nu hnu.1)]
        exact ⟨hnu.2, hnu.1⟩
      · intro nu hnu
        exact hdd nu (hy nu (Finset.mem_filter.1 hnu).1)
      · intro nu hnu
        exact hdd nu (hcons nu (Finset.mem_filter.1 hnu).1)
      · intro nu hnu
        rw [hdd nu (hy nu (Finset.mem_filter.1 hnu).1), mul_comm]
    have e3 : ∑ mu ∈ (Y.rest l).support, (Y.act (inq (Y.rest l mu) * Y.G mu) y) (dl []) =
        ∑ mu ∈ (Y.rest l).support, (Y.rest l) mu * y (dl mu) := by
      apply Finset.sum_congr rfl
      intro mu hmu
      rw [map_mul, Module.End.mul_apply, PieriSys.act_inq, Finsupp.smul_apply, smul_eq_mul, (ihr mu hmu).2 y hy]
    rw [e1, e3]
    have e4 : ∀ x : LMod, ∑ mu ∈ x.support, x mu * y (dl mu) =
        Finsupp.linearCombination (Polynomial ℚ) (fun mu => y (dl mu)) x := by
      intro x
      rw [Finsupp.linearCombination_apply, Finsupp.sum]
      rfl
    rw [e4, e4, rest, map_sub, Finsupp.linearCombination_single, one_smul, sub_sub_cancel]

end GiamSys

/-! ### Systems with `S[1..K]` as special classes -/

/-- `p` numbers one of `S[1]`, ..., `S[K]`. -/
def stdSpc (K : Nat) (p : Int) : Prop := 1 ≤ p ∧ p ≤ K

theorem num2spec_pos {p : Int} (h : 1 ≤ p) : num2spec p = [p] := by unfold num2spec; rw [if_pos (by omega)]

theorem last_ne_zero {l : List Int} (h : ReducedPart l) (h0 : l ≠ []) : last' l ≠ 0 := by
  have := h.2 (last' l) (by
    unfold last'
    rw [List.getLastD_eq_getLast?, List.getLast?_eq_some_getLast h0]
    exact List.getLast_mem _)
  omega

theorem hdK_red {k : Int} {p : Int} {l : List Int} (h : ReducedPart (p :: l)) :
    hdK k (p :: l) = p ∧ tlK k (p :: l) = l := by
  have := last_ne_zero h (by simp)
  unfold hdK tlK
  rw [if_neg (by tauto), if_neg (by tauto)]
  exact ⟨rfl, rfl⟩

/-- A system with `S[1..K]` as special classes. -/
noncomputable def GSys.toGiam (k : Int) {pieri : Int → List Int → Except PyErr Poly} {K : Nat} {cls : List Int → Prop}
    (Y : GSys pieri K cls) : GiamSys k pieri (stdSpc K) cls where
  t p l := Y.t p.toNat l
  nz p h := by have := h.1; omega
  closed p l := Y.closed p.toNat l
  ret p l h hl := by
    obtain ⟨h1, h2⟩ := h
    have := Y.ret p.toNat l (by omega) (by omega) hl
    rwa [show ((p.toNat : Nat) : Int) = p by omega] at this
  comm a b l ha hb := by
    obtain ⟨h1, h2⟩ := ha
    obtain ⟨h3, h4⟩ := hb
    exact Y.comm _ _ l (by omega) (by omega) (by omega) (by omega)
  meas := Y.meas
  deg l hl h0 := by
    cases l with
    | nil => exact absurd rfl h0
    | cons p l =>
      obtain ⟨e1, e2⟩ := hdK_red (k := k) (Y.red _ hl)
      rw [e1, e2, num2spec_pos (Y.step p l hl).1]
      simp
  step l hl h0 := by
    cases l with
    | nil => exact absurd rfl h0
    | cons p l =>
      obtain ⟨e1, e2⟩ := hdK_red (k := k) (Y.red _ hl)
      obtain ⟨h1, h2, h3, h4, h5⟩ := Y.step p l hl
      refine ⟨fun h => last_ne_zero (Y.red _ hl) (by simp) h.1, ?_⟩
      rw [e1, e2]
      exact ⟨⟨h1, h2⟩, h3, h4, h5⟩

end Verif
