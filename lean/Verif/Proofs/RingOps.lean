import Verif.Proofs.RingGen
import Verif.Props.RingA
import Verif.Spec.RingLaws
/-!
# What the ring operations return, for any space with a commuting Pieri rule

The generic part of `Props/RingA.lean` for the systems of `RingGen`.
-/

namespace Verif
open Spec MvPolynomial

theorem qlist_inj {d d' : Nat} {l l' : List Int} (h : List.replicate d Sym.q ++ [Sym.S l] = List.replicate d' Sym.q ++ [Sym.S l']) :
    d = d' ∧ l = l' := by
  have h1 := congrArg List.length h
  simp at h1
  subst h1
  simpa using h

/-- `e` is an expanded polynomial in `q` and the special classes numbered by `spc`. -/
def SpecIn (spc : Int → Prop) (e : Poly) : Prop :=
  WF e ∧ ∀ t ∈ e, ∀ s ∈ t.1, s = .q ∨ ∃ p, spc p ∧ s = .S (num2spec p)

theorem specIn_supported {spc : Int → Prop} {e : Poly} (h : SpecIn spc e) : den e ∈ supported ℚ (specialSet spc) :=
  PieriSys.supported_of_syms h.2

theorem specIn_of_supported {spc : Int → Prop} {e : Poly} (hw : WF e) (h : den e ∈ supported ℚ (specialSet spc)) :
    SpecIn spc e := ⟨hw, fun _ ht _ hs => sym_mem_supported hw h ht hs⟩

theorem coeffOf_den {p : Poly} (hp : WF p) {mm : Mono} (hmm : MSorted mm) : coeffOf mm p = coeff (expo mm) (den p) := by
  by_cases hmem : mm ∈ p.map Prod.fst
  · rw [List.mem_map] at hmem
    obtain ⟨t, ht, rfl⟩ := hmem
    rw [coeff_den_mem hp (c := t.2) ht]
    unfold coeffOf
    have : p.filter (fun t' => decide (t'.1 = t.1)) = [t] := by
      have hnd : (p.filter (fun t' => decide (t'.1 = t.1))).Nodup := (List.Nodup.of_map _ hp.1).filter _
      rw [← List.perm_singleton, List.perm_ext_iff_of_nodup hnd (by simp)]
      intro t'
      rw [List.mem_filter, List.mem_singleton]
      constructor
      · rintro ⟨h1, h2⟩
        exact List.inj_on_of_nodup_map hp.1 h1 ht (by simpa using h2)
      · rintro rfl; exact ⟨ht, by simp⟩
    rw [this]; simp
  · rw [coeff_den_not_mem hp hmm hmem]
    unfold coeffOf
    rw [List.filter_eq_nil_iff.2]
    · rfl
    · intro t ht h
      exact hmem (List.mem_map.2 ⟨t, ht, by simpa using h⟩)

/-- What the proofs below need about one of the products of a space. -/
structure RingOn (X : Space) (pieri : Int → List Int → Except PyErr Poly) (spc : Int → Prop) (cls : List Int → Prop)
    (B : Nat) where
  Y : GiamSys X.k pieri spc cls
  fuel : ∀ l, cls l → Y.meas l < B
  spec : ∀ p, spc p → X.spec2numSym (.S (num2spec p)) = .ok p
  nil : cls []
  unit : ∀ p, spc p → cls (num2spec p) → Y.t p [] = Finsupp.single (num2spec p) 1

namespace RingOn
variable {X : Space} {pieri : Int → List Int → Except PyErr Poly} {spc : Int → Prop} {cls : List Int → Prop} {B : Nat}

protected theorem mult (R : RingOn X pieri spc cls B) {fuel : Nat} (hf : B ≤ fuel) {a b : Poly} {x y : LMod}
    (ha : WF a) (hx : den a = ev x) (hxc : ∀ l ∈ x.support, cls l)
    (hb : WF b) (hy : den b = ev y) (hyc : ∀ l ∈ y.support, cls l) :
    Returns (gmult X pieri fuel a b) (ev (R.Y.prod x y)) :=
  R.Y.mult_returns R.spec fuel ha hx hxc hb hy hyc (fun l hl => lt_of_lt_of_le (R.fuel l hl) hf)

protected theorem act (R : RingOn X pieri spc cls B) {e b : Poly} {y : LMod} (he : SpecIn spc e)
    (hb : WF b) (hy : den b = ev y) (hyc : ∀ l ∈ y.support, cls l) :
    Returns (X.actLc pieri e b) (ev (R.Y.act (den e) y)) := by
  exact R.Y.actLoop_spec R.spec (e.size + 1) e b y he.1 (specIn_supported he) (by omega) hb hy hyc

theorem gact_mul (R : RingOn X pieri spc cls B) {e f x : Poly} (he : SpecIn spc e)
    (hf : SpecIn spc f) (hx : LinComb cls x) :
    SameResult (X.actLc pieri (Poly.mul e f) x) (X.actLc pieri f x >>= fun y => X.actLc pieri e y) := by
  obtain ⟨v, hv, hvc⟩ := linComb_ev hx.2
  have hef : SpecIn spc (Poly.mul e f) := by
    apply specIn_of_supported (wf_mul hf.1)
    rw [den_mul]
    exact Subalgebra.mul_mem _ (specIn_supported he) (specIn_supported hf)
  apply same_of_returns (v := ev (R.Y.act (den e) (R.Y.act (den f) v)))
  · have := R.act hef hx.1 hv hvc
    rwa [den_mul, map_mul, Module.End.mul_apply] at this
  · exact (R.act hf hx.1 hv hvc).bind (fun w hw hw' => R.act he hw hw' (R.Y.act_support _ hvc))

theorem gact_add (R : RingOn X pieri spc cls B) {e f x : Poly} (he : SpecIn spc e)
    (hf : SpecIn spc f) (hx : LinComb cls x) :
    ∃ u v, X.actLc pieri e x = .ok u ∧ X.actLc pieri f x = .ok v ∧
      SameResult (X.actLc pieri (Poly.add e f) x) (.ok (Poly.add u v)) := by
  obtain ⟨v, hv, hvc⟩ := linComb_ev hx.2
  have hef : SpecIn spc (Poly.add e f) := by
    apply specIn_of_supported (wf_add he.1.sorted hf.1)
    rw [den_add]
    exact Subalgebra.add_mem _ (specIn_supported he) (specIn_supported hf)
  obtain ⟨u, h1, h2, h3⟩ := R.act he hx.1 hv hvc
  obtain ⟨u', h1', h2', h3'⟩ := R.act hf hx.1 hv hvc
  refine ⟨u, u', h1, h1', same_of_returns (R.act hef hx.1 hv hvc) ⟨_, rfl, wf_add h2.sorted h2', ?_⟩⟩
  rw [den_add, den_add, h3, h3', map_add, LinearMap.add_apply, map_add]

theorem gact_linear (R : RingOn X pieri spc cls B) {e x y : Poly} (he : SpecIn spc e)
    (hx : LinComb cls x) (hy : LinComb cls y) :
    ∃ u v, X.actLc pieri e x = .ok u ∧ X.actLc pieri e y = .ok v ∧
      SameResult (X.actLc pieri e (Poly.add x y)) (.ok (Poly.add u v)) := by
  classical
  obtain ⟨v, hv, hvc⟩ := linComb_ev hx.2
  obtain ⟨v', hv', hvc'⟩ := linComb_ev hy.2
  obtain ⟨u, h1, h2, h3⟩ := R.act he hx.1 hv hvc
  obtain ⟨u', h1', h2', h3'⟩ := R.act he hy.1 hv' hvc'
  refine ⟨u, u', h1, h1', same_of_returns (R.act (y := v + v') he (wf_add hx.1.sorted hy.1) (by rw [den_add, hv, hv', map_add]) ?_)
    ⟨_, rfl, wf_add h2.sorted h2', ?_⟩⟩
  · intro l hl
    rcases Finset.mem_union.1 (Finsupp.support_add hl) with h | h
    · exact hvc l h
    · exact hvc' l h
  · rw [den_add, h3, h3', map_add, map_add]

theorem gact_one (R : RingOn X pieri spc cls B) {x : Poly} (hx : LinComb cls x) :
    SameResult (X.actLc pieri (Poly.const 1) x) (.ok x) := by
  obtain ⟨v, hv, hvc⟩ := linComb_ev hx.2
  have h1 : SpecIn spc (Poly.const 1) := ⟨wf_const 1, by simp [Poly.const]⟩
  refine same_of_returns (R.act h1 hx.1 hv hvc) ⟨x, rfl, hx.1, ?_⟩
  rw [hv, den_const]; simp

theorem gact_special (R : RingOn X pieri spc cls B) {p : Int} (h : spc p) {x : Poly}
    (hx : LinComb cls x) :
    SameResult (X.actLc pieri (Poly.sym (.S (num2spec p))) x) (Poly.apply (pieri p) x) := by
  obtain ⟨v, hv, hvc⟩ := linComb_ev hx.2
  have hs : SpecIn spc (Poly.sym (.S (num2spec p))) := ⟨wf_sym _, by
    intro t ht s hs
    simp [Poly.sym] at ht
    subst ht
    simp at hs
    exact Or.inr ⟨p, h, hs⟩⟩
  refine same_of_returns (R.act hs hx.1 hv hvc) ?_
  rw [den_sym, R.Y.act_special h]
  exact R.Y.apply_pieri h hx.1 hv hvc

theorem gact_closed (R : RingOn X pieri spc cls B) {e x : Poly} (he : SpecIn spc e)
    (hx : LinComb cls x) : ∃ w, X.actLc pieri e x = .ok w ∧ LinComb cls w := by
  obtain ⟨v, hv, hvc⟩ := linComb_ev hx.2
  obtain ⟨w, h1, h2, h3⟩ := R.act he hx.1 hv hvc
  exact ⟨w, h1, linComb_of_ev h2 h3 (R.Y.act_support _ hvc)⟩

theorem ggiam (R : RingOn X pieri spc cls B) {fuel : Nat} (hf : B ≤ fuel) {a : Poly}
    (ha : LinComb cls a) :
    (∃ g, giamRec pieri X.k fuel a = .ok g ∧ SpecIn spc g) ∧
    SameResult (gmult X pieri fuel a (Poly.sym (.S []))) (.ok a) := by
  obtain ⟨v, hv, hvc⟩ := linComb_ev ha.2
  constructor
  · obtain ⟨g, h1, h2, h3⟩ := R.Y.giamRec_returns fuel ha.1 hv hvc (fun l hl => lt_of_lt_of_le (R.fuel l hl) hf)
    refine ⟨g, h1, ?_⟩
    exact specIn_of_supported h2 (by rw [h3]; exact R.Y.GL_supported hvc)
  · refine same_of_returns (R.mult hf ha.1 hv hvc (wf_sym _) (y := e1) (by simp [e1, inq]) (GSys.one_cls R.nil)) ⟨a, rfl, ha.1, ?_⟩
    rw [hv, R.Y.prod_one R.nil hvc]

theorem gmult_closed (R : RingOn X pieri spc cls B) {fuel : Nat} (hf : B ≤ fuel) {a b : Poly}
    (ha : LinComb cls a) (hb : LinComb cls b) :
    ∃ w, gmult X pieri fuel a b = .ok w ∧ LinComb cls w := by
  obtain ⟨x, hx, hxc⟩ := linComb_ev ha.2
  obtain ⟨y, hy, hyc⟩ := linComb_ev hb.2
  obtain ⟨w, h1, h2, h3⟩ := R.mult hf ha.1 hx hxc hb.1 hy hyc
  exact ⟨w, h1, linComb_of_ev h2 h3 (R.Y.prod_support _ hyc)⟩

theorem gmult_comm (R : RingOn X pieri spc cls B) {fuel : Nat} (hf : B ≤ fuel) {a b : Poly}
    (ha : LinComb cls a) (hb : LinComb cls b) :
    SameResult (gmult X pieri fuel a b) (gmult X pieri fuel b a) := by
  obtain ⟨x, hx, hxc⟩ := linComb_ev ha.2
  obtain ⟨y, hy, hyc⟩ := linComb_ev hb.2
  refine same_of_returns (R.mult hf ha.1 hx hxc hb.1 hy hyc) ?_
  rw [R.Y.prod_comm hxc hyc]
  exact R.mult hf hb.1 hy hyc ha.1 hx hxc

theorem gmult_assoc (R : RingOn X pieri spc cls B) {fuel : Nat} (hf : B ≤ fuel) {a b c : Poly}
    (ha : LinComb cls a) (hb : LinComb cls b) (hc : LinComb cls c) :
    SameResult (gmult X pieri fuel a b >>= fun ab => gmult X pieri fuel ab c)
      (gmult X pieri fuel b c >>= fun bc => gmult X pieri fuel a bc) := by
  obtain ⟨x, hx, hxc⟩ := linComb_ev ha.2
  obtain ⟨y, hy, hyc⟩ := linComb_ev hb.2
  obtain ⟨z, hz, hzc⟩ := linComb_ev hc.2
  apply same_of_returns (v := ev (R.Y.prod x (R.Y.prod y z)))
  · rw [← R.Y.prod_assoc x hyc hzc]
    exact (R.mult hf ha.1 hx hxc hb.1 hy hyc).bind (fun w hw hw' =>
      R.mult hf hw hw' (R.Y.prod_support _ hyc) hc.1 hz hzc)
  · exact (R.mult hf hb.1 hy hyc hc.1 hz hzc).bind (fun w hw hw' =>
      R.mult hf ha.1 hx hxc hw hw' (R.Y.prod_support _ hzc))

theorem gmult_unit (R : RingOn X pieri spc cls B) {fuel : Nat} (hf : B ≤ fuel) {a : Poly}
    (ha : LinComb cls a) :
    SameResult (gmult X pieri fuel (Poly.sym (.S [])) a) (.ok a) ∧
    SameResult (gmult X pieri fuel a (Poly.sym (.S []))) (.ok a) := by
  obtain ⟨x, hx, hxc⟩ := linComb_ev ha.2
  refine ⟨same_of_returns (R.mult hf (wf_sym _) (x := e1) (by simp [e1, inq]) (GSys.one_cls R.nil) ha.1 hx hxc)
    ⟨a, rfl, ha.1, ?_⟩, (ggiam R hf ha).2⟩
  rw [hx, e1, R.Y.one_prod]

theorem gmult_bilinear (R : RingOn X pieri spc cls B) {fuel : Nat} (hf : B ≤ fuel) (c : Rat) (d : Nat)
    {a b e : Poly} (ha : LinComb cls a) (hb : LinComb cls b) (he : LinComb cls e) :
    ∃ u v, gmult X pieri fuel a e = .ok u ∧ gmult X pieri fuel b e = .ok v ∧
      SameResult (gmult X pieri fuel (Poly.add (Poly.mul (scal c d) a) b) e)
        (.ok (Poly.add (Poly.mul (scal c d) u) v)) := by
  classical
  obtain ⟨x, hx, hxc⟩ := linComb_ev ha.2
  obtain ⟨y, hy, hyc⟩ := linComb_ev hb.2
  obtain ⟨z, hz, hzc⟩ := linComb_ev he.2
  obtain ⟨u, h1, h2, h3⟩ := R.mult hf ha.1 hx hxc he.1 hz hzc
  obtain ⟨v, h1', h2', h3'⟩ := R.mult hf hb.1 hy hyc he.1 hz hzc
  refine ⟨u, v, h1, h1', same_of_returns (R.mult hf (x := (Polynomial.C c * Polynomial.X ^ d) • x + y)
    (wf_add (wf_mul ha.1).sorted hb.1) ?_ ?_ he.1 hz hzc) ⟨_, rfl, wf_add (wf_mul h2).sorted h2', ?_⟩⟩
  · rw [den_add, den_mul, hx, hy, den_scal, map_add, ev_smul]
  · intro l hl
    rcases Finset.mem_union.1 (Finsupp.support_add hl) with h | h
    · exact hxc l (Finsupp.support_smul h)
    · exact hyc l h
  · rw [den_add, den_mul, h3, h3', den_scal, R.Y.prod_add_left, R.Y.prod_smul_left, map_add, ev_smul]

theorem gmult_pieri (R : RingOn X pieri spc cls B) {fuel : Nat} (hf : B ≤ fuel) {p : Int} (h : spc p)
    (hc : cls (num2spec p)) {b : Poly} (hb : LinComb cls b) :
    SameResult (gmult X pieri fuel (Poly.sym (.S (num2spec p))) b) (Poly.apply (pieri p) b) := by
  obtain ⟨y, hy, hyc⟩ := linComb_ev hb.2
  refine same_of_returns (R.mult hf (wf_sym _) (x := Finsupp.single (num2spec p) 1) (by simp [inq]) ?_ hb.1 hy hyc) ?_
  · intro l hl
    rw [Finset.mem_singleton.1 (Finsupp.support_single_subset hl)]; exact hc
  · rw [R.Y.prod_special h hc R.nil (R.unit p h hc) hyc]
    exact R.Y.apply_pieri h hb.1 hy hyc

theorem gmult_hom (R : RingOn X pieri spc cls B) {n : Int} (hh : ∀ p, spc p → HomT n (num2spec p).sum (lin (R.Y.t p))) {fuel : Nat}
    (hf : B ≤ fuel) {l mu : List Int} (hl : cls l) (hmu : cls mu) :
    ∃ w, gmult X pieri fuel (Poly.sym (.S l)) (Poly.sym (.S mu)) = .ok w ∧
      ∀ t ∈ w, ∃ d nu, t.1 = List.replicate d Sym.q ++ [Sym.S nu] ∧ cls nu ∧
        nu.sum + d * n = l.sum + mu.sum := by
  have hs : ∀ l', cls l' → ∀ nu ∈ (Finsupp.single l' (1 : Polynomial ℚ)).support, cls nu := by
    intro l' hl' nu hnu
    rw [Finset.mem_singleton.1 (Finsupp.support_single_subset hnu)]; exact hl'
  obtain ⟨w, h1, h2, h3⟩ := R.mult hf (wf_sym (.S l)) (x := Finsupp.single l 1) (by simp [inq]) (hs l hl)
    (wf_sym (.S mu)) (y := Finsupp.single mu 1) (by simp [inq]) (hs mu hmu)
  refine ⟨w, h1, fun t ht => ?_⟩
  obtain ⟨d, nu, h4, h5⟩ := terms_of_ev h2 h3 ht
  have hne := (h2.2 t ht).1
  rw [h5] at hne
  refine ⟨d, nu, h4, ?_, ?_⟩
  · apply R.Y.prod_support (Finsupp.single l 1) (hs mu hmu) nu
    rw [Finsupp.mem_support_iff]
    intro h0; rw [h0] at hne; simp at hne
  · have := R.Y.G_hom hh l hl mu.sum _ (hom_single mu) nu d
    apply this
    rwa [GiamSys.prod, GiamSys.GL, ev_single, map_mul, subst_inq, subst_S, map_mul, Module.End.mul_apply,
      PieriSys.act_inq, one_smul] at hne

theorem gmult_int (R : RingOn X pieri spc cls B) (hh : ∀ p l, spc p → IntX (R.Y.t p l)) {fuel : Nat}
    (hf : B ≤ fuel) {l mu : List Int} (hl : cls l) (hmu : cls mu) :
    ∃ w, gmult X pieri fuel (Poly.sym (.S l)) (Poly.sym (.S mu)) = .ok w ∧
      ∀ t ∈ w, ∃ z : ℤ, t.2 = z := by
  have hs : ∀ l', cls l' → ∀ nu ∈ (Finsupp.single l' (1 : Polynomial ℚ)).support, cls nu := by
    intro l' hl' nu hnu
    rw [Finset.mem_singleton.1 (Finsupp.support_single_subset hnu)]; exact hl'
  obtain ⟨w, h1, h2, h3⟩ := R.mult hf (wf_sym (.S l)) (x := Finsupp.single l 1) (by simp [inq]) (hs l hl)
    (wf_sym (.S mu)) (y := Finsupp.single mu 1) (by simp [inq]) (hs mu hmu)
  refine ⟨w, h1, fun t ht => ?_⟩
  obtain ⟨d, nu, h4, h5⟩ := terms_of_ev h2 h3 ht
  rw [h5, GiamSys.prod, GiamSys.GL, ev_single, map_mul, subst_inq, subst_S, map_mul, Module.End.mul_apply,
      PieriSys.act_inq, one_smul]
  exact R.Y.G_int hh l hl _ (by simpa using IntX.single mu 0 1) nu d


/-- Setting `q = 0` in the product. -/
theorem gmult_q0 {pieri' : Int → List Int → Except PyErr Poly} (R : RingOn X pieri spc cls B) (R' : RingOn X pieri' spc cls B)
    (hq : ∀ p l, spc p → q0 (R.Y.t p l) = R'.Y.t p l) {fuel : Nat} (hf : B ≤ fuel) {a b : Poly}
    (ha : LinComb cls a) (hb : LinComb cls b) (ha0 : QFree a) (hb0 : QFree b) :
    ∃ w, gmult X pieri fuel a b = .ok w ∧
      SameResult (gmult X pieri' fuel a b) (.ok (w.filter (fun t => decide (Sym.q ∉ t.1)))) := by
  obtain ⟨x, hx, hxc⟩ := linComb_ev ha.2
  obtain ⟨y, hy, hyc⟩ := linComb_ev hb.2
  obtain ⟨w, h1, h2, h3⟩ := R.mult hf ha.1 hx hxc hb.1 hy hyc
  refine ⟨w, h1, same_of_returns (R'.mult hf ha.1 hx hxc hb.1 hy hyc) ⟨_, rfl, (den_qfree h2 h3).1, ?_⟩⟩
  rw [(den_qfree h2 h3).2, R.Y.q0_prod' R'.Y hq hxc, q0_of_qfree ha.1 hx ha0, q0_of_qfree hb.1 hy hb0]

theorem gmult_hom_classical (R : RingOn X pieri spc cls B) (hh : ∀ (n : Int) p, spc p → HomT n (num2spec p).sum (lin (R.Y.t p)))
    {fuel : Nat} (hf : B ≤ fuel) {l mu : List Int} (hl : cls l) (hmu : cls mu) :
    ∃ w, gmult X pieri fuel (Poly.sym (.S l)) (Poly.sym (.S mu)) = .ok w ∧
      ∀ t ∈ w, ∃ nu, t.1 = [Sym.S nu] ∧ cls nu ∧ nu.sum = l.sum + mu.sum := by
  obtain ⟨w, h1, h2⟩ := gmult_hom R (hh 0) hf hl hmu
  obtain ⟨w', h1', h2'⟩ := gmult_hom R (hh 1) hf hl hmu
  rw [h1] at h1'
  cases h1'
  refine ⟨w, h1, fun t ht => ?_⟩
  obtain ⟨d, nu, e, hc, hs⟩ := h2 t ht
  obtain ⟨d', nu', e', hc', hs'⟩ := h2' t ht
  rw [e] at e'
  obtain ⟨rfl, rfl⟩ := qlist_inj e'
  have : d = 0 := by push_cast at hs hs'; omega
  subst this
  exact ⟨nu, by simpa using e, hc, by simpa using hs⟩

/-! ### The laws -/

theorem andThen_eq (r : Except PyErr Poly) (f : Poly → Except PyErr Poly) : andThen r f = r >>= f := by
  cases r <;> rfl

variable (R : RingOn X pieri spc cls B)
include R

theorem closedUnder {fuel : Nat} (hf : B ≤ fuel) : ClosedUnder cls (gmult X pieri fuel) :=
  fun _ _ ha hb => R.gmult_closed hf ha hb

theorem commutative {fuel : Nat} (hf : B ≤ fuel) : Commutative cls (gmult X pieri fuel) :=
  fun _ _ ha hb => R.gmult_comm hf ha hb

theorem associative {fuel : Nat} (hf : B ≤ fuel) : Associative cls (gmult X pieri fuel) := by
  intro a b c ha hb hc
  rw [andThen_eq, andThen_eq]
  exact R.gmult_assoc hf ha hb hc

theorem hasUnit {fuel : Nat} (hf : B ≤ fuel) : HasUnit cls (gmult X pieri fuel) :=
  fun _ ha => R.gmult_unit hf ha

theorem linear {fuel : Nat} (hf : B ≤ fuel) : Linear cls (gmult X pieri fuel) :=
  fun c d _ _ _ ha hb he => R.gmult_bilinear hf c d ha hb he

theorem ringAction : RingAction (SpecIn spc) cls (X.actLc pieri) where
  closed _ _ he hx := R.gact_closed he hx
  mul e f x he hf hx := by rw [andThen_eq]; exact R.gact_mul he hf hx
  add _ _ _ he hf hx := R.gact_add he hf hx
  addRight _ _ _ he hx hy := R.gact_linear he hx hy
  one _ hx := R.gact_one hx

/-- Duality: the coefficient of the point class. -/
theorem gdual (dl : List Int → List Int) (hcl : ∀ l, cls l → cls (dl l))
    (hdd : ∀ l, cls l → dl (dl l) = l) (hadj : ∀ p l nu, spc p → cls l → cls nu → R.Y.t p l (dl nu) = R.Y.t p nu (dl l))
    {fuel : Nat} (hf : B ≤ fuel) {l mu : List Int} (hl : cls l) (hmu : cls mu) :
    ∃ w, gmult X pieri fuel (Poly.sym (.S l)) (Poly.sym (.S mu)) = .ok w ∧
      ∀ d, coeffOf (List.replicate d Sym.q ++ [.S (dl [])]) w = if mu = dl l ∧ d = 0 then 1 else 0 := by
  have hs : ∀ l', cls l' → ∀ nu ∈ (Finsupp.single l' (1 : Polynomial ℚ)).support, cls nu := by
    intro l' hl' nu hnu
    rw [Finset.mem_singleton.1 (Finsupp.support_single_subset hnu)]; exact hl'
  obtain ⟨w, h1, h2, h3⟩ := R.mult hf (wf_sym (.S l)) (x := Finsupp.single l 1) (by simp [inq]) (hs l hl)
    (wf_sym (.S mu)) (y := Finsupp.single mu 1) (by simp [inq]) (hs mu hmu)
  refine ⟨w, h1, fun d => ?_⟩
  rw [coeffOf_den h2 (qmono_sorted d _), h3, expo_qmono, coeff_ev, R.Y.prod_single,
    R.Y.dual_coeff dl hcl hdd hadj l hl _ (hs mu hmu), Finsupp.single_apply]
  by_cases h : mu = dl l
  · rw [if_pos h, Polynomial.coeff_one]
    simp [h]
  · rw [if_neg h, if_neg (fun h' => h h'.1), Polynomial.coeff_zero]

end RingOn

/-! ### Homogeneity and integrality from the terms of the Pieri rule -/

theorem homX_of_ret {r : Except PyErr Poly} {x : LMod} (h : Returns r (ev x)) {n D : Int}
    (ht : ∃ w, r = .ok w ∧ ∀ t ∈ w, ∃ (d : Nat) (nu : List Int), t.1 = List.replicate d .q ++ [.S nu] ∧ nu.sum + d * n = D) :
    HomX n D x := by
  obtain ⟨w, h1, h2, h3⟩ := h
  obtain ⟨w', h1', h4⟩ := ht
  rw [h1] at h1'
  cases h1'
  intro l d hne
  rw [← coeff_ev, ← expo_qmono, ← h3] at hne
  obtain ⟨d', nu, e, hs⟩ := h4 _ (mem_of_coeff_ne h2 (qmono_sorted d l) hne)
  obtain ⟨rfl, rfl⟩ := qlist_inj e
  exact hs

theorem intX_of_ret {r : Except PyErr Poly} {x : LMod} (h : Returns r (ev x))
    (ht : ∃ w, r = .ok w ∧ ∀ t ∈ w, ∃ z : Int, t.2 = z) : IntX x := by
  obtain ⟨w, h1, h2, h3⟩ := h
  obtain ⟨w', h1', h4⟩ := ht
  rw [h1] at h1'
  cases h1'
  intro l d
  by_cases hne : (x l).coeff d = 0
  · exact ⟨0, by simp [hne]⟩
  · have e := coeff_ev x d l
    rw [← expo_qmono, ← h3] at e
    rw [← e] at hne
    obtain ⟨z, hz⟩ := h4 _ (mem_of_coeff_ne h2 (qmono_sorted d l) hne)
    exact ⟨z, by rw [← e]; exact hz⟩

end Verif
