import Verif.Proofs.RingA2
import Verif.Spec.Dec
import Verif.Props.PieriA
import Verif.Props.Dual
/-!
# C18-C25, C47: the classical and quantum ring structure computed for `Gr(m, n)`

Every result is a value up to the order of its terms (`SameResult`), so each statement includes that
the calls terminate (with recursion depth at most `giamBound`) and raise no exception.
-/

namespace Verif
open Spec MvPolynomial

/-- `l` is a Schubert class of `Gr(m, n)`: a partition inside the `m × (n - m)` rectangle. -/
def Spec.GrClass (m : Nat) (n : Int) (l : List Int) : Prop := ReducedPart l ∧ InRect l m (n - m)

instance (m : Nat) (n : Int) : DecidablePred (GrClass m n) := fun l => by unfold Spec.GrClass; infer_instance

/-- Recursion depth that is sufficient for `giambelli` on `Gr(m, n)`. -/
def Spec.giamBound (m : Nat) (n : Int) : Nat :=
  m * ((n - m).toNat * ((n - m).toNat + 1)) + (n - m).toNat + 1

/-- What the proofs below need about one of the two products of `Gr(m, n)`. -/
structure RingSys (m : Nat) (n : Int) (X : Space) (pieri : Int → List Int → Except PyErr Poly) where
  K : Nat
  hK : (K : Int) = n - m
  Y : GSys pieri K (GrClass m n)
  fuel : ∀ l, GrClass m n l → Y.meas l < giamBound m n
  spec : ∀ i : Nat, 1 ≤ i → i ≤ K → X.spec2numSym (.S [(i : Int)]) = .ok i
  unit : ∀ p : Nat, 1 ≤ p → p ≤ K → Y.t p [] = Finsupp.single [(p : Int)] 1
  kval : X.k = n - m

theorem t_unit {m : Nat} {k : Int} (p : Nat) (hp : 1 ≤ p) (hpk : (p : Int) ≤ k) :
    tc m k p [] = Finsupp.single [(p : Int)] 1 ∧ tq m k p [] = Finsupp.single [(p : Int)] 1 := by
  have hc : clsA (m + 1) k [(p : Int)] := ⟨⟨by simp, by simp; omega⟩, by simp, by simpa using hpk⟩
  obtain ⟨h1, h2, h3, h4, h5, h6⟩ := stepA hc
  rw [Int.toNat_natCast] at h5 h6
  have hO : Cyl.Om k p (vec m []) = {vec m [(p : Int)]} := by
    apply Finset.eq_singleton_iff_unique_mem.2
    refine ⟨by simpa using vec_mem_Om hc, ?_⟩
    intro g hg
    by_contra hne
    obtain ⟨h7, h8⟩ := h6 g hg hne
    have hs := (Cyl.mem_Om.1 hg).2.2
    rw [vec_sum h3.1 (by simp)] at hs
    unfold measA at h8
    rw [lab_sum, hs, show part (lab g) 0 = g 0 from part_lab_lt g 0] at h8
    simp at h8
    have h9 : g 0 ≤ ∑ i, g i := Finset.single_le_sum (f := g) (fun i _ => by
      have : vec m [] i ≤ g i := (Cyl.mem_Om.1 hg).1 i
      simpa [vec] using this) (Finset.mem_univ 0)
    rw [hs] at h9
    simp at h9
    omega
  have e : tc m k p [] = Finsupp.single [(p : Int)] 1 := by
    rw [tc_eq_of_small h3 h5, hO, Finset.sum_singleton, lab_vec' hc]
  exact ⟨e, by rw [tq_eq_of_small h3 h5, e]⟩

/-- The classical system of `Gr(m, n)`. -/
noncomputable def ringC {m : Nat} {n : Int} {X : Space} (hm : 1 ≤ m) (hX : mkGr m n = .ok X) :
    RingSys m n X (fun i l => pieriA i l X.k X.n) := by
  have h := mkGr_ok hX
  cases m with
  | zero => omega
  | succ m =>
    have h1 := h.1
    subst h1
    have h2 := h.2.2
    exact
    { K := (n - (m + 1 : Nat)).toNat
      hK := by omega
      Y := sysC m (by push_cast at *; omega) (by push_cast; ring)
      fuel := fun l hl => measA_lt (by push_cast at *; omega) hl
      spec := fun i h1 h2 => by simp [Space.spec2numSym, Space.spec2num, at']
      unit := fun p h1 h2 => (t_unit p h1 (by show (p : Int) ≤ n - (m + 1 : Nat); omega)).1
      kval := rfl }

/-- The quantum system of `Gr(m, n)`. -/
noncomputable def ringQ {m : Nat} {n : Int} {X : Space} (hm : 1 ≤ m) (hX : mkGr m n = .ok X) :
    RingSys m n X (fun i l => qpieriA i l X.k X.n) := by
  have h := mkGr_ok hX
  cases m with
  | zero => omega
  | succ m =>
    have h1 := h.1
    subst h1
    have h2 := h.2.2
    exact
    { K := (n - (m + 1 : Nat)).toNat
      hK := by omega
      Y := sysQ m (by push_cast at *; omega) (by push_cast; ring)
      fuel := fun l hl => measA_lt (by push_cast at *; omega) hl
      spec := fun i h1 h2 => by simp [Space.spec2numSym, Space.spec2num, at']
      unit := fun p h1 h2 => (t_unit p h1 (by show (p : Int) ≤ n - (m + 1 : Nat); omega)).2
      kval := rfl }

theorem grClass_nil {m : Nat} {n : Int} : GrClass m n [] := ⟨⟨by simp, by simp⟩, by simp, by simp⟩

section generic
variable {m : Nat} {n : Int} {X : Space} {pieri : Int → List Int → Except PyErr Poly}
  (R : RingSys m n X pieri)

/-- product of linear combinations as computed -/
abbrev gmult (X : Space) (pieri : Int → List Int → Except PyErr Poly) (fuel : Nat) (a b : Poly) : Except PyErr Poly :=
  giamRec pieri X.k fuel a >>= fun g => X.actLc pieri g b

theorem RingSys.mult (R : RingSys m n X pieri) {fuel : Nat} (hf : giamBound m n ≤ fuel) {a b : Poly} {x y : LMod}
    (ha : WF a) (hx : den a = ev x) (hxc : ∀ l ∈ x.support, GrClass m n l)
    (hb : WF b) (hy : den b = ev y) (hyc : ∀ l ∈ y.support, GrClass m n l) :
    Returns (gmult X pieri fuel a b) (ev (R.Y.prod x y)) :=
  R.Y.mult_returns R.spec X.k fuel ha hx hxc hb hy hyc (fun l hl => lt_of_lt_of_le (R.fuel l hl) hf)

theorem RingSys.act (R : RingSys m n X pieri) {e b : Poly} {y : LMod} (he : SpecialPoly (n - m).toNat e)
    (hb : WF b) (hy : den b = ev y) (hyc : ∀ l ∈ y.support, GrClass m n l) :
    Returns (X.actLc pieri e b) (ev (R.Y.act (den e) y)) := by
  have hk := R.hK
  rw [show (n - m).toNat = R.K by omega] at he
  exact R.Y.actLoop_spec R.spec (e.size + 1) e b y he.1 (special_supported he) (by omega) hb hy hyc

theorem gact_mul (R : RingSys m n X pieri) {e f x : Poly} (he : SpecialPoly (n - m).toNat e)
    (hf : SpecialPoly (n - m).toNat f) (hx : LinComb (GrClass m n) x) :
    SameResult (X.actLc pieri (Poly.mul e f) x) (X.actLc pieri f x >>= fun y => X.actLc pieri e y) := by
  have hk := R.hK
  obtain ⟨v, hv, hvc⟩ := linComb_ev hx.2
  have hef : SpecialPoly (n - m).toNat (Poly.mul e f) := by
    apply special_of_supported (wf_mul hf.1)
    rw [den_mul]
    exact Subalgebra.mul_mem _ (special_supported he) (special_supported hf)
  apply same_of_returns (v := ev (R.Y.act (den e) (R.Y.act (den f) v)))
  · have := R.act hef hx.1 hv hvc
    rwa [den_mul, map_mul, Module.End.mul_apply] at this
  · exact (R.act hf hx.1 hv hvc).bind (fun w hw hw' => R.act he hw hw' (R.Y.act_support _ hvc))

theorem gact_add (R : RingSys m n X pieri) {e f x : Poly} (he : SpecialPoly (n - m).toNat e)
    (hf : SpecialPoly (n - m).toNat f) (hx : LinComb (GrClass m n) x) :
    ∃ u v, X.actLc pieri e x = .ok u ∧ X.actLc pieri f x = .ok v ∧
      SameResult (X.actLc pieri (Poly.add e f) x) (.ok (Poly.add u v)) := by
  obtain ⟨v, hv, hvc⟩ := linComb_ev hx.2
  have hef : SpecialPoly (n - m).toNat (Poly.add e f) := by
    apply special_of_supported (wf_add he.1.sorted hf.1)
    rw [den_add]
    exact Subalgebra.add_mem _ (special_supported he) (special_supported hf)
  obtain ⟨u, h1, h2, h3⟩ := R.act he hx.1 hv hvc
  obtain ⟨u', h1', h2', h3'⟩ := R.act hf hx.1 hv hvc
  refine ⟨u, u', h1, h1', same_of_returns (R.act hef hx.1 hv hvc) ⟨_, rfl, wf_add h2.sorted h2', ?_⟩⟩
  rw [den_add, den_add, h3, h3', map_add, LinearMap.add_apply, map_add]

theorem gact_linear (R : RingSys m n X pieri) {e x y : Poly} (he : SpecialPoly (n - m).toNat e)
    (hx : LinComb (GrClass m n) x) (hy : LinComb (GrClass m n) y) :
    ∃ u v, X.actLc pieri e x = .ok u ∧ X.actLc pieri e y = .ok v ∧
      SameResult (X.actLc pieri e (Poly.add x y)) (.ok (Poly.add u v)) := by
  classical
  obtain ⟨v, hv, hvc⟩ := linComb_ev hx.2
  obtain ⟨v', hv', hvc'⟩ := linComb_ev hy.2
  obtain ⟨u, h1, h2, h3⟩ := R.act he hx.1 hv hvc
  obtain ⟨u', h1', h2', h3'⟩ := R.act he hy.1 hv' hvc'
  refine ⟨u, u', h1, h1', same_of_returns (R.act (y := v + v') he (wf_add hx.1.sorted hy.1) (by rw [den_add, hv, hv', map_add]) ?_)
    ⟨_, rfl, wf_add h2.sorted h2', ?_⟩⟩
  · intro l hl
    rcases Finset.mem_union.1 (Finsupp.support_add hl) with h | h
    · exact hvc l h
    · exact hvc' l h
  · rw [den_add, h3, h3', map_add, map_add]

theorem gact_one (R : RingSys m n X pieri) {x : Poly} (hx : LinComb (GrClass m n) x) :
    SameResult (X.actLc pieri (Poly.const 1) x) (.ok x) := by
  obtain ⟨v, hv, hvc⟩ := linComb_ev hx.2
  have h1 : SpecialPoly (n - m).toNat (Poly.const 1) := ⟨wf_const 1, by simp [Poly.const]⟩
  refine same_of_returns (R.act h1 hx.1 hv hvc) ⟨x, rfl, hx.1, ?_⟩
  rw [hv, den_const]; simp

theorem gact_special (R : RingSys m n X pieri) (p : Nat) (h1 : 1 ≤ p) (h2 : (p : Int) ≤ n - m) {x : Poly}
    (hx : LinComb (GrClass m n) x) :
    SameResult (X.actLc pieri (Poly.sym (.S [(p : Int)])) x) (Poly.apply (pieri p) x) := by
  have hk := R.hK
  obtain ⟨v, hv, hvc⟩ := linComb_ev hx.2
  have hs : SpecialPoly (n - m).toNat (Poly.sym (.S [(p : Int)])) := ⟨wf_sym _, by
    intro t ht s hs
    simp [Poly.sym] at ht
    subst ht
    simp at hs
    exact Or.inr ⟨p, by omega, by omega, hs⟩⟩
  refine same_of_returns (R.act hs hx.1 hv hvc) ?_
  rw [den_sym, R.Y.act_special h1 (by omega)]
  exact R.Y.apply_pieri h1 (by omega) hx.1 hv hvc

theorem gact_closed (R : RingSys m n X pieri) {e x : Poly} (he : SpecialPoly (n - m).toNat e)
    (hx : LinComb (GrClass m n) x) : ∃ w, X.actLc pieri e x = .ok w ∧ LinComb (GrClass m n) w := by
  obtain ⟨v, hv, hvc⟩ := linComb_ev hx.2
  obtain ⟨w, h1, h2, h3⟩ := R.act he hx.1 hv hvc
  exact ⟨w, h1, linComb_of_ev h2 h3 (R.Y.act_support _ hvc)⟩

theorem ggiam (R : RingSys m n X pieri) {fuel : Nat} (hf : giamBound m n ≤ fuel) {a : Poly}
    (ha : LinComb (GrClass m n) a) :
    (∃ g, giamRec pieri X.k fuel a = .ok g ∧ SpecialPoly (n - m).toNat g) ∧
    SameResult (gmult X pieri fuel a (Poly.sym (.S []))) (.ok a) := by
  have hk := R.hK
  obtain ⟨v, hv, hvc⟩ := linComb_ev ha.2
  constructor
  · obtain ⟨g, h1, h2, h3⟩ := R.Y.giamRec_returns X.k fuel ha.1 hv hvc (fun l hl => lt_of_lt_of_le (R.fuel l hl) hf)
    refine ⟨g, h1, ?_⟩
    rw [show (n - m).toNat = R.K by omega]
    exact special_of_supported h2 (by rw [h3]; exact R.Y.GL_supported hvc)
  · refine same_of_returns (R.mult hf ha.1 hv hvc (wf_sym _) (y := e1) (by simp [e1, inq]) (GSys.one_cls grClass_nil)) ⟨a, rfl, ha.1, ?_⟩
    rw [hv, R.Y.prod_one grClass_nil hvc]

theorem gmult_closed (R : RingSys m n X pieri) {fuel : Nat} (hf : giamBound m n ≤ fuel) {a b : Poly}
    (ha : LinComb (GrClass m n) a) (hb : LinComb (GrClass m n) b) :
    ∃ w, gmult X pieri fuel a b = .ok w ∧ LinComb (GrClass m n) w := by
  obtain ⟨x, hx, hxc⟩ := linComb_ev ha.2
  obtain ⟨y, hy, hyc⟩ := linComb_ev hb.2
  obtain ⟨w, h1, h2, h3⟩ := R.mult hf ha.1 hx hxc hb.1 hy hyc
  exact ⟨w, h1, linComb_of_ev h2 h3 (R.Y.prod_support _ hyc)⟩

theorem gmult_comm (R : RingSys m n X pieri) {fuel : Nat} (hf : giamBound m n ≤ fuel) {a b : Poly}
    (ha : LinComb (GrClass m n) a) (hb : LinComb (GrClass m n) b) :
    SameResult (gmult X pieri fuel a b) (gmult X pieri fuel b a) := by
  obtain ⟨x, hx, hxc⟩ := linComb_ev ha.2
  obtain ⟨y, hy, hyc⟩ := linComb_ev hb.2
  refine same_of_returns (R.mult hf ha.1 hx hxc hb.1 hy hyc) ?_
  rw [R.Y.prod_comm hxc hyc]
  exact R.mult hf hb.1 hy hyc ha.1 hx hxc

theorem gmult_assoc (R : RingSys m n X pieri) {fuel : Nat} (hf : giamBound m n ≤ fuel) {a b c : Poly}
    (ha : LinComb (GrClass m n) a) (hb : LinComb (GrClass m n) b) (hc : LinComb (GrClass m n) c) :
    SameResult (gmult X pieri fuel a b >>= fun ab => gmult X pieri fuel ab c)
      (gmult X pieri fuel b c >>= fun bc => gmult X pieri fuel a bc) := by
  obtain ⟨x, hx, hxc⟩ := linComb_ev ha.2
  obtain ⟨y, hy, hyc⟩ := linComb_ev hb.2
  obtain ⟨z, hz, hzc⟩ := linComb_ev hc.2
  apply same_of_returns (v := ev (R.Y.prod x (R.Y.prod y z)))
  · rw [← R.Y.prod_assoc x hyc hzc]
    exact (R.mult hf ha.1 hx hxc hb.1 hy hyc).bind (fun w hw hw' =>
      R.mult hf hw hw' (R.Y.prod_support _ hyc) hc.1 hz hzc)
  · exact (R.mult hf hb.1 hy hyc hc.1 hz hzc).bind (fun w hw hw' =>
      R.mult hf ha.1 hx hxc hw hw' (R.Y.prod_support _ hzc))

theorem gmult_unit (R : RingSys m n X pieri) {fuel : Nat} (hf : giamBound m n ≤ fuel) {a : Poly}
    (ha : LinComb (GrClass m n) a) :
    SameResult (gmult X pieri fuel (Poly.sym (.S [])) a) (.ok a) ∧
    SameResult (gmult X pieri fuel a (Poly.sym (.S []))) (.ok a) := by
  obtain ⟨x, hx, hxc⟩ := linComb_ev ha.2
  refine ⟨same_of_returns (R.mult hf (wf_sym _) (x := e1) (by simp [e1, inq]) (GSys.one_cls grClass_nil) ha.1 hx hxc)
    ⟨a, rfl, ha.1, ?_⟩, (ggiam R hf ha).2⟩
  rw [hx, e1, R.Y.one_prod]

/-- `c * q^d` as an expression. -/
abbrev scal (c : Rat) (d : Nat) : Poly := Poly.mul (Poly.const c) (Poly.pow (Poly.sym .q) d)

theorem den_scal (c : Rat) (d : Nat) : den (scal c d) = inq (Polynomial.C c * Polynomial.X ^ d) := by
  rw [den_mul, den_const, den_pow, den_sym]; simp [inq]

theorem gmult_bilinear (R : RingSys m n X pieri) {fuel : Nat} (hf : giamBound m n ≤ fuel) (c : Rat) (d : Nat)
    {a b e : Poly} (ha : LinComb (GrClass m n) a) (hb : LinComb (GrClass m n) b) (he : LinComb (GrClass m n) e) :
    ∃ u v, gmult X pieri fuel a e = .ok u ∧ gmult X pieri fuel b e = .ok v ∧
      SameResult (gmult X pieri fuel (Poly.add (Poly.mul (scal c d) a) b) e)
        (.ok (Poly.add (Poly.mul (scal c d) u) v)) := by
  classical
  obtain ⟨x, hx, hxc⟩ := linComb_ev ha.2
  obtain ⟨y, hy, hyc⟩ := linComb_ev hb.2
  obtain ⟨z, hz, hzc⟩ := linComb_ev he.2
  obtain ⟨u, h1, h2, h3⟩ := R.mult hf ha.1 hx hxc he.1 hz hzc
  obtain ⟨v, h1', h2', h3'⟩ := R.mult hf hb.1 hy hyc he.1 hz hzc
  refine ⟨u, v, h1, h1', same_of_returns (R.mult hf (x := (Polynomial.C c * Polynomial.X ^ d) • x + y)
    (wf_add (wf_mul ha.1).sorted hb.1) ?_ ?_ he.1 hz hzc) ⟨_, rfl, wf_add (wf_mul h2).sorted h2', ?_⟩⟩
  · rw [den_add, den_mul, hx, hy, den_scal, map_add, ev_smul]
  · intro l hl
    rcases Finset.mem_union.1 (Finsupp.support_add hl) with h | h
    · exact hxc l (Finsupp.support_smul h)
    · exact hyc l h
  · rw [den_add, den_mul, h3, h3', den_scal, R.Y.prod_add_left, R.Y.prod_smul_left, map_add, ev_smul]

theorem gmult_pieri (R : RingSys m n X pieri) {fuel : Nat} (hf : giamBound m n ≤ fuel) (p : Nat) (h1 : 1 ≤ p)
    (h2 : (p : Int) ≤ n - m) (hm : 1 ≤ m) {b : Poly} (hb : LinComb (GrClass m n) b) :
    SameResult (gmult X pieri fuel (Poly.sym (.S [(p : Int)])) b) (Poly.apply (pieri p) b) := by
  have hk := R.hK
  obtain ⟨y, hy, hyc⟩ := linComb_ev hb.2
  have hc : GrClass m n [(p : Int)] := ⟨⟨by simp, by simp; omega⟩, by simpa using hm, by simpa using h2⟩
  refine same_of_returns (R.mult hf (wf_sym _) (x := Finsupp.single [(p : Int)] 1) (by simp [inq]) ?_ hb.1 hy hyc) ?_
  · intro l hl
    rw [Finset.mem_singleton.1 (Finsupp.support_single_subset hl)]; exact hc
  · rw [R.Y.prod_special h1 (by omega) hc (R.unit p h1 (by omega))]
    exact R.Y.apply_pieri h1 (by omega) hb.1 hy hyc

theorem gmult_hom (R : RingSys m n X pieri) (hh : ∀ p : Nat, HomT n p (lin (R.Y.t p))) {fuel : Nat}
    (hf : giamBound m n ≤ fuel) {l mu : List Int} (hl : GrClass m n l) (hmu : GrClass m n mu) :
    ∃ w, gmult X pieri fuel (Poly.sym (.S l)) (Poly.sym (.S mu)) = .ok w ∧
      ∀ t ∈ w, ∃ d nu, t.1 = List.replicate d Sym.q ++ [Sym.S nu] ∧ GrClass m n nu ∧
        nu.sum + d * n = l.sum + mu.sum := by
  have hs : ∀ l', GrClass m n l' → ∀ nu ∈ (Finsupp.single l' (1 : Polynomial ℚ)).support, GrClass m n nu := by
    intro l' hl' nu hnu
    rw [Finset.mem_singleton.1 (Finsupp.support_single_subset hnu)]; exact hl'
  obtain ⟨w, h1, h2, h3⟩ := R.mult hf (wf_sym (.S l)) (x := Finsupp.single l 1) (by simp [inq]) (hs l hl)
    (wf_sym (.S mu)) (y := Finsupp.single mu 1) (by simp [inq]) (hs mu hmu)
  refine ⟨w, h1, fun t ht => ?_⟩
  obtain ⟨d, nu, h4, h5⟩ := terms_of_ev h2 h3 ht
  have hne := (h2.2 t ht).1
  rw [h5] at hne
  refine ⟨d, nu, h4, ?_, ?_⟩
  · apply R.Y.prod_support (Finsupp.single l 1) (hs mu hmu) nu
    rw [Finsupp.mem_support_iff]
    intro h0; rw [h0] at hne; simp at hne
  · have := R.Y.G_hom hh l hl mu.sum _ (hom_single mu) nu d
    apply this
    rwa [GSys.prod, GSys.GL, ev_single, map_mul, subst_inq, subst_S, map_mul, Module.End.mul_apply,
      PSys.act_inq, one_smul] at hne

theorem gmult_int (R : RingSys m n X pieri) (hh : ∀ p l, IntX (R.Y.t p l)) {fuel : Nat}
    (hf : giamBound m n ≤ fuel) {l mu : List Int} (hl : GrClass m n l) (hmu : GrClass m n mu) :
    ∃ w, gmult X pieri fuel (Poly.sym (.S l)) (Poly.sym (.S mu)) = .ok w ∧
      ∀ t ∈ w, ∃ z : ℤ, t.2 = z := by
  have hs : ∀ l', GrClass m n l' → ∀ nu ∈ (Finsupp.single l' (1 : Polynomial ℚ)).support, GrClass m n nu := by
    intro l' hl' nu hnu
    rw [Finset.mem_singleton.1 (Finsupp.support_single_subset hnu)]; exact hl'
  obtain ⟨w, h1, h2, h3⟩ := R.mult hf (wf_sym (.S l)) (x := Finsupp.single l 1) (by simp [inq]) (hs l hl)
    (wf_sym (.S mu)) (y := Finsupp.single mu 1) (by simp [inq]) (hs mu hmu)
  refine ⟨w, h1, fun t ht => ?_⟩
  obtain ⟨d, nu, h4, h5⟩ := terms_of_ev h2 h3 ht
  rw [h5, GSys.prod, GSys.GL, ev_single, map_mul, subst_inq, subst_S, map_mul, Module.End.mul_apply,
      PSys.act_inq, one_smul]
  exact R.Y.G_int hh l hl _ (by simpa using IntX.single mu 0 1) nu d

end generic

section
variable {m : Nat} {n : Int} {X : Space} (hm : 1 ≤ m) (hX : mkGr m n = .ok X)
include hm hX

/-! ### C18 -/

/-- **C18.** `act(e*f, x) = act(e, act(f, x))`, for all polynomials `e`, `f` in `q`, `S[1]`, ..., `S[n-m]`
and all linear combinations `x` of classes of `Gr(m, n)`. -/
theorem C18_act_mul {e f x : Poly} (he : SpecialPoly (n - m).toNat e) (hf : SpecialPoly (n - m).toNat f)
    (hx : LinComb (GrClass m n) x) :
    SameResult (Gr.act X (Poly.mul e f) x) (Gr.act X f x >>= fun y => Gr.act X e y) :=
  gact_mul (ringC hm hX) he hf hx

/-- `Gr(2,5)`, `S[1]*S[2]` acting on `S[2,1] + 2*q*S[3]`, in one step and in two. -/
example : mkGr 2 5 = .ok ⟨.A, 3, 5⟩ ∧ SpecialPoly 3 [([.S [1]], 1)] ∧ SpecialPoly 3 [([.S [2]], 1)] ∧
    LinComb (GrClass 2 5) [([.S [2, 1]], 1), ([.q, .S [3]], 2)] ∧
    Gr.act ⟨.A, 3, 5⟩ (Poly.mul [([.S [1]], 1)] [([.S [2]], 1)]) [([.S [2, 1]], 1), ([.q, .S [3]], 2)] =
      .ok [([.S [3, 3]], 1), ([.q, .S [3, 3]], 2)] ∧
    Gr.act ⟨.A, 3, 5⟩ [([.S [2]], 1)] [([.S [2, 1]], 1), ([.q, .S [3]], 2)] =
      .ok [([.S [3, 2]], 1), ([.q, .S [3, 2]], 2)] := by decide +kernel

/-- **C18.** The same for `qact`. -/
theorem C18_qact_mul {e f x : Poly} (he : SpecialPoly (n - m).toNat e) (hf : SpecialPoly (n - m).toNat f)
    (hx : LinComb (GrClass m n) x) :
    SameResult (Gr.qact X (Poly.mul e f) x) (Gr.qact X f x >>= fun y => Gr.qact X e y) :=
  gact_mul (ringQ hm hX) he hf hx

/-- The same with quantum terms. -/
example : SpecialPoly 3 [([.S [1]], 1)] ∧ SpecialPoly 3 [([.S [2]], 1)] ∧ LinComb (GrClass 2 5) [([.S [3, 2]], 1)] ∧
    Gr.qact ⟨.A, 3, 5⟩ (Poly.mul [([.S [1]], 1)] [([.S [2]], 1)]) [([.S [3, 2]], 1)] =
      .ok [([.q, .S [3]], 1), ([.q, .S [2, 1]], 2)] ∧
    Gr.qact ⟨.A, 3, 5⟩ [([.S [2]], 1)] [([.S [3, 2]], 1)] = .ok [([.q, .S [2]], 1), ([.q, .S [1, 1]], 1)] := by
  decide +kernel

/-- **C18.** `act(e + f, x) = act(e, x) + act(f, x)` and `act(e, x + y) = act(e, x) + act(e, y)`. -/
theorem C18_act_add {e f x y : Poly} (he : SpecialPoly (n - m).toNat e) (hf : SpecialPoly (n - m).toNat f)
    (hx : LinComb (GrClass m n) x) (hy : LinComb (GrClass m n) y) :
    (∃ u v, Gr.act X e x = .ok u ∧ Gr.act X f x = .ok v ∧
      SameResult (Gr.act X (Poly.add e f) x) (.ok (Poly.add u v))) ∧
    (∃ u v, Gr.act X e x = .ok u ∧ Gr.act X e y = .ok v ∧
      SameResult (Gr.act X e (Poly.add x y)) (.ok (Poly.add u v))) :=
  ⟨gact_add (ringC hm hX) he hf hx, gact_linear (ringC hm hX) he hx hy⟩

example : SpecialPoly 3 [([.S [1], .S [1]], 1), ([.S [2]], -1)] ∧
    Gr.act ⟨.A, 3, 5⟩ [([.S [1], .S [1]], 1), ([.S [2]], -1)] [([.S [2]], 1)] = .ok [([.S [3, 1]], 1)] ∧
    Gr.act ⟨.A, 3, 5⟩ [([.S [1], .S [1]], 1)] [([.S [2]], 1)] = .ok [([.S [2, 2]], 1), ([.S [3, 1]], 2)] ∧
    Gr.act ⟨.A, 3, 5⟩ [([.S [2]], -1)] [([.S [2]], 1)] = .ok [([.S [2, 2]], -1), ([.S [3, 1]], -1)] := by decide +kernel

/-- **C18.** The same for `qact`. -/
theorem C18_qact_add {e f x y : Poly} (he : SpecialPoly (n - m).toNat e) (hf : SpecialPoly (n - m).toNat f)
    (hx : LinComb (GrClass m n) x) (hy : LinComb (GrClass m n) y) :
    (∃ u v, Gr.qact X e x = .ok u ∧ Gr.qact X f x = .ok v ∧
      SameResult (Gr.qact X (Poly.add e f) x) (.ok (Poly.add u v))) ∧
    (∃ u v, Gr.qact X e x = .ok u ∧ Gr.qact X e y = .ok v ∧
      SameResult (Gr.qact X e (Poly.add x y)) (.ok (Poly.add u v))) :=
  ⟨gact_add (ringQ hm hX) he hf hx, gact_linear (ringQ hm hX) he hx hy⟩

example : LinComb (GrClass 2 5) [([.S [3, 1]], 1), ([.S [2, 2]], -1)] ∧
    Gr.qact ⟨.A, 3, 5⟩ [([.S [2]], 1)] [([.S [3, 1]], 1), ([.S [2, 2]], -1)] = .ok [([.S [3, 3]], 1)] ∧
    Gr.qact ⟨.A, 3, 5⟩ [([.S [2]], 1)] [([.S [3, 1]], 1)] = .ok [([.S [3, 3]], 1), ([.q, .S [1]], 1)] ∧
    Gr.qact ⟨.A, 3, 5⟩ [([.S [2]], 1)] [([.S [2, 2]], -1)] = .ok [([.q, .S [1]], -1)] := by decide +kernel

/-- **C18.** `act(1, x) = x`, `qact(1, x) = x`, and the generator `S[p]` acts by the Pieri rule. -/
theorem C18_generators {x : Poly} (hx : LinComb (GrClass m n) x) :
    SameResult (Gr.act X (Poly.const 1) x) (.ok x) ∧ SameResult (Gr.qact X (Poly.const 1) x) (.ok x) ∧
    ∀ p : Nat, 1 ≤ p → (p : Int) ≤ n - m →
      SameResult (Gr.act X (Poly.sym (.S [(p : Int)])) x) (Gr.pieri X p x) ∧
      SameResult (Gr.qact X (Poly.sym (.S [(p : Int)])) x) (Gr.qpieri X p x) :=
  ⟨gact_one (ringC hm hX) hx, gact_one (ringQ hm hX) hx, fun p h1 h2 =>
    ⟨gact_special (ringC hm hX) p h1 h2 hx, gact_special (ringQ hm hX) p h1 h2 hx⟩⟩

example : Gr.qact ⟨.A, 3, 5⟩ (Poly.sym (.S [3])) [([.S [3, 1]], 1)] = .ok [([.q, .S [2]], 1)] ∧
    Gr.qpieri ⟨.A, 3, 5⟩ 3 [([.S [3, 1]], 1)] = .ok [([.q, .S [2]], 1)] := by decide +kernel

/-- **C18.** The result is again a linear combination of classes of `Gr(m, n)`. -/
theorem C18_closed {e x : Poly} (he : SpecialPoly (n - m).toNat e) (hx : LinComb (GrClass m n) x) :
    (∃ w, Gr.act X e x = .ok w ∧ LinComb (GrClass m n) w) ∧
    (∃ w, Gr.qact X e x = .ok w ∧ LinComb (GrClass m n) w) :=
  ⟨gact_closed (ringC hm hX) he hx, gact_closed (ringQ hm hX) he hx⟩

example :
    Gr.qact ⟨.A, 3, 5⟩ [([.S [1], .S [1], .S [1]], 1)] [([.S [2, 2]], 1)] =
      .ok [([.q, .S [1, 1]], 1), ([.q, .S [2]], 2)] ∧
    LinComb (GrClass 2 5) [([.q, .S [1, 1]], 1), ([.q, .S [2]], 2)] := by decide +kernel

/-! ### C19 -/

/-- **C19.** `giambelli` terminates on every linear combination, returns a polynomial in the special
classes, and `toS` undoes it. -/
theorem C19_giambelli {fuel : Nat} (hf : giamBound m n ≤ fuel) {a : Poly} (ha : LinComb (GrClass m n) a) :
    (∃ g, Gr.giambelli X fuel a = .ok g ∧ SpecialPoly (n - m).toNat g) ∧
    SameResult (Gr.toS X fuel a) (.ok a) := ggiam (ringC hm hX) hf ha

example : giamBound 2 5 = 28 ∧ LinComb (GrClass 2 5) [([.S [3, 1]], 2), ([.S [1, 1]], 1)] ∧
    Gr.giambelli ⟨.A, 3, 5⟩ 28 [([.S [3, 1]], 2), ([.S [1, 1]], 1)] =
      .ok [([.S [2]], -1), ([.S [1], .S [1]], 1), ([.S [1], .S [3]], 2)] ∧
    Gr.toS ⟨.A, 3, 5⟩ 28 [([.S [3, 1]], 2), ([.S [1, 1]], 1)] = .ok [([.S [3, 1]], 2), ([.S [1, 1]], 1)] := by
  decide +kernel

/-- **C19.** The same for `qgiambelli` and `qtoS`. -/
theorem C19_qgiambelli {fuel : Nat} (hf : giamBound m n ≤ fuel) {a : Poly} (ha : LinComb (GrClass m n) a) :
    (∃ g, Gr.qgiambelli X fuel a = .ok g ∧ SpecialPoly (n - m).toNat g) ∧
    SameResult (Gr.qtoS X fuel a) (.ok a) := ggiam (ringQ hm hX) hf ha

example : Gr.qgiambelli ⟨.A, 3, 5⟩ 28 [([.S [3, 3]], 1)] = .ok [([.S [3], .S [3]], 1)] ∧
    Gr.qtoS ⟨.A, 3, 5⟩ 28 [([.S [3, 3]], 1)] = .ok [([.S [3, 3]], 1)] := by decide +kernel

/-! ### C20, C21 -/

variable {fuel : Nat} (hf : giamBound m n ≤ fuel)
include hf

/-- **C20.** The classical product is commutative. -/
theorem C20_comm {a b : Poly} (ha : LinComb (GrClass m n) a) (hb : LinComb (GrClass m n) b) :
    SameResult (Gr.mult X fuel a b) (Gr.mult X fuel b a) := gmult_comm (ringC hm hX) hf ha hb

example : LinComb (GrClass 2 5) [([.S [2, 1]], 1), ([.q, .S [3]], 2)] ∧
    Gr.mult ⟨.A, 3, 5⟩ 28 [([.S [2, 1]], 1), ([.q, .S [3]], 2)] [([.S [1, 1]], 1)] = .ok [([.S [3, 2]], 1)] ∧
    Gr.mult ⟨.A, 3, 5⟩ 28 [([.S [1, 1]], 1)] [([.S [2, 1]], 1), ([.q, .S [3]], 2)] = .ok [([.S [3, 2]], 1)] := by
  decide +kernel

/-- **C20.** The classical product is associative. -/
theorem C20_assoc {a b c : Poly} (ha : LinComb (GrClass m n) a) (hb : LinComb (GrClass m n) b)
    (hc : LinComb (GrClass m n) c) :
    SameResult (Gr.mult X fuel a b >>= fun ab => Gr.mult X fuel ab c)
      (Gr.mult X fuel b c >>= fun bc => Gr.mult X fuel a bc) := gmult_assoc (ringC hm hX) hf ha hb hc

example : Gr.mult ⟨.A, 3, 5⟩ 28 [([.S [2]], 1)] [([.S [1, 1]], 1)] = .ok [([.S [3, 1]], 1)] ∧
    Gr.mult ⟨.A, 3, 5⟩ 28 [([.S [3, 1]], 1)] [([.S [2]], 1)] = .ok [([.S [3, 3]], 1)] ∧
    Gr.mult ⟨.A, 3, 5⟩ 28 [([.S [1, 1]], 1)] [([.S [2]], 1)] = .ok [([.S [3, 1]], 1)] ∧
    Gr.mult ⟨.A, 3, 5⟩ 28 [([.S [2]], 1)] [([.S [3, 1]], 1)] = .ok [([.S [3, 3]], 1)] := by decide +kernel

/-- **C20.** `S[]` is the unit. -/
theorem C20_unit {a : Poly} (ha : LinComb (GrClass m n) a) :
    SameResult (Gr.mult X fuel (Poly.sym (.S [])) a) (.ok a) ∧
    SameResult (Gr.mult X fuel a (Poly.sym (.S []))) (.ok a) := gmult_unit (ringC hm hX) hf ha

example :
    Gr.mult ⟨.A, 3, 5⟩ 28 (Poly.sym (.S [])) [([.S [2, 1]], 1), ([.q, .S [3]], 2)] =
      .ok [([.S [2, 1]], 1), ([.q, .S [3]], 2)] := by decide +kernel

/-- **C20.** Linearity in the first argument (hence, by commutativity, in both), over `ℚ[q]`. -/
theorem C20_bilinear (c : Rat) (d : Nat) {a b e : Poly} (ha : LinComb (GrClass m n) a)
    (hb : LinComb (GrClass m n) b) (he : LinComb (GrClass m n) e) :
    ∃ u v, Gr.mult X fuel a e = .ok u ∧ Gr.mult X fuel b e = .ok v ∧
      SameResult (Gr.mult X fuel (Poly.add (Poly.mul (scal c d) a) b) e)
        (.ok (Poly.add (Poly.mul (scal c d) u) v)) := gmult_bilinear (ringC hm hX) hf c d ha hb he

example : Poly.add (Poly.mul (scal 3 1) [([.S [2]], 1)]) [([.S [1, 1]], 1)] = [([.S [1, 1]], 1), ([.q, .S [2]], 3)] ∧
    Gr.mult ⟨.A, 3, 5⟩ 28 [([.S [1, 1]], 1), ([.q, .S [2]], 3)] [([.S [2]], 1)] =
      .ok [([.q, .S [2, 2]], 3), ([.q, .S [3, 1]], 3), ([.S [3, 1]], 1)] ∧
    Gr.mult ⟨.A, 3, 5⟩ 28 [([.S [2]], 1)] [([.S [2]], 1)] = .ok [([.S [2, 2]], 1), ([.S [3, 1]], 1)] := by decide +kernel

/-- **C20.** Multiplication by `S[p]` is the Pieri rule. -/
theorem C20_pieri (p : Nat) (h1 : 1 ≤ p) (h2 : (p : Int) ≤ n - m) {b : Poly} (hb : LinComb (GrClass m n) b) :
    SameResult (Gr.mult X fuel (Poly.sym (.S [(p : Int)])) b) (Gr.pieri X p b) :=
  gmult_pieri (ringC hm hX) hf p h1 h2 hm hb

example : Gr.mult ⟨.A, 3, 5⟩ 28 (Poly.sym (.S [2])) [([.S [2, 1]], 1)] = .ok [([.S [3, 2]], 1)] ∧
    Gr.pieri ⟨.A, 3, 5⟩ 2 [([.S [2, 1]], 1)] = .ok [([.S [3, 2]], 1)] := by decide +kernel

/-- **C20.** Products of linear combinations of classes are linear combinations of classes. -/
theorem C20_closed {a b : Poly} (ha : LinComb (GrClass m n) a) (hb : LinComb (GrClass m n) b) :
    ∃ w, Gr.mult X fuel a b = .ok w ∧ LinComb (GrClass m n) w := gmult_closed (ringC hm hX) hf ha hb

example : Gr.mult ⟨.A, 3, 5⟩ 28 [([.S [2, 1]], 1)] [([.S [2, 1]], 1)] = .ok [([.S [3, 3]], 1)] ∧
    LinComb (GrClass 2 5) [([.S [3, 3]], 1)] := by decide +kernel

/-- **C21.** The quantum product is commutative. -/
theorem C21_comm {a b : Poly} (ha : LinComb (GrClass m n) a) (hb : LinComb (GrClass m n) b) :
    SameResult (Gr.qmult X fuel a b) (Gr.qmult X fuel b a) := gmult_comm (ringQ hm hX) hf ha hb

example : Gr.qmult ⟨.A, 3, 5⟩ 28 [([.S [3, 1]], 1)] [([.S [2, 2]], 1)] = .ok [([.q, .S [2, 1]], 1)] ∧
    Gr.qmult ⟨.A, 3, 5⟩ 28 [([.S [2, 2]], 1)] [([.S [3, 1]], 1)] = .ok [([.q, .S [2, 1]], 1)] := by decide +kernel

/-- **C21.** The quantum product is associative. -/
theorem C21_assoc {a b c : Poly} (ha : LinComb (GrClass m n) a) (hb : LinComb (GrClass m n) b)
    (hc : LinComb (GrClass m n) c) :
    SameResult (Gr.qmult X fuel a b >>= fun ab => Gr.qmult X fuel ab c)
      (Gr.qmult X fuel b c >>= fun bc => Gr.qmult X fuel a bc) := gmult_assoc (ringQ hm hX) hf ha hb hc

example : Gr.qmult ⟨.A, 3, 5⟩ 28 [([.S [2]], 1)] [([.S [3]], 1)] = .ok [([.S [3, 2]], 1)] ∧
    Gr.qmult ⟨.A, 3, 5⟩ 28 [([.S [3, 2]], 1), ([.q, .S []], 1)] [([.S [3]], 1)] =
      .ok [([.q, .S [3]], 1), ([.q, .S [2, 1]], 1)] ∧
    Gr.qmult ⟨.A, 3, 5⟩ 28 [([.S [3]], 1)] [([.S [3]], 1)] = .ok [([.S [3, 3]], 1)] ∧
    Gr.qmult ⟨.A, 3, 5⟩ 28 [([.S [2]], 1)] [([.S [3, 3]], 1)] = .ok [([.q, .S [2, 1]], 1)] := by decide +kernel

/-- **C21.** `S[]` is the unit. -/
theorem C21_unit {a : Poly} (ha : LinComb (GrClass m n) a) :
    SameResult (Gr.qmult X fuel (Poly.sym (.S [])) a) (.ok a) ∧
    SameResult (Gr.qmult X fuel a (Poly.sym (.S []))) (.ok a) := gmult_unit (ringQ hm hX) hf ha

example :
    Gr.qmult ⟨.A, 3, 5⟩ 28 [([.S [3, 3]], 1), ([.q, .S [2]], 5)] (Poly.sym (.S [])) =
      .ok [([.S [3, 3]], 1), ([.q, .S [2]], 5)] := by decide +kernel

/-- **C21.** Linearity over `ℚ[q]`. -/
theorem C21_bilinear (c : Rat) (d : Nat) {a b e : Poly} (ha : LinComb (GrClass m n) a)
    (hb : LinComb (GrClass m n) b) (he : LinComb (GrClass m n) e) :
    ∃ u v, Gr.qmult X fuel a e = .ok u ∧ Gr.qmult X fuel b e = .ok v ∧
      SameResult (Gr.qmult X fuel (Poly.add (Poly.mul (scal c d) a) b) e)
        (.ok (Poly.add (Poly.mul (scal c d) u) v)) := gmult_bilinear (ringQ hm hX) hf c d ha hb he

example :
    Gr.qmult ⟨.A, 3, 5⟩ 28 [([.S [1, 1]], 1), ([.q, .S [3]], 3)] [([.S [3, 1]], 1)] =
      .ok [([.q, .q, .S [2]], 3), ([.q, .S [1]], 1)] ∧
    Gr.qmult ⟨.A, 3, 5⟩ 28 [([.S [3]], 1)] [([.S [3, 1]], 1)] = .ok [([.q, .S [2]], 1)] ∧
    Gr.qmult ⟨.A, 3, 5⟩ 28 [([.S [1, 1]], 1)] [([.S [3, 1]], 1)] = .ok [([.q, .S [1]], 1)] := by decide +kernel

/-- **C21.** Multiplication by `S[p]` is the quantum Pieri rule. -/
theorem C21_pieri (p : Nat) (h1 : 1 ≤ p) (h2 : (p : Int) ≤ n - m) {b : Poly} (hb : LinComb (GrClass m n) b) :
    SameResult (Gr.qmult X fuel (Poly.sym (.S [(p : Int)])) b) (Gr.qpieri X p b) :=
  gmult_pieri (ringQ hm hX) hf p h1 h2 hm hb

example : Gr.qmult ⟨.A, 3, 5⟩ 28 (Poly.sym (.S [2])) [([.S [3, 1]], 1)] = .ok [([.S [3, 3]], 1), ([.q, .S [1]], 1)] ∧
    Gr.qpieri ⟨.A, 3, 5⟩ 2 [([.S [3, 1]], 1)] = .ok [([.q, .S [1]], 1), ([.S [3, 3]], 1)] := by decide +kernel

/-- **C21.** Products of linear combinations of classes are linear combinations of classes. -/
theorem C21_closed {a b : Poly} (ha : LinComb (GrClass m n) a) (hb : LinComb (GrClass m n) b) :
    ∃ w, Gr.qmult X fuel a b = .ok w ∧ LinComb (GrClass m n) w := gmult_closed (ringQ hm hX) hf ha hb

example :
    Gr.qmult ⟨.A, 3, 5⟩ 28 [([.S [3, 2]], 1)] [([.S [3, 2]], 1)] = .ok [([.q, .S [3, 2]], 1), ([.q, .q, .S []], 1)] := by
  decide +kernel

/-! ### C22 -/

/-- **C22.** The terms without `q` of the quantum product of `q`-free arguments are the classical product. -/
theorem C22_qmult {a b : Poly} (ha : LinComb (GrClass m n) a) (hb : LinComb (GrClass m n) b)
    (hqa : QFree a) (hqb : QFree b) :
    ∃ w w', Gr.qmult X fuel a b = .ok w ∧ Gr.mult X fuel a b = .ok w' ∧
      (w.filter (fun t => decide (Sym.q ∉ t.1))).Perm w' := by
  obtain ⟨x, hx, hxc⟩ := linComb_ev ha.2
  obtain ⟨y, hy, hyc⟩ := linComb_ev hb.2
  obtain ⟨w, h1, h2, h3⟩ := (ringQ hm hX).mult hf ha.1 hx hxc hb.1 hy hyc
  obtain ⟨w', h1', h2', h3'⟩ := (ringC hm hX).mult hf ha.1 hx hxc hb.1 hy hyc
  refine ⟨w, w', h1, h1', ?_⟩
  obtain ⟨h4, h5⟩ := den_qfree h2 h3
  apply perm_of_den_eq h4 h2'
  rw [h5, h3']
  congr 1
  have hz : q0 ((ringQ hm hX).Y.prod x y) = (ringC hm hX).Y.prod (q0 x) (q0 y) := by
    clear h1 h1' h3 h3' h5
    cases m with
    | zero => omega
    | succ m =>
      obtain ⟨rfl, _, h⟩ := mkGr_ok hX
      exact q0_prod (by push_cast at *; omega) (by push_cast; ring) hxc y
  rw [hz, q0_of_qfree ha.1 hx hqa, q0_of_qfree hb.1 hy hqb]

example : QFree [([.S [3, 1]], 1)] ∧
    Gr.qmult ⟨.A, 3, 5⟩ 28 [([.S [3, 1]], 1)] [([.S [2]], 1)] = .ok [([.S [3, 3]], 1), ([.q, .S [1]], 1)] ∧
    Gr.mult ⟨.A, 3, 5⟩ 28 [([.S [3, 1]], 1)] [([.S [2]], 1)] = .ok [([.S [3, 3]], 1)] := by decide +kernel

omit hf in
/-- **C22.** The terms without `q` of the quantum Pieri rule are the classical Pieri rule. -/
theorem C22_qpieri (p : Nat) (hp : 1 ≤ p) (hpk : (p : Int) ≤ n - m) {b : Poly} (hb : LinComb (GrClass m n) b)
    (hqb : QFree b) :
    ∃ w w', Gr.qpieri X p b = .ok w ∧ Gr.pieri X p b = .ok w' ∧
      (w.filter (fun t => decide (Sym.q ∉ t.1))).Perm w' := by
  obtain ⟨y, hy, hyc⟩ := linComb_ev hb.2
  have e1 := (ringQ hm hX).hK
  have e2 := (ringC hm hX).hK
  obtain ⟨w, h1, h2, h3⟩ := (ringQ hm hX).Y.apply_pieri hp (by omega) hb.1 hy hyc
  obtain ⟨w', h1', h2', h3'⟩ := (ringC hm hX).Y.apply_pieri hp (by omega) hb.1 hy hyc
  refine ⟨w, w', h1, h1', ?_⟩
  obtain ⟨h4, h5⟩ := den_qfree h2 h3
  apply perm_of_den_eq h4 h2'
  rw [h5, h3']
  congr 1
  rw [← q0_of_qfree hb.1 hy hqb]
  have hz : q0 (lin ((ringQ hm hX).Y.t p) (q0 y)) = lin ((ringC hm hX).Y.t p) (q0 (q0 y)) := by
    clear h1 h1' h3 h3' h5 e1 e2
    cases m with
    | zero => omega
    | succ m =>
      obtain ⟨rfl, _, h⟩ := mkGr_ok hX
      exact q0_lin (q0_tq p) _
  rw [hz, q0_of_qfree hb.1 hy hqb, q0_of_qfree hb.1 hy hqb]

example : Gr.qpieri ⟨.A, 3, 5⟩ 1 [([.S [3, 1]], 1)] = .ok [([.q, .S []], 1), ([.S [3, 2]], 1)] ∧
    Gr.pieri ⟨.A, 3, 5⟩ 1 [([.S [3, 1]], 1)] = .ok [([.S [3, 2]], 1)] := by decide +kernel

/-! ### C23 -/

/-- **C23.** Every term `c * q^d * S[nu]` of the quantum product of `S[l]` and `S[mu]` has
`|nu| + d * degree_q() = |l| + |mu|`. -/
theorem C23_qmult {l mu : List Int} (hl : GrClass m n l) (hmu : GrClass m n mu) :
    ∃ w, Gr.qmult X fuel (Poly.sym (.S l)) (Poly.sym (.S mu)) = .ok w ∧
      ∀ t ∈ w, ∃ d nu, t.1 = List.replicate d Sym.q ++ [Sym.S nu] ∧ GrClass m n nu ∧
        nu.sum + d * X.degreeQ = l.sum + mu.sum := by
  have hd : X.degreeQ = n := by
    obtain ⟨rfl, _, h⟩ := mkGr_ok hX
    rfl
  rw [hd]
  refine gmult_hom (ringQ hm hX) ?_ hf hl hmu
  cases m with
  | zero => omega
  | succ m =>
    obtain ⟨rfl, _, h⟩ := mkGr_ok hX
    exact fun p => tq_hom (by push_cast; ring) p

/-- degrees: `3 + 5 = 3 + 1*5`, and `q` has degree 5. -/
example :
    Gr.qmult ⟨.A, 3, 5⟩ 28 (Poly.sym (.S [2, 1])) (Poly.sym (.S [3, 2])) =
      .ok [([.q, .S [2, 1]], 1), ([.q, .S [3]], 1)] ∧
    (Space.mk .A 3 5).degreeQ = 5 := by decide +kernel

/-- **C23.** Every term of the classical product of `S[l]` and `S[mu]` is a `c * S[nu]` with
`|nu| = |l| + |mu|`. -/
theorem C23_mult {l mu : List Int} (hl : GrClass m n l) (hmu : GrClass m n mu) :
    ∃ w, Gr.mult X fuel (Poly.sym (.S l)) (Poly.sym (.S mu)) = .ok w ∧
      ∀ t ∈ w, ∃ nu, t.1 = [Sym.S nu] ∧ GrClass m n nu ∧ nu.sum = l.sum + mu.sum := by
  obtain ⟨w, h1, h2⟩ := gmult_hom (ringC hm hX) (by
    cases m with
    | zero => omega
    | succ m =>
      obtain ⟨rfl, _, h⟩ := mkGr_ok hX
      exact fun p => tc_hom p) hf hl hmu
  refine ⟨w, h1, fun t ht => ?_⟩
  obtain ⟨d, nu, h3, h4, h5⟩ := h2 t ht
  have hlc : ∀ l, GrClass m n l → LinComb (GrClass m n) (Poly.sym (.S l)) := fun l hl =>
    ⟨wf_sym _, by intro t ht; simp [Poly.sym] at ht; subst ht; exact ⟨0, l, rfl, hl⟩⟩
  have hqf : ∀ l, QFree (Poly.sym (.S l)) := by intro l t ht; simp [Poly.sym] at ht; subst ht; simp
  obtain ⟨v, v', g1, g2, g3⟩ := C22_qmult hm hX hf (hlc l hl) (hlc mu hmu) (hqf l) (hqf mu)
  have h1' : Gr.mult X fuel (Poly.sym (.S l)) (Poly.sym (.S mu)) = .ok w := h1
  rw [h1'] at g2
  cases g2
  have h6 : Sym.q ∉ t.1 := by
    have := (g3.mem_iff).2 ht
    simpa using (List.mem_filter.1 this).2
  have hd : d = 0 := by
    cases d with
    | zero => rfl
    | succ d => rw [h3] at h6; simp [List.replicate_succ] at h6
  subst hd
  exact ⟨nu, by simpa using h3, h4, by simpa using h5⟩

example : Gr.mult ⟨.A, 3, 5⟩ 28 (Poly.sym (.S [2])) (Poly.sym (.S [2, 1])) = .ok [([.S [3, 2]], 1)] := by decide +kernel

/-! ### C47 -/

/-- **C47.** The structure constants are integers. -/
theorem C47_integral {l mu : List Int} (hl : GrClass m n l) (hmu : GrClass m n mu) :
    (∃ w, Gr.mult X fuel (Poly.sym (.S l)) (Poly.sym (.S mu)) = .ok w ∧ ∀ t ∈ w, ∃ z : ℤ, t.2 = z) ∧
    (∃ w, Gr.qmult X fuel (Poly.sym (.S l)) (Poly.sym (.S mu)) = .ok w ∧ ∀ t ∈ w, ∃ z : ℤ, t.2 = z) := by
  constructor
  · refine gmult_int (ringC hm hX) ?_ hf hl hmu
    cases m with
    | zero => omega
    | succ m =>
      obtain ⟨rfl, _, h⟩ := mkGr_ok hX
      exact tc_int
  · refine gmult_int (ringQ hm hX) ?_ hf hl hmu
    cases m with
    | zero => omega
    | succ m =>
      obtain ⟨rfl, _, h⟩ := mkGr_ok hX
      exact tq_int

example :
    Gr.qmult ⟨.A, 3, 6⟩ 100 (Poly.sym (.S [2, 1])) (Poly.sym (.S [3, 2, 1])) =
      .ok [([.q, .S [2, 1]], 2), ([.S [3, 3, 3]], 1), ([.q, .S [3]], 1), ([.q, .S [1, 1, 1]], 1)] := by decide +kernel

/-! ### C24 -/

/-- **C24.** Quantum Giambelli equals classical Giambelli. -/
theorem C24_giambelli {a : Poly} (ha : LinComb (GrClass m n) a) :
    SameResult (Gr.qgiambelli X fuel a) (Gr.giambelli X fuel a) := by
  obtain ⟨x, hx, hxc⟩ := linComb_ev ha.2
  have h1 := (ringQ hm hX).Y.giamRec_returns X.k fuel ha.1 hx hxc
    (fun l hl => lt_of_lt_of_le ((ringQ hm hX).fuel l hl) hf)
  have h2 := (ringC hm hX).Y.giamRec_returns X.k fuel ha.1 hx hxc
    (fun l hl => lt_of_lt_of_le ((ringC hm hX).fuel l hl) hf)
  have he : (ringQ hm hX).Y.GL x = (ringC hm hX).Y.GL x := by
    clear h1 h2
    cases m with
    | zero => omega
    | succ m =>
      obtain ⟨rfl, _, h⟩ := mkGr_ok hX
      exact GL_eq (by simp only; push_cast at *; omega) (by push_cast; ring) hxc
  rw [he] at h1
  exact same_of_returns h1 h2

example : Gr.qgiambelli ⟨.A, 3, 5⟩ 28 [([.S [3, 2]], 1)] = .ok [([.S [2], .S [3]], 1)] ∧
    Gr.giambelli ⟨.A, 3, 5⟩ 28 [([.S [3, 2]], 1)] = .ok [([.S [2], .S [3]], 1)] := by decide +kernel

/-! ### C25 -/

/-- **C25.** Poincaré duality: the coefficient of the point class in `S[l] * S[mu]` is `1` if
`mu = dualize(l)` and `0` otherwise. -/
theorem C25_duality {l mu : List Int} (hl : GrClass m n l) (hmu : GrClass m n mu) :
    ∃ w l', Gr.mult X fuel (Poly.sym (.S l)) (Poly.sym (.S mu)) = .ok w ∧ X.dualize l = .ok l' ∧
      coeffOf [.S X.pointClass] w = if mu = l' then 1 else 0 := by
  classical
  have hXX := hX
  obtain ⟨l', d1, d2, d3, d4, _, _⟩ := C12_dualize_A m n X hX l hl.1 (by simpa using hl.2)
  obtain ⟨pt, p1, p2, p3, p4, _, _⟩ := C12_dualize_A m n X hX [] (grClass_nil (m := m) (n := n)).1 ⟨by simp, by simp⟩
  have hpt : pt = X.pointClass := by
    have := (C37_point_A m n X hX).2.2.2.1
    rw [this] at p1
    exact (Except.ok.inj p1).symm
  have hs : ∀ l', GrClass m n l' → ∀ nu ∈ (Finsupp.single l' (1 : Polynomial ℚ)).support, GrClass m n nu := by
    intro l' hl' nu hnu
    rw [Finset.mem_singleton.1 (Finsupp.support_single_subset hnu)]; exact hl'
  obtain ⟨w, h1, h2, h3⟩ := (ringC hm hX).mult hf (wf_sym (.S l)) (x := Finsupp.single l 1) (by simp [inq]) (hs l hl)
    (wf_sym (.S mu)) (y := Finsupp.single mu 1) (by simp [inq]) (hs mu hmu)
  refine ⟨w, l', h1, d1, ?_⟩
  have hco : ∀ (p : Poly), WF p → ∀ mm : Mono, MSorted mm → coeffOf mm p = coeff (expo mm) (den p) := by
    intro p hp mm hmm
    by_cases hmem : mm ∈ p.map Prod.fst
    · rw [List.mem_map] at hmem
      obtain ⟨t, ht, rfl⟩ := hmem
      rw [coeff_den_mem hp (c := t.2) ht]
      unfold coeffOf
      have : p.filter (fun t' => decide (t'.1 = t.1)) = [t] := by
        have hnd : (p.filter (fun t' => decide (t'.1 = t.1))).Nodup := (List.Nodup.of_map _ hp.1).filter _
        rw [← List.perm_singleton, List.perm_ext_iff_of_nodup hnd (by simp)]
        intro t'
        rw [List.mem_filter, List.mem_singleton]
        constructor
        · rintro ⟨h1, h2⟩
          exact List.inj_on_of_nodup_map hp.1 h1 ht (by simpa using h2)
        · rintro rfl; exact ⟨ht, by simp⟩
      rw [this]; simp
    · rw [coeff_den_not_mem hp hmm hmem]
      unfold coeffOf
      rw [List.filter_eq_nil_iff.2]
      · rfl
      · intro t ht h
        exact hmem (List.mem_map.2 ⟨t, ht, by simpa using h⟩)
  rw [show ([Sym.S X.pointClass] : Mono) = List.replicate 0 Sym.q ++ [Sym.S X.pointClass] from rfl,
    hco w h2 _ (qmono_sorted 0 _), h3, expo_qmono, coeff_ev, ← hpt]
  clear h1 h3 hpt
  cases m with
  | zero => omega
  | succ m =>
    obtain ⟨rfl, _, hmn⟩ := mkGr_ok hX
    have hk : (0 : Int) ≤ n - (m + 1 : Nat) := by push_cast at *; omega
    have hdual : ∀ (a b : List Int), clsA (m + 1) (n - (m + 1 : Nat)) a → ReducedPart b →
        InRect b ((m + 1 : Nat) : Int).toNat (n - (m + 1 : Nat)) →
        (∀ j, j < ((m + 1 : Nat) : Int).toNat → part b j = n - (m + 1 : Nat) - part a (((m + 1 : Nat) : Int).toNat - 1 - j)) →
        b = dualC m (n - (m + 1 : Nat)) a := by
      intro a b ha hb hb' h
      rw [dualC, ← lab_vec (m := m) hb (by simpa using hb'.1)]
      congr 1
      funext i
      have := h i (by rw [Int.toNat_natCast]; exact i.2)
      simp only [vec, dualV]
      rw [this]
      congr 2
      simp only [Int.toNat_natCast, Fin.val_rev]
      omega
    rw [hdual [] pt (grClass_nil) p2 p3 p4, hdual l l' hl d2 d3 d4]
    have := duality hk (show n = m + 1 + (n - (m + 1 : Nat)) by push_cast; ring) l hl (Finsupp.single mu 1) (hs mu hmu)
    have h7 : (ringC hm hXX).Y.prod (Finsupp.single l 1) (Finsupp.single mu 1) (dualC m (n - (m + 1 : Nat)) []) =
        (Finsupp.single mu 1 : LMod) (dualC m (n - (m + 1 : Nat)) l) := by
      rw [← this, GSys.prod, GSys.GL, ev_single, map_mul, subst_inq, subst_S, map_mul, Module.End.mul_apply,
        PSys.act_inq, one_smul]
      rfl
    rw [h7, Finsupp.single_apply]
    split <;> simp

example : (Space.mk .A 3 5).dualize [2] = .ok [3, 1] ∧ (Space.mk .A 3 5).pointClass = [3, 3] ∧
    Gr.mult ⟨.A, 3, 5⟩ 28 (Poly.sym (.S [2])) (Poly.sym (.S [3, 1])) = .ok [([.S [3, 3]], 1)] ∧
    Gr.mult ⟨.A, 3, 5⟩ 28 (Poly.sym (.S [2])) (Poly.sym (.S [2, 2])) = .ok [] := by decide +kernel

end

/-! ### Non-trivial instances -/

/-- `S[2,1] + 2*q*S[1]` is a linear combination of classes of `Gr(2,4)`. -/
example : LinComb (GrClass 2 4) [([.S [2, 1]], 1), ([.q, .S [1]], 2)] := by
  refine ⟨⟨by decide, by decide⟩, ?_⟩
  intro t ht
  simp at ht
  rcases ht with rfl | rfl
  · exact ⟨0, [2, 1], rfl, ⟨by decide, by decide⟩, by decide, by decide⟩
  · exact ⟨1, [1], rfl, ⟨by decide, by decide⟩, by decide, by decide⟩

/-- `S[1]^2 - q*S[2]` is a polynomial in the special classes of `Gr(2,4)`. -/
example : SpecialPoly 2 [([.S [1], .S [1]], 1), ([.q, .S [2]], -1)] := by
  refine ⟨⟨by decide, by decide⟩, ?_⟩
  intro t ht
  simp at ht
  rcases ht with rfl | rfl
  · intro s hs; simp at hs; exact Or.inr ⟨1, by decide, by decide, hs⟩
  · intro s hs; simp at hs
    rcases hs with rfl | rfl
    · exact Or.inl rfl
    · exact Or.inr ⟨2, by decide, by decide, rfl⟩

example : mkGr 2 4 = .ok ⟨.A, 2, 4⟩ ∧ giamBound 2 4 = 15 := by decide

/-- `S[2,1] * S[2,1] = S[2,2]*q + ...` on `Gr(2,4)`. -/
example : Gr.qmult ⟨.A, 2, 4⟩ 15 (Poly.sym (.S [2, 1])) (Poly.sym (.S [2, 1])) =
    .ok [([.q, .S [1, 1]], 1), ([.q, .S [2]], 1)] ∧
    Gr.mult ⟨.A, 2, 4⟩ 15 (Poly.sym (.S [2, 1])) (Poly.sym (.S [1])) = .ok [([.S [2, 2]], 1)] := by
  decide +kernel

end Verif
