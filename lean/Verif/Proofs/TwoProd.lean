import Verif.Proofs.WordD2Act
import Mathlib.Algebra.MvPolynomial.Funext
/-!
# The quantum product of `OG(n, 2n+2)` with its two parameters

The Giambelli recursion only uses products without `q1` and `q2`, so the quantum Giambelli polynomials are the classical ones; the product is
the action of these polynomials.
-/

namespace Verif
open Spec MvPolynomial
namespace TwoProd

/-! ### The Giambelli recursion -/

theorem giamInner_returns' {k : Int} {pieri pieri' : Int → List Int → Except PyErr Poly} {spc : Int → Prop} {cls : List Int → Prop}
    (Y : GiamSys k pieri spc cls) (h : ∀ l, cls l → l ≠ [] → pieri' (hdK k l) (tlK k l) = pieri (hdK k l) (tlK k l)) :
    ∀ (f : Nat) (l : List Int), cls l → Y.meas l < f → Returns (giamInner pieri' k f l) (Y.G l) := by
  intro f
  induction f with
  | zero => intro l _ h; omega
  | succ f ih =>
    intro l hl hf
    by_cases h0 : l = []
    · subst h0; exact ⟨_, rfl, wf_const 1, by rw [den_const, Y.G_nil]; simp⟩
    · obtain ⟨h1, h2, h3, h4, h5⟩ := Y.step l hl h0
      obtain ⟨w, hw, hw', hw''⟩ := Y.ret _ _ h2 h3
      rw [← h l hl h0] at hw
      obtain ⟨a, ha, ha', ha''⟩ := ih _ h3 (by omega)
      have hden : den (Poly.sub w (Poly.sym (.S l))) = ev (Y.rest l) := by
        rw [den_sub, hw'', den_sym, GiamSys.rest, map_sub, ev_single]
        simp [inq]
      obtain ⟨b, hb, hb', hb''⟩ := apply_ev (f := giamInner pieri' k f) (σ := Y.G)
        (wf_sub hw' (wf_sym _)) hden (fun mu hmu => ih mu (h5 mu hmu).1 (by have := (h5 mu hmu).2; omega))
      refine ⟨Poly.sub (Poly.mul (Poly.sym (.S (num2spec (hdK k l)))) a) b, ?_, wf_sub (wf_mul ha') hb', ?_⟩
      · unfold giamInner
        rw [if_neg (by simpa using h0), if_neg h1]
        unfold hdK tlK at *
        simp only [bind, Except.bind, hw, ha, hb]
      · rw [den_sub, den_mul, den_sym, ha'', hb'', Y.G_cons hl h0]

/-- the products in the Giambelli recursion have no terms with parameters -/
theorem qpieri_small (ord : List Int → List Int) {n : Nat} (hn : 1 ≤ n) (p : Int) {l : List Int} (h : clsD n 1 l) (h0 : l ≠ []) :
    qpieriD ord p (tlK (1 : Nat) l) 1 n = pieriD p (tlK (1 : Nat) l) 1 n := by
  obtain ⟨P, mu0, r1, r2, -, -, -, -, r7, -⟩ := giam_split h h0
  have e1 : ∀ i, at' (tlK (1 : Nat) l) i = part mu0 i := by
    intro i
    rw [← r7.part]; rfl
  have hr : part mu0 (n - 1) = 0 := by
    have := r2.rows n (by omega)
    obtain ⟨n, rfl⟩ : ∃ n', n = n' + 1 := ⟨n - 1, by omega⟩
    exact this
  have hc : part mu0 0 ≠ n + 1 := by
    intro hc
    have h1 : (P : Int) ≤ n + 1 := r2.cols
    cases mu0 with
    | nil => simp [part] at hc; omega
    | cons b mu0 =>
      have hb : b = n + 1 := hc
      have h2 : (P : Int) ≥ b := (List.pairwise_cons.1 r2.isPart.1).1 b (by simp)
      have h3 := (List.pairwise_cons.1 r2.kstrict).1 b (by simp) (by push_cast; omega)
      omega
  unfold qpieriD
  cases hp : pieriD p (tlK (1 : Nat) l) 1 n with
  | error e => rfl
  | ok w =>
    simp only [bind, Except.bind]
    rw [if_neg (by omega), if_neg (by omega), if_pos trivial]
    rw [if_neg (by rintro ⟨-, h⟩; rw [e1] at h; rw [show ((n : Int) - 1).toNat = n - 1 by omega, hr] at h; omega)]
    rw [if_neg (by rintro ⟨-, h⟩; rw [e1] at h; exact hc (by exact_mod_cast h))]

/-! ### Vectors -/

section
variable (n : Nat)

/-- the vector of a function on classes -/
noncomputable def vec (v : List Int → P) : WordD → P := fun W => if W ∈ WdD n 1 then v (labD W) else 0

/-- a class as a vector -/
noncomputable def bas (l : List Int) : WordD → P := vec n (fun m => if m = l then 1 else 0)

/-- vanishing outside the classes -/
def Nrm (f : WordD → P) : Prop := ∀ W, W ∉ WdD n 1 → f W = 0

/-- coefficients are polynomials in the parameters -/
def Par (f : WordD → P) : Prop := ∀ W ∈ WdD n 1, f W ∈ parAlg

variable {n}

theorem vec_nrm (v : List Int → P) : Nrm n (vec n v) := fun _ h => if_neg h

theorem vec_apply (v : List Int → P) {W : WordD} (h : W ∈ WdD n 1) : vec n v W = v (labD W) := if_pos h

theorem bas_apply {U : WordD} (hU : U ∈ WdD n 1) (W : WordD) : bas n (labD U) W = if W = U then 1 else 0 := by
  unfold bas vec
  by_cases h : W ∈ WdD n 1
  · rw [if_pos h]
    beta_reduce
    by_cases e : W = U
    · rw [if_pos (by rw [e]), if_pos e]
    · rw [if_neg (fun he => e (WdD_inj W h U hU he)), if_neg e]
  · rw [if_neg h, if_neg]
    rintro rfl; exact h hU

theorem bas_par (l : List Int) : Par n (bas n l) := by
  intro W hW
  unfold bas
  rw [vec_apply _ hW]
  split
  · exact Subalgebra.one_mem _
  · exact Subalgebra.zero_mem _

/-- a vector is the sum of its entries -/
theorem sum_bas {f : WordD → P} (hf : Nrm n f) : ∑ W ∈ WdD n 1, f W • bas n (labD W) = f := by
  funext V
  rw [Finset.sum_apply]
  by_cases hV : V ∈ WdD n 1
  · rw [Finset.sum_eq_single V]
    · rw [Pi.smul_apply, bas_apply hV, if_pos rfl, smul_eq_mul, mul_one]
    · intro W hW hne
      rw [Pi.smul_apply, bas_apply hW, if_neg (Ne.symm hne), smul_zero]
    · intro h; exact absurd hV h
  · rw [hf V hV]
    apply Finset.sum_eq_zero
    intro W hW
    rw [Pi.smul_apply, bas_apply hW, if_neg (by rintro rfl; exact hV hW), smul_zero]

/-- the expression determines the vector -/
theorem ev2_inj {f g : WordD → P} (hf : Nrm n f) (hg : Nrm n g) (pf : Par n f) (pg : Par n g) (h : ev2 n f = ev2 n g) : f = g := by
  funext V
  by_cases hV : V ∈ WdD n 1
  · have key : ∀ f : WordD → P, Par n f → subst (fun l => if l = labD V then 1 else 0) (ev2 n f) = f V := by
      intro f pf
      unfold ev2
      rw [map_sum, Finset.sum_eq_single V]
      · rw [map_mul, subst_par _ (pf V hV), subst_S, if_pos rfl, mul_one]
      · intro W hW hne
        rw [map_mul, subst_S, if_neg (fun e => hne (WdD_inj W hW V hV e)), mul_zero]
      · intro h; exact absurd hV h
    rw [← key f pf, ← key g pg, h]
  · rw [hf V hV, hg V hV]

/-- a linear combination with coefficients in `q` as a vector -/
noncomputable def vecL (n : Nat) (x : LMod) : WordD → P := vec n (fun l => inq (x l))

theorem vecL_par (x : LMod) : Par n (vecL n x) := by
  intro W hW
  unfold vecL
  rw [vec_apply _ hW]
  exact inq_mem _ (Or.inl rfl) _

theorem vecL_single (l : List Int) : vecL n (Finsupp.single l 1) = bas n l := by
  unfold vecL bas vec
  funext W
  split
  · beta_reduce
    rw [Finsupp.single_apply]
    by_cases h : labD W = l
    · rw [if_pos h.symm, if_pos h]; simp [inq]
    · rw [if_neg (Ne.symm h), if_neg h]; simp [inq]
  · rfl

theorem vecL_add (x y : LMod) : vecL n (x + y) = vecL n x + vecL n y := by
  unfold vecL vec
  funext W
  rw [Pi.add_apply]
  split
  · exact map_add (Polynomial.aeval (X Sym.q : P)) _ _
  · rw [add_zero]

theorem vecL_smul (a : Polynomial ℚ) (x : LMod) : vecL n (a • x) = inq a • vecL n x := by
  unfold vecL vec
  funext W
  rw [Pi.smul_apply]
  split
  · exact map_mul (Polynomial.aeval (X Sym.q : P)) _ _
  · rw [smul_zero]

theorem vecL_sum {ι : Type*} (s : Finset ι) (F : ι → LMod) : vecL n (∑ i ∈ s, F i) = ∑ i ∈ s, vecL n (F i) := by
  classical
  induction s using Finset.induction_on with
  | empty => funext W; simp [vecL, vec]
  | insert a s ha ih => rw [Finset.sum_insert ha, Finset.sum_insert ha, vecL_add, ih]

theorem ev2_vecL (hn : 1 ≤ n) {x : LMod} (hx : ∀ l ∈ x.support, clsD n 1 l) : ev2 n (vecL n x) = ev x := by
  classical
  have e : ev2 n (vecL n x) = ∑ l ∈ (WdD n 1).image labD, inq (x l) * X (.S l) := by
    rw [Finset.sum_image (fun a ha b hb h => WdD_inj a ha b hb h)]
    unfold ev2
    refine Finset.sum_congr rfl (fun W hW => ?_)
    unfold vecL
    rw [vec_apply _ hW]
  rw [e, ev_apply, Finsupp.sum]
  symm
  apply Finset.sum_subset
  · intro l hl
    obtain ⟨U, hU, rfl⟩ := (WdD_cls (by omega) l).1 (hx l hl)
    exact Finset.mem_image_of_mem _ hU
  · intro l _ hl
    rw [Finsupp.notMem_support_iff.1 hl]
    simp [inq]

theorem T2_nrm (p : Int) (f : WordD → P) : Nrm n (T2 n p f) := fun W hW => by rw [T2_apply, if_neg hW]

theorem act2_nrm (hn : 1 ≤ n) (g : P) {f : WordD → P} (hf : Nrm n f) : Nrm n (act2 hn g f) := by
  induction g using MvPolynomial.induction_on generalizing f with
  | C c =>
    rw [act2_C]
    intro W hW
    rw [Pi.smul_apply, hf W hW, smul_zero]
  | add p r hp hr =>
    intro W hW
    rw [map_add, LinearMap.add_apply, Pi.add_apply, hp hf W hW, hr hf W hW, add_zero]
  | mul_X p s hp =>
    rw [map_mul, Module.End.mul_apply]
    apply hp
    unfold act2
    rw [commAct_X]
    rcases op2_cases n s with h | h | ⟨i, h⟩
    · rw [h]
      intro W hW
      show X .q * f W = 0
      rw [hf W hW, mul_zero]
    · rw [h]; intro W _; rfl
    · rw [h]; exact T2_nrm i f

theorem act2_inq (hn : 1 ≤ n) (a : Polynomial ℚ) (f : WordD → P) : act2 hn (inq a) f = inq a • f := by
  induction a using Polynomial.induction_on' with
  | add p r hp hr => rw [show inq (p + r) = inq p + inq r from map_add _ _ _, map_add, LinearMap.add_apply, hp, hr, add_smul]
  | monomial d c =>
    rw [inq, Polynomial.aeval_monomial, map_mul, Module.End.mul_apply]
    have hm : ∀ d : ℕ, ∀ f, act2 hn (X Sym.q ^ d) f = (X Sym.q ^ d : P) • f := by
      intro d
      induction d with
      | zero => intro f; simp
      | succ d ih => intro f; rw [pow_succ, map_mul, Module.End.mul_apply, act2_q, ih, smul_smul]
    rw [hm, show (algebraMap ℚ P) c = C c from rfl, act2_C, smul_smul]

theorem act2_comm (hn : 1 ≤ n) (a b : P) (f : WordD → P) : act2 hn a (act2 hn b f) = act2 hn b (act2 hn a f) := by
  rw [← Module.End.mul_apply, ← Module.End.mul_apply, ← map_mul, ← map_mul, mul_comm]

/-! ### The Giambelli polynomials -/

/-- the (classical and quantum) Giambelli polynomials -/
noncomputable def G (n : Nat) : List Int → P := (sysD n 1 (by omega)).G

theorem returns_unique {r : Except PyErr Poly} {v v' : P} (h : Returns r v) (h' : Returns r v') : v = v' := by
  obtain ⟨w, h1, _, h3⟩ := h
  obtain ⟨w', h1', _, h3'⟩ := h'
  rw [h1] at h1'
  cases h1'
  rw [← h3, ← h3']

theorem T2_bas {U : WordD} (hU : U ∈ WdD n 1) (p : Int) : ev2 n (T2 n p (bas n (labD U))) = row2 n p U := by
  unfold ev2 row2
  refine Finset.sum_congr rfl (fun W hW => ?_)
  rw [T2_apply, if_pos hW, Finset.sum_eq_single U]
  · rw [bas_apply hU, if_pos rfl, one_mul]
  · intro V _ hne; rw [bas_apply hU, if_neg hne, zero_mul]
  · intro h; exact absurd hU h

/-- in the Giambelli recursion, the quantum product is the classical one -/
theorem T2_lead (hn : 1 ≤ n) {l : List Int} (h : clsD n 1 l) (h0 : l ≠ []) :
    T2 n (hdK (1 : Nat) l) (bas n (tlK (1 : Nat) l)) = vecL n (tDD 0 0 n 1 (hdK (1 : Nat) l) (tlK (1 : Nat) l)) := by
  obtain ⟨-, h2, h3, -⟩ := (sysD n 1 (by omega)).step l h h0
  have hd : Ascending id := fun _ _ => rfl
  obtain ⟨U, hU, e⟩ := (WdD_cls (by omega) _).1 h3
  refine ev2_inj (T2_nrm _ _) (vec_nrm _ : Nrm n (vecL n _)) (T2_par hn _ (bas_par _)) (vecL_par _) ?_
  rw [ev2_vecL hn (tDD_closed 0 0 (by omega) _ _)]
  have a1 := retQ2 hd hn (spcD_ge h2) hU
  rw [e, qpieri_small _ hn _ h h0] at a1
  rw [← e, T2_bas hU, e]
  exact returns_unique a1 (retDD (by omega) (fun h => by omega) h3)

theorem vecL_eq {x : LMod} (hx : ∀ l ∈ x.support, clsD n 1 l) : ∑ mu ∈ x.support, inq (x mu) • bas n mu = vecL n x := by
  conv_rhs => rw [← Finsupp.sum_single x, Finsupp.sum, vecL_sum]
  refine Finset.sum_congr rfl (fun mu _ => ?_)
  rw [← vecL_single, ← vecL_smul, Finsupp.smul_single, smul_eq_mul, mul_one]

/-- a class is its Giambelli polynomial applied to the unit -/
theorem act_G (hn : 1 ≤ n) : ∀ l, clsD n 1 l → act2 hn (G n l) (bas n []) = bas n l := by
  refine (sysD n 1 (by omega)).G_induction (Q := fun l => act2 hn (G n l) (bas n []) = bas n l) ?_ ?_
  · intro _; rw [G, GiamSys.G_nil]; simp
  · intro l hl h0 h1 _ ih ihr
    have hr : ∀ mu ∈ ((sysD n 1 (by omega)).rest l).support, clsD n 1 mu := fun mu hmu => (ihr mu hmu).1
    rw [G, GiamSys.G_cons _ hl h0, map_sub, LinearMap.sub_apply, map_mul, Module.End.mul_apply]
    change act2 hn _ (act2 hn (G n _) _) - _ = _
    rw [ih, act2_special hn h1, T2_lead hn hl h0, subst_ev_eq, map_sum, LinearMap.sum_apply]
    have e : ∑ mu ∈ ((sysD n 1 (by omega)).rest l).support,
        act2 hn (inq ((sysD n 1 (by omega)).rest l mu) * (sysD n 1 (by omega)).G mu) (bas n []) = vecL n ((sysD n 1 (by omega)).rest l) := by
      rw [← vecL_eq hr]
      refine Finset.sum_congr rfl (fun mu hmu => ?_)
      rw [map_mul, Module.End.mul_apply, act2_inq]
      congr 1
      exact (ihr mu hmu).2
    rw [e]
    have e2 : tDD 0 0 n 1 (hdK (1 : Nat) l) (tlK (1 : Nat) l) = (sysD n 1 (by omega)).rest l + Finsupp.single l 1 := by
      rw [GiamSys.rest]; exact (sub_add_cancel _ _).symm
    rw [e2, vecL_add, vecL_single]
    abel

/-! ### The product -/

/-- polynomials that agree on the unit act in the same way -/
theorem act2_det (hn : 1 ≤ n) {g g' : P} (h : act2 hn g (bas n []) = act2 hn g' (bas n [])) {z : WordD → P} (hz : Nrm n z) :
    act2 hn g z = act2 hn g' z := by
  rw [← sum_bas hz, map_sum, map_sum]
  refine Finset.sum_congr rfl (fun U hU => ?_)
  rw [map_smul, map_smul, ← act_G hn _ ((WdD_cls (by omega) _).2 ⟨U, hU, rfl⟩), act2_comm, h, act2_comm]

/-- the Giambelli polynomial of a linear combination -/
noncomputable def GL (n : Nat) (x : LMod) : P := (sysD n 1 (by omega)).GL x

theorem act_GL (hn : 1 ≤ n) {x : LMod} (hx : ∀ l ∈ x.support, clsD n 1 l) : act2 hn (GL n x) (bas n []) = vecL n x := by
  rw [GL, GiamSys.GL, subst_ev_eq, map_sum, LinearMap.sum_apply, ← vecL_eq hx]
  refine Finset.sum_congr rfl (fun mu hmu => ?_)
  rw [map_mul, Module.End.mul_apply, act2_inq]
  congr 1
  exact act_G hn mu (hx mu hmu)

theorem norm_ev {w : Poly} (h : LinComb2 (clsD n 1) w) (hn : 1 ≤ n) : ∃ f : WordD → P, Par n f ∧ Nrm n f ∧ den w = ev2 n f := by
  obtain ⟨f, h1, h2⟩ := linComb2_ev h.2 hn
  refine ⟨fun W => if W ∈ WdD n 1 then f W else 0, ?_, fun W hW => if_neg hW, ?_⟩
  · intro W hW
    beta_reduce
    rw [if_pos hW]
    exact h1 W hW
  · rw [h2]
    unfold ev2
    exact Finset.sum_congr rfl (fun W hW => by beta_reduce; rw [if_pos hW])

theorem linComb_two {cls : List Int → Prop} {w : Poly} (h : LinComb cls w) : LinComb2 cls w := by
  refine ⟨h.1, fun t ht => ?_⟩
  obtain ⟨d, l, h1, h2⟩ := h.2 t ht
  exact ⟨_, l, h1, fun s hs => Or.inl (List.eq_of_mem_replicate hs), h2⟩

theorem fuel_ok {fuel : Nat} (hf : boundD n 1 ≤ fuel) (l : List Int) (hl : clsD n 1 l) : (sysD n 1 (by omega)).meas l < fuel :=
  lt_of_lt_of_le (measBC_lt_boundD (by omega) hl) hf

theorem qgiamInner_returns (ord : List Int → List Int) (hn : 1 ≤ n) {fuel : Nat} (hf : boundD n 1 ≤ fuel) (l : List Int) (hl : clsD n 1 l) :
    Returns (giamInner (Space.qpieriFn ord ⟨.D, ((1 : Nat) : Int), n⟩) ((1 : Nat) : Int) fuel l) (G n l) :=
  giamInner_returns' (sysD n 1 (by omega)) (fun l hl h0 => qpieri_small ord hn _ hl h0) fuel l hl (fuel_ok hf l hl)

theorem cls_of_mem {w : Poly} (h : LinComb2 (clsD n 1) w) {t : Mono × Rat} (ht : t ∈ w) {l : List Int} (hl : Sym.S l ∈ t.1) : clsD n 1 l := by
  obtain ⟨qs, l', h1, h2, h3⟩ := h.2 t ht
  rw [h1] at hl
  rcases List.mem_append.1 hl with h | h
  · rcases h2 _ h with h | h | h <;> cases h
  · simp at h; rw [h]; exact h3

theorem qgiambelli_returns (ord : List Int → List Int) (hn : 1 ≤ n) {fuel : Nat} (hf : boundD n 1 ≤ fuel) {w : Poly} (hw : LinComb2 (clsD n 1) w) :
    Returns ((Space.mk .D ((1 : Nat) : Int) n).qgiambelli ord fuel w) (subst (G n) (den w)) :=
  apply_spec _ (fun _ ht l hl => qgiamInner_returns ord hn hf l (cls_of_mem hw ht hl))

theorem giambelli_returns {fuel : Nat} (hf : boundD n 1 ≤ fuel) {w : Poly} (hw : LinComb2 (clsD n 1) w) :
    Returns ((Space.mk .D ((1 : Nat) : Int) n).giambelli fuel w) (subst (G n) (den w)) :=
  apply_spec _ (fun _ ht l hl => (sysD n 1 (by omega)).giamInner_returns fuel l (cls_of_mem hw ht hl) (fuel_ok hf l (cls_of_mem hw ht hl)))

/-- `qmult` with a first factor without `q1` and `q2` -/
theorem qmult_returns {ord : List Int → List Int} (ho : Ascending ord) (hn : 1 ≤ n) {fuel : Nat} (hf : boundD n 1 ≤ fuel) {a b : Poly} {x : LMod}
    (ha : LinComb2 (clsD n 1) a) (hx : den a = ev x) (hxc : ∀ l ∈ x.support, clsD n 1 l) (hb : WF b) {f : WordD → P} (hd : den b = ev2 n f)
    (pf : Par n f) : Returns ((Space.mk .D ((1 : Nat) : Int) n).qmult ord fuel a b) (ev2 n (act2 hn (GL n x) f)) := by
  refine (qgiambelli_returns ord hn hf ha).bind (fun g hg hg' => ?_)
  rw [hx] at hg'
  have hs : SpecIn (spcD n 1) g := specIn_of_supported hg (by
    rw [hg']; exact (sysD n 1 (by omega)).GL_supported hxc)
  have := qact2 ho hn hs hb hd pf
  rwa [hg'] at this

/-! ### A first factor with parameters -/

theorem actLoop_par {ord : List Int → List Int} (ho : Ascending ord) (hn : 1 ≤ n) {lc : Poly} {x : WordD → P} (hlc : WF lc) (hx : den lc = ev2 n x)
    (hc : Par n x) : ∀ (fuel : Nat) (e : Poly), WF e → (∀ t ∈ e, ∀ s ∈ t.1, s ∈ specialSet (spcD n 1) ∨ s = .q1 ∨ s = .q2) → e.size < fuel →
      (∃ t ∈ e, Sym.q1 ∈ t.1 ∨ Sym.q2 ∈ t.1) →
      actLoop (Space.spec2numSym ⟨.D, ((1 : Nat) : Int), n⟩) (Space.qpieriFn ord ⟨.D, ((1 : Nat) : Int), n⟩) fuel e lc = .error .valueError := by
  intro fuel
  induction fuel with
  | zero => intro e _ _ h; omega
  | succ fuel ih =>
    intro e he hs hf hq
    unfold actLoop
    split
    · rename_i hv
      have hv := leastSym_none hv
      obtain ⟨t, ht, h⟩ := hq
      exfalso
      have : ∃ s, s ∈ e.vars := by
        rcases h with h | h
        · exact ⟨_, mem_vars_iff.2 ⟨by decide, t, ht, h⟩⟩
        · exact ⟨_, mem_vars_iff.2 ⟨by decide, t, ht, h⟩⟩
      rw [hv] at this
      simp at this
    · rename_i v hv
      obtain ⟨hvq, t, ht, hvt⟩ := mem_vars_iff.1 (leastSym_mem hv)
      rcases hs t ht v hvt with (h | ⟨i, hi, hvi⟩) | rfl | rfl
      · exact absurd h hvq
      · have hp := sub_subs0_perm he v
        have hall : ∀ t ∈ Poly.sub e (e.subs0 v), v ∈ t.1 := by
          intro t ht
          have := (List.mem_filter.1 (hp.mem_iff.1 ht)).2
          simpa using this
        have hne : Poly.sub e (e.subs0 v) ≠ [] := by
          intro h0
          rw [h0] at hp
          have : t ∈ e.filter (fun t => decide (v ∈ t.1)) := List.mem_filter.2 ⟨ht, by simpa using hvt⟩
          rw [List.nil_perm.1 hp] at this
          cases this
        have w0 : WF (e.subs0 v) := wf_filter he _
        have w1 : WF ((Poly.sub e (e.subs0 v)).divVar v) := wf_divVar v (wf_sub he w0) hall
        have s0 : ∀ t ∈ e.subs0 v, ∀ s ∈ t.1, s ∈ specialSet (spcD n 1) ∨ s = .q1 ∨ s = .q2 :=
          fun t ht s hs' => hs t (List.mem_of_mem_filter ht) s hs'
        have s1 : ∀ t ∈ (Poly.sub e (e.subs0 v)).divVar v, ∀ s ∈ t.1, s ∈ specialSet (spcD n 1) ∨ s = .q1 ∨ s = .q2 := by
          intro t ht s hs'
          unfold Poly.divVar at ht
          rw [List.mem_map] at ht
          obtain ⟨a, ha, rfl⟩ := ht
          exact hs a (List.mem_of_mem_filter (hp.mem_iff.1 ha)) s (List.mem_of_mem_erase hs')
        have l0 : (e.subs0 v).size < fuel := by
          have := size_filter_lt (f := fun t => decide (v ∉ t.1)) ht (by simpa using hvt)
            (List.length_pos_of_mem hvt)
          unfold Poly.subs0
          omega
        have l1 : ((Poly.sub e (e.subs0 v)).divVar v).size < fuel := by
          have h1 := size_divVar_lt hall hne
          have h2 := size_perm hp
          have h3 := size_filter_le e (fun t => decide (v ∈ t.1))
          omega
        subst hvi
        simp only [spec_D i hi]
        by_cases h1 : ∃ t ∈ (Poly.sub e (e.subs0 (.S (num2spec i)))).divVar (.S (num2spec i)), Sym.q1 ∈ t.1 ∨ Sym.q2 ∈ t.1
        · simp only [bind, Except.bind, ih _ w1 s1 l1 h1]
        · have s1' : den ((Poly.sub e (e.subs0 (.S (num2spec i)))).divVar (.S (num2spec i))) ∈ supported ℚ (specialSet (spcD n 1)) := by
            apply PieriSys.supported_of_syms
            intro t ht s hs'
            rcases s1 t ht s hs' with h | rfl | rfl
            · exact h
            · exact absurd ⟨t, ht, Or.inl hs'⟩ h1
            · exact absurd ⟨t, ht, Or.inr hs'⟩ h1
          obtain ⟨p1, hp1, -⟩ := actLoop2_spec ho hn fuel _ lc x w1 s1' l1 hlc hx hc
          have h0 : ∃ t ∈ e.subs0 (.S (num2spec i)), Sym.q1 ∈ t.1 ∨ Sym.q2 ∈ t.1 := by
            obtain ⟨t, ht, h⟩ := hq
            by_cases hm : Sym.S (num2spec i) ∈ t.1
            · exfalso
              apply h1
              refine ⟨(t.1.erase (.S (num2spec i)), t.2), List.mem_map.2 ⟨t, hp.mem_iff.2 (List.mem_filter.2 ⟨ht, by simpa using hm⟩), rfl⟩, ?_⟩
              rcases h with h | h
              · exact Or.inl ((List.mem_erase_of_ne (by simp)).2 h)
              · exact Or.inr ((List.mem_erase_of_ne (by simp)).2 h)
            · exact ⟨t, List.mem_filter.2 ⟨ht, by simpa using hm⟩, h⟩
          simp only [bind, Except.bind, hp1, ih _ w0 s0 l0 h0]
      · rfl
      · rfl

theorem act2_qsup (hn : 1 ≤ n) {a : P} (ha : a ∈ supported ℚ ({.q} : Set Sym)) (f : WordD → P) : act2 hn a f = a • f := by
  replace ha : a ∈ Algebra.adjoin ℚ ((X : Sym → P) '' {.q}) := ha
  induction ha using Algebra.adjoin_induction generalizing f with
  | mem x hx =>
    obtain ⟨s, hs, rfl⟩ := hx
    rw [Set.mem_singleton_iff.1 hs, act2_q]
  | algebraMap r => exact act2_C hn r f
  | add x y _ _ hx hy => rw [map_add, LinearMap.add_apply, hx, hy, add_smul]
  | mul x y _ _ hx hy => rw [map_mul, Module.End.mul_apply, hx, hy, smul_smul]

/-- values for `q1` and `q2` -/
noncomputable def spz (a b : ℚ) : P →ₐ[ℚ] P := aeval (fun s => match s with
  | .q1 => C a
  | .q2 => C b
  | s => X s)

theorem spz_special (a b : ℚ) {p : P} {Z : Int → Prop} (h : p ∈ supported ℚ (specialSet Z)) : spz a b p = p := by
  replace h : p ∈ Algebra.adjoin ℚ ((X : Sym → P) '' specialSet Z) := h
  induction h using Algebra.adjoin_induction with
  | mem x hx =>
    obtain ⟨s, hs, rfl⟩ := hx
    rcases hs with rfl | ⟨i, _, rfl⟩ <;> simp [spz]
  | algebraMap r => rw [AlgHom.commutes]
  | add x y _ _ hx hy => rw [map_add, hx, hy]
  | mul x y _ _ hx hy => rw [map_mul, hx, hy]

theorem spz_par (a b : ℚ) {p : P} (h : p ∈ parAlg) : spz a b p ∈ supported ℚ ({.q} : Set Sym) := by
  replace h : p ∈ Algebra.adjoin ℚ ((X : Sym → P) '' parSet) := h
  induction h using Algebra.adjoin_induction with
  | mem x hx =>
    obtain ⟨s, hs, rfl⟩ := hx
    rcases hs with rfl | rfl | rfl
    · simp [spz, X_mem_supported]
    · simp only [spz, aeval_X]; exact Subalgebra.algebraMap_mem _ a
    · simp only [spz, aeval_X]; exact Subalgebra.algebraMap_mem _ b
  | algebraMap r => rw [AlgHom.commutes]; exact Subalgebra.algebraMap_mem _ r
  | add x y _ _ hx hy => rw [map_add]; exact Subalgebra.add_mem _ hx hy
  | mul x y _ _ hx hy => rw [map_mul]; exact Subalgebra.mul_mem _ hx hy

theorem eval_spz (σ : Sym → ℚ) (p : P) : eval σ (spz (σ .q1) (σ .q2) p) = eval σ p := by
  induction p using MvPolynomial.induction_on with
  | C a => simp [spz]
  | add p r hp hr => rw [map_add, map_add, map_add, hp, hr]
  | mul_X p s hp =>
    rw [map_mul, map_mul, map_mul, hp]
    congr 1
    cases s <;> simp [spz]

theorem G_supp (l : List Int) (hl : clsD n 1 l) : G n l ∈ supported ℚ (specialSet (spcD n 1)) := (sysD n 1 (by omega)).G_supported l hl

/-- the Giambelli polynomials are linearly independent over the polynomials in `q`, `q1`, `q2` -/
theorem G_indep (hn : 1 ≤ n) {f : WordD → P} (pf : Par n f) (h : ∑ W ∈ WdD n 1, f W * G n (labD W) = 0) : ∀ W ∈ WdD n 1, f W = 0 := by
  have key : ∀ a b : ℚ, ∀ W ∈ WdD n 1, spz a b (f W) = 0 := by
    intro a b W hW
    have h1 := congrArg (fun p => act2 hn (spz a b p) (bas n []) W) h
    beta_reduce at h1
    rw [map_sum, map_sum, LinearMap.sum_apply, map_zero, map_zero] at h1
    have h2 : ∀ U ∈ WdD n 1, act2 hn (spz a b (f U * G n (labD U))) (bas n []) = spz a b (f U) • bas n (labD U) := by
      intro U hU
      have hc := (WdD_cls (k := 1) (n := n) (by omega) _).2 ⟨U, hU, rfl⟩
      rw [map_mul, spz_special a b (G_supp _ hc), map_mul, Module.End.mul_apply, act_G hn _ hc, act2_qsup hn (spz_par a b (pf U hU))]
    rw [Finset.sum_congr rfl h2, Finset.sum_apply, Finset.sum_eq_single W] at h1
    · rw [Pi.smul_apply, bas_apply hW, if_pos rfl, smul_eq_mul, mul_one] at h1
      exact h1
    · intro U hU hne
      rw [Pi.smul_apply, bas_apply hU, if_neg (Ne.symm hne), smul_zero]
    · intro hne; exact absurd hW hne
  intro W hW
  apply MvPolynomial.funext
  intro σ
  rw [← eval_spz, key _ _ W hW]

theorem subst_G {f : WordD → P} (pf : Par n f) : subst (G n) (ev2 n f) = ∑ W ∈ WdD n 1, f W * G n (labD W) := by
  unfold ev2
  rw [map_sum]
  refine Finset.sum_congr rfl (fun W hW => ?_)
  rw [map_mul, subst_par _ (pf W hW), subst_S]

/-- if the Giambelli polynomial has no parameters, neither has the linear combination -/
theorem par_of_G (hn : 1 ≤ n) {f : WordD → P} (pf : Par n f)
    (h : subst (G n) (ev2 n f) ∈ supported ℚ (specialSet (spcD n 1))) : ∀ W ∈ WdD n 1, f W ∈ supported ℚ ({.q} : Set Sym) := by
  have h1 := spz_special 0 0 h
  rw [subst_G pf, map_sum] at h1
  have h2 : ∀ W ∈ WdD n 1, f W - spz 0 0 (f W) = 0 := by
    apply G_indep hn (f := fun W => f W - spz 0 0 (f W))
    · intro W hW
      exact Subalgebra.sub_mem _ (pf W hW) (supported_mono (by rintro s rfl; exact Or.inl rfl) (spz_par 0 0 (pf W hW)))
    · rw [Finset.sum_congr rfl (fun W _ => sub_mul _ _ _), Finset.sum_sub_distrib, sub_eq_zero]
      rw [← h1]
      refine Finset.sum_congr rfl (fun W hW => ?_)
      rw [map_mul, spz_special 0 0 (G_supp _ ((WdD_cls (by omega) _).2 ⟨W, hW, rfl⟩))]
  intro W hW
  rw [sub_eq_zero.1 (h2 W hW)]
  exact spz_par 0 0 (pf W hW)

theorem qmult_error {ord : List Int → List Int} (ho : Ascending ord) (hn : 1 ≤ n) {fuel : Nat} (hf : boundD n 1 ≤ fuel) {a b : Poly}
    (ha : LinComb2 (clsD n 1) a) (hb : LinComb2 (clsD n 1) b) (hq : ∃ t ∈ a, Sym.q1 ∈ t.1 ∨ Sym.q2 ∈ t.1) :
    (Space.mk .D ((1 : Nat) : Int) n).qmult ord fuel a b = .error .valueError := by
  obtain ⟨f, pf, -, hd⟩ := norm_ev ha hn
  obtain ⟨y, py, -, hy⟩ := norm_ev hb hn
  obtain ⟨g, h1, h2, h3⟩ := qgiambelli_returns ord hn hf ha
  rw [hd] at h3
  unfold Space.qmult
  simp only [bind, Except.bind, h1]
  have hs : den g ∈ supported ℚ (specialSet (spcD n 1) ∪ parSet) := by
    rw [h3, subst_G pf]
    exact Subalgebra.sum_mem _ (fun W hW => Subalgebra.mul_mem _ (supported_mono Set.subset_union_right (pf W hW))
      (supported_mono Set.subset_union_left (G_supp _ ((WdD_cls (by omega) _).2 ⟨W, hW, rfl⟩))))
  have hsy : ∀ t ∈ g, ∀ s ∈ t.1, s ∈ specialSet (spcD n 1) ∨ s = .q1 ∨ s = .q2 := by
    intro t ht s hs'
    rcases sym_mem_supported h2 hs ht hs' with h | h | h | h
    · exact Or.inl h
    · exact Or.inl (Or.inl h)
    · exact Or.inr (Or.inl h)
    · exact Or.inr (Or.inr h)
  refine actLoop_par ho hn hb.1 hy py _ g h2 hsy (by omega) ?_
  by_contra hc
  have hs' : den g ∈ supported ℚ (specialSet (spcD n 1)) := by
    apply PieriSys.supported_of_syms
    intro t ht s hs'
    rcases hsy t ht s hs' with h | rfl | rfl
    · exact h
    · exact absurd ⟨t, ht, Or.inl hs'⟩ hc
    · exact absurd ⟨t, ht, Or.inr hs'⟩ hc
  rw [h3] at hs'
  have hf' := par_of_G hn pf hs'
  obtain ⟨t, ht, hq⟩ := hq
  have hda : den a ∈ supported ℚ ({s | s ≠ .q1 ∧ s ≠ .q2} : Set Sym) := by
    rw [hd]
    refine Subalgebra.sum_mem _ (fun W hW => Subalgebra.mul_mem _ (supported_mono ?_ (hf' W hW)) (X_mem_supported.2 (by simp)))
    rintro s rfl; simp
  rcases hq with hq | hq
  · exact (sym_mem_supported ha.1 hda ht hq).1 rfl
  · exact (sym_mem_supported ha.1 hda ht hq).2 rfl

/-! ### The classical limit -/

theorem den_filter (e : Poly) : den (e.filter (fun t => decide (Sym.q1 ∉ t.1 ∧ Sym.q2 ∉ t.1))) = spz 0 0 (den e) := by
  have hm : ∀ m : Mono, spz 0 0 (monoDen m) = if Sym.q1 ∉ m ∧ Sym.q2 ∉ m then monoDen m else 0 := by
    intro m
    induction m with
    | nil => simp [spz]
    | cons s m ih =>
      rw [monoDen_cons, map_mul, ih]
      cases s <;> simp [spz]
  induction e with
  | nil => simp
  | cons t e ih =>
    rw [den_cons, map_add, ← ih, map_mul, hm, List.filter_cons]
    by_cases h : Sym.q1 ∉ t.1 ∧ Sym.q2 ∉ t.1
    · rw [if_pos (by simpa using h), den_cons, if_pos h]
      simp [spz]
    · rw [if_neg (by simpa using h), if_neg h]
      simp

theorem spz_inq (a : Polynomial ℚ) : spz 0 0 (inq a) = inq a := by
  rw [inq, ← Polynomial.aeval_algHom_apply]
  simp [spz]

/-- a linear combination as a sum over the words -/
theorem sum_lab {y : LMod} (hy : ∀ l ∈ y.support, clsD n 1 l) : ∑ U ∈ WdD n 1, Finsupp.single (labD U) (y (labD U)) = y := by
  classical
  have e : ∑ l ∈ (WdD n 1).image labD, Finsupp.single l (y l) = ∑ U ∈ WdD n 1, Finsupp.single (labD U) (y (labD U)) :=
    Finset.sum_image (fun a ha b hb h => WdD_inj a ha b hb h)
  rw [← e]
  conv_rhs => rw [← Finsupp.sum_single y, Finsupp.sum]
  symm
  apply Finset.sum_subset
  · intro l hl
    obtain ⟨U, hU, rfl⟩ := (WdD_cls (by omega) l).1 (hy l hl)
    exact Finset.mem_image_of_mem _ hU
  · intro l _ hl
    rw [Finsupp.notMem_support_iff.1 hl, Finsupp.single_zero]

theorem spz_T2 (hn : 1 ≤ n) (p : Int) {f : WordD → P} {y : LMod} (hy : ∀ l ∈ y.support, clsD n 1 l)
    (h : (fun W => spz 0 0 (f W)) = vecL n y) : (fun W => spz 0 0 (T2 n p f W)) = vecL n (lin (tDD 0 0 n 1 p) y) := by
  funext W
  rw [T2_apply]
  unfold vecL vec
  by_cases hW : W ∈ WdD n 1
  · rw [if_pos hW, if_pos hW, map_sum]
    beta_reduce
    conv_rhs => rw [← sum_lab hy, map_sum, Finsupp.finsetSum_apply]
    rw [show inq (∑ U ∈ WdD n 1, (lin (tDD 0 0 n 1 p) (Finsupp.single (labD U) (y (labD U)))) (labD W)) =
      ∑ U ∈ WdD n 1, inq ((lin (tDD 0 0 n 1 p) (Finsupp.single (labD U) (y (labD U)))) (labD W)) from map_sum _ _ _]
    refine Finset.sum_congr rfl (fun U hU => ?_)
    have h1 := congrFun h U
    beta_reduce at h1
    unfold vecL at h1
    rw [vec_apply _ hU] at h1
    rw [map_mul, h1, M2_eq p hn hU hW]
    have h2 : lin (tDD 0 0 n 1 p) (Finsupp.single (labD U) (y (labD U))) = y (labD U) • tDD 0 0 n 1 p (labD U) := by
      simp [lin]
    rw [h2, Finsupp.smul_apply, tDD_apply 0 0 p hU hW, MDg_eq 0 0 p hU hW (Or.inl rfl), smul_eq_mul,
      show inq (y (labD U) * (Polynomial.C (cfD 1 p U W) + 0 * Polynomial.C (q1D 1 p U W) + 0 * Polynomial.C (q2D 1 p U W))) =
        inq (y (labD U)) * inq (Polynomial.C (cfD 1 p U W) + 0 * Polynomial.C (q1D 1 p U W) + 0 * Polynomial.C (q2D 1 p U W)) from map_mul _ _ _]
    congr 1
    rw [qw_tyO]
    have hC : ∀ c : ℚ, spz 0 0 (C c) = C c := fun c => by simp [spz]
    have h3 : spz 0 0 (qOf (X .q1) (X .q2) (tyO U.2 W.2.sw)) = 0 := by
      cases tyO U.2 W.2.sw <;> simp [qOf, spz]
    rw [map_add, map_add, map_mul, map_mul, map_mul, hC, h3]
    simp [spz, inq]
  · rw [if_neg hW, if_neg hW, map_zero]

theorem spz_act (hn : 1 ≤ n) {g : P} (hg : g ∈ supported ℚ (specialSet (spcD n 1))) {f : WordD → P} {y : LMod}
    (hy : ∀ l ∈ y.support, clsD n 1 l) (h : (fun W => spz 0 0 (f W)) = vecL n y) :
    (fun W => spz 0 0 (act2 hn g f W)) = vecL n ((sysD n 1 (by omega)).act g y) := by
  replace hg : g ∈ Algebra.adjoin ℚ ((X : Sym → P) '' specialSet (spcD n 1)) := hg
  induction hg using Algebra.adjoin_induction generalizing f y with
  | mem x hx =>
    obtain ⟨s, hs, rfl⟩ := hx
    rcases hs with rfl | ⟨i, hi, rfl⟩
    · rw [act2_q]
      have e : (sysD n 1 (by omega)).act (X .q) y = (Polynomial.X : Polynomial ℚ) • y := by
        have := (sysD n 1 (by omega)).act_inq Polynomial.X y
        rwa [show inq Polynomial.X = X Sym.q by simp [inq]] at this
      rw [e, vecL_smul, ← h]
      funext W
      simp [spz, inq]
    · rw [act2_special hn hi, (sysD n 1 (by omega)).act_special hi]
      exact spz_T2 hn i hy h
  | algebraMap r =>
    have e : (sysD n 1 (by omega)).act (algebraMap ℚ P r) y = (Polynomial.C r : Polynomial ℚ) • y := by
      have := (sysD n 1 (by omega)).act_inq (Polynomial.C r) y
      rwa [show inq (Polynomial.C r) = algebraMap ℚ P r by simp [inq]] at this
    rw [e, vecL_smul, ← h, show algebraMap ℚ P r = C r from rfl, act2_C]
    funext W
    simp [spz, inq]
  | add x z _ _ hx hz =>
    rw [map_add, map_add, LinearMap.add_apply, LinearMap.add_apply, vecL_add, ← hx hy h, ← hz hy h]
    funext W
    simp
  | mul x z _ _ hx hz =>
    rw [map_mul, map_mul, Module.End.mul_apply, Module.End.mul_apply]
    exact hx ((sysD n 1 (by omega)).act_support _ hy) (hz hy h)

end

end TwoProd
end Verif
