import Verif.Proofs.TwoRel
import Verif.Proofs.TwoDeg
import Verif.Props.PresentationD
/-!
# The relations of the quantum ring of `OG(n, 2n+2)` with two parameters, and its presentation
-/

namespace Verif
open Spec MvPolynomial
namespace TwoProd

noncomputable section
variable {n m : ℕ}

/-! ### The relations -/

/-- the quantum corrections -/
def tau (m : ℕ) : RelIxD m 1 → P
  | .inl _ => X .q1 + X .q2
  | .inr (.inl _) => 0
  | .inr (.inr true) => 0
  | .inr (.inr false) => X .q1 - X .q2

theorem agree_iff {hn : 1 ≤ n} {g : P} (h : Agree hn g) : act2 hn g (bas n []) = vecL n ((ringD n 1 (le1 n)).Y.act g (Finsupp.single [] 1)) := by
  unfold Agree at h
  exact h

theorem T2_rowA {p : Int} (hn : 1 ≤ n) (hp : spcD n 1 p) (hp1 : p ≠ 1) (h2 : p.natAbs = 1) :
    T2 n p (bas n [1]) = vecL n (tDD 0 0 n 1 p [1]) := by
  have e : labD (colO n 1, .a) = [1] := labD_colA (m := n) one_pos
  rw [← e]
  rcases Nat.lt_or_ge 1 n with h | h
  · exact T2_colS h one_pos hp (by decide)
  · obtain rfl : n = 1 := by omega
    have := T2_long (m := 0) h2 (i := .a) (by decide)
    rw [if_neg (by exact hp1), add_zero] at this
    exact this

theorem Agree.mid (hn : 1 ≤ n) : Agree hn (X (.S (num2spec (-1))) * X (.S (num2spec 1))) := by
  unfold Agree
  have h1 : spcD n 1 1 := spc_pos (a := 1) one_pos (by omega)
  rw [map_mul, Module.End.mul_apply, map_mul, Module.End.mul_apply, act2_special hn h1, T2_unit hn h1, act_specD hn one_pos _ h1,
    act2_special hn spc_neg, (ringD n 1 (le1 n)).Y.act_special spc_neg, show num2spec 1 = [1] from rfl,
    T2_rowA hn spc_neg (by decide) rfl]
  simp [lin]
  rfl

theorem mid_eq (hn : 1 ≤ n) : C (1 / 4) * (Verif.qd (cvarD (1 : ℕ) (n + 1 : ℕ)) 1 - dl (1 : ℕ) (n + 1 : ℕ) ^ 2) =
    X (.S (num2spec (-1))) * X (.S (num2spec 1)) + (-1) ^ 1 * X (.S (num2spec 2)) := by
  rw [qd_mid]
  rw [show Finset.Icc 1 1 = {1} from rfl, Finset.sum_singleton, hvar_S one_pos (by omega)]
  have h1 : hvar (n + 1 : ℕ) (((1 : ℕ) : ℤ) + ((1 : ℕ) : ℤ)) = X (.S (num2spec 2)) := hvar_S (a := 2) (by omega) (by omega)
  have h2 : hvar (n + 1 : ℕ) (((1 : ℕ) : ℤ) - ((1 : ℕ) : ℤ)) = 1 := by rw [sub_self]; rfl
  rw [h1, h2, mul_one, mul_comm]
  rfl

/-- the relations in the quantum ring -/
theorem act2_rel (hn : 1 ≤ m + 1) (i : RelIxD m 1) : act2 hn (relD' m 1 i) (bas (m + 1) []) = tau m i • bas (m + 1) [] := by
  have hcl := zero_cOne i
  rcases i with ⟨j, h5, h6⟩ | ⟨r, h5, h6⟩ | b
  · obtain rfl : j = m + 2 := by omega
    have := act2_ee hn (m + 2) le_rfl
    rw [colV, if_neg (by omega), if_neg (by omega), vecL_zero, zero_add, if_pos rfl] at this
    exact this
  · have := agree_iff (Agree.Cmul (Agree.qd (hn := hn) (by omega) (r := r) (by omega)) (1 / 4))
    refine this.trans ?_
    rw [tau, zero_smul]
    refine Eq.trans ?_ (vecL_zero (n := m + 1))
    congr 1
  · cases b
    · rw [relD', map_mul, Module.End.mul_apply, act2_ee hn (m + 1) (by omega), if_neg (by omega), add_zero]
      have e : dl (1 : ℕ) (m + 1 + 1 : ℕ) = X (.S (num2spec 1)) - X (.S (num2spec (-1))) := by
        unfold dl
        rw [hvar_S one_pos (by omega)]
        rfl
      have h2 : (ringD (m + 1) 1 (le1 (m + 1))).Y.act (dl (1 : ℕ) (m + 1 + 1 : ℕ)) (colV (m + 1) (m + 1)) = 0 := by
        rw [relD', map_mul, Module.End.mul_apply] at hcl
        rw [← (col_D1 (m := m) (ringD (m + 1) 1 (le1 (m + 1))) rfl).1 (m + 1) (by omega)]
        exact hcl
      have e' : dl ((1 : ℕ) : ℤ) (m + 1 + 1 : ℕ) = dl (1 : ℕ) (m + 1 + 1 : ℕ) := rfl
      have h1 : spcD (m + 1) 1 1 := spc_pos (a := 1) one_pos (by omega)
      have hx : act2 hn (dl (1 : ℕ) (m + 1 + 1 : ℕ)) (vecL (m + 1) (colV (m + 1) (m + 1))) = tau m (.inr (.inr false)) • bas (m + 1) [] := by
        rw [e, map_sub, LinearMap.sub_apply] at h2
        rw [e, map_sub, LinearMap.sub_apply, act2_special hn h1, act2_special hn spc_neg, T2_colV hn le_rfl h1 (by simp; omega),
          T2_colV hn le_rfl spc_neg (by simp; omega), if_pos rfl, if_pos rfl, if_pos rfl, if_neg (by decide), sub_eq_zero.1 h2, tau, sub_smul]
        abel
      exact hx
    · have h2 : spcD (m + 1) 1 2 := spc_pos (a := 2) (by omega) (by omega)
      have := agree_iff (Agree.add (Agree.mid hn) (Agree.pow (Agree.spec (hn := hn) h2) 1))
      rw [← mid_eq hn] at this
      refine this.trans ?_
      rw [tau, zero_smul]
      refine Eq.trans ?_ (vecL_zero (n := m + 1))
      congr 1

/-! ### The action with parameters -/

/-- the operators, with `q1` and `q2` as scalars -/
def op3 (n : ℕ) : Sym → Module.End P (WordD → P)
  | .q1 => algebraMap P (Module.End P (WordD → P)) (X .q1)
  | .q2 => algebraMap P (Module.End P (WordD → P)) (X .q2)
  | s => op2 n s

theorem op3_comm (hn : 1 ≤ n) (a b : Sym) : op3 n a * op3 n b = op3 n b * op3 n a := by
  unfold op3
  split
  · exact Algebra.commutes _ _
  · exact Algebra.commutes _ _
  · split
    · exact (Algebra.commutes _ _).symm
    · exact (Algebra.commutes _ _).symm
    · exact op2_comm hn _ _

def act3 (hn : 1 ≤ n) : P →ₐ[ℚ] Module.End P (WordD → P) := commAct (op3 n) (op3_comm hn)

theorem act3_C (hn : 1 ≤ n) (c : ℚ) (f : WordD → P) : act3 hn (C c) f = (C c : P) • f := by
  rw [show (C c : P) = algebraMap ℚ P c from rfl, AlgHom.commutes]
  funext W
  simp [Algebra.smul_def]

theorem act3_special (hn : 1 ≤ n) {x : P} (hx : x ∈ supported ℚ (specialSet (spcD n 1))) : act3 hn x = act2 hn x := by
  replace hx : x ∈ Algebra.adjoin ℚ ((X : Sym → P) '' specialSet (spcD n 1)) := hx
  induction hx using Algebra.adjoin_induction with
  | mem x hx =>
    obtain ⟨s, hs, rfl⟩ := hx
    rw [act3, act2, commAct_X, commAct_X]
    rcases hs with rfl | ⟨i, _, rfl⟩ <;> rfl
  | algebraMap r => rw [AlgHom.commutes, AlgHom.commutes]
  | add x y _ _ hx hy => rw [map_add, map_add, hx, hy]
  | mul x y _ _ hx hy => rw [map_mul, map_mul, hx, hy]

theorem act3_par (hn : 1 ≤ n) {a : P} (ha : a ∈ parAlg) (f : WordD → P) : act3 hn a f = a • f := by
  replace ha : a ∈ Algebra.adjoin ℚ ((X : Sym → P) '' parSet) := ha
  induction ha using Algebra.adjoin_induction generalizing f with
  | mem x hx =>
    obtain ⟨s, hs, rfl⟩ := hx
    rw [act3, commAct_X]
    rcases hs with rfl | rfl | rfl <;> rfl
  | algebraMap r => exact act3_C hn r f
  | add x y _ _ hx hy => rw [map_add, LinearMap.add_apply, hx, hy, add_smul]
  | mul x y _ _ hx hy => rw [map_mul, Module.End.mul_apply, hx, hy, smul_smul]

theorem tau_par (i : RelIxD m 1) : tau m i ∈ parAlg := by
  have h1 : (X .q1 : P) ∈ parAlg := X_mem_supported.2 (Or.inr (Or.inl rfl))
  have h2 : (X .q2 : P) ∈ parAlg := X_mem_supported.2 (Or.inr (Or.inr rfl))
  rcases i with j | r | b
  · exact Subalgebra.add_mem _ h1 h2
  · exact Subalgebra.zero_mem _
  · cases b
    · exact Subalgebra.sub_mem _ h1 h2
    · exact Subalgebra.zero_mem _

/-- the ideal of the relations -/
def I2 (m : ℕ) : Ideal P := Ideal.span (Set.range fun i => relD' m 1 i - tau m i)

theorem I2_zero (hn : 1 ≤ m + 1) {x : P} (hx : x ∈ I2 m) : act3 hn x (bas (m + 1) []) = 0 := by
  unfold I2 at hx
  induction hx using Submodule.span_induction with
  | mem x hx =>
    obtain ⟨i, rfl⟩ := hx
    beta_reduce
    rw [map_sub, LinearMap.sub_apply, act3_special hn (relD_supp one_pos i), act2_rel, act3_par hn (tau_par i), sub_self]
  | zero => rw [map_zero]; rfl
  | add x y _ _ hx hy => rw [map_add, LinearMap.add_apply, hx, hy, add_zero]
  | smul a x _ hx => rw [smul_eq_mul, map_mul, Module.End.mul_apply, hx, map_zero]

/-! ### Degrees -/

/-- degree at most `D` -/
def WtLe (D : ℤ) (f : P) : Prop := ∀ d ∈ f.support, ((Finsupp.weight (wSym 0) d : ℕ) : ℤ) ≤ D

theorem WtLe.zero (D : ℤ) : WtLe D 0 := fun d h => by simp at h

theorem WtLe.add {D : ℤ} {f g : P} (hf : WtLe D f) (hg : WtLe D g) : WtLe D (f + g) := by
  classical
  intro d hd
  rcases Finset.mem_union.1 (support_add hd) with h | h
  · exact hf d h
  · exact hg d h

theorem WtLe.neg {D : ℤ} {f : P} (hf : WtLe D f) : WtLe D (-f) := fun d hd => hf d (by rwa [support_neg] at hd)

theorem WtLe.sub {D : ℤ} {f g : P} (hf : WtLe D f) (hg : WtLe D g) : WtLe D (f - g) := by
  rw [sub_eq_add_neg]; exact hf.add hg.neg

theorem WtLe.sum {ι : Type*} {D : ℤ} {s : Finset ι} {F : ι → P} (h : ∀ i ∈ s, WtLe D (F i)) : WtLe D (∑ i ∈ s, F i) :=
  Finset.sum_induction _ (WtLe D) (fun _ _ => WtLe.add) (WtLe.zero D) h

theorem WtLe.mul {D D' : ℤ} {f g : P} (hf : WtLe D f) (hg : WtLe D' g) : WtLe (D + D') (f * g) := by
  classical
  intro d hd
  obtain ⟨a, ha, b, hb, rfl⟩ := Finset.mem_add.1 (support_mul _ _ hd)
  have h1 := hf a ha
  have h2 := hg b hb
  rw [map_add]
  push_cast
  omega

theorem WtLe.hom {d : ℕ} {f : P} (h : IsWeightedHomogeneous (wSym 0) f d) : WtLe d f := fun e he => by rw [h (mem_support_iff.1 he)]

theorem WtLe.X (s : Sym) : WtLe (wSym 0 s) (X s) := WtLe.hom (isWeightedHomogeneous_X ℚ (wSym 0) s)

theorem WtLe.C (c : ℚ) : WtLe 0 (C c : P) := WtLe.hom (isWeightedHomogeneous_C (wSym 0) c)

theorem WtLe.inq (a : Polynomial ℚ) : WtLe 0 (inq a) := by
  induction a using Polynomial.induction_on' with
  | add p r hp hr => rw [show Verif.inq (p + r) = Verif.inq p + Verif.inq r from map_add _ _ _]; exact hp.add hr
  | monomial d c =>
    rw [Verif.inq, Polynomial.aeval_monomial]
    have : ∀ d : ℕ, WtLe 0 (MvPolynomial.X Sym.q ^ d : P) := by
      intro d
      induction d with
      | zero => rw [pow_zero, ← C_1]; exact WtLe.C 1
      | succ d ih =>
        rw [pow_succ]
        have := ih.mul (WtLe.X Sym.q)
        simpa [wSym] using this
    have h2 := (WtLe.C c).mul (this d)
    rw [add_zero] at h2
    exact h2

/-- classes of degree at most `D` -/
def Low (D : ℤ) (x : LMod) : Prop := ∀ l ∈ x.support, l.sum ≤ D

theorem Low.zero (D : ℤ) : Low D 0 := fun d h => by simp at h

theorem Low.add {D : ℤ} {x y : LMod} (hx : Low D x) (hy : Low D y) : Low D (x + y) := by
  classical
  intro l hl
  rcases Finset.mem_union.1 (Finsupp.support_add hl) with h | h
  · exact hx l h
  · exact hy l h

theorem Low.sum {ι : Type*} {D : ℤ} {s : Finset ι} {F : ι → LMod} (h : ∀ i ∈ s, Low D (F i)) : Low D (∑ i ∈ s, F i) :=
  Finset.sum_induction _ (Low D) (fun _ _ => Low.add) (Low.zero D) h

theorem Low.smul {D : ℤ} {x : LMod} (hx : Low D x) (a : Polynomial ℚ) : Low D (a • x) := fun l hl => hx l (Finsupp.support_smul hl)

theorem Low.mono {D D' : ℤ} {x : LMod} (hx : Low D x) (h : D ≤ D') : Low D' x := fun l hl => (hx l hl).trans h

theorem tDD_sum {p : Int} {l mu : List Int} (h : mu ∈ (tDD 0 0 n 1 p l).support) : mu.sum = p.natAbs + l.sum := by
  have h1 := homD (n := n) (k := 1) (by omega) 0 (p := p) (by omega) l mu
  have h2 := Finsupp.mem_support_iff.1 h
  obtain ⟨d, hd⟩ : ∃ d, (tDD 0 0 n 1 p l mu).coeff d ≠ 0 := by
    by_contra hc
    push Not at hc
    exact h2 (Polynomial.ext fun d => by rw [hc d, Polynomial.coeff_zero])
  have := h1 d hd
  rwa [mul_zero, add_zero] at this

theorem Low.special {D : ℤ} {x : LMod} (hx : Low D x) {p : Int} (hp : spcD n 1 p) :
    Low (D + p.natAbs) ((ringD n 1 (le1 n)).Y.act (X (.S (num2spec p))) x) := by
  rw [(ringD n 1 (le1 n)).Y.act_special hp]
  unfold lin
  rw [Finsupp.linearCombination_apply, Finsupp.sum]
  refine Low.sum fun l hl => Low.smul (fun mu hmu => ?_) _
  have := tDD_sum (n := n) hmu
  have := hx l hl
  omega

theorem wSym_spec {p : Int} (hp : spcD n 1 p) : wSym 0 (.S (num2spec p)) = p.natAbs := by
  show (num2spec p).sum.toNat = _
  rw [(num2spec_natAbs (spcD_nz p hp)).1]
  omega

theorem Low.mono_act (c : ℚ) : ∀ d : Sym →₀ ℕ, (∀ s ∈ d.support, s ∈ specialSet (spcD n 1)) → ∀ D x, Low D x →
    Low (D + (Finsupp.weight (wSym 0) d : ℕ)) ((ringD n 1 (le1 n)).Y.act (monomial d c) x) := by
  intro d
  induction d using Finsupp.induction with
  | zero =>
    intro _ D x hx
    rw [show monomial (0 : Sym →₀ ℕ) c = C c from rfl, PieriSys.act_C, map_zero]
    simpa using hx.smul _
  | single_add s b d hs hb ih =>
    intro h D x hx
    have hsup : (Finsupp.single s b + d).support = {s} ∪ d.support := by
      rw [Finsupp.support_add_eq (by rw [Finsupp.support_single s hb]; simpa using hs), Finsupp.support_single s hb]
    have hs' : s ∈ specialSet (spcD n 1) := h s (by rw [hsup]; simp)
    have ih' := ih (fun t ht => h t (by rw [hsup]; simp [Finsupp.mem_support_iff.1 ht])) D x hx
    rw [monomial_single_add, map_mul, Module.End.mul_apply]
    have hpow : ∀ (b : ℕ) D y, Low D y → Low (D + b * wSym 0 s) ((ringD n 1 (le1 n)).Y.act (X s ^ b) y) := by
      intro b
      induction b with
      | zero => intro D y hy; simpa using hy
      | succ b ihb =>
        intro D y hy
        rw [pow_succ', map_mul, Module.End.mul_apply]
        have h1 := ihb D y hy
        rcases hs' with rfl | ⟨p, hp, rfl⟩
        · rw [PieriSys.act_q]
          refine (h1.smul _).mono ?_
          simp [wSym]
        · refine (h1.special hp).mono ?_
          rw [wSym_spec hp]
          push_cast
          linarith
    refine (hpow b _ _ ih').mono ?_
    rw [map_add, Finsupp.weight_single]
    simp only [smul_eq_mul]
    push_cast
    linarith

theorem low_act {e : P} (he : e ∈ supported ℚ (specialSet (spcD n 1))) {D : ℤ} (hD : WtLe D e) :
    Low D ((ringD n 1 (le1 n)).Y.act e (Finsupp.single [] 1)) := by
  rw [e.as_sum, map_sum, LinearMap.sum_apply]
  refine Low.sum fun d hd => ?_
  have h0 : Low 0 (Finsupp.single ([] : List Int) (1 : Polynomial ℚ)) := by
    intro l hl
    rw [Finset.mem_singleton.1 (Finsupp.support_single_subset hl)]
    simp
  refine (Low.mono_act _ d (fun s hs => ?_) 0 _ h0).mono ?_
  · exact (mem_supported.1 he) (Finset.mem_coe.2 ((mem_vars s).2 ⟨d, hd, hs⟩))
  · rw [zero_add]; exact hD d hd

theorem wt_G (hn : 1 ≤ n) : ∀ l, clsD n 1 l → WtLe l.sum (G n l) := by
  refine (sysD n 1 (by omega)).G_induction (Q := fun l => WtLe l.sum (G n l)) ?_ ?_
  · intro _
    rw [G, GiamSys.G_nil, ← C_1]
    exact WtLe.C 1
  · intro l hl h0 h1 htl ih ihr
    have hdeg := (sysD n 1 (by omega)).deg l hl h0
    have hs : (num2spec (hdK (1 : Nat) l)).sum = (hdK (1 : Nat) l).natAbs := (num2spec_natAbs (spcD_nz _ h1)).1
    have hsum : ((hdK (1 : Nat) l).natAbs : ℤ) + (tlK (1 : Nat) l).sum = l.sum := by rw [← hs, ← hdeg]
    rw [G, GiamSys.G_cons _ hl h0, subst_ev_eq]
    refine WtLe.sub ?_ (WtLe.sum fun mu hmu => ?_)
    · have := (WtLe.X (.S (num2spec (hdK (1 : Nat) l)))).mul ih
      rw [wSym_spec h1, hsum] at this
      exact this
    · have h3 := (WtLe.inq ((sysD n 1 (by omega)).rest l mu)).mul (ihr mu hmu).2
      rw [zero_add] at h3
      have h4 : mu.sum = l.sum := by
        classical
        have h5 : mu ∈ (tDD 0 0 n 1 (hdK (1 : Nat) l) (tlK (1 : Nat) l) - Finsupp.single l 1).support := hmu
        rcases Finset.mem_union.1 (Finsupp.support_sub h5) with h | h
        · rw [tDD_sum h, hsum]
        · rw [Finset.mem_singleton.1 (Finsupp.support_single_subset h)]
      rw [h4] at h3
      exact h3

theorem wt_GL (hn : 1 ≤ n) {x : LMod} (hx : ∀ l ∈ x.support, clsD n 1 l) {D : ℤ} (h : Low D x) : WtLe D (GL n x) := by
  rw [GL, GiamSys.GL, subst_ev_eq]
  refine WtLe.sum fun mu hmu d hd => ?_
  have h1 := (WtLe.inq (x mu)).mul (wt_G hn mu (hx mu hmu)) d hd
  rw [zero_add] at h1
  exact h1.trans (h mu hmu)

/-! ### Spanning -/

theorem dRel_pos (i : RelIxD m 1) : 1 ≤ dRelD m 1 i := by
  rcases i with ⟨j, h5, h6⟩ | ⟨r, h5, h6⟩ | b
  · show 1 ≤ j; omega
  · show 1 ≤ 2 * r; omega
  · cases b
    · show 1 ≤ 1 + (m + 1); omega
    · show 1 ≤ 2 * 1; omega

theorem span2 (hn : 1 ≤ m + 1) : ∀ (D : ℕ) (e : P), e ∈ supported ℚ (specialSet (spcD (m + 1) 1)) → WtLe D e →
    ∃ f : WordD → P, Par (m + 1) f ∧ e - ∑ W ∈ WdD (m + 1) 1, f W * G (m + 1) (labD W) ∈ I2 m := by
  classical
  intro D
  induction D using Nat.strong_induction_on with
  | _ D ih =>
    intro e he hD
    have hsup : ∀ {f : P}, f ∈ supported ℚ (specialSet (spcD (m + 1) 1)) ↔ ∀ d ∈ f.support, ∀ s ∈ d.support, s ∈ specialSet (spcD (m + 1) 1) := by
      intro f
      rw [mem_supported]
      constructor
      · intro h d hd s hs
        exact h (Finset.mem_coe.2 ((mem_vars s).2 ⟨d, hd, hs⟩))
      · intro h s hs
        obtain ⟨d, hd, hs⟩ := (mem_vars s).1 (Finset.mem_coe.1 hs)
        exact h d hd s hs
    obtain ⟨v, hv⟩ : ∃ v, v = (ringD (m + 1) 1 (le1 (m + 1))).Y.act e (Finsupp.single [] 1) := ⟨_, rfl⟩
    have hvc : ∀ l ∈ v.support, clsD (m + 1) 1 l := by
      rw [hv]
      exact fun l hl => (ringD (m + 1) 1 (le1 (m + 1))).Y.act_support e (GSys.one_cls (ringD (m + 1) 1 (le1 (m + 1))).nil) l hl
    have hlow : Low D v := by rw [hv]; exact low_act he hD
    have hGs : GL (m + 1) v ∈ supported ℚ (specialSet (spcD (m + 1) 1)) := (sysD (m + 1) 1 (by omega)).GL_supported hvc
    have hGw := wt_GL hn hvc hlow
    have hes := Subalgebra.sub_mem _ he hGs
    have hez : (ringD (m + 1) 1 (le1 (m + 1))).Y.act (e - GL (m + 1) v) (Finsupp.single [] 1) = 0 := by
      rw [map_sub, LinearMap.sub_apply, ← hv]
      have := (ringD (m + 1) 1 (le1 (m + 1))).Y.act_GL hvc
      exact sub_eq_zero.2 this.symm
    have h2 := pres_clD (k := 0) _ zero_cOne hes hez
    obtain ⟨f, hf⟩ := (Finsupp.mem_ideal_span_range_iff_exists_finsupp).1 h2
    let M : ℕ → (Sym →₀ ℕ) → Prop := fun c d => (∀ s ∈ d.support, s ∈ specialSet (spcD (m + 1) 1)) ∧ Finsupp.weight (wSym 0) d + c ≤ D
    have hMul : ∀ (x r : P) (c : ℕ), r ∈ supported ℚ (specialSet (spcD (m + 1) 1)) → IsWeightedHomogeneous (wSym 0) r c →
        res (M 0) (x * r) = res (M c) x * r := by
      intro x r c hr1 hr2
      refine res_mul fun d d' hd' => ?_
      have e1 : Finsupp.weight (wSym 0) d' = c := hr2 (mem_support_iff.1 hd')
      have e2 := hsup.1 hr1 d' hd'
      show (∀ s ∈ (d + d').support, _) ∧ _ ↔ (∀ s ∈ d.support, _) ∧ _
      rw [map_add, e1, add_zero, Finsupp.support_add_eq_union]
      refine and_congr ?_ Iff.rfl
      constructor
      · intro h s hs
        exact h s (Finset.mem_union_left _ hs)
      · intro h s hs
        rcases Finset.mem_union.1 hs with hs | hs
        · exact h s hs
        · exact e2 s hs
    have hself : res (M 0) (e - GL (m + 1) v) = e - GL (m + 1) v :=
      res_self fun d hd => ⟨hsup.1 hes d hd, by have := (hD.sub hGw) d hd; omega⟩
    have h3 : e - GL (m + 1) v = ∑ i ∈ f.support, res (M (dRelD m 1 i)) (f i) * relD' m 1 i := by
      rw [Finsupp.sum] at hf
      conv_lhs => rw [← hself, ← hf, res_sum]
      exact Finset.sum_congr rfl fun i _ => hMul _ _ _ (relD_supp one_pos i) (relD_hom one_pos 0 i)
    have hstep : ∀ i : RelIxD m 1, ∃ g : WordD → P, Par (m + 1) g ∧
        res (M (dRelD m 1 i)) (f i) - ∑ W ∈ WdD (m + 1) 1, g W * G (m + 1) (labD W) ∈ I2 m := by
      intro i
      have hp := dRel_pos i
      have hs : res (M (dRelD m 1 i)) (f i) ∈ supported ℚ (specialSet (spcD (m + 1) 1)) := hsup.2 fun d hd => (mem_res hd).1
      by_cases hD' : dRelD m 1 i ≤ D
      · refine ih (D - dRelD m 1 i) (by omega) _ hs (fun d hd => ?_)
        have := (mem_res hd).2
        omega
      · have h0 : res (M (dRelD m 1 i)) (f i) = 0 := by
          ext d
          rw [coeff_zero]
          by_contra h
          have := (mem_res (mem_support_iff.2 h)).2
          omega
        refine ⟨0, fun _ _ => Subalgebra.zero_mem _, ?_⟩
        rw [h0, zero_sub, Finset.sum_eq_zero, neg_zero]
        · exact Ideal.zero_mem _
        · intro W _
          rw [Pi.zero_apply, zero_mul]
    choose g hg1 hg2 using hstep
    have hGL : GL (m + 1) v = ∑ W ∈ WdD (m + 1) 1, vecL (m + 1) v W * G (m + 1) (labD W) := by
      rw [← subst_G (vecL_par v), ev2_vecL hn hvc]
      rfl
    refine ⟨fun W => vecL (m + 1) v W + ∑ i ∈ f.support, tau m i * g i W, fun W hW => ?_, ?_⟩
    · exact Subalgebra.add_mem _ (vecL_par v W hW) (Subalgebra.sum_mem _ fun i _ => Subalgebra.mul_mem _ (tau_par i) (hg1 i W hW))
    · have h4 : e - ∑ W ∈ WdD (m + 1) 1, (vecL (m + 1) v W + ∑ i ∈ f.support, tau m i * g i W) * G (m + 1) (labD W) =
          ∑ i ∈ f.support, (res (M (dRelD m 1 i)) (f i) * (relD' m 1 i - tau m i) +
            tau m i * (res (M (dRelD m 1 i)) (f i) - ∑ W ∈ WdD (m + 1) 1, g i W * G (m + 1) (labD W))) := by
        have e1 : ∑ W ∈ WdD (m + 1) 1, (vecL (m + 1) v W + ∑ i ∈ f.support, tau m i * g i W) * G (m + 1) (labD W) =
            GL (m + 1) v + ∑ i ∈ f.support, tau m i * ∑ W ∈ WdD (m + 1) 1, g i W * G (m + 1) (labD W) := by
          simp only [add_mul, Finset.sum_add_distrib, ← hGL]
          congr 1
          simp only [Finset.sum_mul, Finset.mul_sum]
          rw [Finset.sum_comm]
          exact Finset.sum_congr rfl fun i _ => Finset.sum_congr rfl fun W _ => by ring
        rw [e1, ← sub_sub, h3, ← Finset.sum_sub_distrib]
        exact Finset.sum_congr rfl fun i _ => by ring
      beta_reduce
      rw [h4]
      refine Ideal.sum_mem _ fun i _ => Ideal.add_mem _ (Ideal.mul_mem_left _ _ (Ideal.subset_span ⟨i, rfl⟩)) (Ideal.mul_mem_left _ _ (hg2 i))

/-- a polynomial acting as a scalar on the unit acts as this scalar -/
theorem scalar_act (hn : 1 ≤ n) {g c : P} (h : act2 hn g (bas n []) = c • bas n []) {z : WordD → P} (hz : Nrm n z) : act2 hn g z = c • z := by
  conv_lhs => rw [← sum_bas hz, map_sum]
  conv_rhs => rw [← sum_bas hz, Finset.smul_sum]
  refine Finset.sum_congr rfl (fun U hU => ?_)
  rw [map_smul, ← act_G hn _ ((WdD_cls (by omega) _).2 ⟨U, hU, rfl⟩), act2_comm, h, map_smul, smul_comm]

/-- **The presentation.** -/
theorem pres2 (hn : 1 ≤ m + 1) {e : P} (he : e ∈ supported ℚ (specialSet (spcD (m + 1) 1))) :
    act2 hn e (bas (m + 1) []) = 0 ↔ e ∈ I2 m := by
  constructor
  · intro hz
    obtain ⟨f, pf, hf⟩ := span2 hn (e.support.sup (Finsupp.weight (wSym 0))) e he (fun d hd => by exact_mod_cast Finset.le_sup hd)
    have h1 := I2_zero hn hf
    rw [map_sub, LinearMap.sub_apply, act3_special hn he, hz, zero_sub, neg_eq_zero, map_sum, LinearMap.sum_apply] at h1
    have h2 : ∀ W ∈ WdD (m + 1) 1, act3 hn (f W * G (m + 1) (labD W)) (bas (m + 1) []) = f W • bas (m + 1) (labD W) := by
      intro W hW
      have hc : clsD (m + 1) 1 (labD W) := (WdD_cls (by omega) _).2 ⟨W, hW, rfl⟩
      rw [map_mul, Module.End.mul_apply, act3_special hn (G_supp _ hc), act_G hn _ hc, act3_par hn (pf W hW)]
    rw [Finset.sum_congr rfl h2] at h1
    have h3 : ∀ V ∈ WdD (m + 1) 1, f V = 0 := by
      intro V hV
      have := congrFun h1 V
      rw [Finset.sum_apply, Finset.sum_eq_single V] at this
      · rwa [Pi.smul_apply, bas_apply hV, if_pos rfl, smul_eq_mul, mul_one] at this
      · intro W hW hne
        rw [Pi.smul_apply, bas_apply hW, if_neg (Ne.symm hne), smul_zero]
      · exact fun h => absurd hV h
    rw [Finset.sum_eq_zero (fun W hW => by rw [h3 W hW, zero_mul]), sub_zero] at hf
    exact hf
  · intro h
    rw [← act3_special hn he]
    exact I2_zero hn h

end
end TwoProd
end Verif
