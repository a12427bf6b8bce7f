import Mathlib.RingTheory.MvPolynomial.WeightedHomogeneous
import Mathlib.RingTheory.Ideal.Span
import Verif.Proofs.PresSpanBC
/-!
# From classical presentations to quantum presentations

If homogeneous relations present the classical ring, the same relations with terms divisible by `q` that hold in the quantum ring
present the quantum ring.
-/

namespace Verif
open Spec MvPolynomial

/-! ### The presentation from a spanning set -/

section
variable {X : Space} {pieri : Int → List Int → Except PyErr Poly} {spc : Int → Prop} {cls : List Int → Prop} {B : ℕ}

/-- If as many elements as there are classes span modulo `I`, what acts as zero is in `I`. -/
theorem zero_of_span (Z : RingOn X pieri spc cls B) {ι τ : Type*} [Fintype ι] [Fintype τ] (lab : ι → List Int)
    (hlab : ∀ l, cls l ↔ ∃ u, lab u = l) (hinj : Function.Injective lab) (hcard : Fintype.card τ = Fintype.card ι) {I : Ideal P}
    {g : τ → P} (h : ∀ e ∈ supported ℚ (specialSet spc), ∃ a : τ → Polynomial ℚ, e - ∑ t, inq (a t) * g t ∈ I)
    (h0 : ∀ x ∈ I, Z.Y.act x (Finsupp.single [] 1) = 0) {e : P}
    (he : e ∈ supported ℚ (specialSet spc)) (hz : Z.Y.act e (Finsupp.single [] 1) = 0) : e ∈ I := by
  classical
  let v : τ → LMod := fun t => Z.Y.act (g t) (Finsupp.single [] 1)
  let φ : (τ → Polynomial ℚ) →ₗ[Polynomial ℚ] (ι → Polynomial ℚ) :=
    { toFun := fun a u => (∑ t, a t • v t) (lab u)
      map_add' := fun a b => by
        funext u
        simp [add_smul, Finset.sum_add_distrib]
      map_smul' := fun c a => by
        funext u
        simp [mul_smul, Finset.mul_sum] }
  have hred : ∀ (x : P) (a : τ → Polynomial ℚ), x - ∑ t, inq (a t) * g t ∈ I →
      Z.Y.act x (Finsupp.single [] 1) = ∑ t, a t • v t := by
    intro x a hx
    have := h0 _ hx
    rw [map_sub, LinearMap.sub_apply, sub_eq_zero] at this
    rw [this, map_sum, LinearMap.sum_apply]
    refine Finset.sum_congr rfl fun T _ => ?_
    rw [map_mul, Module.End.mul_apply, Z.Y.act_inq]
  have hsurj : Function.Surjective φ := by
    rw [← LinearMap.range_eq_top, eq_top_iff, ← (Pi.basisFun (Polynomial ℚ) ι).span_eq, Submodule.span_le]
    rintro _ ⟨u, rfl⟩
    have hc : cls (lab u) := (hlab _).2 ⟨u, rfl⟩
    obtain ⟨a, ha⟩ := h _ (Z.Y.G_supported _ hc)
    refine ⟨a, ?_⟩
    funext u'
    show (∑ t, a t • v t) (lab u') = _
    rw [← hred _ _ ha, Z.Y.act_G _ hc, Pi.basisFun_apply, Finsupp.single_apply, Pi.single_apply]
    congr 1
    exact propext ⟨fun h => (hinj h).symm, fun h => by rw [h]⟩
  have hinj' : Function.Injective φ := by
    let i := LinearEquiv.funCongrLeft (Polynomial ℚ) (Polynomial ℚ) (Fintype.equivOfCardEq hcard).symm
    exact OrzechProperty.injective_of_surjective_of_injective i.toLinearMap φ i.injective hsurj
  obtain ⟨a, ha⟩ := h e he
  have h1 := hred _ _ ha
  rw [hz] at h1
  have h2 : φ a = 0 := by
    funext u
    show (∑ t, a t • v t) (lab u) = 0
    rw [← h1]
    rfl
  have h3 : a = 0 := hinj' (h2.trans (map_zero φ).symm)
  have h4 : ∑ t, inq (a t) * g t = 0 := by
    refine Finset.sum_eq_zero fun t _ => ?_
    rw [h3]
    simp [inq]
  rwa [h4, sub_zero] at ha

end

/-! ### Restriction to some monomials -/

section
open Classical in
/-- the monomials with `M` -/
noncomputable def res (M : (Sym →₀ ℕ) → Prop) (f : P) : P := ∑ d ∈ f.support.filter M, monomial d (f.coeff d)

open Classical in
theorem coeff_res (M : (Sym →₀ ℕ) → Prop) (f : P) (d : Sym →₀ ℕ) : (res M f).coeff d = if M d then f.coeff d else 0 := by
  unfold res
  simp only [coeff_sum, coeff_monomial]
  rw [Finset.sum_ite_eq']
  by_cases h : d ∈ f.support
  · by_cases h1 : M d <;> simp [h, h1]
  · have : f.coeff d = 0 := by rwa [notMem_support_iff] at h
    simp [this]

variable {M M' : (Sym →₀ ℕ) → Prop}

theorem mem_res {f : P} {d : Sym →₀ ℕ} (h : d ∈ (res M f).support) : M d := by
  rw [mem_support_iff, coeff_res] at h
  by_contra h'
  exact h (if_neg h')

theorem res_add (f g : P) : res M (f + g) = res M f + res M g := by
  ext d
  rw [coeff_add, coeff_res, coeff_res, coeff_res, coeff_add]
  split <;> simp

theorem res_zero : res M 0 = 0 := by
  ext d
  rw [coeff_res]
  simp

theorem res_sum {ι : Type*} (s : Finset ι) (f : ι → P) : res M (∑ i ∈ s, f i) = ∑ i ∈ s, res M (f i) := by
  classical
  induction s using Finset.induction_on with
  | empty => simp [res_zero]
  | insert i s hi ih => rw [Finset.sum_insert hi, Finset.sum_insert hi, res_add, ih]

theorem res_self {f : P} (h : ∀ d ∈ f.support, M d) : res M f = f := by
  ext d
  rw [coeff_res]
  split
  · rfl
  · rename_i h'
    by_contra h2
    exact h' (h d (mem_support_iff.2 (Ne.symm h2)))

theorem res_none {f : P} (h : ∀ d ∈ f.support, ¬ M d) : res M f = 0 := by
  ext d
  rw [coeff_res, coeff_zero]
  split
  · rename_i h'
    by_contra h2
    exact h d (mem_support_iff.2 h2) h'
  · rfl

theorem res_compl (f : P) : res M f + res (fun d => ¬ M d) f = f := by
  ext d
  rw [coeff_add, coeff_res, coeff_res]
  by_cases h : M d <;> simp [h]

theorem res_mul {f r : P} (h : ∀ d, ∀ d' ∈ r.support, (M (d + d') ↔ M' d)) : res M (f * r) = res M' f * r := by
  classical
  conv_lhs => rw [← res_compl (M := M') f, add_mul, res_add]
  rw [res_self (f := res M' f * r), res_none (f := res (fun d => ¬ M' d) f * r), add_zero]
  · intro d hd
    obtain ⟨a, ha, b, hb, rfl⟩ := Finset.mem_add.1 (support_mul _ _ hd)
    rw [h a b hb]
    exact mem_res ha
  · intro d hd
    obtain ⟨a, ha, b, hb, rfl⟩ := Finset.mem_add.1 (support_mul _ _ hd)
    rw [h a b hb]
    exact mem_res ha

end

/-! ### `q = 0` -/

theorem q0_zero_iff {z : LMod} (h : q0 z = 0) : ∃ z' : LMod, z = (Polynomial.X : Polynomial ℚ) • z' ∧ z'.support ⊆ z.support := by
  refine ⟨z.mapRange Polynomial.divX (by simp), ?_, Finsupp.support_mapRange⟩
  ext1 l
  rw [Finsupp.smul_apply, Finsupp.mapRange_apply, smul_eq_mul, mul_comm]
  have h1 := congrArg (fun x => x l) h
  simp only [q0_apply, Finsupp.zero_apply] at h1
  have h2 := (z l).divX_mul_X_add
  rw [h1, add_zero] at h2
  exact h2.symm

theorem q0_X_smul (z : LMod) : q0 ((Polynomial.X : Polynomial ℚ) • z) = 0 := by
  rw [q0_smul]
  simp

theorem q0_q0 (z : LMod) : q0 (q0 z) = q0 z := by
  ext1 l
  simp [q0_apply]

section
variable {X : Space} {pieri pieri' : Int → List Int → Except PyErr Poly} {spc : Int → Prop} {cls : List Int → Prop} {B : ℕ}

theorem q0_congr (Z : RingOn X pieri spc cls B) (a : P) {y z : LMod} (h : q0 y = q0 z) : q0 (Z.Y.act a y) = q0 (Z.Y.act a z) := by
  rw [← sub_eq_zero, ← map_sub] at h
  obtain ⟨w, hw, -⟩ := q0_zero_iff h
  rw [← sub_eq_zero, ← map_sub, ← map_sub, hw, map_smul, q0_X_smul]

theorem q0_act (Z : RingOn X pieri spc cls B) (Z' : RingOn X pieri' spc cls B) (hq : ∀ p l, spc p → q0 (Z.Y.t p l) = Z'.Y.t p l)
    {e : P} (he : e ∈ supported ℚ (specialSet spc)) : ∀ x, q0 (Z.Y.act e x) = q0 (Z'.Y.act e x) := by
  replace he : e ∈ Algebra.adjoin ℚ ((MvPolynomial.X : Sym → P) '' specialSet spc) := he
  induction he using Algebra.adjoin_induction with
  | mem s hs =>
    intro x
    obtain ⟨t, ht, rfl⟩ := hs
    rcases ht with rfl | ⟨p, hp, rfl⟩
    · rw [Z.Y.act_q, Z'.Y.act_q]
    · rw [Z.Y.act_special hp, Z'.Y.act_special hp]
      unfold lin
      rw [Finsupp.linearCombination_apply, Finsupp.linearCombination_apply, Finsupp.sum, Finsupp.sum, map_sum, map_sum]
      refine Finset.sum_congr rfl fun l _ => ?_
      rw [q0_smul, q0_smul, ← hq p l hp, q0_q0]
  | algebraMap c =>
    intro x
    have h1 : Z.Y.act (algebraMap ℚ P c) x = (Polynomial.C c : Polynomial ℚ) • x := Z.Y.act_C c x
    have h2 : Z'.Y.act (algebraMap ℚ P c) x = (Polynomial.C c : Polynomial ℚ) • x := Z'.Y.act_C c x
    rw [h1, h2]
  | add a b _ _ ha hb =>
    intro x
    rw [map_add, map_add, LinearMap.add_apply, LinearMap.add_apply, map_add, map_add, ha, hb]
  | mul a b _ _ ha hb =>
    intro x
    rw [map_mul, map_mul, Module.End.mul_apply, Module.End.mul_apply, ha]
    exact q0_congr Z' a (hb x)

/-! ### Lifting -/

/-- degrees -/
def wSym (δ : ℕ) : Sym → ℕ
  | .q => δ
  | .S l => l.sum.toNat
  | _ => 0

/-- **Lifting the presentation.** -/
theorem pres_lift (Z : RingOn X pieri spc cls B) (Z' : RingOn X pieri' spc cls B) (hq : ∀ p l, spc p → q0 (Z.Y.t p l) = Z'.Y.t p l)
    {δ : ℕ} (hδ : 1 ≤ δ) {ι : Type*} {rel t : ι → P} {d : ι → ℕ} (hrel : ∀ i, IsWeightedHomogeneous (wSym δ) (rel i) (d i))
    (ht : ∀ i, ∀ m ∈ (t i).support, Finsupp.weight (wSym δ) m + δ = d i) (hrs : ∀ i, rel i ∈ supported ℚ (specialSet spc))
    (hts : ∀ i, t i ∈ supported ℚ (specialSet spc))
    (hcl : ∀ e ∈ supported ℚ (specialSet spc), Z'.Y.act e (Finsupp.single [] 1) = 0 → e ∈ Ideal.span (Set.range rel))
    (h0 : ∀ i, Z.Y.act (rel i + MvPolynomial.X .q * t i) (Finsupp.single [] 1) = 0) :
    ∀ (D : ℕ) (e : P), e ∈ supported ℚ (specialSet spc) → (∀ m ∈ e.support, Finsupp.weight (wSym δ) m ≤ D) →
      Z.Y.act e (Finsupp.single [] 1) = 0 → e ∈ Ideal.span (Set.range fun i => rel i + MvPolynomial.X .q * t i) := by
  classical
  intro D
  induction D using Nat.strong_induction_on with
  | _ D ih =>
    intro e he hD hz
    have hsup : ∀ {f : P}, f ∈ supported ℚ (specialSet spc) ↔ ∀ m ∈ f.support, ∀ s ∈ m.support, s ∈ specialSet spc := by
      intro f
      rw [mem_supported]
      constructor
      · intro h m hm s hs
        exact h (Finset.mem_coe.2 ((mem_vars s).2 ⟨m, hm, hs⟩))
      · intro h s hs
        obtain ⟨m, hm, hs⟩ := (mem_vars s).1 (Finset.mem_coe.1 hs)
        exact h m hm s hs
    -- the classical ring
    have h1 : q0 (Z'.Y.act e (Finsupp.single [] 1)) = 0 := by rw [← q0_act Z Z' hq he, hz, map_zero]
    obtain ⟨z, hz1, hz2⟩ := q0_zero_iff h1
    have hzc : ∀ l ∈ z.support, cls l := fun l hl => Z'.Y.act_support e (GSys.one_cls Z'.nil) l (hz2 hl)
    have hqm : (MvPolynomial.X Sym.q : P) ∈ supported ℚ (specialSet spc) := by
      rw [X_mem_supported]
      exact Or.inl rfl
    have hGm : Z'.Y.GL z ∈ supported ℚ (specialSet spc) := Z'.Y.GL_supported hzc
    have hm2 : e - MvPolynomial.X .q * Z'.Y.GL z ∈ supported ℚ (specialSet spc) := by
      have := Subalgebra.mul_mem _ hqm hGm
      exact Subalgebra.sub_mem _ he this
    have ha2 : Z'.Y.act (e - MvPolynomial.X .q * Z'.Y.GL z) (Finsupp.single [] 1) = 0 := by
      rw [map_sub, LinearMap.sub_apply, map_mul, Module.End.mul_apply, Z'.Y.act_GL hzc, hz1, Z'.Y.act_q, sub_self]
    have h2 := hcl _ hm2 ha2
    obtain ⟨f, hf⟩ := (Finsupp.mem_ideal_span_range_iff_exists_finsupp).1 h2
    -- restrict to the monomials in question
    let M : ℕ → (Sym →₀ ℕ) → Prop := fun c m => (∀ s ∈ m.support, s ∈ specialSet spc) ∧ Finsupp.weight (wSym δ) m + c ≤ D
    have hMul : ∀ (x r : P) (c : ℕ), r ∈ supported ℚ (specialSet spc) → IsWeightedHomogeneous (wSym δ) r c →
        res (M 0) (x * r) = res (M c) x * r := by
      intro x r c hr1 hr2
      refine res_mul fun m m' hm' => ?_
      have e1 : Finsupp.weight (wSym δ) m' = c := hr2 (mem_support_iff.1 hm')
      have e2 := hsup.1 hr1 m' hm'
      show (∀ s ∈ (m + m').support, _) ∧ _ ↔ (∀ s ∈ m.support, _) ∧ _
      rw [map_add, e1, add_zero, Finsupp.support_add_eq_union]
      refine and_congr ?_ Iff.rfl
      constructor
      · intro h s hs
        exact h s (Finset.mem_union_left _ hs)
      · intro h s hs
        rcases Finset.mem_union.1 hs with hs | hs
        · exact h s hs
        · exact e2 s hs
    have hself : res (M 0) e = e := res_self fun m hm => ⟨hsup.1 he m hm, hD m hm⟩
    have h3 : e = ∑ i ∈ f.support, res (M (d i)) (f i) * rel i + MvPolynomial.X .q * res (M δ) (Z'.Y.GL z) := by
      have e1 : e = ∑ i ∈ f.support, f i * rel i + Z'.Y.GL z * MvPolynomial.X .q := by
        rw [Finsupp.sum] at hf
        rw [hf]
        ring
      conv_lhs => rw [← hself, e1, res_add, res_sum, hMul _ _ δ hqm (isWeightedHomogeneous_X ℚ (wSym δ) Sym.q)]
      rw [mul_comm (MvPolynomial.X Sym.q)]
      congr 1
      exact Finset.sum_congr rfl fun i _ => hMul _ _ _ (hrs i) (hrel i)
    have hresS : ∀ (c : ℕ) (x : P), res (M c) x ∈ supported ℚ (specialSet spc) := fun c x => hsup.2 fun m hm => (mem_res hm).1
    -- the quotient by `q`
    set e' := res (M δ) (Z'.Y.GL z) - ∑ i ∈ f.support, res (M (d i)) (f i) * t i with he'
    have h4 : e = ∑ i ∈ f.support, res (M (d i)) (f i) * (rel i + MvPolynomial.X .q * t i) + MvPolynomial.X .q * e' := by
      conv_lhs => rw [h3]
      rw [he', mul_sub, Finset.mul_sum]
      simp only [mul_add, Finset.sum_add_distrib]
      have : ∑ i ∈ f.support, res (M (d i)) (f i) * (MvPolynomial.X .q * t i) =
          ∑ i ∈ f.support, MvPolynomial.X .q * (res (M (d i)) (f i) * t i) := Finset.sum_congr rfl fun i _ => by ring
      rw [this]
      ring
    have h5 : Z.Y.act e' (Finsupp.single [] 1) = 0 := by
      have e1 := hz
      rw [h4, map_add, LinearMap.add_apply, map_sum, LinearMap.sum_apply, Finset.sum_eq_zero, zero_add, map_mul, Module.End.mul_apply,
        Z.Y.act_q] at e1
      · ext1 l
        have e2 := congrArg (fun x => x l) e1
        simp only [Finsupp.smul_apply, smul_eq_mul, Finsupp.zero_apply] at e2
        rw [Finsupp.zero_apply]
        exact (mul_eq_zero.1 e2).resolve_left Polynomial.X_ne_zero
      · intro i _
        rw [map_mul, Module.End.mul_apply, h0 i, map_zero]
    have h6 : e' ∈ supported ℚ (specialSet spc) :=
      Subalgebra.sub_mem _ (hresS _ _) (Subalgebra.sum_mem _ fun i _ => Subalgebra.mul_mem _ (hresS _ _) (hts i))
    have h7 : ∀ m ∈ e'.support, Finsupp.weight (wSym δ) m + δ ≤ D := by
      intro m hm
      rw [he'] at hm
      rcases Finset.mem_union.1 (support_sub _ _ _ hm) with hm | hm
      · exact (mem_res hm).2
      · obtain ⟨i, -, hi⟩ := Finset.mem_biUnion.1 (support_sum hm)
        obtain ⟨a, ha, b, hb, rfl⟩ := Finset.mem_add.1 (support_mul _ _ hi)
        have e1 := (mem_res ha).2
        have e2 := ht i b hb
        rw [map_add]
        omega
    have h8 : e' ∈ Ideal.span (Set.range fun i => rel i + MvPolynomial.X .q * t i) := by
      by_cases hD' : δ ≤ D
      · exact ih (D - δ) (by omega) e' h6 (fun m hm => by have := h7 m hm; omega) h5
      · have : e' = 0 := by
          ext m
          rw [coeff_zero]
          by_contra h
          have := h7 m (mem_support_iff.2 h)
          omega
        rw [this]
        exact Ideal.zero_mem _
    rw [h4]
    refine Ideal.add_mem _ (Ideal.sum_mem _ fun i _ => Ideal.mul_mem_left _ _ (Ideal.subset_span ⟨i, rfl⟩)) (Ideal.mul_mem_left _ _ h8)

end

end Verif
