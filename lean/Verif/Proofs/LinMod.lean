import Verif.Proofs.Poly
import Mathlib.RingTheory.Adjoin.Basic
import Mathlib.Algebra.Polynomial.AlgebraMap
import Mathlib.Algebra.MvPolynomial.Supported
import Mathlib.LinearAlgebra.Finsupp.LinearCombination
/-!
# Linear combinations of Schubert classes with coefficients in `ℚ[q]`
-/

namespace Verif
open Spec MvPolynomial

/-- Linear combinations of lists over `ℚ[q]`. -/
abbrev LMod := List Int →₀ Polynomial ℚ

/-- A commuting family of operators makes them act through polynomials. -/
noncomputable def commAct {σ A : Type*} [Ring A] [Algebra ℚ A] (t : σ → A)
    (h : ∀ a b, t a * t b = t b * t a) : MvPolynomial σ ℚ →ₐ[ℚ] A :=
  letI : CommRing (Algebra.adjoin ℚ (Set.range t)) :=
    { (Algebra.adjoin ℚ (Set.range t)).toRing with
      mul_comm := (Algebra.isMulCommutative_adjoin ℚ (by
        rintro _ ⟨a, rfl⟩ _ ⟨b, rfl⟩; exact h a b)).is_comm.comm }
  (Subalgebra.val (Algebra.adjoin ℚ (Set.range t))).comp
    (MvPolynomial.aeval (S₁ := Algebra.adjoin ℚ (Set.range t)) (fun s => ⟨t s, Algebra.subset_adjoin ⟨s, rfl⟩⟩))

@[simp] theorem commAct_X {σ A : Type*} [Ring A] [Algebra ℚ A] (t : σ → A)
    (h : ∀ a b, t a * t b = t b * t a) (s : σ) : commAct t h (X s) = t s := by
  unfold commAct
  simp

/-- `a(q)` as an element of the polynomial ring of expressions. -/
noncomputable abbrev inq (a : Polynomial ℚ) : P := Polynomial.aeval (X Sym.q : P) a

/-- The expression of a linear combination. -/
noncomputable def ev : LMod →ₗ[ℚ] P :=
  Finsupp.lsum ℚ (fun l => (LinearMap.mulRight ℚ (X (Sym.S l) : P)).comp
    (Polynomial.aeval (R := ℚ) (X Sym.q : P)).toLinearMap)

theorem ev_apply (x : LMod) : ev x = x.sum (fun l a => inq a * X (.S l)) := by
  rw [ev, Finsupp.lsum_apply]
  rfl

@[simp] theorem ev_single (l : List Int) (a : Polynomial ℚ) :
    ev (Finsupp.single l a) = inq a * X (.S l) := by
  simp [ev]

theorem ev_smul (a : Polynomial ℚ) (x : LMod) : ev (a • x) = inq a * ev x := by
  induction x using Finsupp.induction_linear with
  | zero => simp
  | add x y hx hy => rw [smul_add, map_add, hx, hy, map_add, mul_add]
  | single l b => simp [Finsupp.smul_single, mul_assoc]

/-- Extending `t` linearly over `ℚ[q]`. -/
noncomputable abbrev lin (t : List Int → LMod) : LMod →ₗ[Polynomial ℚ] LMod :=
  Finsupp.linearCombination (Polynomial ℚ) t

theorem subst_inq (σ : List Int → P) (a : Polynomial ℚ) : subst σ (inq a) = inq a := by
  rw [inq, ← Polynomial.aeval_algHom_apply, subst_q]

theorem subst_ev {σ : List Int → P} {t : List Int → LMod} (x : LMod)
    (h : ∀ l ∈ x.support, σ l = ev (t l)) : subst σ (ev x) = ev (lin t x) := by
  rw [ev_apply, Finsupp.sum, map_sum, lin, Finsupp.linearCombination_apply, Finsupp.sum, map_sum]
  apply Finset.sum_congr rfl
  intro l hl
  rw [map_mul, subst_inq, subst_S, h l hl, ev_smul]

theorem inq_mem (s : Set Sym) (hq : Sym.q ∈ s) (a : Polynomial ℚ) : inq a ∈ supported ℚ s := by
  rw [inq, Polynomial.aeval_eq_sum_range]
  refine Subalgebra.sum_mem _ (fun i _ => Subalgebra.smul_mem _ (Subalgebra.pow_mem _ ?_ _) _)
  exact X_mem_supported.2 hq

theorem ev_mem (s : Set Sym) (hq : Sym.q ∈ s) (x : LMod) (h : ∀ l ∈ x.support, Sym.S l ∈ s) :
    ev x ∈ supported ℚ s := by
  rw [ev_apply, Finsupp.sum]
  exact Subalgebra.sum_mem _ (fun l hl =>
    Subalgebra.mul_mem _ (inq_mem s hq _) (X_mem_supported.2 (h l hl)))

/-- The symbols that occur in an expanded expression are variables of its value. -/
theorem sym_mem_vars {w : Poly} (hw : WF w) {t : Mono × ℚ} (ht : t ∈ w) {s : Sym} (hs : s ∈ t.1) :
    s ∈ (den w).vars := by
  rw [mem_vars_iff_mem_support]
  refine ⟨expo t.1, ?_, ?_⟩
  · rw [mem_support_iff, coeff_den_mem hw (m := t.1) (c := t.2) ht]
    exact (hw.2 t ht).1
  · rw [Finsupp.mem_support_iff, expo, Multiset.toFinsupp_apply]
    simpa [List.count_eq_zero] using hs

theorem sym_mem_supported {w : Poly} (hw : WF w) {s : Set Sym} (h : den w ∈ supported ℚ s)
    {t : Mono × ℚ} (ht : t ∈ w) {a : Sym} (ha : a ∈ t.1) : a ∈ s :=
  (mem_supported.1 h) (sym_mem_vars hw ht ha)

/-- Applying a function symbol by symbol to (the expression of) a linear combination. -/
theorem apply_ev {f : List Int → Except PyErr Poly} {σ : List Int → P} {w : Poly} {x : LMod}
    (hw : WF w) (hx : den w = ev x) (h : ∀ l ∈ x.support, Returns (f l) (σ l)) :
    Returns (Poly.apply f w) (subst σ (ev x)) := by
  rw [← hx]
  apply apply_spec
  intro t ht l hl
  have hm : den w ∈ supported ℚ ({Sym.q} ∪ Sym.S '' (x.support : Set (List Int))) := by
    rw [hx]
    exact ev_mem _ (Or.inl rfl) x (fun l hl => Or.inr ⟨l, hl, rfl⟩)
  have := sym_mem_supported hw hm ht hl
  rcases this with h1 | ⟨l', h1, h2⟩
  · cases h1
  · injection h2 with h2
    subst h2
    exact h l' h1

theorem lin_support {t : List Int → LMod} {cls : List Int → Prop}
    (h : ∀ l, ∀ mu ∈ (t l).support, cls mu) (x : LMod) : ∀ mu ∈ (lin t x).support, cls mu := by
  classical
  intro mu hmu
  rw [Finsupp.mem_support_iff, lin, Finsupp.linearCombination_apply, Finsupp.sum, Finsupp.finsetSum_apply] at hmu
  obtain ⟨l, hl, hne⟩ := Finset.exists_ne_zero_of_sum_ne_zero hmu
  apply h l mu
  rw [Finsupp.mem_support_iff]
  intro h0
  apply hne
  simp [h0]

end Verif
