import Verif.Proofs.RingA
import Verif.Proofs.RingUser
/-!
# Consequences: `q = 0`, equality of the two Giambelli formulas, grading, integrality, duality
-/

namespace Verif
open Spec MvPolynomial Cyl

variable {m : Nat} {k n : ℤ}

/-! ### Quantum Giambelli = classical Giambelli -/

theorem rest_eq (hk : 0 ≤ k) (hn : n = m + 1 + k) {p : Int} {l : List Int} (hl : clsA (m + 1) k (p :: l)) :
    (sysQ m hk hn).rest p l = (sysC m hk hn).rest p l := by
  obtain ⟨h1, h2, h3, h4, h5, h6⟩ := stepA hl
  show tq m k p.toNat l - _ = tc m k p.toNat l - _
  rw [tq_eq_of_small h3 h5]

theorem G_eq (hk : 0 ≤ k) (hn : n = m + 1 + k) : ∀ l, clsA (m + 1) k l →
    (sysQ m hk hn).G l = (sysC m hk hn).G l := by
  refine (sysC m hk hn).G_induction (Q := fun l => (sysQ m hk hn).G l = (sysC m hk hn).G l) ?_ ?_
  · intro _; rw [GSys.G_nil, GSys.G_nil]
  · intro p l hl h1 h2 hl' ih ihr
    rw [GSys.G_cons _ hl, GSys.G_cons _ hl, ih, rest_eq hk hn hl]
    congr 1
    exact subst_ev_congr _ (fun mu hmu => (ihr mu hmu).2)

theorem GL_eq (hk : 0 ≤ k) (hn : n = m + 1 + k) {x : LMod} (hx : ∀ l ∈ x.support, clsA (m + 1) k l) :
    (sysQ m hk hn).GL x = (sysC m hk hn).GL x :=
  subst_ev_congr _ (fun mu hmu => G_eq hk hn mu (hx mu hmu))

/-! ### General principle: a property of operators -/

/-- If operators `D_a` (additive, closed under composition with indices adding) contain the Pieri
operators, they contain multiplication by classes. -/
theorem GSys.G_operator {pieri : Int → List Int → Except PyErr Poly} {K : Nat} {cls : List Int → Prop}
    (Y : GSys pieri K cls) (D : ℤ → Module.End (Polynomial ℚ) LMod → Prop)
    (h1 : D 0 1) (hmul : ∀ a b S T, D a S → D b T → D (a + b) (S * T))
    (hsub : ∀ a S T, D a S → D a T → D a (S - T)) (hzero : ∀ a, D a 0) (hadd : ∀ a S T, D a S → D a T → D a (S + T))
    (hp : ∀ p : Nat, 1 ≤ p → p ≤ K → D p (lin (Y.t p)))
    (hr : ∀ p l, cls (p :: l) → ∀ mu ∈ (Y.rest p l).support, ∀ T, D mu.sum T →
      D (p :: l).sum (((Y.rest p l) mu) • T)) :
    ∀ l, cls l → D l.sum (Y.act (Y.G l)) := by
  refine Y.G_induction (Q := fun l => D l.sum (Y.act (Y.G l))) ?_ ?_
  · intro _; rw [Y.G_nil, map_one]; simpa using h1
  · intro p l hl hp1 hp2 hl' ih ihr
    have hX : Y.act (X (.S [p])) = lin (Y.t p.toNat) := by
      apply LinearMap.ext
      intro x
      have := Y.act_special (i := p.toNat) (by omega) (by omega) x
      rwa [show ((p.toNat : Nat) : Int) = p by omega] at this
    rw [Y.G_cons hl, map_sub, map_mul, hX, subst_ev_eq, map_sum]
    apply hsub
    · have h := hmul _ _ _ _ (hp p.toNat (by omega) (by omega)) ih
      rwa [show ((p.toNat : Nat) : Int) = p by omega, ← List.sum_cons] at h
    · apply Finset.sum_induction _ (D (p :: l).sum) (hadd _) (hzero _)
      intro mu hmu
      have := hr p l hl mu hmu _ (ihr mu hmu).2
      have he : Y.act (inq ((Y.rest p l) mu) * Y.G mu) = ((Y.rest p l) mu) • Y.act (Y.G mu) := by
        apply LinearMap.ext
        intro x
        rw [map_mul, Module.End.mul_apply, Y.act_inq, LinearMap.smul_apply]
      rw [he]; exact this

/-! ### Setting `q = 0` -/

theorem q0_rest (hk : 0 ≤ k) (hn : n = m + 1 + k) (p : Int) (l : List Int) :
    q0 ((sysC m hk hn).rest p l) = (sysC m hk hn).rest p l := by
  show q0 (tc m k p.toNat l - _) = tc m k p.toNat l - _
  rw [map_sub, q0_tc, q0_single]; simp

theorem act_special' {pieri : Int → List Int → Except PyErr Poly} {K : Nat} {cls : List Int → Prop}
    (Y : PSys pieri K cls) {p : Int} (h1 : 1 ≤ p) (h2 : p ≤ K) (x : LMod) :
    Y.act (X (.S [p])) x = lin (Y.t p.toNat) x := by
  have := Y.act_special (i := p.toNat) (by omega) (by omega) x
  rwa [show ((p.toNat : Nat) : Int) = p by omega] at this

theorem q0_G (hk : 0 ≤ k) (hn : n = m + 1 + k) : ∀ l, clsA (m + 1) k l → ∀ y,
    q0 ((sysQ m hk hn).act ((sysQ m hk hn).G l) y) = (sysC m hk hn).act ((sysC m hk hn).G l) (q0 y) := by
  refine (sysC m hk hn).G_induction (Q := fun l => ∀ y,
    q0 ((sysQ m hk hn).act ((sysQ m hk hn).G l) y) = (sysC m hk hn).act ((sysC m hk hn).G l) (q0 y)) ?_ ?_
  · intro _ y; rw [GSys.G_nil, GSys.G_nil, map_one, map_one]; rfl
  · intro p l hl h1 h2 hl' ih ihr y
    rw [GSys.G_cons _ hl, GSys.G_cons _ hl, rest_eq hk hn hl, map_sub, map_sub, map_mul, map_mul,
      LinearMap.sub_apply, LinearMap.sub_apply, Module.End.mul_apply, Module.End.mul_apply,
      act_special' _ h1 h2, act_special' _ h1 h2, map_sub, q0_lin (t := (sysQ m hk hn).t p.toNat) (t' := (sysC m hk hn).t p.toNat) (q0_tq p.toNat), ih,
      subst_ev_eq, subst_ev_eq, map_sum, map_sum, LinearMap.sum_apply, LinearMap.sum_apply, map_sum]
    congr 1
    apply Finset.sum_congr rfl
    intro mu hmu
    rw [map_mul, map_mul, Module.End.mul_apply, Module.End.mul_apply, PSys.act_inq, PSys.act_inq, q0_smul,
      (ihr mu hmu).2]
    congr 1
    have := q0_apply ((sysC m hk hn).rest p l) mu
    rw [q0_rest] at this
    exact this.symm

theorem q0_prod (hk : 0 ≤ k) (hn : n = m + 1 + k) {x : LMod} (hx : ∀ l ∈ x.support, clsA (m + 1) k l) (y : LMod) :
    q0 ((sysQ m hk hn).prod x y) = (sysC m hk hn).prod (q0 x) (q0 y) := by
  classical
  have hs : ∀ (l : List Int) (a : Polynomial ℚ), clsA (m + 1) k l →
      q0 ((sysQ m hk hn).prod (Finsupp.single l a) y) = (sysC m hk hn).prod (q0 (Finsupp.single l a)) (q0 y) := by
    intro l a hl
    rw [q0_single, GSys.prod, GSys.prod, GSys.GL, GSys.GL, ev_single, ev_single, map_mul (subst _), map_mul (subst _), subst_inq,
      subst_inq, subst_S, subst_S, map_mul, map_mul, Module.End.mul_apply, Module.End.mul_apply, PSys.act_inq,
      PSys.act_inq, q0_smul, q0_G hk hn l hl]
  have key : ∀ s : Finset (List Int), (∀ l ∈ s, clsA (m + 1) k l) →
      q0 ((sysQ m hk hn).prod (∑ l ∈ s, Finsupp.single l (x l)) y) =
        (sysC m hk hn).prod (q0 (∑ l ∈ s, Finsupp.single l (x l))) (q0 y) := by
    intro s
    induction s using Finset.induction_on with
    | empty => intro _; simp [GSys.prod, GSys.GL]
    | insert l s hl ih =>
      intro h
      rw [Finset.sum_insert hl, GSys.prod_add_left, map_add, map_add, GSys.prod_add_left,
        hs l _ (h l (by simp)), ih (fun l' hl' => h l' (by simp [hl']))]
  have := key x.support hx
  rwa [show ∑ l ∈ x.support, Finsupp.single l (x l) = x from Finsupp.sum_single x] at this

/-- Setting `q = 0` in an expanded expression removes the terms with `q`. -/
theorem den_qfree {w : Poly} (hw : WF w) {x : LMod} (hx : den w = ev x) :
    WF (w.filter (fun t => decide (Sym.q ∉ t.1))) ∧
      den (w.filter (fun t => decide (Sym.q ∉ t.1))) = ev (q0 x) := by
  have hwf : WF (w.filter (fun t => decide (Sym.q ∉ t.1))) := wf_filter hw _
  refine ⟨hwf, ?_⟩
  obtain ⟨y, hy, _⟩ := linComb_ev (cls := fun _ => True) (p := w.filter (fun t => decide (Sym.q ∉ t.1))) (by
    intro t ht
    obtain ⟨d, l, h, _⟩ := terms_of_ev hw hx (List.mem_filter.1 ht).1
    exact ⟨d, l, h, trivial⟩)
  rw [hy]
  congr 1
  ext l d
  rw [q0_apply, ← coeff_ev, ← hy, ← expo_qmono]
  cases d with
  | zero =>
    rw [Polynomial.coeff_C_zero, ← coeff_ev, ← expo_qmono, ← hx]
    by_cases h : coeff (expo (List.replicate 0 Sym.q ++ [Sym.S l])) (den w) = 0
    · rw [h]
      apply coeff_den_not_mem hwf (qmono_sorted 0 l)
      intro hmem
      rw [List.mem_map] at hmem
      obtain ⟨t, ht, he⟩ := hmem
      have h1 := (List.mem_filter.1 ht).1
      have := coeff_den_mem hw (m := t.1) (c := t.2) h1
      rw [he, h] at this
      exact (hw.2 t h1).1 this.symm
    · have hmem := mem_of_coeff_ne hw (qmono_sorted 0 l) h
      exact coeff_den_mem hwf (List.mem_filter.2 ⟨hmem, by simp⟩)
  | succ d =>
    rw [Polynomial.coeff_C_succ]
    apply coeff_den_not_mem hwf (qmono_sorted _ l)
    intro hmem
    rw [List.mem_map] at hmem
    obtain ⟨t, ht, he⟩ := hmem
    have h1 := (List.mem_filter.1 ht).2
    rw [he] at h1
    simp [List.replicate_succ] at h1

theorem q0_of_qfree {w : Poly} (hw : WF w) {x : LMod} (hx : den w = ev x) (h : QFree w) : q0 x = x := by
  have h1 := (den_qfree hw hx).2
  rw [List.filter_eq_self.2 (fun t ht => by simpa using h t ht), hx] at h1
  exact (ev_injective h1).symm

/-! ### Grading -/

/-- `x` is homogeneous of degree `D`, with `deg q = n`. -/
def HomX (n : ℤ) (D : ℤ) (x : LMod) : Prop := ∀ l d, (x l).coeff d ≠ 0 → l.sum + d * n = D

theorem HomX.add {D : ℤ} {x y : LMod} (hx : HomX n D x) (hy : HomX n D y) : HomX n D (x + y) := by
  intro l d h
  rw [Finsupp.add_apply, Polynomial.coeff_add] at h
  by_cases h1 : (x l).coeff d = 0
  · apply hy; intro h2; rw [h1, h2] at h; simp at h
  · exact hx l d h1

theorem HomX.neg {D : ℤ} {x : LMod} (hx : HomX n D x) : HomX n D (-x) := by
  intro l d h
  rw [Finsupp.neg_apply, Polynomial.coeff_neg, neg_ne_zero] at h
  exact hx l d h

theorem HomX.zero (D : ℤ) : HomX n D 0 := by
  intro l d h; simp at h

theorem HomX.sum {ι : Type*} {s : Finset ι} {F : ι → LMod} {D : ℤ} (h : ∀ i ∈ s, HomX n D (F i)) :
    HomX n D (∑ i ∈ s, F i) :=
  Finset.sum_induction _ (HomX n D) (fun _ _ => HomX.add) (HomX.zero D) h

theorem HomX.monomial (l : List Int) (d : Nat) (c : ℚ) : HomX n (l.sum + d * n) (Finsupp.single l (Polynomial.monomial d c)) := by
  classical
  intro l' d' h
  rw [Finsupp.single_apply] at h
  split at h
  · rename_i hl; subst hl
    rw [Polynomial.coeff_monomial] at h
    split at h
    · rename_i hd; subst hd; rfl
    · exact absurd rfl h
  · simp at h

/-- An operator raising the degree by `a`. -/
def HomT (n : ℤ) (a : ℤ) (T : Module.End (Polynomial ℚ) LMod) : Prop := ∀ D x, HomX n D x → HomX n (a + D) (T x)

theorem homT_of_basis {a : ℤ} {T : Module.End (Polynomial ℚ) LMod}
    (h : ∀ l, HomX n (a + l.sum) (T (Finsupp.single l 1))) : HomT n a T := by
  intro D x hx
  have h1 : x = ∑ l ∈ x.support, ∑ d ∈ (x l).support, (Polynomial.monomial d ((x l).coeff d)) • Finsupp.single l 1 := by
    conv_lhs => rw [← Finsupp.sum_single x, Finsupp.sum]
    apply Finset.sum_congr rfl
    intro l _
    rw [← Finset.sum_smul, ← Polynomial.sum_def, Polynomial.sum_monomial_eq]
    simp
  rw [h1, map_sum]
  apply HomX.sum
  intro l hl
  rw [map_sum]
  apply HomX.sum
  intro d hd
  rw [map_smul]
  have hD := hx l d (Polynomial.mem_support_iff.1 hd)
  intro l' d' hne
  rw [Finsupp.smul_apply, smul_eq_mul, Polynomial.coeff_mul] at hne
  obtain ⟨⟨i, j⟩, hij, hne⟩ := Finset.exists_ne_zero_of_sum_ne_zero hne
  rw [Finset.mem_antidiagonal] at hij
  simp only [Polynomial.coeff_monomial] at hne hij
  have hdi : d = i := by
    by_contra hdi
    rw [if_neg hdi, zero_mul] at hne
    exact hne rfl
  have := h l l' j (fun h0 => hne (by rw [h0, mul_zero]))
  rw [← hD, ← hij, hdi]
  push_cast
  linarith

theorem tq_hom (hn : n = m + 1 + k) (p : Nat) : HomT n p (lin (tq m k p)) := by
  apply homT_of_basis
  intro l
  rw [lin, Finsupp.linearCombination_single, one_smul]
  unfold tq
  split
  · rename_i hl
    apply HomX.sum
    intro g hg
    have hs := (mem_Om.1 hg).2.2
    rw [vec_sum hl.1 hl.2.1] at hs
    unfold Pi1
    split
    · have := HomX.monomial (n := n) (lab g) 0 1
      rw [lab_sum, hs] at this
      convert this using 1
      · push_cast; ring
      · simp
    · have := HomX.monomial (n := n) (lab (rot k g)) 1 1
      rw [lab_sum, sum_rot, hs] at this
      convert this using 1
      · rw [hn]; push_cast; ring
      · rw [Polynomial.monomial_one_one_eq_X]
  · exact HomX.zero _

theorem tc_hom (p : Nat) : HomT n p (lin (tc m k p)) := by
  apply homT_of_basis
  intro l
  rw [lin, Finsupp.linearCombination_single, one_smul]
  unfold tc
  split
  · rename_i hl
    apply HomX.sum
    intro g hg
    have hs := (mem_Om.1 (Finset.mem_filter.1 hg).1).2.2
    rw [vec_sum hl.1 hl.2.1] at hs
    have := HomX.monomial (n := n) (lab g) 0 1
    rw [lab_sum, hs] at this
    convert this using 1
    · push_cast; ring
    · simp
  · exact HomX.zero _

theorem hom_single (l : List Int) : HomX n l.sum (Finsupp.single l 1) := by
  have := HomX.monomial (n := n) l 0 1
  simpa using this

/-- Multiplication by a class raises the degree by its size. -/
theorem GSys.G_hom {pieri : Int → List Int → Except PyErr Poly} {K : Nat} {cls : List Int → Prop}
    (Y : GSys pieri K cls) (hp : ∀ p : Nat, HomT n p (lin (Y.t p))) :
    ∀ l, cls l → HomT n l.sum (Y.act (Y.G l)) := by
  apply Y.G_operator (HomT n)
  · intro D x hx; simpa using hx
  · intro a b S T hS hT D x hx
    have := hS _ _ (hT D x hx)
    rwa [← add_assoc] at this
  · intro a S T hS hT D x hx
    rw [LinearMap.sub_apply, sub_eq_add_neg]
    exact (hS D x hx).add (hT D x hx).neg
  · intro a D x hx; exact HomX.zero _
  · intro a S T hS hT D x hx; exact (hS D x hx).add (hT D x hx)
  · exact fun p _ _ => hp p
  · intro p l hl mu hmu T hT D x hx
    have hp1 := (Y.step p l hl).1
    -- degree of the rest
    have hrest : HomX n (p :: l).sum (Y.rest p l) := by
      unfold GSys.rest
      rw [sub_eq_add_neg]
      apply HomX.add
      · have := hp p.toNat _ _ (hom_single l)
        rw [lin, Finsupp.linearCombination_single, one_smul] at this
        rwa [show ((p.toNat : Nat) : Int) = p by omega, ← List.sum_cons] at this
      · exact (hom_single _).neg
    intro l' d' hne
    rw [LinearMap.smul_apply, Finsupp.smul_apply, smul_eq_mul, Polynomial.coeff_mul] at hne
    obtain ⟨⟨i, j⟩, hij, hne⟩ := Finset.exists_ne_zero_of_sum_ne_zero hne
    rw [Finset.mem_antidiagonal] at hij
    have h1 := hrest mu i (fun h => hne (by simp [h]))
    have h2 := hT D x hx l' j (fun h => hne (by simp [h]))
    simp only at hij
    rw [← hij]
    push_cast
    linarith

/-! ### Integrality -/

/-- All coefficients are integers. -/
def IntX (x : LMod) : Prop := ∀ l d, ∃ z : ℤ, (x l).coeff d = z

theorem IntX.add {x y : LMod} (hx : IntX x) (hy : IntX y) : IntX (x + y) := by
  intro l d
  obtain ⟨a, ha⟩ := hx l d
  obtain ⟨b, hb⟩ := hy l d
  exact ⟨a + b, by simp [ha, hb]⟩

theorem IntX.sub {x y : LMod} (hx : IntX x) (hy : IntX y) : IntX (x - y) := by
  intro l d
  obtain ⟨a, ha⟩ := hx l d
  obtain ⟨b, hb⟩ := hy l d
  exact ⟨a - b, by simp [ha, hb]⟩

theorem IntX.zero : IntX 0 := fun l d => ⟨0, by simp⟩

theorem IntX.sum {ι : Type*} {s : Finset ι} {F : ι → LMod} (h : ∀ i ∈ s, IntX (F i)) : IntX (∑ i ∈ s, F i) :=
  Finset.sum_induction _ IntX (fun _ _ => IntX.add) IntX.zero h

theorem IntX.single (l : List Int) (d : Nat) (z : ℤ) : IntX (Finsupp.single l (Polynomial.monomial d (z : ℚ))) := by
  classical
  intro l' d'
  rw [Finsupp.single_apply]
  split
  · rw [Polynomial.coeff_monomial]
    split
    · exact ⟨z, rfl⟩
    · exact ⟨0, by simp⟩
  · exact ⟨0, by simp⟩

theorem IntX.smul {a : Polynomial ℚ} (ha : ∀ d, ∃ z : ℤ, a.coeff d = z) {x : LMod} (hx : IntX x) : IntX (a • x) := by
  intro l d
  rw [Finsupp.smul_apply, smul_eq_mul, Polynomial.coeff_mul]
  apply Finset.sum_induction _ (fun r : ℚ => ∃ z : ℤ, r = z)
  · rintro _ _ ⟨a, rfl⟩ ⟨b, rfl⟩; exact ⟨a + b, by push_cast; rfl⟩
  · exact ⟨0, by simp⟩
  · intro ij _
    obtain ⟨a', ha'⟩ := ha ij.1
    obtain ⟨b', hb'⟩ := hx l ij.2
    exact ⟨a' * b', by rw [ha', hb']; push_cast; rfl⟩

theorem intT_of_basis {t : List Int → LMod} (h : ∀ l, IntX (t l)) {x : LMod} (hx : IntX x) : IntX (lin t x) := by
  rw [lin, Finsupp.linearCombination_apply, Finsupp.sum]
  exact IntX.sum (fun l _ => IntX.smul (hx l) (h l))

theorem tq_int (p : Nat) (l : List Int) : IntX (tq m k p l) := by
  unfold tq
  split
  · apply IntX.sum
    intro g _
    unfold Pi1
    split
    · simpa using IntX.single (lab g) 0 1
    · simpa [Polynomial.monomial_one_one_eq_X] using IntX.single (lab (rot k g)) 1 1
  · exact IntX.zero

theorem tc_int (p : Nat) (l : List Int) : IntX (tc m k p l) := by
  unfold tc
  split
  · apply IntX.sum
    intro g _
    simpa using IntX.single (lab g) 0 1
  · exact IntX.zero

theorem GSys.G_int {pieri : Int → List Int → Except PyErr Poly} {K : Nat} {cls : List Int → Prop}
    (Y : GSys pieri K cls) (hp : ∀ p l, IntX (Y.t p l)) :
    ∀ l, cls l → ∀ x, IntX x → IntX (Y.act (Y.G l) x) := by
  have := Y.G_operator (fun _ T => ∀ x, IntX x → IntX (T x))
  refine this ?_ ?_ ?_ ?_ ?_ ?_ ?_
  · intro x hx; exact hx
  · intro a b S T hS hT x hx; exact hS _ (hT x hx)
  · intro a S T hS hT x hx; exact (hS x hx).sub (hT x hx)
  · intro a x hx; exact IntX.zero
  · intro a S T hS hT x hx; exact (hS x hx).add (hT x hx)
  · intro p _ _ x hx; exact intT_of_basis (hp p) hx
  · intro p l hl mu hmu T hT x hx
    apply IntX.smul _ (hT x hx)
    have : IntX (Y.rest p l) := (hp _ _).sub (by simpa using IntX.single (p :: l) 0 1)
    exact this mu

/-! ### Poincaré duality -/

/-- The dual vector. -/
def dualV (k : ℤ) (f : Fin (m + 1) → ℤ) : Fin (m + 1) → ℤ := fun i => k - f i.rev

theorem dualV_dualV (f : Fin (m + 1) → ℤ) : dualV k (dualV k f) = f := by
  funext i; simp [dualV]

theorem BoxV.dual {f : Fin (m + 1) → ℤ} (h : BoxV k f) : BoxV k (dualV k f) := by
  refine ⟨fun i => ?_, ?_, ?_⟩
  · simp only [dualV]
    have := h.anti i.rev
    rw [Fin.rev_succ, Fin.rev_castSucc]; omega
  · simp only [dualV, Fin.rev_last]; have := h.first; omega
  · simp only [dualV, Fin.rev_zero]; have := h.last; omega

theorem dual_mem {p : ℤ} {f g : Fin (m + 1) → ℤ} (hf : BoxV k f) (hg : BoxV k g) (h : g ∈ Om k p f) :
    dualV k f ∈ Om k p (dualV k g) := by
  rw [mem_Om] at h ⊢
  obtain ⟨h1, h2, h3⟩ := h
  refine ⟨fun i => ?_, fun i => ?_, ?_⟩
  · simp only [dualV]; have : f i.rev ≤ g i.rev := h1 i.rev; omega
  · refine Fin.cases ?_ (fun j => ?_) i
    · rw [sh_zero]
      simp only [dualV, Fin.rev_last, Fin.rev_zero]
      have := hf.last; have := hg.first; omega
    · rw [sh_succ]
      simp only [dualV, Fin.rev_succ, Fin.rev_castSucc]
      have : g j.rev.succ ≤ sh k f j.rev.succ := h2 j.rev.succ
      rw [sh_succ] at this
      omega
  · have e : ∀ f : Fin (m + 1) → ℤ, ∑ i, dualV k f i = (m + 1) * k - ∑ i, f i := by
      intro f
      have h := Equiv.sum_comp Fin.revPerm f
      simp only [Fin.revPerm_apply] at h
      simp only [dualV]
      rw [Finset.sum_sub_distrib, h]
      simp
    rw [e, e, h3]; ring

/-- The dual class. -/
def dualC (m : Nat) (k : ℤ) (l : List Int) : List Int := lab (dualV k (vec m l))

theorem clsA_dual (hk : 0 ≤ k) {l : List Int} (h : clsA (m + 1) k l) : clsA (m + 1) k (dualC m k l) :=
  clsA_lab (boxV_vec hk h).dual

theorem dualC_dualC {l : List Int} (h : clsA (m + 1) k l) : dualC m k (dualC m k l) = l := by
  rw [dualC, dualC, vec_lab, dualV_dualV, lab_vec' h]

theorem lab_inj {f g : Fin (m + 1) → ℤ} (h : lab f = lab g) : f = g := by
  rw [← vec_lab f, ← vec_lab g, h]

theorem tc_coeff {p : Nat} {l : List Int} (hl : clsA (m + 1) k l) {g : Fin (m + 1) → ℤ} (hg : BoxV k g) :
    tc m k p l (lab g) = open Classical in if g ∈ Om k p (vec m l) then 1 else 0 := by
  classical
  rw [tc, if_pos hl, Finsupp.finsetSum_apply]
  split
  · rename_i h
    rw [Finset.sum_eq_single_of_mem g (Finset.mem_filter.2 ⟨h, hg.first⟩)]
    · simp
    · intro g' _ hne
      rw [Finsupp.single_apply, if_neg (fun h => hne (lab_inj h))]
  · rename_i h
    apply Finset.sum_eq_zero
    intro g' hg'
    rw [Finsupp.single_apply, if_neg]
    intro h'
    rw [lab_inj h'] at hg'
    exact h (Finset.mem_filter.1 hg').1

theorem tc_adjoint (hk : 0 ≤ k) (p : Nat) {l l' : List Int} (hl : clsA (m + 1) k l) (hl' : clsA (m + 1) k l') :
    tc m k p l' (dualC m k l) = tc m k p l (dualC m k l') := by
  have hB := boxV_vec hk hl
  have hB' := boxV_vec hk hl'
  unfold dualC
  rw [tc_coeff hl' hB.dual, tc_coeff hl hB'.dual]
  congr 1
  apply propext
  constructor
  · intro h
    have := dual_mem hB' hB.dual h
    rwa [dualV_dualV] at this
  · intro h
    have := dual_mem hB hB'.dual h
    rwa [dualV_dualV] at this

/-- The coefficient of the point class. -/
theorem duality (hk : 0 ≤ k) (hn : n = m + 1 + k) : ∀ l, clsA (m + 1) k l → ∀ y : LMod,
    (∀ l ∈ y.support, clsA (m + 1) k l) →
    (sysC m hk hn).act ((sysC m hk hn).G l) y (dualC m k []) = y (dualC m k l) := by
  refine (sysC m hk hn).G_induction (Q := fun l => ∀ y : LMod,
    (∀ l ∈ y.support, clsA (m + 1) k l) →
    (sysC m hk hn).act ((sysC m hk hn).G l) y (dualC m k []) = y (dualC m k l)) ?_ ?_
  · intro _ y _; rw [GSys.G_nil, map_one]; rfl
  · intro p l hl h1 h2 hl' ih ihr y hy
    have hcons : ∀ mu ∈ (tc m k p.toNat l).support, clsA (m + 1) k mu := tc_closed hk _ _
    rw [GSys.G_cons _ hl, map_sub, LinearMap.sub_apply, mul_comm, map_mul, Module.End.mul_apply, act_special' _ h1 h2,
      Finsupp.sub_apply, ih _ (lin_support (t := (sysC m hk hn).t p.toNat) (tc_closed hk p.toNat) y), subst_ev_eq, map_sum, LinearMap.sum_apply,
      Finsupp.finsetSum_apply]
    have e1 : lin ((sysC m hk hn).t p.toNat) y (dualC m k l) =
        ∑ mu ∈ (tc m k p.toNat l).support, tc m k p.toNat l mu * y (dualC m k mu) := by
      show lin (tc m k p.toNat) y (dualC m k l) = _
      rw [lin, Finsupp.linearCombination_apply, Finsupp.sum, Finsupp.finsetSum_apply]
      have e2 : ∑ nu ∈ y.support, (y nu • tc m k p.toNat nu) (dualC m k l) =
          ∑ nu ∈ y.support, y nu * tc m k p.toNat l (dualC m k nu) := by
        apply Finset.sum_congr rfl
        intro nu hnu
        rw [Finsupp.smul_apply, smul_eq_mul, tc_adjoint hk _ hl' (hy nu hnu)]
      rw [e2]
      rw [← Finset.sum_filter_of_ne (p := fun nu => dualC m k nu ∈ (tc m k p.toNat l).support) (by
        intro nu _ hne
        rw [Finsupp.mem_support_iff]
        intro h0; rw [h0, mul_zero] at hne; exact hne rfl)]
      rw [← Finset.sum_filter_of_ne (s := (tc m k p.toNat l).support) (p := fun mu => dualC m k mu ∈ y.support) (by
        intro nu _ hne
        rw [Finsupp.mem_support_iff]
        intro h0; rw [h0, mul_zero] at hne; exact hne rfl)]
      refine Finset.sum_bij' (fun nu _ => dualC m k nu) (fun mu _ => dualC m k mu) ?_ ?_ ?_ ?_ ?_
      · intro nu hnu
        rw [Finset.mem_filter] at hnu ⊢
        rw [dualC_dualC (hy nu hnu.1)]
        exact ⟨hnu.2, hnu.1⟩
      · intro nu hnu
        rw [Finset.mem_filter] at hnu ⊢
        rw [dualC_dualC (hcons nu hnu.1)]
        exact ⟨hnu.2, hnu.1⟩
      · intro nu hnu
        exact dualC_dualC (hy nu (Finset.mem_filter.1 hnu).1)
      · intro nu hnu
        exact dualC_dualC (hcons nu (Finset.mem_filter.1 hnu).1)
      · intro nu hnu
        rw [dualC_dualC (hy nu (Finset.mem_filter.1 hnu).1), mul_comm]
    have e3 : ∑ mu ∈ ((sysC m hk hn).rest p l).support,
        ((sysC m hk hn).act (inq (((sysC m hk hn).rest p l) mu) * (sysC m hk hn).G mu) y) (dualC m k []) =
        ∑ mu ∈ ((sysC m hk hn).rest p l).support, ((sysC m hk hn).rest p l) mu * y (dualC m k mu) := by
      apply Finset.sum_congr rfl
      intro mu hmu
      rw [map_mul, Module.End.mul_apply, PSys.act_inq, Finsupp.smul_apply, smul_eq_mul, (ihr mu hmu).2 y hy]
    rw [e1, e3]
    have e4 : ∀ x : LMod, ∑ mu ∈ x.support, x mu * y (dualC m k mu) =
        Finsupp.linearCombination (Polynomial ℚ) (fun mu => y (dualC m k mu)) x := by
      intro x
      rw [Finsupp.linearCombination_apply, Finsupp.sum]
      rfl
    rw [e4, e4]
    have : (sysC m hk hn).rest p l = tc m k p.toNat l - Finsupp.single (p :: l) 1 := rfl
    rw [this, map_sub, Finsupp.linearCombination_single, one_smul, sub_sub_cancel]

end Verif
