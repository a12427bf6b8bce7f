import Verif.Proofs.AltP
import Verif.Proofs.RingA2
/-!
# Products of classes through alternating polynomials

The classical product on `Gr(m+1, m+1+K)` is the product of polynomials modulo `AltJ`; it is exact if no class is cut
off. The quantum product on `Gr(m+1, m+1+k)` is its reduction modulo `n = m+1+k`.
-/

namespace Verif
open Spec Cyl Finset Alt

variable {m : ℕ}

/-- The staircase. -/
noncomputable def stair (m : ℕ) : VP m := altP (bt (0 : Fin (m + 1) → ℤ))

theorem box_zero (k : ℕ) : BoxV (k : ℤ) (0 : Fin (m + 1) → ℤ) := ⟨fun _ => le_refl _, le_refl _, by simp⟩

/-- Pieri rule for alternating polynomials, no class cut off. -/
theorem pieri_altP {k : ℤ} {f : Fin (m + 1) → ℤ} (hf : BoxV k f) {K p : ℕ} (hK : f 0 + p ≤ K) :
    hpol m p * altP (bt f) = ∑ g ∈ Om K p f, altP (bt g) := by
  rw [hpol_altP, sum_strip altP_alternating (bt_anti hf), ← sum_conv hf K p]
  apply Finset.sum_congr _ (fun _ _ => rfl)
  apply Finset.filter_congr
  intro α hα
  rw [mem_comps] at hα
  rw [iff_self_and]
  intro _
  have h1 := bt_cast (hf.nonneg 0)
  have h2 : α 0 ≤ ∑ j, α j := Finset.single_le_sum (fun _ _ => Nat.zero_le _) (Finset.mem_univ _)
  simp only [Fin.val_zero] at h1
  push_cast at h1
  simp only [Pi.add_apply]
  omega

/-- The multiples of the staircase by `Lam`. -/
noncomputable def StairM (m : ℕ) : Submodule (Polynomial ℚ) (VP m) :=
  (Subalgebra.toSubmodule (Lam m)).map (LinearMap.mulRight (Polynomial ℚ) (stair m))

theorem mem_StairM {x : VP m} : x ∈ StairM m ↔ ∃ z ∈ Lam m, z * stair m = x := by
  simp [StairM]

theorem StairM_hpol (p : ℕ) {x : VP m} (hx : x ∈ StairM m) : hpol m p * x ∈ StairM m := by
  rw [mem_StairM] at hx ⊢
  obtain ⟨z, hz, rfl⟩ := hx
  exact ⟨hpol m p * z, Subalgebra.mul_mem _ (hpol_mem p) hz, by ring⟩

/-- Every alternating polynomial of a partition is a multiple of the staircase. -/
theorem altP_StairM : ∀ f : Fin (m + 1) → ℤ, BoxV (f 0) f → altP (bt f) ∈ StairM m := by
  classical
  have key : ∀ (s : ℕ) (f : Fin (m + 1) → ℤ), BoxV (f 0) f → (∑ i : Fin m, f i.succ).toNat = s → altP (bt f) ∈ StairM m := by
    intro s
    induction s using Nat.strong_induction_on with
    | _ s ih =>
      intro f hf hs
      have hnn := hf.nonneg
      have hS : 0 ≤ ∑ i : Fin m, f i.succ := Finset.sum_nonneg (fun i _ => hnn _)
      -- the rows below the first
      have hd0 : ∀ i : Fin m, dn (f 0) f i.castSucc = f i.succ := dn_castSucc _ _
      have hdl : dn (f 0) f (Fin.last m) = 0 := by rw [dn_last]; ring
      have hsum : ∑ i, dn (f 0) f i = ∑ i : Fin m, f i.succ := by
        rw [sum_dn, Fin.sum_univ_succ]; ring
      have hdle : dn (f 0) f ≤ f := by
        intro i
        refine Fin.lastCases ?_ (fun j => ?_) i
        · rw [hdl]; exact hnn _
        · rw [hd0]; exact hf.anti j
      have hdnn : ∀ i, 0 ≤ dn (f 0) f i := by
        intro i
        refine Fin.lastCases ?_ (fun j => ?_) i
        · rw [hdl]
        · rw [hd0]; exact hnn _
      have hdB : BoxV (dn (f 0) f 0) (dn (f 0) f) := by
        refine ⟨fun i => ?_, by rw [hdl], le_refl _⟩
        have h1 := hdle i.succ
        rw [hd0]; exact h1
      have hd : altP (bt (dn (f 0) f)) ∈ StairM m := by
        by_cases hz : dn (f 0) f = 0
        · rw [hz]
          exact mem_StairM.2 ⟨1, Subalgebra.one_mem _, one_mul _⟩
        · have hpos : 0 < dn (f 0) f 0 := by
            by_contra hcon
            apply hz
            funext i
            have h1 := hdB.antitone (Fin.zero_le i)
            have h2 := hdnn i
            show dn (f 0) f i = 0
            omega
          apply ih _ _ (dn (f 0) f) hdB rfl
          rw [Fin.sum_univ_succ] at hsum
          have := Finset.sum_nonneg (s := Finset.univ) (fun (i : Fin m) _ => hdnn i.succ)
          omega
      obtain ⟨p, hp⟩ := Int.eq_ofNat_of_zero_le (hnn 0)
      obtain ⟨d, hd'⟩ := Int.eq_ofNat_of_zero_le (hdnn 0)
      have hpi := pieri_altP hdB (K := d + p) (p := p) (by push_cast; omega)
      have hmem : f ∈ Om ((d + p : ℕ) : ℤ) (p : ℤ) (dn (f 0) f) := by
        rw [mem_Om]
        refine ⟨hdle, ?_, by rw [sum_dn]; omega⟩
        intro i
        refine Fin.cases ?_ (fun j => ?_) i
        · rw [sh_zero, hdl]; push_cast; omega
        · rw [sh_succ, hd0]
      rw [← Finset.add_sum_erase _ _ hmem] at hpi
      rw [eq_sub_of_add_eq hpi.symm]
      refine Submodule.sub_mem _ (StairM_hpol p hd) (Submodule.sum_mem _ ?_)
      intro g hg
      rw [Finset.mem_erase, mem_Om] at hg
      obtain ⟨hne, h1, h2, h3⟩ := hg
      have hle : ∀ i : Fin m, g i.succ ≤ f i.succ := fun i => by
        have := h2 i.succ; rwa [sh_succ, hd0] at this
      have hgnn : ∀ i, 0 ≤ g i := fun i => le_trans (hdnn i) (h1 i)
      have hgS : 0 ≤ ∑ i : Fin m, g i.succ := Finset.sum_nonneg (fun i _ => hgnn _)
      have hle' : ∑ i : Fin m, g i.succ ≤ ∑ i : Fin m, f i.succ := Finset.sum_le_sum (fun i _ => hle i)
      rw [hsum, Fin.sum_univ_succ] at h3
      apply ih _ _ g _ rfl
      · have : ∑ i : Fin m, g i.succ ≠ ∑ i : Fin m, f i.succ := by
          intro heq
          have hall := (Finset.sum_eq_sum_iff_of_le (fun i _ => hle i)).1 heq
          apply hne
          funext i
          refine Fin.cases ?_ (fun j => ?_) i
          · omega
          · exact hall j (Finset.mem_univ _)
        omega
      · refine ⟨fun i => ?_, hgnn _, le_refl _⟩
        have e1 := h2 i.succ
        rw [sh_succ] at e1
        exact le_trans e1 (h1 _)
  exact fun f hf => key _ f hf rfl

/-! ### The systems of operators -/

/-- The polynomial of a symbol. -/
noncomputable def hsym (m K : ℕ) : Sym → VP m
  | .q => MvPolynomial.C Polynomial.X
  | .S [i] => if 1 ≤ i ∧ i ≤ K then hpol m i.toNat else 0
  | _ => 0

/-- Polynomials in the special classes, evaluated at the complete symmetric polynomials. -/
noncomputable def hev (m K : ℕ) : P →ₐ[ℚ] VP m := MvPolynomial.aeval (hsym m K)

theorem hsym_Lam (K : ℕ) (s : Sym) : hsym m K s ∈ Lam m := by
  unfold hsym
  split
  · exact Subalgebra.algebraMap_mem _ _
  · split
    · exact hpol_mem _
    · exact Subalgebra.zero_mem _
  · exact Subalgebra.zero_mem _

theorem hev_Lam (K : ℕ) (g : P) : hev m K g ∈ Lam m := by
  induction g using MvPolynomial.induction_on with
  | C c =>
    rw [hev, MvPolynomial.aeval_C]
    rw [IsScalarTower.algebraMap_apply ℚ (Polynomial ℚ) (VP m)]
    exact Subalgebra.algebraMap_mem _ _
  | add a b ha hb => rw [map_add]; exact Subalgebra.add_mem _ ha hb
  | mul_X a s ha =>
    rw [map_mul]
    refine Subalgebra.mul_mem _ ha ?_
    rw [hev, MvPolynomial.aeval_X]
    exact hsym_Lam K s

theorem op_hsym {pieri : Int → List Int → Except PyErr Poly} {K : ℕ} {cls : List Int → Prop} (Y : PSys pieri K cls)
    (s : Sym) : (Y.op s = algebraMap (Polynomial ℚ) (Module.End (Polynomial ℚ) LMod) Polynomial.X ∧
        hsym m K s = MvPolynomial.C Polynomial.X) ∨ (Y.op s = 0 ∧ hsym m K s = 0) ∨
      ∃ i : ℕ, 1 ≤ i ∧ i ≤ K ∧ Y.op s = lin (Y.t i) ∧ hsym m K s = hpol m i := by
  unfold PSys.op hsym
  split
  · exact Or.inl ⟨rfl, rfl⟩
  · rename_i i
    by_cases h : 1 ≤ i ∧ i ≤ K
    · refine Or.inr (Or.inr ⟨i.toNat, by omega, by omega, ?_, ?_⟩)
      · simp only [if_pos h]
      · simp only [if_pos h]
    · refine Or.inr (Or.inl ⟨?_, ?_⟩)
      · simp only [if_neg h]
      · simp only [if_neg h]
  · rename_i h1 h2
    refine Or.inr (Or.inl ⟨rfl, ?_⟩)
    split
    · exact absurd rfl h1
    · rename_i i; exact absurd rfl (h2 i)
    · rfl

/-- A linear map from classes to polynomials that respects the special classes modulo `N` respects all polynomials in
them. -/
theorem act_mod {pieri : Int → List Int → Except PyErr Poly} {K : ℕ} {cls : List Int → Prop} (Y : PSys pieri K cls)
    (Ψ : LMod →ₗ[Polynomial ℚ] VP m) {N : Submodule (Polynomial ℚ) (VP m)} (hN : ∀ p, ∀ f ∈ N, hpol m p * f ∈ N)
    (h : ∀ p, 1 ≤ p → p ≤ K → ∀ l, cls l → Ψ (Y.t p l) - hpol m p * Ψ (Finsupp.single l 1) ∈ N) (g : P) :
    ∀ x : LMod, (∀ l ∈ x.support, cls l) → Ψ (Y.act g x) - hev m K g * Ψ x ∈ N := by
  have hlin : ∀ p, 1 ≤ p → p ≤ K → ∀ x : LMod, (∀ l ∈ x.support, cls l) → Ψ (lin (Y.t p) x) - hpol m p * Ψ x ∈ N := by
    intro p h1 h2 x hx
    have e : Ψ (lin (Y.t p) x) - hpol m p * Ψ x =
        ∑ l ∈ x.support, x l • (Ψ (Y.t p l) - hpol m p * Ψ (Finsupp.single l 1)) := by
      conv_lhs => rw [← Finsupp.sum_single x, Finsupp.sum, map_sum, map_sum, map_sum, Finset.mul_sum, ← Finset.sum_sub_distrib]
      apply Finset.sum_congr rfl
      intro l _
      rw [lin, Finsupp.linearCombination_single, map_smul,
        show (Finsupp.single l (x l) : LMod) = x l • Finsupp.single l 1 by simp, map_smul, mul_smul_comm, smul_sub]
    rw [e]
    exact Submodule.sum_mem _ (fun l hl => Submodule.smul_mem _ _ (h p h1 h2 l (hx l hl)))
  induction g using MvPolynomial.induction_on with
  | C c =>
    intro x hx
    rw [PSys.act_C, hev, MvPolynomial.aeval_C, IsScalarTower.algebraMap_apply ℚ (Polynomial ℚ) (VP m), ← Algebra.smul_def, map_smul]
    rw [show (Polynomial.C c : Polynomial ℚ) = algebraMap ℚ (Polynomial ℚ) c from rfl, sub_self]
    exact Submodule.zero_mem _
  | add a b ha hb =>
    intro x hx
    have : Ψ (Y.act (a + b) x) - hev m K (a + b) * Ψ x =
        (Ψ (Y.act a x) - hev m K a * Ψ x) + (Ψ (Y.act b x) - hev m K b * Ψ x) := by
      rw [map_add, LinearMap.add_apply, map_add, map_add]; ring
    rw [this]
    exact Submodule.add_mem _ (ha x hx) (hb x hx)
  | mul_X a s ha =>
    intro x hx
    have hx' := Y.op_support s hx
    have h1 := ha (Y.op s x) hx'
    have h2 : Ψ (Y.op s x) - hsym m K s * Ψ x ∈ N := by
      rcases op_hsym (m := m) Y s with ⟨e1, e2⟩ | ⟨e1, e2⟩ | ⟨i, h1, h2, e1, e2⟩
      · rw [e1, e2]
        have : Ψ ((algebraMap (Polynomial ℚ) (Module.End (Polynomial ℚ) LMod) Polynomial.X) x) = (Polynomial.X : Polynomial ℚ) • Ψ x := by
          rw [← map_smul]; rfl
        rw [this, ← MvPolynomial.smul_eq_C_mul, sub_self]
        exact Submodule.zero_mem _
      · rw [e1, e2]; simp
      · rw [e1, e2]; exact hlin i h1 h2 x hx
    have h3 := Lam_closed hN (hev_Lam (m := m) K a) _ h2
    have : Ψ (Y.act (a * MvPolynomial.X s) x) - hev m K (a * MvPolynomial.X s) * Ψ x =
        (Ψ (Y.act a (Y.op s x)) - hev m K a * Ψ (Y.op s x)) + hev m K a * (Ψ (Y.op s x) - hsym m K s * Ψ x) := by
      rw [map_mul, Module.End.mul_apply, PSys.act_X, map_mul, hev, MvPolynomial.aeval_X]; ring
    rw [this]
    exact Submodule.add_mem _ h1 h3

/-- The same for a map from polynomials to classes. -/
theorem act_theta {pieri : Int → List Int → Except PyErr Poly} {K : ℕ} {cls : List Int → Prop} (Y : PSys pieri K cls)
    (θ : VP m →ₗ[Polynomial ℚ] LMod) (h : ∀ p, 1 ≤ p → p ≤ K → ∀ f, θ (hpol m p * f) = lin (Y.t p) (θ f)) (g : P) :
    ∀ f, θ (hev m K g * f) = Y.act g (θ f) := by
  induction g using MvPolynomial.induction_on with
  | C c =>
    intro f
    rw [PSys.act_C, hev, MvPolynomial.aeval_C, IsScalarTower.algebraMap_apply ℚ (Polynomial ℚ) (VP m), ← Algebra.smul_def, map_smul]
    rfl
  | add a b ha hb =>
    intro f
    rw [map_add, add_mul, map_add, ha, hb, map_add, LinearMap.add_apply]
  | mul_X a s ha =>
    intro f
    rw [map_mul (hev m K), mul_assoc, ha, map_mul Y.act, Module.End.mul_apply, PSys.act_X, hev, MvPolynomial.aeval_X]
    congr 1
    rcases op_hsym (m := m) Y s with ⟨e1, e2⟩ | ⟨e1, e2⟩ | ⟨i, h1, h2, e1, e2⟩
    · rw [e1, e2, ← MvPolynomial.smul_eq_C_mul, map_smul]; rfl
    · rw [e1, e2]; simp
    · rw [e1, e2]; exact h i h1 h2 f

/-! ### The classical product -/

/-- The polynomial of a combination of classes. -/
noncomputable def Psi (m : ℕ) : LMod →ₗ[Polynomial ℚ] VP m :=
  Finsupp.linearCombination (Polynomial ℚ) (fun l => altP (bt (vec m l)))

theorem Psi_single (l : List Int) : Psi m (Finsupp.single l 1) = altP (bt (vec m l)) := by
  rw [Psi, Finsupp.linearCombination_single, one_smul]

theorem Psi_lab (f : Fin (m + 1) → ℤ) : Psi m (Finsupp.single (lab f) 1) = altP (bt f) := by
  rw [Psi_single, vec_lab]

theorem Psi_tc {K p : ℕ} {l : List Int} (hl : clsA (m + 1) K l) :
    Psi m (tc m K p l) - hpol m p * Psi m (Finsupp.single l 1) ∈ AltJ m (K + m + 1) := by
  have hf := boxV_vec (m := m) (Int.natCast_nonneg K) hl
  set f := vec m l with hfd
  let F : (Fin (m + 1) → ℕ) → VP m := fun γ => if γ 0 < K + m + 1 then altP γ else 0
  have h1 : Psi m (tc m K p l) = ∑ α ∈ comps m p with Strip (bt f) (bt f + α), F (bt f + α) := by
    rw [tc, if_pos hl, map_sum]
    have h2 : ∑ α ∈ comps m p with Strip (bt f) (bt f + α), F (bt f + α) =
        ∑ α ∈ comps m p with (Strip (bt f) (bt f + α) ∧ (bt f + α) 0 < (K + m + 1) + bt f (Fin.last m)), F (bt f + α) := by
      symm
      apply Finset.sum_subset
      · intro α hα
        rw [Finset.mem_filter] at hα ⊢
        exact ⟨hα.1, hα.2.1⟩
      · intro α hα hn
        rw [Finset.mem_filter] at hα
        rw [Finset.mem_filter] at hn
        simp only [F]
        rw [if_neg]
        intro h
        exact hn ⟨hα.1, hα.2, by omega⟩
    rw [h2, sum_conv hf K p F, Finset.sum_filter]
    apply Finset.sum_congr rfl
    intro g hg
    have hg0 : 0 ≤ g 0 := le_trans (hf.nonneg 0) ((mem_Om.1 hg).1 0)
    have hc := bt_cast hg0
    simp only [Fin.val_zero] at hc
    push_cast at hc
    simp only [F]
    by_cases h : g 0 ≤ K
    · rw [if_pos h, if_pos (by omega), Psi_lab]
    · rw [if_neg h, if_neg (by omega)]
  rw [Psi_single, ← hfd, hpol_altP, sum_strip altP_alternating (bt_anti hf), h1, ← Finset.sum_sub_distrib]
  apply Submodule.sum_mem
  intro α _
  simp only [F]
  split
  · rw [sub_self]; exact Submodule.zero_mem _
  · rename_i h
    rw [zero_sub]
    exact Submodule.neg_mem _ (altP_memJ (i := 0) (by omega))

theorem coeff_Psi {K : ℕ} {x : LMod} (hx : ∀ l ∈ x.support, clsA (m + 1) K l) {l : List Int} (hl : clsA (m + 1) K l) :
    MvPolynomial.coeff (exM (bt (vec m l))) (Psi m x) = x l := by
  have hB : ∀ {l}, clsA (m + 1) K l → BoxV (K : ℤ) (vec m l) := fun h => boxV_vec (m := m) (Int.natCast_nonneg K) h
  rw [Psi, Finsupp.linearCombination_apply, Finsupp.sum, MvPolynomial.coeff_sum]
  have : ∀ mu ∈ x.support, MvPolynomial.coeff (exM (bt (vec m l))) (x mu • altP (bt (vec m mu))) = if mu = l then x l else 0 := by
    intro mu hmu
    rw [MvPolynomial.coeff_smul, coeff_altP (bt_anti (hB hl)) (bt_anti (hB (hx mu hmu)))]
    by_cases h : mu = l
    · subst h; simp
    · rw [if_neg, if_neg h, smul_zero]
      intro he
      apply h
      have := bt_inj (hB hl).nonneg (hB (hx mu hmu)).nonneg he
      rw [← lab_vec' (hx mu hmu), ← this, lab_vec' hl]
  rw [Finset.sum_congr rfl this, Finset.sum_ite_eq']
  split
  · rfl
  · rename_i h
    simpa using (Finsupp.notMem_support_iff.1 h).symm

theorem bt_lt {K : ℕ} {f : Fin (m + 1) → ℤ} (hf : BoxV (K : ℤ) f) (i) : bt f i < K + m + 1 := by
  have h1 := bt_cast (hf.nonneg i)
  have h2 := hf.le i
  omega

theorem Psi_inj_mod {K : ℕ} {x y : LMod} (hx : ∀ l ∈ x.support, clsA (m + 1) K l) (hy : ∀ l ∈ y.support, clsA (m + 1) K l)
    (h : Psi m x - Psi m y ∈ AltJ m (K + m + 1)) : x = y := by
  classical
  rw [← map_sub] at h
  have hxy : ∀ l ∈ (x - y).support, clsA (m + 1) K l := by
    intro l hl
    rcases Finset.mem_union.1 (Finsupp.support_sub hl) with h | h
    · exact hx l h
    · exact hy l h
  rw [← sub_eq_zero]
  ext l : 1
  by_cases hl : clsA (m + 1) K l
  · rw [← coeff_Psi hxy hl, coeff_altP_J (bt_lt (boxV_vec (m := m) (Int.natCast_nonneg K) hl)) h]
    rfl
  · by_contra hne
    exact hl (hxy l (Finsupp.mem_support_iff.2 hne))

theorem clsA_single {K : ℕ} {l : List Int} (hl : clsA (m + 1) K l) : ∀ mu ∈ (Finsupp.single l (1 : Polynomial ℚ)).support, clsA (m + 1) K mu := by
  intro mu hmu
  rw [Finset.mem_singleton.1 (Finsupp.support_single_subset hmu)]
  exact hl

theorem vec_nil : vec m [] = 0 := by funext i; simp [vec]

theorem cls_nil (K : ℕ) : clsA (m + 1) K [] := by
  have := clsA_lab (box_zero (m := m) K)
  rwa [← vec_nil, lab_vec ⟨by simp, by simp⟩ (by simp)] at this

theorem Psi_nil : Psi m (Finsupp.single [] 1) = stair m := by rw [Psi_single, vec_nil, stair]

theorem boxV_self {k : ℤ} {f : Fin (m + 1) → ℤ} (h : BoxV k f) : BoxV (f 0) f := ⟨h.anti, h.last, le_refl _⟩

/-- The class polynomial divided by the staircase. -/
theorem exists_zed {k : ℤ} {f : Fin (m + 1) → ℤ} (h : BoxV k f) : ∃ z ∈ Lam m, z * stair m = altP (bt f) :=
  mem_StairM.1 (altP_StairM f (boxV_self h))

/-- The classical product modulo the classes that are cut off. -/
theorem Psi_prod {K : ℕ} {n : ℤ} (hn : n = m + 1 + K) {l mu : List Int} (hl : clsA (m + 1) K l) (hmu : clsA (m + 1) K mu)
    {z : VP m} (hzl : z * stair m = altP (bt (vec m l))) :
    Psi m ((sysC m (Int.natCast_nonneg K) hn).prod (Finsupp.single l 1) (Finsupp.single mu 1)) - z * altP (bt (vec m mu)) ∈
      AltJ m (K + m + 1) := by
  have hmod := act_mod (sysC m (Int.natCast_nonneg K) hn).toPSys (Psi m) (N := AltJ m (K + m + 1)) AltJ_hpol
    (fun p _ _ l hl => Psi_tc hl)
  set Y := sysC m (Int.natCast_nonneg K) hn
  set e := hev m (K : ℤ).toNat (Y.GL (Finsupp.single l 1)) with he
  have h1 := hmod (Y.GL (Finsupp.single l 1)) _ (clsA_single hmu)
  have h2 := hmod (Y.GL (Finsupp.single l 1)) _ (clsA_single (cls_nil K))
  rw [Y.act_GL (clsA_single hl), Psi_nil, Psi_single, ← hzl, ← he] at h2
  rw [Psi_single, ← he] at h1
  obtain ⟨w, hw, hwm⟩ := exists_zed (boxV_vec (m := m) (Int.natCast_nonneg K) hmu)
  have h3 := Lam_closed AltJ_hpol hw _ h2
  have : Psi m (Y.prod (Finsupp.single l 1) (Finsupp.single mu 1)) - z * altP (bt (vec m mu)) =
      (Psi m (Y.act (Y.GL (Finsupp.single l 1)) (Finsupp.single mu 1)) - e * altP (bt (vec m mu))) -
        w * (z * stair m - e * stair m) := by
    rw [← hwm]
    show Psi m (Y.act (Y.GL (Finsupp.single l 1)) (Finsupp.single mu 1)) - z * (w * stair m) = _
    ring
  rw [this]
  exact Submodule.sub_mem _ h1 h3

theorem degree_altP {γ : Fin (m + 1) → ℕ} (h : StrictAnti γ) : MvPolynomial.degreeOf 0 (altP γ) = γ 0 := by
  classical
  apply le_antisymm
  · rw [altP_eq]
    refine le_trans (MvPolynomial.degreeOf_sum_le _ _ _) ?_
    apply Finset.sup_le
    intro σ _
    rw [MvPolynomial.degreeOf_le_iff]
    intro s hs
    have hs' := MvPolynomial.support_smul hs
    have := Finset.mem_singleton.1 (MvPolynomial.support_monomial_subset hs')
    rw [this]
    exact h.antitone (Fin.zero_le (σ 0))
  · have hmem : exM γ ∈ (altP γ).support := by
      rw [MvPolynomial.mem_support_iff, coeff_altP h h, if_pos rfl]; exact one_ne_zero
    exact MvPolynomial.monomial_le_degreeOf 0 hmem

theorem altP_ne_zero {γ : Fin (m + 1) → ℕ} (h : StrictAnti γ) : altP γ ≠ 0 := by
  intro h0
  have := coeff_altP h h
  rw [h0, if_pos rfl] at this
  simp at this

/-- The classical product, if no class is cut off. -/
theorem Psi_prod_exact {K : ℕ} {n : ℤ} (hn : n = m + 1 + K) {l mu : List Int} (hl : clsA (m + 1) K l) (hmu : clsA (m + 1) K mu)
    (hlm : part l 0 + part mu 0 ≤ K) {z : VP m} (hz : z ∈ Lam m) (hzl : z * stair m = altP (bt (vec m l))) :
    Psi m ((sysC m (Int.natCast_nonneg K) hn).prod (Finsupp.single l 1) (Finsupp.single mu 1)) = z * altP (bt (vec m mu)) := by
  classical
  have hB : ∀ {l}, clsA (m + 1) K l → BoxV (K : ℤ) (vec m l) := fun h => boxV_vec (m := m) (Int.natCast_nonneg K) h
  have h1 := Psi_prod hn hl hmu hzl
  set Y := sysC m (Int.natCast_nonneg K) hn
  have hprod := Y.prod_support (Finsupp.single l 1) (clsA_single hmu)
  obtain ⟨c, hc1, hc2, hc3⟩ := AltS_repr (Lam_closed AltS_hpol hz _ (altP_mem (bt (vec m mu))))
  have hdeg : MvPolynomial.degreeOf 0 (z * altP (bt (vec m mu))) < K + m + 1 := by
    have hst : StrictAnti (bt (0 : Fin (m + 1) → ℤ)) := bt_anti (box_zero 0)
    have hz0 : z ≠ 0 := by
      rintro rfl
      rw [zero_mul] at hzl
      exact altP_ne_zero (bt_anti (hB hl)) hzl.symm
    have e1 := congrArg (MvPolynomial.degreeOf 0) hzl
    rw [stair, MvPolynomial.degreeOf_mul_eq hz0 (altP_ne_zero hst), degree_altP hst, degree_altP (bt_anti (hB hl))] at e1
    rw [MvPolynomial.degreeOf_mul_eq hz0 (altP_ne_zero (bt_anti (hB hmu))), degree_altP (bt_anti (hB hmu))]
    have f1 := bt_cast ((hB hl).nonneg 0)
    have f2 := bt_cast ((hB hmu).nonneg 0)
    have f3 := bt_cast (f := (0 : Fin (m + 1) → ℤ)) (i := 0) (le_refl _)
    simp only [Fin.val_zero, Pi.zero_apply] at f1 f2 f3
    push_cast at f1 f2 f3
    have f4 : vec m l 0 = part l 0 := rfl
    have f5 : vec m mu 0 = part mu 0 := rfl
    omega
  have hsmall : ∀ γ ∈ c.support, BoxV (K : ℤ) (unbt γ) := by
    intro γ hγ
    apply unbt_box (hc1 γ hγ)
    have hmem : exM γ ∈ (z * altP (bt (vec m mu))).support := by
      rw [MvPolynomial.mem_support_iff, hc3 γ (hc1 γ hγ)]
      exact Finsupp.mem_support_iff.1 hγ
    have := MvPolynomial.monomial_le_degreeOf 0 hmem
    rw [ex_apply] at this
    omega
  let x : LMod := ∑ γ ∈ c.support, c γ • Finsupp.single (lab (unbt γ)) 1
  have hx : ∀ l ∈ x.support, clsA (m + 1) K l := by
    apply sum_support
    intro γ hγ l hl
    rw [Finset.mem_singleton.1 (Finsupp.support_single_subset (Finsupp.support_smul hl))]
    exact clsA_lab (hsmall γ hγ)
  have hPx : Psi m x = z * altP (bt (vec m mu)) := by
    rw [hc2, Finsupp.sum, map_sum]
    apply Finset.sum_congr rfl
    intro γ hγ
    rw [map_smul, Psi_lab, bt_unbt (hc1 γ hγ)]
  rw [← hPx] at h1 ⊢
  rw [Psi_inj_mod hprod hx h1]

/-! ### The quantum product -/

/-- Reduction modulo `n` of a polynomial. -/
noncomputable def theta (m k : ℕ) : VP m →ₗ[Polynomial ℚ] LMod := onMono (Dq m k)

theorem theta_support (k : ℕ) (f : VP m) : ∀ l ∈ (theta m k f).support, clsA (m + 1) k l := by
  classical
  have hf : f = ∑ s ∈ f.support, MvPolynomial.coeff s f • MvPolynomial.monomial (exM ⇑s) 1 := by
    conv_lhs => rw [f.as_sum]
    apply Finset.sum_congr rfl
    intro s _
    rw [ex_coe, MvPolynomial.smul_monomial, smul_eq_mul, mul_one]
  rw [hf, map_sum]
  apply sum_support
  intro s _ l hl
  rw [map_smul, theta, onMono_monomial] at hl
  exact Dq_support m k _ l (Finsupp.support_smul hl)

theorem theta_hpol (k p : ℕ) (f : VP m) : theta m k (hpol m p * f) = Tq m k p (theta m k f) := by
  rw [theta, onMono_hpol]
  have : onMono (fun γ => ∑ α ∈ comps m p, Dq m k (γ + α)) = (Tq m k p).comp (onMono (Dq m k)) := by
    apply linear_ext
    intro γ
    rw [onMono_monomial, LinearMap.comp_apply, onMono_monomial, Tq_Dq]
  rw [this]; rfl

theorem Tq_lin {k p : ℕ} (hp : p < k + m + 1) {x : LMod} (hx : ∀ l ∈ x.support, clsA (m + 1) k l) :
    Tq m k p x = lin (tq m k p) x := by
  conv_lhs => rw [← Finsupp.sum_single x, Finsupp.sum, map_sum]
  conv_rhs => rw [← Finsupp.sum_single x, Finsupp.sum, map_sum]
  apply Finset.sum_congr rfl
  intro l hl
  rw [show (Finsupp.single l (x l) : LMod) = x l • Finsupp.single l 1 by simp, map_smul, map_smul, Tq_eq_tq hp (hx l hl),
    lin, Finsupp.linearCombination_single, one_smul]

/-- Reduction of a combination of partitions. -/
noncomputable def redq (m k : ℕ) : LMod →ₗ[Polynomial ℚ] LMod := lin (fun l => Dq m k (bt (vec m l)))

theorem theta_Psi (k : ℕ) (x : LMod) : theta m k (Psi m x) = (Nat.factorial (m + 1)) • redq m k x := by
  induction x using Finsupp.induction_linear with
  | zero => simp
  | add x y hx hy => rw [map_add, map_add, hx, hy, map_add, smul_add]
  | single l a =>
    rw [show (Finsupp.single l a : LMod) = a • Finsupp.single l 1 by simp, map_smul, map_smul, Psi_single, map_smul,
      theta, onMono_altP (Dq_periodic m k).alt, redq, lin, Finsupp.linearCombination_single, one_smul, smul_comm]

/-- The quantum product is the reduction of the classical product in a larger space. -/
theorem rim_hook {k K : ℕ} {n n' : ℤ} (hn : n = m + 1 + k) (hn' : n' = m + 1 + K) {l mu : List Int}
    (hl : clsA (m + 1) k l) (hmu : clsA (m + 1) k mu) (hl' : clsA (m + 1) K l) (hmu' : clsA (m + 1) K mu)
    (hlm : part l 0 + part mu 0 ≤ K) :
    (sysQ m (Int.natCast_nonneg k) hn).prod (Finsupp.single l 1) (Finsupp.single mu 1) =
      redq m k ((sysC m (Int.natCast_nonneg K) hn').prod (Finsupp.single l 1) (Finsupp.single mu 1)) := by
  have hB : ∀ {l}, clsA (m + 1) k l → BoxV (k : ℤ) (vec m l) := fun h => boxV_vec (m := m) (Int.natCast_nonneg k) h
  obtain ⟨z, hz, hzl⟩ := exists_zed (hB hl)
  obtain ⟨w, hw, hwm⟩ := exists_zed (hB hmu)
  have hex := Psi_prod_exact hn' hl' hmu' hlm hz hzl
  have hact := act_theta (sysQ m (Int.natCast_nonneg k) hn).toPSys (theta m k) (fun p h1 h2 f => by
    rw [theta_hpol, Tq_lin (by simp at h2; omega) (theta_support k f)]; rfl)
  set Y := sysQ m (Int.natCast_nonneg k) hn
  set e := hev m (k : ℤ).toNat (Y.GL (Finsupp.single l 1)) with he
  have hD1 : ∀ {l}, clsA (m + 1) k l → theta m k (altP (bt (vec m l))) = (Nat.factorial (m + 1)) • Finsupp.single l 1 := by
    intro l hl
    rw [theta, onMono_altP (Dq_periodic m k).alt, Dq_bt (hB hl), lab_vec' hl]
  have hst : theta m k (stair m) = (Nat.factorial (m + 1)) • Finsupp.single [] 1 := by
    rw [← hD1 (cls_nil k), vec_nil]; rfl
  let N0 : Submodule (Polynomial ℚ) (VP m) := LinearMap.ker (theta m k)
  have hN0 : ∀ p, ∀ f ∈ N0, hpol m p * f ∈ N0 := by
    intro p f hf
    rw [LinearMap.mem_ker] at hf ⊢
    rw [theta_hpol, hf, map_zero]
  have h1 : e * stair m - z * stair m ∈ N0 := by
    rw [LinearMap.mem_ker, map_sub, hact, hst, hzl, hD1 hl, map_nsmul, Y.act_GL (clsA_single hl), sub_self]
  have h2 := Lam_closed hN0 hw _ h1
  have h3 : w * (e * stair m - z * stair m) = e * altP (bt (vec m mu)) - z * altP (bt (vec m mu)) := by
    rw [← hwm]; ring
  rw [h3, LinearMap.mem_ker, map_sub, hact, hD1 hmu, ← hex, theta_Psi, map_nsmul, ← Nat.cast_smul_eq_nsmul ℚ, ← Nat.cast_smul_eq_nsmul ℚ, ← smul_sub] at h2
  have h4 : (Nat.factorial (m + 1) : ℚ) ≠ 0 := by exact_mod_cast Nat.factorial_ne_zero _
  exact sub_eq_zero.1 ((smul_eq_zero.1 h2).resolve_left h4)

end Verif
