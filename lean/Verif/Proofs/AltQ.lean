import Verif.Proofs.Alt
import Verif.Proofs.RingA
import Mathlib.LinearAlgebra.Matrix.Determinant.Basic
import Mathlib.Data.Fin.Tuple.Sort
import Mathlib.Order.Fin.Basic
/-!
# Cylindric strips as alternating sums, and the reduction modulo `n`

`Dq m k β` is the class, with a sign and a power of `q`, that remains of the vector `β` after its entries are reduced
modulo `n = m + 1 + k`.
-/

namespace Verif
open Spec Cyl Finset Alt

variable {m : ℕ}

/-- The strictly decreasing vector of a partition. -/
def bt (f : Fin (m + 1) → ℤ) : Fin (m + 1) → ℕ := fun i => (f i + ((m : ℤ) - (i.val : ℤ))).toNat

theorem bt_cast {f : Fin (m + 1) → ℤ} {i : Fin (m + 1)} (h : 0 ≤ f i) : (bt f i : ℤ) = f i + ((m : ℤ) - (i.val : ℤ)) := by
  have := i.2
  unfold bt; omega

theorem bt_anti {k : ℤ} {f : Fin (m + 1) → ℤ} (h : BoxV k f) : StrictAnti (bt f) := by
  apply strictAnti_of
  intro i
  have h1 := bt_cast (h.nonneg i.succ)
  have h2 := bt_cast (h.nonneg i.castSucc)
  have h3 := h.anti i
  simp only [Fin.val_succ, Fin.val_castSucc] at h1 h2
  push_cast at h1
  omega

theorem bt_inj {f g : Fin (m + 1) → ℤ} (hf : ∀ i, 0 ≤ f i) (hg : ∀ i, 0 ≤ g i) (h : bt f = bt g) : f = g := by
  funext i
  have h1 := bt_cast (hf i)
  have h2 := bt_cast (hg i)
  rw [h] at h1
  omega

/-- The partition of a decreasing vector. -/
def unbt (β : Fin (m + 1) → ℕ) : Fin (m + 1) → ℤ := fun i => (β i : ℤ) - ((m : ℤ) - (i.val : ℤ))

theorem strictAnti_ge {β : Fin (m + 1) → ℕ} (h : StrictAnti β) (i : Fin (m + 1)) : m ≤ β i + i.val := by
  have key : ∀ d : ℕ, ∀ i : Fin (m + 1), i.val + d = m → d ≤ β i := by
    intro d
    induction d with
    | zero => intro i _; omega
    | succ d ih =>
      intro i hi
      have h1 := ih ⟨i.val + 1, by omega⟩ (by simp; omega)
      have h2 : β ⟨i.val + 1, by omega⟩ < β i := h (by rw [Fin.lt_def]; simp)
      omega
  have := key (m - i.val) i (by have := i.2; omega)
  omega

theorem unbt_box {β : Fin (m + 1) → ℕ} (h : StrictAnti β) {k : ℤ} (hk : (β 0 : ℤ) ≤ m + k) : BoxV k (unbt β) := by
  refine ⟨fun i => ?_, ?_, ?_⟩
  · have := h (Fin.castSucc_lt_succ (i := i))
    simp only [unbt, Fin.val_succ, Fin.val_castSucc]
    push_cast
    omega
  · simp [unbt]
  · simp only [unbt, Fin.val_zero]
    omega

theorem bt_unbt {β : Fin (m + 1) → ℕ} (h : StrictAnti β) : bt (unbt β) = β := by
  funext i
  have := strictAnti_ge h i
  simp only [bt, unbt]
  omega

theorem unbt_bt {f : Fin (m + 1) → ℤ} (h : ∀ i, 0 ≤ f i) : unbt (bt f) = f := by
  funext i
  have := bt_cast (h i)
  simp only [unbt]
  omega

/-- Strips as vectors `α`, or as vectors `g` on the cylinder. -/
theorem sum_conv {A : Type*} [AddCommMonoid A] {k : ℤ} {f : Fin (m + 1) → ℤ} (hf : BoxV k f) (K p : ℕ)
    (F : (Fin (m + 1) → ℕ) → A) :
    ∑ α ∈ comps m p with (Strip (bt f) (bt f + α) ∧ (bt f + α) 0 < (K + m + 1) + bt f (Fin.last m)), F (bt f + α) =
      ∑ g ∈ Om K p f, F (bt g) := by
  have hc := fun i => bt_cast (hf.nonneg i)
  refine Finset.sum_bij' (fun α _ => fun i => f i + α i) (fun g _ => fun i => (g i - f i).toNat) ?_ ?_ ?_ ?_ ?_
  · intro α hα
    rw [Finset.mem_filter, mem_comps] at hα
    obtain ⟨h1, h2, h3⟩ := hα
    rw [mem_Om]
    refine ⟨fun i => ?_, ?_, ?_⟩
    · show f i ≤ f i + α i
      omega
    · intro i
      refine Fin.cases ?_ (fun j => ?_) i
      · rw [sh_zero]
        have e1 := hc 0
        have e2 := hc (Fin.last m)
        simp only [Pi.add_apply, Fin.val_zero, Fin.val_last] at *
        push_cast at e1
        omega
      · rw [sh_succ]
        have e1 := hc j.succ
        have e2 := hc j.castSucc
        have e3 := h2 j
        simp only [Pi.add_apply, Fin.val_succ, Fin.val_castSucc] at *
        push_cast at e1
        omega
    · rw [Finset.sum_add_distrib, ← h1]
      push_cast
      rfl
  · intro g hg
    rw [mem_Om] at hg
    obtain ⟨h1, h2, h3⟩ := hg
    have hα : ∀ i, (((g i - f i).toNat : ℕ) : ℤ) = g i - f i := fun i => by
      have : f i ≤ g i := h1 i
      omega
    rw [Finset.mem_filter, mem_comps]
    refine ⟨?_, fun j => ?_, ?_⟩
    · zify
      rw [Finset.sum_congr rfl (fun i _ => hα i), Finset.sum_sub_distrib, h3]; ring
    · have e1 := hc j.succ
      have e2 := hc j.castSucc
      have e3 := h2 j.succ
      rw [sh_succ] at e3
      have e4 := hα j.succ
      simp only [Pi.add_apply, Fin.val_succ, Fin.val_castSucc] at *
      push_cast at e1
      omega
    · have e1 := hc 0
      have e2 := hc (Fin.last m)
      have e3 := h2 0
      rw [sh_zero] at e3
      have e4 := hα 0
      simp only [Pi.add_apply, Fin.val_zero, Fin.val_last] at *
      push_cast at e1
      omega
  · intro α _
    funext i
    simp
  · intro g hg
    rw [mem_Om] at hg
    funext i
    have : f i ≤ g i := hg.1 i
    show f i + (((g i - f i).toNat : ℕ) : ℤ) = g i
    omega
  · intro α _
    congr 1
    funext i
    have e1 := hc i
    have e2 := bt_cast (f := fun i => f i + (α i : ℤ)) (i := i) (by have := hf.nonneg i; positivity)
    simp only [Pi.add_apply]
    omega

/-- The sign and `q` of one reduction. -/
noncomputable def cq (m : ℕ) : Polynomial ℚ := (-1) ^ m * Polynomial.X

/-- Alternating functions for which adding `n` to an entry multiplies by `cq`. -/
structure Periodic {A : Type*} [AddCommGroup A] [Module (Polynomial ℚ) A] (n : ℕ)
    (D : (Fin (m + 1) → ℕ) → A) : Prop where
  alt : Alternating D
  shift : ∀ γ i, D (Function.update γ i (γ i + n)) = cq m • D γ

theorem Periodic.sub_n {A : Type*} [AddCommGroup A] [Module (Polynomial ℚ) A] {n : ℕ} {D : (Fin (m + 1) → ℕ) → A}
    (hD : Periodic n D) {γ : Fin (m + 1) → ℕ} {i : Fin (m + 1)} (h : n ≤ γ i) :
    D γ = cq m • D (Function.update γ i (γ i - n)) := by
  rw [← hD.shift]
  congr 1
  funext j
  by_cases j0 : j = i
  · rw [j0, Function.update_self, Function.update_self]; omega
  · rw [Function.update_of_ne j0, Function.update_of_ne j0]

/-- The cylindric Pieri rule for periodic functions. -/
theorem sum_cyl {A : Type*} [AddCommGroup A] [Module (Polynomial ℚ) A] {k : ℕ} {D : (Fin (m + 1) → ℕ) → A}
    (hD : Periodic (k + m + 1) D) {f : Fin (m + 1) → ℤ} (hf : BoxV k f) {p : ℕ} (hp : p < k + m + 1) :
    ∑ α ∈ comps m p, D (bt f + α) =
      ∑ g ∈ Om k p f, if g 0 ≤ k then D (bt g) else (Polynomial.X : Polynomial ℚ) • D (bt (rot k g)) := by
  have h0 : bt f 0 < k + m + 1 := by
    have h1 := bt_cast (hf.nonneg 0)
    have h2 := hf.first
    simp only [Fin.val_zero] at h1
    push_cast at h1
    omega
  rw [sum_wind hD.alt hD.shift (bt_anti hf) h0 hp, sum_conv hf k p D]
  apply Finset.sum_congr rfl
  intro g hg
  split
  · rfl
  · rename_i hgk
    have hg0 : ∀ i, 0 ≤ g i := fun i => le_trans (hf.nonneg i) ((mem_Om.1 hg).1 i)
    have hc := fun i => bt_cast (hg0 i)
    have hr := om_rot_box hf hg (not_le.1 hgk)
    have e0 := hc 0
    simp only [Fin.val_zero] at e0
    push_cast at e0
    rw [hD.sub_n (i := 0) (by omega)]
    have hrot : bt (rot k g) = Function.update (bt g) 0 (bt g 0 - (k + m + 1)) ∘ finRotate (m + 1) := by
      funext i
      have e1 := bt_cast (hr.nonneg i)
      refine Fin.lastCases (motive := fun i => (bt (rot k g) i : ℤ) = rot k g i + ((m : ℤ) - (i.val : ℤ)) →
        bt (rot k g) i = (Function.update (bt g) 0 (bt g 0 - (k + m + 1)) ∘ finRotate (m + 1)) i) ?_ (fun j => ?_) i e1
      · intro e1
        simp only [Function.comp_apply, finRotate_last, Function.update_self, rot, dn_last, Fin.val_last] at e1 ⊢
        omega
      · intro e1
        have e2 := hc j.succ
        have e3 : finRotate (m + 1) j.castSucc = j.succ := by
          rw [finRotate_succ_apply, Fin.coeSucc_eq_succ]
        simp only [Function.comp_apply, e3, Function.update_of_ne (Fin.succ_ne_zero j), rot, dn_castSucc,
          Fin.val_succ, Fin.val_castSucc] at e1 e2 ⊢
        push_cast at e2
        omega
    rw [hrot, hD.alt.perm, sign_finRotate, cq]
    simp only [Nat.add_sub_cancel]
    rw [mul_smul, smul_comm]
    congr 1
    rcases Nat.even_or_odd m with h | h
    · simp [h.neg_one_pow]
    · simp [h.neg_one_pow]

/-- The vectors of the classes. -/
noncomputable def boxesV (m k : ℕ) : Finset (Fin (m + 1) → ℤ) :=
  open Classical in (Finset.Icc 0 (fun _ => (k : ℤ))).filter (BoxV k)

theorem mem_boxesV {k : ℕ} {f : Fin (m + 1) → ℤ} : f ∈ boxesV m k ↔ BoxV k f := by
  classical
  simp only [boxesV, Finset.mem_filter, Finset.mem_Icc, and_iff_right_iff_imp]
  intro h
  exact ⟨fun i => h.nonneg i, fun i => h.le i⟩

/-- The residues of `β` against the vector of `f`. -/
noncomputable def resM (k : ℕ) (β : Fin (m + 1) → ℕ) (f : Fin (m + 1) → ℤ) : Matrix (Fin (m + 1)) (Fin (m + 1)) (Polynomial ℚ) :=
  Matrix.of fun i j => if β i % (k + m + 1) = bt f j then cq m ^ (β i / (k + m + 1)) else 0

theorem resM_periodic (k : ℕ) (f : Fin (m + 1) → ℤ) : Periodic (k + m + 1) (fun β => (resM k β f).det) := by
  refine ⟨⟨?_, ?_⟩, ?_⟩
  · intro γ σ
    have : resM k (γ ∘ σ) f = (resM k γ f).submatrix σ id := by
      ext i j; rfl
    rw [this, Matrix.det_permute]
    simp
  · intro γ i j hij h
    apply Matrix.det_zero_of_row_eq hij
    funext l
    simp [resM, h]
  · intro γ i
    have : resM k (Function.update γ i (γ i + (k + m + 1))) f =
        (resM k γ f).updateRow i (cq m • (resM k γ f) i) := by
      ext a b : 2
      by_cases h : a = i
      · subst h
        rw [Matrix.updateRow_self]
        simp only [resM, Matrix.of_apply, Function.update_self, Pi.smul_apply, smul_eq_mul, Nat.add_mod_right]
        rw [Nat.add_div_right _ (by omega), pow_succ]
        split
        · ring
        · simp
      · rw [Matrix.updateRow_ne h]
        simp only [resM, Matrix.of_apply, Function.update_of_ne h]
    rw [this, Matrix.det_updateRow_smul, Matrix.updateRow_eq_self, smul_eq_mul]

theorem Periodic.smul_const {A : Type*} [AddCommGroup A] [Module (Polynomial ℚ) A] {n : ℕ}
    {D : (Fin (m + 1) → ℕ) → Polynomial ℚ} (h : Periodic n D) (x : A) : Periodic n (fun β => D β • x) := by
  refine ⟨⟨?_, ?_⟩, ?_⟩
  · intro γ σ; simp only [h.alt.perm, smul_assoc]
  · intro γ i j hij he; simp only [h.alt.zero γ i j hij he, zero_smul]
  · intro γ i; simp only [h.shift, smul_assoc]

theorem Periodic.sum {A ι : Type*} [AddCommGroup A] [Module (Polynomial ℚ) A] {n : ℕ} {s : Finset ι}
    {D : ι → (Fin (m + 1) → ℕ) → A} (h : ∀ i ∈ s, Periodic n (D i)) : Periodic n (fun β => ∑ i ∈ s, D i β) := by
  refine ⟨⟨?_, ?_⟩, ?_⟩
  · intro γ σ
    simp only [Finset.smul_sum]
    exact Finset.sum_congr rfl (fun i hi => (h i hi).alt.perm γ σ)
  · intro γ i j hij he
    exact Finset.sum_eq_zero (fun a ha => (h a ha).alt.zero γ i j hij he)
  · intro γ i
    simp only [Finset.smul_sum]
    exact Finset.sum_congr rfl (fun a ha => (h a ha).shift γ i)

theorem Periodic.sub {A : Type*} [AddCommGroup A] [Module (Polynomial ℚ) A] {n : ℕ}
    {D E : (Fin (m + 1) → ℕ) → A} (h : Periodic n D) (h' : Periodic n E) : Periodic n (fun β => D β - E β) := by
  refine ⟨⟨?_, ?_⟩, ?_⟩
  · intro γ σ; simp only [h.alt.perm, h'.alt.perm, smul_sub]
  · intro γ i j hij he; simp only [h.alt.zero γ i j hij he, h'.alt.zero γ i j hij he, sub_zero]
  · intro γ i; simp only [h.shift, h'.shift, smul_sub]

theorem exists_sort (β : Fin (m + 1) → ℕ) (h : Function.Injective β) :
    ∃ σ : Equiv.Perm (Fin (m + 1)), StrictAnti (β ∘ σ) := by
  refine ⟨Fin.revPerm.trans (Tuple.sort β), ?_⟩
  have h1 : StrictMono (β ∘ Tuple.sort β) :=
    (Tuple.monotone_sort β).strictMono_of_injective (h.comp (Tuple.sort β).injective)
  intro i j hij
  exact h1 (Fin.rev_lt_rev.2 hij)

/-- A periodic function is determined by its values on the classes. -/
theorem Periodic.eq_zero {A : Type*} [AddCommGroup A] [Module (Polynomial ℚ) A] {k : ℕ}
    {D : (Fin (m + 1) → ℕ) → A} (h : Periodic (k + m + 1) D) (h0 : ∀ f, BoxV k f → D (bt f) = 0) : ∀ β, D β = 0 := by
  have key : ∀ (s : ℕ) (β : Fin (m + 1) → ℕ), ∑ i, β i = s → D β = 0 := by
    intro s
    induction s using Nat.strong_induction_on with
    | _ s ih =>
      intro β hs
      by_cases hb : ∃ i, k + m + 1 ≤ β i
      · obtain ⟨i, hi⟩ := hb
        rw [h.sub_n hi, ih _ _ _ rfl, smul_zero]
        rw [← hs]
        apply Finset.sum_lt_sum
        · intro j _
          by_cases hj : j = i
          · rw [hj, Function.update_self]; omega
          · rw [Function.update_of_ne hj]
        · exact ⟨i, Finset.mem_univ _, by rw [Function.update_self]; omega⟩
      · push Not at hb
        by_cases hinj : Function.Injective β
        · obtain ⟨σ, hσ⟩ := exists_sort β hinj
          have hbox : BoxV (k : ℤ) (unbt (β ∘ σ)) := by
            apply unbt_box hσ
            have := hb (σ 0)
            simp only [Function.comp_apply]
            omega
          have h1 := h0 _ hbox
          rw [bt_unbt hσ, h.alt.perm] at h1
          have h2 : (Equiv.Perm.sign σ : ℤ) • ((Equiv.Perm.sign σ : ℤ) • D β) = D β := by
            rw [← mul_smul]
            rcases Int.units_eq_one_or (Equiv.Perm.sign σ) with e | e <;> simp [e]
          rw [← h2, h1, smul_zero]
        · unfold Function.Injective at hinj
          push Not at hinj
          obtain ⟨i, j, he, hne⟩ := hinj
          exact h.alt.zero β i j hne he
  exact fun β => key _ β rfl

theorem resM_det {k : ℕ} {f g : Fin (m + 1) → ℤ} (hf : BoxV k f) (hg : BoxV k g) :
    (resM k (bt f) g).det = if f = g then 1 else 0 := by
  have hlt : ∀ i, bt f i < k + m + 1 := fun i => by
    have h1 := bt_cast (hf.nonneg i)
    have h2 := hf.le i
    omega
  have hM : resM k (bt f) g = Matrix.of fun i j => if bt f i = bt g j then 1 else 0 := by
    ext i j : 2
    simp only [resM, Matrix.of_apply, Nat.mod_eq_of_lt (hlt i), Nat.div_eq_of_lt (hlt i), pow_zero]
  rw [hM]
  split
  · rename_i h
    subst h
    have : (Matrix.of fun i j => if bt f i = bt f j then (1 : Polynomial ℚ) else 0) = 1 := by
      ext i j : 2
      simp only [Matrix.of_apply, Matrix.one_apply, (bt_anti hf).injective.eq_iff]
    rw [this, Matrix.det_one]
  · rename_i hne
    have : ∃ i, ∀ j, bt f i ≠ bt g j := by
      by_contra hcon
      push Not at hcon
      apply hne
      have himg : Finset.univ.image (bt f) = Finset.univ.image (bt g) := by
        apply Finset.eq_of_subset_of_card_le
        · intro x hx
          rw [Finset.mem_image] at hx ⊢
          obtain ⟨i, _, rfl⟩ := hx
          obtain ⟨j, hj⟩ := hcon i
          exact ⟨j, Finset.mem_univ _, hj.symm⟩
        · rw [Finset.card_image_of_injective _ (bt_anti hf).injective,
            Finset.card_image_of_injective _ (bt_anti hg).injective]
      have hrange : Set.range (bt f ∘ Fin.rev) = Set.range (bt g ∘ Fin.rev) := by
        rw [Fin.rev_surjective.range_comp, Fin.rev_surjective.range_comp]
        have := congrArg (fun s : Finset ℕ => (s : Set ℕ)) himg
        simpa using this
      have hmono : ∀ {f : Fin (m + 1) → ℤ}, BoxV (k : ℤ) f → StrictMono (bt f ∘ Fin.rev) := fun hf i j hij =>
        bt_anti hf (Fin.rev_lt_rev.2 hij)
      have h1 := ((hmono hf).range_inj (hmono hg)).1 hrange
      apply bt_inj hf.nonneg hg.nonneg
      funext i
      have := congrFun h1 i.rev
      simpa using this
    obtain ⟨i, hi⟩ := this
    apply Matrix.det_eq_zero_of_row_eq_zero i
    intro j
    simp [hi j]

/-- A periodic function as a combination of its values on the classes. -/
theorem Periodic.expand {A : Type*} [AddCommGroup A] [Module (Polynomial ℚ) A] {k : ℕ}
    {D : (Fin (m + 1) → ℕ) → A} (h : Periodic (k + m + 1) D) (β : Fin (m + 1) → ℕ) :
    D β = ∑ f ∈ boxesV m k, (resM k β f).det • D (bt f) := by
  have hE : Periodic (k + m + 1) (fun β => ∑ f ∈ boxesV m k, (resM k β f).det • D (bt f)) :=
    Periodic.sum (fun f _ => (resM_periodic k f).smul_const _)
  refine sub_eq_zero.1 ((h.sub hE).eq_zero ?_ β)
  intro f hf
  rw [sub_eq_zero, Finset.sum_eq_single f]
  · rw [resM_det hf hf, if_pos rfl, one_smul]
  · intro g hg hne
    rw [resM_det hf (mem_boxesV.1 hg), if_neg hne.symm, zero_smul]
  · intro hn; exact absurd (mem_boxesV.2 hf) hn

/-- The reduction of `β` modulo `n`. -/
noncomputable def Dq (m k : ℕ) (β : Fin (m + 1) → ℕ) : LMod :=
  ∑ f ∈ boxesV m k, (resM k β f).det • Finsupp.single (lab f) 1

theorem Dq_periodic (m k : ℕ) : Periodic (k + m + 1) (Dq m k) :=
  Periodic.sum (fun f _ => (resM_periodic k f).smul_const _)

theorem Dq_bt {k : ℕ} {f : Fin (m + 1) → ℤ} (hf : BoxV k f) : Dq m k (bt f) = Finsupp.single (lab f) 1 := by
  unfold Dq
  rw [Finset.sum_eq_single f]
  · rw [resM_det hf hf, if_pos rfl, one_smul]
  · intro g hg hne
    rw [resM_det hf (mem_boxesV.1 hg), if_neg hne.symm, zero_smul]
  · intro hn; exact absurd (mem_boxesV.2 hf) hn

theorem Dq_support (m k : ℕ) (β : Fin (m + 1) → ℕ) : ∀ l ∈ (Dq m k β).support, clsA (m + 1) k l := by
  apply sum_support
  intro f hf l hl
  have := Finset.mem_singleton.1 (Finsupp.support_single_subset (Finsupp.support_smul hl))
  rw [this]
  exact clsA_lab (mem_boxesV.1 hf)

/-- Adding all vectors of size `p`. -/
theorem Periodic.shiftSum {A : Type*} [AddCommGroup A] [Module (Polynomial ℚ) A] {n : ℕ}
    {D : (Fin (m + 1) → ℕ) → A} (h : Periodic n D) (p : ℕ) : Periodic n (fun β => ∑ α ∈ comps m p, D (β + α)) := by
  refine ⟨⟨?_, ?_⟩, ?_⟩
  · intro γ σ
    rw [Finset.smul_sum]
    refine Finset.sum_bij' (fun α _ => α ∘ σ.symm) (fun α _ => α ∘ σ) ?_ ?_ ?_ ?_ ?_
    · intro α hα; rw [mem_comps] at hα ⊢; rw [← hα]; exact Equiv.sum_comp σ.symm α
    · intro α hα; rw [mem_comps] at hα ⊢; rw [← hα]; exact Equiv.sum_comp σ α
    · intro α _; funext i; simp
    · intro α _; funext i; simp
    · intro α _
      rw [← h.alt.perm]
      congr 1
      funext i; simp
  · intro γ i j hij he
    refine Finset.sum_involution (fun α _ => α ∘ Equiv.swap i j) ?_ ?_ ?_ ?_
    · intro α _
      have : γ + α ∘ Equiv.swap i j = (γ + α) ∘ Equiv.swap i j := by
        funext l
        simp only [Pi.add_apply, Function.comp_apply]
        congr 1
        by_cases h1 : l = i
        · subst h1; rw [Equiv.swap_apply_left, he]
        · by_cases h2 : l = j
          · subst h2; rw [Equiv.swap_apply_right, he]
          · rw [Equiv.swap_apply_of_ne_of_ne h1 h2]
      show D (γ + α) + D (γ + α ∘ Equiv.swap i j) = 0
      rw [this, h.alt.swap _ hij, add_neg_cancel]
    · intro α _ hne heq
      apply hne
      apply h.alt.zero _ i j hij
      have := congrFun heq j
      simp only [Function.comp_apply, Equiv.swap_apply_right] at this
      simp only [Pi.add_apply, he, this]
    · intro α hα
      rw [mem_comps] at hα ⊢; rw [← hα]; exact Equiv.sum_comp _ α
    · intro α _; funext l; simp
  · intro γ i
    rw [Finset.smul_sum]
    apply Finset.sum_congr rfl
    intro α _
    rw [← h.shift _ i]
    congr 1
    funext j
    by_cases hj : j = i
    · rw [hj]; simp only [Pi.add_apply, Function.update_self]; omega
    · simp only [Pi.add_apply, Function.update_of_ne hj]

/-- The operator `h_p` on the classes. -/
noncomputable def Tq (m k p : ℕ) : LMod →ₗ[Polynomial ℚ] LMod :=
  lin (fun l => ∑ α ∈ comps m p, Dq m k (bt (vec m l) + α))

theorem Tq_Dq (m k p : ℕ) (β : Fin (m + 1) → ℕ) : Tq m k p (Dq m k β) = ∑ α ∈ comps m p, Dq m k (β + α) := by
  rw [((Dq_periodic m k).shiftSum p).expand β]
  conv_lhs => rw [Dq, map_sum]
  apply Finset.sum_congr rfl
  intro f _
  rw [map_smul, Tq, lin, Finsupp.linearCombination_single, one_smul, vec_lab]

/-- For `p < n` it is the quantum Pieri operator. -/
theorem Tq_eq_tq {k p : ℕ} (hp : p < k + m + 1) {l : List Int} (hl : clsA (m + 1) k l) :
    Tq m k p (Finsupp.single l 1) = tq m k p l := by
  have hf := boxV_vec (m := m) (Int.natCast_nonneg k) hl
  rw [Tq, lin, Finsupp.linearCombination_single, one_smul, sum_cyl (Dq_periodic m k) hf hp, tq, if_pos hl]
  apply Finset.sum_congr rfl
  intro g hg
  unfold Pi1
  split
  · rename_i h
    rw [Dq_bt (om_box hf hg h)]
  · rename_i h
    rw [Dq_bt (om_rot_box hf hg (not_le.1 h)), Finsupp.smul_single, smul_eq_mul, mul_one]

end Verif
