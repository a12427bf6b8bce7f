import Verif.Proofs.AltQ
import Verif.Proofs.DualQA
import Verif.Proofs.RingHom
import Verif.Proofs.Conj
import Verif.Proofs.PieriShape
/-!
# Column operators

Adding a vertical strip to a vector of `m+1` rows is adding a vector of zeros and ones. These operators commute with the
quantum Pieri operators, and transposing the diagrams exchanges them with the quantum Pieri operators of `Gr(n-m,n)`.
-/

namespace Verif
open Spec Cyl Finset Alt

variable {m : ℕ}

/-- the vectors of zeros and ones of size `p` -/
def epsV (m p : ℕ) : Finset (Fin (m + 1) → ℕ) := (comps m p).filter (fun α => ∀ i, α i ≤ 1)

theorem mem_epsV {p : ℕ} {α : Fin (m + 1) → ℕ} : α ∈ epsV m p ↔ ∑ i, α i = p ∧ ∀ i, α i ≤ 1 := by
  rw [epsV, Finset.mem_filter, mem_comps]

/-- Adding all vectors of a symmetric set. -/
theorem Periodic.shiftSumOn {A : Type*} [AddCommGroup A] [Module (Polynomial ℚ) A] {n : ℕ} (s : Finset (Fin (m + 1) → ℕ))
    (hs : ∀ α ∈ s, ∀ σ : Equiv.Perm (Fin (m + 1)), α ∘ σ ∈ s)
    {D : (Fin (m + 1) → ℕ) → A} (h : Periodic n D) : Periodic n (fun β => ∑ α ∈ s, D (β + α)) := by
  refine ⟨⟨?_, ?_⟩, ?_⟩
  · intro γ σ
    rw [Finset.smul_sum]
    refine Finset.sum_bij' (fun α _ => α ∘ σ.symm) (fun α _ => α ∘ σ) ?_ ?_ ?_ ?_ ?_
    · intro α hα; exact hs α hα _
    · intro α hα; exact hs α hα _
    · intro α _; funext i; simp
    · intro α _; funext i; simp
    · intro α _
      rw [← h.alt.perm]
      congr 1
      funext i; simp
  · intro γ i j hij he
    refine Finset.sum_involution (fun α _ => α ∘ Equiv.swap i j) ?_ ?_ ?_ ?_
    · intro α _
      have : γ + α ∘ Equiv.swap i j = (γ + α) ∘ Equiv.swap i j := by
        funext l
        simp only [Pi.add_apply, Function.comp_apply]
        congr 1
        by_cases h1 : l = i
        · subst h1; rw [Equiv.swap_apply_left, he]
        · by_cases h2 : l = j
          · subst h2; rw [Equiv.swap_apply_right, he]
          · rw [Equiv.swap_apply_of_ne_of_ne h1 h2]
      show D (γ + α) + D (γ + α ∘ Equiv.swap i j) = 0
      rw [this, h.alt.swap _ hij, add_neg_cancel]
    · intro α _ hne heq
      apply hne
      apply h.alt.zero _ i j hij
      have := congrFun heq j
      simp only [Function.comp_apply, Equiv.swap_apply_right] at this
      simp only [Pi.add_apply, he, this]
    · intro α hα
      exact hs α hα _
    · intro α _; funext l; simp
  · intro γ i
    rw [Finset.smul_sum]
    apply Finset.sum_congr rfl
    intro α _
    rw [← h.shift _ i]
    congr 1
    funext j
    by_cases hj : j = i
    · rw [hj]; simp only [Pi.add_apply, Function.update_self]; omega
    · simp only [Pi.add_apply, Function.update_of_ne hj]

theorem epsV_perm (p : ℕ) (α : Fin (m + 1) → ℕ) (hα : α ∈ epsV m p) (σ : Equiv.Perm (Fin (m + 1))) : α ∘ σ ∈ epsV m p := by
  rw [mem_epsV] at hα ⊢
  exact ⟨by rw [← hα.1]; exact Equiv.sum_comp σ α, fun i => hα.2 _⟩

/-- The column operator on the classes. -/
noncomputable def Ecol (m k p : ℕ) : LMod →ₗ[Polynomial ℚ] LMod :=
  lin (fun l => ∑ α ∈ epsV m p, Dq m k (bt (vec m l) + α))

theorem Ecol_Dq (m k p : ℕ) (β : Fin (m + 1) → ℕ) : Ecol m k p (Dq m k β) = ∑ α ∈ epsV m p, Dq m k (β + α) := by
  rw [((Dq_periodic m k).shiftSumOn (epsV m p) (epsV_perm p)).expand β]
  conv_lhs => rw [Dq, map_sum]
  apply Finset.sum_congr rfl
  intro f _
  rw [map_smul, Ecol, lin, Finsupp.linearCombination_single, one_smul, vec_lab]

theorem Dq_vec {k : ℕ} {l : List Int} (hl : clsA (m + 1) k l) : Dq m k (bt (vec m l)) = Finsupp.single l 1 := by
  rw [Dq_bt (boxV_vec (Int.natCast_nonneg k) hl), lab_vec' hl]

/-- The column operators commute with the row operators. -/
theorem Ecol_Tq (m k a b : ℕ) {x : LMod} (hx : ∀ l ∈ x.support, clsA (m + 1) k l) : Ecol m k a (Tq m k b x) = Tq m k b (Ecol m k a x) := by
  have key : ∀ l, clsA (m + 1) k l → Ecol m k a (Tq m k b (Finsupp.single l 1)) = Tq m k b (Ecol m k a (Finsupp.single l 1)) := by
    intro l hl
    rw [← Dq_vec hl, Tq_Dq, Ecol_Dq, map_sum, map_sum, Finset.sum_congr rfl (fun α _ => Ecol_Dq m k a _),
      Finset.sum_congr rfl (fun α _ => Tq_Dq m k b _), Finset.sum_comm]
    refine Finset.sum_congr rfl (fun α _ => Finset.sum_congr rfl (fun β _ => ?_))
    rw [add_assoc, add_comm β α, ← add_assoc]
  have e := lmod_sum x
  rw [e, map_sum, map_sum, map_sum, map_sum]
  refine Finset.sum_congr rfl (fun l hl => ?_)
  rw [map_smul, map_smul, map_smul, map_smul, key l (hx l hl)]

theorem Ecol_support (m k p : ℕ) (x : LMod) : ∀ l ∈ (Ecol m k p x).support, clsA (m + 1) k l := by
  unfold Ecol
  refine lin_support (fun l => ?_) x
  exact sum_support (fun α _ => Dq_support m k _)

/-! ### The coefficients -/

/-- vertical strips -/
def Vm (p : ℤ) (f : Fin (m + 1) → ℤ) : Finset (Fin (m + 1) → ℤ) :=
  (Finset.Icc f (fun i => f i + 1)).filter (fun g => ∑ i, g i = ∑ i, f i + p)

theorem mem_Vm {p : ℤ} {f g : Fin (m + 1) → ℤ} : g ∈ Vm p f ↔ (∀ i, f i ≤ g i ∧ g i ≤ f i + 1) ∧ ∑ i, g i = ∑ i, f i + p := by
  rw [Vm, Finset.mem_filter, Finset.mem_Icc]
  constructor
  · rintro ⟨⟨h1, h2⟩, h3⟩
    exact ⟨fun i => ⟨h1 i, h2 i⟩, h3⟩
  · rintro ⟨h1, h3⟩
    exact ⟨⟨fun i => (h1 i).1, fun i => (h1 i).2⟩, h3⟩

theorem sum_eps {A : Type*} [AddCommMonoid A] {k : ℤ} {f : Fin (m + 1) → ℤ} (hf : BoxV k f) (p : ℕ) (D : (Fin (m + 1) → ℕ) → A) :
    ∑ α ∈ epsV m p, D (bt f + α) = ∑ g ∈ Vm p f, D (bt g) := by
  refine Finset.sum_bij' (fun α _ => fun i => f i + (α i : ℤ)) (fun g _ => fun i => (g i - f i).toNat) ?_ ?_ ?_ ?_ ?_
  · intro α hα
    rw [mem_epsV] at hα
    rw [mem_Vm]
    refine ⟨fun i => ?_, ?_⟩
    · have := hα.2 i
      constructor <;> omega
    · rw [Finset.sum_add_distrib, ← hα.1]
      push_cast; rfl
  · intro g hg
    rw [mem_Vm] at hg
    rw [mem_epsV]
    refine ⟨?_, fun i => by have := hg.1 i; omega⟩
    have e : ((∑ i, (g i - f i).toNat : ℕ) : ℤ) = ∑ i, g i - ∑ i, f i := by
      push_cast
      rw [← Finset.sum_sub_distrib]
      refine Finset.sum_congr rfl (fun i _ => ?_)
      have := hg.1 i
      omega
    have := hg.2
    omega
  · intro α _
    funext i
    simp
  · intro g hg
    rw [mem_Vm] at hg
    funext i
    have := hg.1 i
    show f i + ((g i - f i).toNat : ℤ) = g i
    omega
  · intro α _
    congr 1
    funext i
    have h1 := bt_cast (hf.nonneg i)
    have h2 := bt_cast (f := fun i => f i + (α i : ℤ)) (i := i) (by have := hf.nonneg i; positivity)
    simp only [Pi.add_apply]
    omega

/-- One reduction modulo `n`. -/
theorem Periodic.wrap {A : Type*} [AddCommGroup A] [Module (Polynomial ℚ) A] {k : ℕ} {D : (Fin (m + 1) → ℕ) → A}
    (hD : Periodic (k + m + 1) D) {g : Fin (m + 1) → ℤ} (hg0 : ∀ i, 0 ≤ g i) (hgk : (k : ℤ) < g 0) (hr : ∀ i, 0 ≤ rot k g i) :
    D (bt g) = (Polynomial.X : Polynomial ℚ) • D (bt (rot k g)) := by
  have hc := fun i => bt_cast (hg0 i)
  have e0 := hc 0
  simp only [Fin.val_zero] at e0
  push_cast at e0
  rw [hD.sub_n (i := 0) (by omega)]
  have hrot : bt (rot k g) = Function.update (bt g) 0 (bt g 0 - (k + m + 1)) ∘ finRotate (m + 1) := by
    funext i
    have e1 := bt_cast (hr i)
    refine Fin.lastCases (motive := fun i => (bt (rot k g) i : ℤ) = rot k g i + ((m : ℤ) - (i.val : ℤ)) →
      bt (rot k g) i = (Function.update (bt g) 0 (bt g 0 - (k + m + 1)) ∘ finRotate (m + 1)) i) ?_ (fun j => ?_) i e1
    · intro e1
      simp only [Function.comp_apply, finRotate_last, Function.update_self, rot, dn_last, Fin.val_last] at e1 ⊢
      omega
    · intro e1
      have e2 := hc j.succ
      have e3 : finRotate (m + 1) j.castSucc = j.succ := by
        rw [finRotate_apply, Fin.coeSucc_eq_succ]
      simp only [Function.comp_apply, e3, Function.update_of_ne (Fin.succ_ne_zero j), rot, dn_castSucc,
        Fin.val_succ, Fin.val_castSucc] at e1 e2 ⊢
      push_cast at e2
      omega
  rw [hrot, hD.alt.perm, sign_finRotate, cq]
  simp only [Nat.add_sub_cancel]
  rw [mul_smul, smul_comm]
  congr 1
  rcases Nat.even_or_odd m with h | h
  · simp [h.neg_one_pow]
  · simp [h.neg_one_pow]

/-- What remains of a vertical strip. -/
theorem Dq_Vm {k : ℕ} {p : ℤ} {f g h : Fin (m + 1) → ℤ} (hf : BoxV k f) (hg : g ∈ Vm p f) (hh : BoxV k h) :
    Dq m k (bt g) (lab h) = (if g = h then 1 else 0) + if g = unrot k h then (Polynomial.X : Polynomial ℚ) else 0 := by
  rw [mem_Vm] at hg
  have hz := unrot_zero (k := (k : ℤ)) h
  have hlast := hh.last
  have hfirst := hh.first
  have hg0 : ∀ i, 0 ≤ g i := fun i => (hf.nonneg i).trans (hg.1 i).1
  have hc := fun i => bt_cast (hg0 i)
  by_cases hanti : ∀ i : Fin m, g i.succ ≤ g i.castSucc
  · by_cases h0 : g 0 ≤ k
    · have hB : BoxV (k : ℤ) g := ⟨hanti, hg0 _, h0⟩
      rw [Dq_bt hB, if_neg (show ¬ g = unrot k h from fun e => by rw [e] at h0; omega), add_zero, Finsupp.single_apply]
      by_cases e : g = h
      · rw [if_pos e, if_pos (by rw [e])]
      · rw [if_neg e, if_neg (fun h' => e (lab_inj h'))]
    · have hgk : g 0 = k + 1 := by
        have := hf.first
        have := (hg.1 0).2
        omega
      rw [if_neg (show ¬ g = h from fun e => by rw [e] at hgk; omega), zero_add]
      by_cases hl : g (Fin.last m) = 0
      · have hm : (Fin.last m) ≠ 0 := fun e => by rw [e] at hl; omega
        have hu : g ≠ unrot k h := by
          rintro rfl
          cases m with
          | zero => exact hm rfl
          | succ m =>
            rw [← Fin.succ_last, unrot, sh_succ] at hl
            have := hh.nonneg (Fin.last m).castSucc
            omega
        rw [if_neg hu]
        have e0 := hc 0
        have el := hc (Fin.last m)
        simp only [Fin.val_zero, Fin.val_last] at e0 el
        push_cast at e0
        rw [(Dq_periodic m k).sub_n (i := 0) (by omega), (Dq_periodic m k).alt.zero _ 0 (Fin.last m) hm.symm, smul_zero]
        · rfl
        · rw [Function.update_self, Function.update_of_ne hm]
          omega
      · have hr : BoxV (k : ℤ) (rot k g) := by
          have hpos : ∀ i, 1 ≤ g i := by
            have ha : Antitone g := Fin.antitone_iff_succ_le.2 hanti
            intro i
            have h1 := ha (Fin.le_last i)
            have h2 := hg0 (Fin.last m)
            omega
          have hd : ∀ i, rot k g i = dn k g i - 1 := fun i => rfl
          refine ⟨fun i => ?_, ?_, ?_⟩
          · rw [hd, hd, dn_castSucc]
            refine Fin.lastCases (motive := fun j : Fin (m + 1) => ∀ i : Fin m, j = i.succ → dn k g j - 1 ≤ g j - 1) ?_ ?_ i.succ i rfl
            · intro i _
              rw [dn_last]
              have := hpos (Fin.last m)
              omega
            · intro j i _
              rw [dn_castSucc]
              have := hanti j
              omega
          · rw [hd, dn_last]; omega
          · rw [hd]
            refine Fin.lastCases (motive := fun j : Fin (m + 1) => j = 0 → dn k g j - 1 ≤ k) ?_ ?_ 0 rfl
            · intro _
              rw [dn_last]; omega
            · intro j _
              rw [dn_castSucc]
              have h1 : Antitone g := Fin.antitone_iff_succ_le.2 hanti
              have := h1 (Fin.zero_le j.succ)
              omega
        rw [(Dq_periodic m k).wrap hg0 (by omega) hr.nonneg, Dq_bt hr, Finsupp.smul_single, Finsupp.single_apply]
        by_cases e : g = unrot k h
        · rw [if_pos e, if_pos (by rw [e, rot_unrot])]
          simp
        · rw [if_neg e, if_neg]
          intro h'
          have := lab_inj h'
          rw [← this, unrot_rot] at e
          exact e rfl
  · push Not at hanti
    obtain ⟨i, hi⟩ := hanti
    have h1 : g i.succ = g i.castSucc + 1 := by
      have a1 := hf.anti i
      have a2 := (hg.1 i.succ).2
      have a3 := (hg.1 i.castSucc).1
      omega
    have e1 := hc i.succ
    have e2 := hc i.castSucc
    simp only [Fin.val_succ, Fin.val_castSucc] at e1 e2
    push_cast at e1
    rw [(Dq_periodic m k).alt.zero _ i.succ i.castSucc (by simp [Fin.ext_iff]) (by omega), if_neg, if_neg]
    · simp
    · rintro rfl
      rw [unrot, sh_succ] at h1
      refine Fin.cases (motive := fun j : Fin (m + 1) => j = i.castSucc → False) ?_ ?_ i.castSucc rfl
      · intro e
        rw [← e, sh_zero] at h1
        have := hh.first
        have := hh.last
        omega
      · intro j e
        rw [← e, sh_succ] at h1
        have := hh.antitone (show j.castSucc ≤ j.succ from (Fin.castSucc_lt_succ).le)
        omega
    · rintro rfl
      have := hh.anti i
      omega

theorem Ecol_coeff {k p : ℕ} {l : List Int} (hl : clsA (m + 1) k l) {h : Fin (m + 1) → ℤ} (hh : BoxV k h) :
    Ecol m k p (Finsupp.single l 1) (lab h) = open Classical in
      (if h ∈ Vm p (vec m l) then 1 else 0) + if unrot k h ∈ Vm p (vec m l) then Polynomial.X else 0 := by
  classical
  have hf := boxV_vec (m := m) (Int.natCast_nonneg k) hl
  rw [Ecol, lin, Finsupp.linearCombination_single, one_smul, sum_eps hf, Finsupp.finsetSum_apply,
    Finset.sum_congr rfl (fun g hg => Dq_Vm hf hg hh), Finset.sum_add_distrib]
  simp only [Finset.sum_ite_eq']

end Verif
