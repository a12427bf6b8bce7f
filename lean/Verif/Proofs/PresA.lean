import Mathlib.RingTheory.Ideal.Quotient.Basic
import Verif.Proofs.Recur
/-!
# Presentation of the rings of `Gr(m+1, m+1+K)`
-/

namespace Verif
open Spec Cyl Finset Alt

/-! ### reduction modulo an ideal, abstractly -/

namespace GSys
variable {pieri : Int → List Int → Except PyErr Poly} {K : Nat} {cls : List Int → Prop} (Y : GSys pieri K cls)

theorem GL_add (x y : LMod) : Y.GL (x + y) = Y.GL x + Y.GL y := by rw [GL, map_add, map_add]; rfl

theorem GL_smul (a : Polynomial ℚ) (x : LMod) : Y.GL (a • x) = inq a * Y.GL x := by
  rw [GL, ev_smul, map_mul, subst_inq]; rfl

theorem GL_zero : Y.GL 0 = 0 := by rw [GL, map_zero, map_zero]

theorem GL_single (l : List Int) (a : Polynomial ℚ) : Y.GL (Finsupp.single l a) = inq a * Y.G l := by
  rw [GL, ev_single, map_mul, subst_inq, subst_S]

theorem GL_sum {ι : Type*} (s : Finset ι) (F : ι → LMod) : Y.GL (∑ i ∈ s, F i) = ∑ i ∈ s, Y.GL (F i) := by
  rw [GL, map_sum, map_sum]; rfl

/-- If the Pieri rule holds modulo `I`, every polynomial in special classes is its reduction modulo `I`. -/
theorem mod_ideal {I : Ideal P} (hI : ∀ (p : ℕ) l, 1 ≤ p → p ≤ K → cls l →
    MvPolynomial.X (.S [(p : ℤ)]) * Y.G l - Y.GL (Y.t p l) ∈ I) :
    ∀ e ∈ MvPolynomial.supported ℚ (special K), ∀ x : LMod, (∀ l ∈ x.support, cls l) →
      e * Y.GL x - Y.GL (Y.act e x) ∈ I := by
  intro e he
  replace he : e ∈ Algebra.adjoin ℚ ((MvPolynomial.X : Sym → P) '' special K) := he
  induction he using Algebra.adjoin_induction with
  | mem s hs =>
    intro x hx
    obtain ⟨t, ht, rfl⟩ := hs
    rcases ht with rfl | ⟨i, h1, h2, rfl⟩
    · rw [Y.act_q, GL_smul]
      have : (MvPolynomial.X Sym.q : P) * Y.GL x - inq Polynomial.X * Y.GL x = 0 := by simp [inq]
      rw [this]
      exact I.zero_mem
    · rw [Y.act_special h1 h2]
      have e1 : Y.GL x = ∑ l ∈ x.support, inq (x l) * Y.G l := subst_ev_eq _ _
      have e2 : Y.GL (lin (Y.t i) x) = ∑ l ∈ x.support, inq (x l) * Y.GL (Y.t i l) := by
        rw [lin, Finsupp.linearCombination_apply, Finsupp.sum, GL_sum]
        exact Finset.sum_congr rfl (fun l _ => Y.GL_smul _ _)
      rw [e1, e2, Finset.mul_sum, ← Finset.sum_sub_distrib]
      apply I.sum_mem
      intro l hl
      have := I.mul_mem_left (inq (x l)) (hI i l h1 h2 (hx l hl))
      rw [mul_sub] at this
      rwa [mul_left_comm]
  | algebraMap c =>
    intro x _
    have : Y.act (algebraMap ℚ P c) x = (Polynomial.C c : Polynomial ℚ) • x := Y.act_C c x
    rw [this, GL_smul]
    have : algebraMap ℚ P c * Y.GL x - inq (Polynomial.C c) * Y.GL x = 0 := by simp [inq]
    rw [this]
    exact I.zero_mem
  | add a b _ _ ha hb =>
    intro x hx
    rw [map_add, LinearMap.add_apply, GL_add]
    have := I.add_mem (ha x hx) (hb x hx)
    convert this using 1
    ring
  | mul a b _ _ ha hb =>
    intro x hx
    rw [map_mul, Module.End.mul_apply]
    have h1 := I.mul_mem_left a (hb x hx)
    have h2 := ha (Y.act b x) (Y.act_support b hx)
    have := I.add_mem h1 h2
    convert this using 1
    ring

/-- The elements acting as zero are those of `I`. -/
theorem act_zero_iff (hnil : cls []) {I : Ideal P} {S : Set P} (hS : I = Ideal.span S)
    (hI : ∀ (p : ℕ) l, 1 ≤ p → p ≤ K → cls l → MvPolynomial.X (.S [(p : ℤ)]) * Y.G l - Y.GL (Y.t p l) ∈ I)
    (h0 : ∀ r ∈ S, Y.act r (Finsupp.single [] 1) = 0) {e : P} (he : e ∈ MvPolynomial.supported ℚ (special K)) :
    Y.act e (Finsupp.single [] 1) = 0 ↔ e ∈ I := by
  constructor
  · intro h
    have := Y.mod_ideal hI e he (Finsupp.single [] 1) (by
      intro l hl; rw [Finset.mem_singleton.1 (Finsupp.support_single_subset hl)]; exact hnil)
    rw [h, GL_zero, GL_single, Y.G_nil] at this
    simpa [inq] using this
  · intro h
    rw [hS] at h
    clear he
    induction h using Submodule.span_induction with
    | mem r hr => exact h0 r hr
    | zero => simp
    | add a b _ _ ha hb => rw [map_add, LinearMap.add_apply, ha, hb, add_zero]
    | smul a b _ hb => rw [smul_eq_mul, map_mul, Module.End.mul_apply, hb, map_zero]

end GSys

/-! ### determinants modulo an ideal -/

variable {m K : ℕ}

theorem neg_pow_mul_self {R : Type*} [CommRing R] (d : ℕ) : ((-1 : R) ^ d) * (-1) ^ d = 1 := by
  rw [← mul_pow]; simp

theorem negpow_apply (d : ℕ) (x : LMod) : ((-1 : Module.End (Polynomial ℚ) LMod) ^ d) x = ((-1 : ℤ) ^ d) • x := by
  induction d with
  | zero => simp
  | succ d ih => rw [pow_succ', Module.End.mul_apply, ih, pow_succ']; simp

theorem map_JD {R S : Type*} [CommRing R] [CommRing S] (φ : R →+* S) (H : ℤ → R) (β : Fin (m + 1) → ℕ) :
    φ (JD H β) = JD (fun p => φ (H p)) β := by
  rw [JD, RingHom.map_det, JD]
  rfl

theorem JD_congr {R : Type*} [CommRing R] {H H' : ℤ → R} {β : Fin (m + 1) → ℕ}
    (h : ∀ i j : Fin (m + 1), H ((β i : ℤ) - (j.val : ℤ)) = H' ((β i : ℤ) - (j.val : ℤ))) : JD H β = JD H' β := by
  unfold JD
  congr 1
  ext i j : 2
  exact h i j

theorem hkD_big {K : ℤ} (hK : 0 ≤ K) {a : ℤ} (ha : K < a) (j : ℕ) : hkD (hvar K) a j = 0 := by
  apply Matrix.det_eq_zero_of_row_eq_zero 0
  intro c
  rw [Matrix.of_apply, hvar_big hK]
  simp
  omega

/-- Elementary functions of large degree are combinations of the previous ones. -/
theorem ee_big (K j : ℕ) : ee (hvar K) (j + K + 1) = ∑ i ∈ range K, (-1) ^ i * hvar K (1 + i) * ee (hvar K) (j + K - i) := by
  rw [ee_succ, hkD_sum (hvar_zero _) (hvar_neg _), hkD_big (by omega) (by omega)]
  simp

section ideal
variable {I : Ideal P}

/-- Newton's relation cut off at `m + 1`. -/
theorem newton_cut {R : Type*} [CommRing R] {H : ℤ → R} (h0 : H 0 = 1) (hneg : ∀ p < 0, H p = 0) {p : ℕ} (hp : 1 ≤ p)
    (he : ∀ j, m + 1 < j → j ≤ p → ee H j = 0) :
    ∑ i ∈ range (m + 2), (-1) ^ i * ee H i * H ((p : ℤ) - i) = 0 := by
  have h1 := newton h0 hneg hp
  have h2 : ∀ a, a = m + 2 ∨ a = p + 1 → ∑ i ∈ range a, (-1) ^ i * ee H i * H ((p : ℤ) - i) =
      ∑ i ∈ (range (m + 2)).filter (· < p + 1), (-1) ^ i * ee H i * H ((p : ℤ) - i) := by
    intro a ha
    symm
    rcases ha with rfl | rfl
    · apply Finset.sum_subset (Finset.filter_subset _ _)
      intro i hi hn
      rw [Finset.mem_filter] at hn
      rw [hneg _ (by have : ¬ i < p + 1 := fun h => hn ⟨hi, h⟩
                     omega), mul_zero]
    · apply Finset.sum_subset
      · intro i hi
        rw [Finset.mem_filter] at hi
        exact Finset.mem_range.2 hi.2
      · intro i hi hn
        rw [Finset.mem_range] at hi
        rw [Finset.mem_filter, Finset.mem_range] at hn
        rw [he i (by have : ¬ i < m + 2 := fun h => hn ⟨h, hi⟩
                     omega) (by omega)]
        ring
  rw [h2 _ (Or.inl rfl), ← h2 _ (Or.inr rfl)]
  exact h1

theorem map_ee {R S : Type*} [CommRing R] [CommRing S] (φ : R →+* S) (H : ℤ → R) (j : ℕ) :
    φ (ee H j) = ee (fun p => φ (H p)) j := by
  rw [ee, RingHom.map_det, ee]
  rfl

theorem ee_mem (hI : ∀ j, m + 1 < j → j ≤ m + 1 + K → ee (hvar K) j ∈ I) : ∀ j, m + 1 < j → ee (hvar K) j ∈ I := by
  intro j
  induction j using Nat.strong_induction_on with
  | _ j ih =>
    intro hj
    by_cases h : j ≤ m + 1 + K
    · exact hI j hj h
    · obtain ⟨r, rfl⟩ : ∃ r, j = r + K + 1 := ⟨j - K - 1, by omega⟩
      rw [ee_big]
      apply I.sum_mem
      intro i hi
      rw [Finset.mem_range] at hi
      exact I.mul_mem_left _ (ih _ (by omega) (by omega))

/-- The classical Pieri rule modulo the ideal. -/
theorem pieri_mod (hI : ∀ j, m + 1 < j → j ≤ m + 1 + K → ee (hvar K) j ∈ I) {l : List Int} (hl : clsA (m + 1) K l)
    {p : ℕ} (hp : 1 ≤ p) (hpK : p ≤ K) :
    Ideal.Quotient.mk I (MvPolynomial.X (.S [(p : ℤ)]) * JT K (m + 1) l) =
      Ideal.Quotient.mk I (∑ g ∈ (Om K p (vec m l)).filter (fun g => g 0 ≤ (K : ℤ)), JT K (m + 1) (lab g)) := by
  set φ := Ideal.Quotient.mk I with hφ
  have hB := boxV_vec (m := m) (Int.natCast_nonneg K) hl
  set f := vec m l
  set H : ℤ → P ⧸ I := fun p => φ (hvar K p) with hH
  have hH0 : H 0 = 1 := by simp [hH, hvar_zero]
  have hHn : ∀ p < 0, H p = 0 := by intro p hp; simp [hH, hvar_neg _ _ hp]
  have hHb : ∀ p, (K : ℤ) < p → H p = 0 := by intro p hp; simp [hH, hvar_big (Int.natCast_nonneg K) _ hp]
  have hrec : ∀ p : ℕ, 1 ≤ p → ∑ i ∈ range (m + 2), ((-1) ^ i * ee H i) * H ((p : ℤ) - i) = 0 := by
    intro p hp
    apply newton_cut hH0 hHn hp
    intro j hj _
    rw [hH, ← map_ee, hφ, Ideal.Quotient.eq_zero_iff_mem]
    exact ee_mem hI j hj
  have key : H p * JD H (bt f) = ∑ g ∈ (Om K p f).filter (fun g => g 0 ≤ (K : ℤ)), JD H (bt g) := by
    rw [JD_pieri_all hH0 hHn (by simp [ee_zero]) hrec, sum_strip (JD_alternating H) (bt_anti hB), Finset.sum_filter (s := Om K p f)]
    trans ∑ g ∈ Om K p f, (fun γ : Fin (m + 1) → ℕ => if γ 0 < K + m + 1 then JD H γ else 0) (bt g)
    · refine Eq.trans ?_ (sum_conv hB K p (fun γ : Fin (m + 1) → ℕ => if γ 0 < K + m + 1 then JD H γ else 0))
      symm
      apply Finset.sum_subset_zero_on_sdiff
      · intro α hα
        rw [Finset.mem_filter] at hα ⊢
        exact ⟨hα.1, hα.2.1⟩
      · intro α hα
        rw [Finset.mem_sdiff, Finset.mem_filter, Finset.mem_filter] at hα
        apply Matrix.det_eq_zero_of_row_eq_zero 0
        intro j
        rw [Matrix.of_apply, hHb]
        have := j.2
        have h1 : ¬ (bt f + α) 0 < (K + m + 1) + bt f (Fin.last m) := fun h => hα.2 ⟨hα.1.1, hα.1.2, h⟩
        omega
      · intro α hα
        split
        · rfl
        · symm
          apply Matrix.det_eq_zero_of_row_eq_zero 0
          intro j
          rw [Matrix.of_apply, hHb]
          have := j.2
          omega
    · apply Finset.sum_congr rfl
      intro g hg
      have hg0 : 0 ≤ g 0 := le_trans (hB.nonneg 0) ((mem_Om.1 hg).1 0)
      have hc := bt_cast hg0
      simp only [Fin.val_zero] at hc
      push_cast at hc
      beta_reduce
      by_cases h : g 0 ≤ K
      · rw [if_pos h, if_pos (by omega)]
      · rw [if_neg h, if_neg (by omega)]
  have hJ : ∀ l', (∀ i, 0 ≤ part l' i) → φ (JT K (m + 1) l') = φ ((Equiv.Perm.sign (Fin.revPerm (n := m + 1)) : ℤ) : P) * JD H (bt (vec m l')) := by
    intro l' hl'
    rw [JT_JD _ hl', map_mul, map_JD]
  rw [map_mul, map_sum, hJ l (fun i => hl.1.isPartition.part_nonneg i), mul_left_comm]
  have : φ (MvPolynomial.X (.S [(p : ℤ)])) = H p := by
    show _ = φ (hvar K p)
    rw [hvar_special (by omega) (by omega)]
  rw [this, key, Finset.mul_sum]
  apply Finset.sum_congr rfl
  intro g hg
  rw [Finset.mem_filter] at hg
  rw [hJ, vec_lab]
  intro i
  by_cases hi : i < m + 1
  · have : (g ⟨i, hi⟩ : ℤ) = part (lab g) i := (part_lab_lt g ⟨i, hi⟩).symm
    rw [← this]
    exact le_trans (hB.nonneg _) ((mem_Om.1 hg.1).1 _)
  · rw [part_lab_ge g (by omega)]

/-! ### the quantum rule -/

/-- The sequence continued with period `K + m + 1`. -/
noncomputable def hhat (m K : ℕ) {R : Type*} [CommRing R] (c : R) (H : ℤ → R) (p : ℤ) : R :=
  if p < 0 then 0 else c ^ (p.toNat / (K + m + 1)) * H ((p.toNat % (K + m + 1) : ℕ) : ℤ)

section hhat
variable {R : Type*} [CommRing R] {c : R} {H : ℤ → R} (hHn : ∀ p < 0, H p = 0) (hHb : ∀ p, (K : ℤ) < p → H p = 0)

include hHn in
theorem hhat_small {p : ℤ} (hp : p < K + m + 1) : hhat m K c H p = H p := by
  unfold hhat
  split
  · rename_i h; rw [hHn p h]
  · rw [Nat.div_eq_of_lt (by omega), pow_zero, one_mul, Nat.mod_eq_of_lt (by omega)]
    congr 1
    omega

include hHn hHb in
theorem hhat_shift {p : ℤ} (hp : -(m : ℤ) ≤ p) : hhat m K c H (p + (K + m + 1)) = c * hhat m K c H p := by
  by_cases h : p < 0
  · rw [hhat_small hHn (by omega), hHb _ (by omega), hhat, if_pos h, mul_zero]
  · unfold hhat
    rw [if_neg (by omega), if_neg h]
    have : (p + (K + m + 1)).toNat = p.toNat + (K + m + 1) := by omega
    rw [this, Nat.add_div_right _ (by omega), Nat.add_mod_right, pow_succ]
    ring

include hHn hHb in
theorem hhat_rec (hH0 : H 0 = 1) (hK : 1 ≤ K) (he : ∀ j, m + 1 < j → j < m + 1 + K → ee H j = 0)
    (hc : (-1) ^ (K + m + 1) * ee H (K + m + 1) = c) : ∀ p : ℕ, 1 ≤ p →
    ∑ i ∈ range (m + 2), ((-1) ^ i * ee H i) * hhat m K c H ((p : ℤ) - i) = 0 := by
  intro p
  induction p using Nat.strong_induction_on with
  | _ p ih =>
    intro hp
    rcases lt_trichotomy p (K + m + 1) with h | h | h
    · rw [← newton_cut (m := m) hH0 hHn hp (fun j hj hj' => he j hj (by omega))]
      apply Finset.sum_congr rfl
      intro i _
      rw [hhat_small hHn (by omega)]
    · have h1 := newton hH0 hHn hp
      rw [Finset.sum_range_succ] at h1
      have h2 : ∑ i ∈ range p, (-1) ^ i * ee H i * H ((p : ℤ) - i) =
          ∑ i ∈ range (m + 2), (-1) ^ i * ee H i * H ((p : ℤ) - i) := by
        symm
        apply Finset.sum_subset
        · intro i hi
          rw [Finset.mem_range] at hi ⊢
          omega
        · intro i hi hn
          rw [Finset.mem_range] at hi hn
          rw [he i (by omega) (by omega)]
          ring
      rw [h2, Finset.sum_range_succ', hHb ((p : ℤ) - (0 : ℕ)) (by push_cast; omega), mul_zero, add_zero, sub_self, hH0, mul_one, h, hc] at h1
      rw [Finset.sum_range_succ']
      have h3 : hhat m K c H ((p : ℤ) - (0 : ℕ)) = c := by
        have := hhat_shift (m := m) (c := c) hHn hHb (p := 0) (by omega)
        rw [hhat_small hHn (p := 0) (by omega), hH0, mul_one, zero_add] at this
        rw [h]
        push_cast
        rw [sub_zero]
        exact this
      rw [h3, ee_zero]
      simp only [pow_zero, one_mul]
      rw [← h1, h]
      congr 1
      apply Finset.sum_congr rfl
      intro i _
      rw [hhat_small hHn (by push_cast; omega)]
    · have h1 := ih (p - (K + m + 1)) (by omega) (by omega)
      rw [Finset.sum_congr rfl (g := fun i : ℕ => c * ((-1) ^ i * ee H i * hhat m K c H (((p - (K + m + 1) : ℕ) : ℤ) - i)))]
      · rw [← Finset.mul_sum, h1, mul_zero]
      · intro i hi
        rw [Finset.mem_range] at hi
        have h2 : ((p - (K + m + 1) : ℕ) : ℤ) = p - (K + m + 1) := by
          rw [Nat.cast_sub (by omega)]; push_cast; ring
        rw [h2, show (p : ℤ) - i = (p - (K + m + 1) - i) + (K + m + 1) by ring, hhat_shift hHn hHb (by omega)]
        ring

include hHn hHb in
theorem JD_hhat_shift (γ : Fin (m + 1) → ℕ) (i : Fin (m + 1)) :
    JD (hhat m K c H) (Function.update γ i (γ i + (K + m + 1))) = c * JD (hhat m K c H) γ := by
  unfold JD
  set A := (Matrix.of fun i j : Fin (m + 1) => hhat m K c H ((γ i : ℤ) - (j.val : ℤ))) with hA
  have : (Matrix.of fun a j : Fin (m + 1) => hhat m K c H (((Function.update γ i (γ i + (K + m + 1)) a : ℕ) : ℤ) - (j.val : ℤ))) =
      A.updateRow i (c • A i) := by
    ext a b : 2
    by_cases h : a = i
    · subst h
      rw [Matrix.updateRow_self, Matrix.of_apply, Function.update_self, hA]
      simp only [Pi.smul_apply, smul_eq_mul, Matrix.of_apply]
      rw [← hhat_shift hHn hHb (by have := b.2; omega)]
      congr 1
      push_cast
      ring
    · rw [Matrix.updateRow_ne h, Matrix.of_apply, Function.update_of_ne h]
      rfl
  rw [this, Matrix.det_updateRow_smul, Matrix.updateRow_eq_self]

end hhat

/-- The quantum Pieri rule modulo the ideal. -/
theorem qpieri_mod (hK : 1 ≤ K) (hI : ∀ j, m + 1 < j → j < m + 1 + K → ee (hvar K) j ∈ I)
    (hq : ee (hvar K) (m + 1 + K) + (-1) ^ K * MvPolynomial.X .q ∈ I) {l : List Int} (hl : clsA (m + 1) K l)
    {p : ℕ} (hp : 1 ≤ p) (hpK : p ≤ K) :
    Ideal.Quotient.mk I (MvPolynomial.X (.S [(p : ℤ)]) * JT K (m + 1) l) =
      Ideal.Quotient.mk I (∑ g ∈ Om K p (vec m l), if g 0 ≤ (K : ℤ) then JT K (m + 1) (lab g) else
        MvPolynomial.X .q * JT K (m + 1) (lab (rot K g))) := by
  set φ := Ideal.Quotient.mk I with hφ
  have hB := boxV_vec (m := m) (Int.natCast_nonneg K) hl
  set f := vec m l
  set H : ℤ → P ⧸ I := fun p => φ (hvar K p) with hH
  set c : P ⧸ I := φ ((-1) ^ m * MvPolynomial.X .q) with hcd
  have hH0 : H 0 = 1 := by simp [hH, hvar_zero]
  have hHn : ∀ p < 0, H p = 0 := by intro p hp; simp [hH, hvar_neg _ _ hp]
  have hHb : ∀ p, (K : ℤ) < p → H p = 0 := by intro p hp; simp [hH, hvar_big (Int.natCast_nonneg K) _ hp]
  have hrec : ∀ p : ℕ, 1 ≤ p → ∑ i ∈ range (m + 2), ((-1) ^ i * ee H i) * hhat m K c H ((p : ℤ) - i) = 0 := by
    apply hhat_rec hHn hHb hH0 hK
    · intro j hj hj'
      rw [hH, ← map_ee, hφ, Ideal.Quotient.eq_zero_iff_mem]
      exact hI j hj hj'
    · rw [hH, ← map_ee]
      have h1 : φ (ee (hvar K) (m + 1 + K)) = - ((-1) ^ K * φ (MvPolynomial.X .q)) := by
        rw [eq_neg_iff_add_eq_zero, ← Ideal.Quotient.eq_zero_iff_mem.2 hq, map_add, map_mul, map_pow, map_neg, map_one]
      rw [show K + m + 1 = m + 1 + K by ring, h1, hcd, map_mul, map_pow, map_neg, map_one, pow_add, pow_succ]
      have h2 : ((-1 : P ⧸ I) ^ K) * (-1) ^ K = 1 := neg_pow_mul_self K
      linear_combination ((-1 : P ⧸ I) ^ m * φ (MvPolynomial.X .q)) * h2
  let _ : Module (Polynomial ℚ) (P ⧸ I) := Module.compHom _ (φ.comp (Polynomial.aeval (R := ℚ) (MvPolynomial.X Sym.q : P)).toRingHom)
  have hsm : ∀ (a : Polynomial ℚ) (x : P ⧸ I), a • x = φ (inq a) * x := fun _ _ => rfl
  have hper : Periodic (K + m + 1) (JD (m := m) (hhat m K c H)) := by
    refine ⟨JD_alternating _, fun γ i => ?_⟩
    rw [JD_hhat_shift hHn hHb, hsm, hcd, cq]
    simp [inq]
  have hs0 : hhat m K c H 0 = 1 := by rw [hhat_small hHn (by omega), hH0]
  have hsn : ∀ p < 0, hhat m K c H p = 0 := by intro p hp; rw [hhat, if_pos hp]
  have key : H p * JD (hhat m K c H) (bt f) = ∑ g ∈ Om K p f, if g 0 ≤ (K : ℤ) then JD (hhat m K c H) (bt g) else
      φ (MvPolynomial.X .q) * JD (hhat m K c H) (bt (rot K g)) := by
    have h1 := JD_pieri_all hs0 hsn (by simp [ee_zero]) hrec (bt f) p
    rw [hhat_small hHn (by omega), sum_cyl hper hB (by omega)] at h1
    rw [h1]
    apply Finset.sum_congr rfl
    intro g _
    split
    · rfl
    · rw [hsm]; simp [inq]
  have hJ : ∀ g : Fin (m + 1) → ℤ, BoxV K g → φ (JT K (m + 1) (lab g)) =
      φ ((Equiv.Perm.sign (Fin.revPerm (n := m + 1)) : ℤ) : P) * JD (hhat m K c H) (bt g) := by
    intro g hg
    rw [JT_JD, map_mul, map_JD, vec_lab]
    · congr 1
      apply JD_congr
      intro i j
      rw [hhat_small hHn]
      have h1 := bt_cast (hg.nonneg i)
      have h2 := hg.le i
      omega
    · intro i
      by_cases hi : i < m + 1
      · have : (g ⟨i, hi⟩ : ℤ) = part (lab g) i := (part_lab_lt g ⟨i, hi⟩).symm
        rw [← this]
        exact hg.nonneg _
      · rw [part_lab_ge g (by omega)]
  have hJl := hJ f hB
  rw [lab_vec' hl] at hJl
  rw [map_mul, map_sum, hJl, mul_left_comm]
  have : φ (MvPolynomial.X (.S [(p : ℤ)])) = H p := by
    show _ = φ (hvar K p)
    rw [hvar_special (by omega) (by omega)]
  rw [this, key, Finset.mul_sum]
  apply Finset.sum_congr rfl
  intro g hg
  split
  · rename_i h
    rw [hJ _ (om_box hB hg h)]
  · rename_i h
    rw [map_mul, hJ _ (om_rot_box hB hg (not_le.1 h))]
    ring

end ideal

/-! ### the relations act as zero -/

theorem ee_col (K : ℤ) (j : ℕ) : ee (hvar K) j = jacobiTrudi K (List.replicate j 1) := by
  rw [← JT_eq K (N := j) (by simp), JT, ee]
  congr 1
  ext i c : 2
  rw [Matrix.of_apply, Matrix.of_apply, part_of_lt (by simp)]
  simp

theorem hkD_hook (K a : ℤ) (j : ℕ) : hkD (hvar K) a j = jacobiTrudi K (a :: List.replicate j 1) := by
  rw [← JT_eq K (N := j + 1) (by simp), JT, hkD]
  congr 1
  ext i c : 2
  rw [Matrix.of_apply, Matrix.of_apply]
  congr 2
  refine Fin.cases ?_ (fun i => ?_) i
  · simp [part_cons_zero]
  · rw [part_of_lt (by simp)]
    simp

theorem cls_hook {a : ℤ} {j : ℕ} (h1 : 1 ≤ a) (h2 : a ≤ K) (hj : j ≤ m) : clsA (m + 1) K (a :: List.replicate j 1) := by
  refine ⟨⟨?_, ?_⟩, ?_, ?_⟩
  · rw [List.pairwise_cons]
    refine ⟨?_, ?_⟩
    · intro b hb; rw [List.eq_of_mem_replicate hb]; exact h1
    · rw [List.pairwise_replicate]; right; exact le_refl _
  · intro x hx
    rcases List.mem_cons.1 hx with rfl | hx
    · omega
    · rw [List.eq_of_mem_replicate hx]; omega
  · simp; omega
  · intro x hx
    rcases List.mem_cons.1 hx with rfl | hx
    · exact h2
    · rw [List.eq_of_mem_replicate hx]; omega

section rel
variable {pieri : Int → List Int → Except PyErr Poly} (Y : GSys pieri K (clsA (m + 1) K))
  (hG : ∀ l, clsA (m + 1) K l → Y.G l = jacobiTrudi K l) {c : Polynomial ℚ}
  (ht : ∀ p : ℕ, 1 ≤ p → p ≤ K → Y.t p (List.replicate (m + 1) 1) =
    if p < K then Finsupp.single (((p : ℤ) + 1) :: List.replicate m 1) 1 else Finsupp.single [] c)
include hG ht

theorem act_hook {p : ℕ} (h1 : 1 ≤ p) (h2 : p ≤ K) :
    Y.act (hkD (hvar K) p (m + 1)) (Finsupp.single [] 1) = if p < K then 0 else Finsupp.single [] c := by
  rw [hkD_succ (hvar_zero _) (hvar_neg _), map_sub, map_mul, LinearMap.sub_apply, Module.End.mul_apply, hvar_special (by omega) (by omega)]
  have hc1 : clsA (m + 1) K (List.replicate (m + 1) 1) := cls_hook (le_refl _) (by omega) (le_refl m)
  rw [ee_col, ← hG _ hc1, Y.act_G _ hc1, Y.act_special h1 h2, lin, Finsupp.linearCombination_single, one_smul, ht p h1 h2]
  by_cases h : p < K
  · have hc2 : clsA (m + 1) K (((p : ℤ) + 1) :: List.replicate m 1) := cls_hook (by omega) (by omega) (le_refl m)
    rw [if_pos h, if_pos h, hkD_hook, ← hG _ hc2, Y.act_G _ hc2, sub_self]
  · rw [if_neg h, if_neg h, hkD_big (by omega) (by omega), map_zero, LinearMap.zero_apply, sub_zero]

theorem act_elem : ∀ p : ℕ, 1 ≤ p → p ≤ K →
    Y.act (ee (hvar K) (m + 1 + p)) (Finsupp.single [] 1) = if p < K then 0 else (-1 : ℤ) ^ (K - 1) • Finsupp.single [] c := by
  intro p
  induction p using Nat.strong_induction_on with
  | _ p ih =>
    intro h1 h2
    obtain ⟨s, rfl⟩ : ∃ s, p = s + 1 := ⟨p - 1, by omega⟩
    rw [show m + 1 + (s + 1) = (m + 1 + s) + 1 by ring, ee_succ, hkD_sum (hvar_zero _) (hvar_neg _), map_add, map_sum,
      LinearMap.add_apply, LinearMap.sum_apply, Finset.sum_eq_zero, zero_add, map_mul, Module.End.mul_apply]
    · rw [show (1 : ℤ) + s = ((s + 1 : ℕ) : ℤ) by push_cast; ring, act_hook Y hG ht h1 h2]
      by_cases h : s + 1 < K
      · rw [if_pos h, if_pos h, map_zero]
      · rw [if_neg h, if_neg h, map_pow, map_neg, map_one]
        have : s = K - 1 := by omega
        rw [this, negpow_apply]
    · intro i hi
      rw [Finset.mem_range] at hi
      rw [map_mul, Module.End.mul_apply, show m + 1 + s - i = m + 1 + (s - i) by omega, ih (s - i) (by omega) (by omega) (by omega),
        if_pos (by omega), map_zero]

end rel

theorem vec_col (i : Fin (m + 1)) : vec m (List.replicate (m + 1) 1) i = 1 := by
  simp only [vec]
  rw [part_of_lt (by simp; omega), List.getElem_replicate]

/-- Only one strip can be added to the full column. -/
theorem om_col {k : ℤ} {p : ℕ} (hp : (p : ℤ) ≤ k) :
    Om k p (vec m (List.replicate (m + 1) 1)) = {vec m (((p : ℤ) + 1) :: List.replicate m 1)} := by
  have hv : ∀ i : Fin m, vec m (((p : ℤ) + 1) :: List.replicate m 1) i.succ = 1 := by
    intro i
    simp only [vec]
    rw [part_of_lt (by simp)]
    simp
  have hv0 : vec m (((p : ℤ) + 1) :: List.replicate m 1) 0 = p + 1 := by
    simp only [vec]
    exact part_cons_zero _ _
  ext g
  rw [mem_Om, Finset.mem_singleton]
  have hsum : ∑ i, vec m (List.replicate (m + 1) 1) i = m + 1 := by
    rw [Finset.sum_congr rfl (fun i _ => vec_col i)]; simp
  rw [hsum]
  constructor
  · rintro ⟨h1, h2, h3⟩
    have hg : ∀ i : Fin m, g i.succ = 1 := by
      intro i
      have e1 : vec m (List.replicate (m + 1) 1) i.succ ≤ g i.succ := h1 i.succ
      have e2 : g i.succ ≤ sh k (vec m (List.replicate (m + 1) 1)) i.succ := h2 i.succ
      rw [sh_succ] at e2
      rw [vec_col] at e1 e2
      omega
    funext i
    refine Fin.cases ?_ (fun i => ?_) i
    · rw [hv0]
      rw [Fin.sum_univ_succ, Finset.sum_congr rfl (fun i _ => hg i)] at h3
      simp at h3
      omega
    · rw [hg, hv]
  · rintro rfl
    refine ⟨?_, ?_, ?_⟩
    · intro i
      rw [vec_col]
      refine Fin.cases ?_ (fun i => ?_) i
      · rw [hv0]; show (1 : ℤ) ≤ p + 1; omega
      · rw [hv]
    · intro i
      refine Fin.cases ?_ (fun i => ?_) i
      · rw [hv0, sh_zero, vec_col]; show (p : ℤ) + 1 ≤ 1 + k; omega
      · rw [hv, sh_succ, vec_col]
    · rw [Fin.sum_univ_succ, hv0, Finset.sum_congr rfl (fun i _ => hv i)]
      simp
      ring

theorem tc_col (p : ℕ) (h1 : 1 ≤ p) (h2 : p ≤ K) : tc m K p (List.replicate (m + 1) 1) =
    if p < K then Finsupp.single (((p : ℤ) + 1) :: List.replicate m 1) 1 else Finsupp.single [] 0 := by
  have hc1 : clsA (m + 1) K (List.replicate (m + 1) 1) := cls_hook (le_refl _) (by omega) (le_refl m)
  rw [tc, if_pos hc1, om_col (by omega), Finset.sum_filter, Finset.sum_singleton]
  have hv0 : vec m (((p : ℤ) + 1) :: List.replicate m 1) 0 = p + 1 := by
    simp only [vec]
    exact part_cons_zero _ _
  rw [hv0]
  by_cases h : p < K
  · rw [if_pos h, if_pos (by omega), lab_vec' (cls_hook (m := m) (K := K) (by omega) (by omega) (le_refl m))]
  · rw [if_neg h, if_neg (by omega), Finsupp.single_zero]

theorem tq_col (p : ℕ) (h1 : 1 ≤ p) (h2 : p ≤ K) : tq m K p (List.replicate (m + 1) 1) =
    if p < K then Finsupp.single (((p : ℤ) + 1) :: List.replicate m 1) 1 else Finsupp.single [] Polynomial.X := by
  have hc1 : clsA (m + 1) K (List.replicate (m + 1) 1) := cls_hook (le_refl _) (by omega) (le_refl m)
  rw [tq, if_pos hc1, om_col (by omega), Finset.sum_singleton, Pi1]
  have hv0 : vec m (((p : ℤ) + 1) :: List.replicate m 1) 0 = p + 1 := by
    simp only [vec]
    exact part_cons_zero _ _
  rw [hv0]
  by_cases h : p < K
  · rw [if_pos h, if_pos (by omega), lab_vec' (cls_hook (m := m) (K := K) (by omega) (by omega) (le_refl m))]
  · rw [if_neg h, if_neg (by omega)]
    congr 1
    have hr : rot (K : ℤ) (vec m (((p : ℤ) + 1) :: List.replicate m 1)) = vec m [] := by
      funext i
      simp only [rot]
      refine Fin.lastCases ?_ (fun i => ?_) i
      · rw [dn_last, hv0]
        simp [vec, part]
        omega
      · rw [dn_castSucc]
        simp only [vec]
        rw [part_of_lt (by simp)]
        simp [part]
    rw [hr]
    exact lab_vec (by exact ⟨by simp, by simp⟩) (by simp)

/-! ### the presentations -/

theorem act_zero_iff_C {n : ℤ} (hk : (0 : ℤ) ≤ K) (hn : n = m + 1 + K) {e : P}
    (he : e ∈ MvPolynomial.supported ℚ (special K)) :
    (sysC m hk hn).act e (Finsupp.single [] 1) = 0 ↔
      e ∈ Ideal.span {r : P | ∃ j : ℕ, m + 1 < j ∧ j ≤ m + 1 + K ∧ r = ee (hvar K) j} := by
  have hG : ∀ l, clsA (m + 1) K l → (sysC m hk hn).G l = jacobiTrudi K l := by
    intro l hl
    rw [G_JT hk hn l hl, JT_eq _ hl.2.1]
  set S : Set P := {r : P | ∃ j : ℕ, m + 1 < j ∧ j ≤ m + 1 + K ∧ r = ee (hvar K) j} with hS
  refine (sysC m hk hn).act_zero_iff ⟨⟨by simp, by simp⟩, by simp, by simp⟩ rfl ?_ ?_ he
  · intro p l h1 h2 hl
    rw [← Ideal.Quotient.eq_zero_iff_mem, map_sub, sub_eq_zero, G_JT hk hn l hl]
    rw [pieri_mod (I := Ideal.span S) (fun j h1 h2 => Ideal.subset_span ⟨j, h1, h2, rfl⟩) hl h1 (by simpa using h2)]
    congr 1
    show _ = (sysC m hk hn).GL (tc m K p l)
    rw [tc, if_pos hl, GSys.GL_sum]
    apply Finset.sum_congr rfl
    intro g hg
    rw [Finset.mem_filter] at hg
    rw [GSys.GL_single, G_JT hk hn _ (clsA_lab (om_box (boxV_vec hk hl) hg.1 hg.2))]
    simp [inq]
  · rintro r ⟨j, h1, h2, rfl⟩
    obtain ⟨p, rfl⟩ : ∃ p, j = m + 1 + p := ⟨j - (m + 1), by omega⟩
    have := act_elem (m := m) (K := K) (sysC m hk hn) hG (c := 0) tc_col p (by omega) (by omega)
    rw [this]
    simp

theorem act_zero_iff_Q {n : ℤ} (hk : (0 : ℤ) ≤ K) (hn : n = m + 1 + K) {e : P}
    (he : e ∈ MvPolynomial.supported ℚ (special K)) :
    (sysQ m hk hn).act e (Finsupp.single [] 1) = 0 ↔
      e ∈ Ideal.span {r : P | ∃ j : ℕ, m + 1 < j ∧ j ≤ m + 1 + K ∧
        r = ee (hvar K) j + if j = m + 1 + K then (-1) ^ K * MvPolynomial.X .q else 0} := by
  have hG' : ∀ l, clsA (m + 1) K l → (sysQ m hk hn).G l = JT K (m + 1) l := by
    intro l hl
    rw [G_eq hk hn l hl, G_JT hk hn l hl]
  have hG : ∀ l, clsA (m + 1) K l → (sysQ m hk hn).G l = jacobiTrudi K l := by
    intro l hl
    rw [hG' l hl, JT_eq _ hl.2.1]
  set S : Set P := {r : P | ∃ j : ℕ, m + 1 < j ∧ j ≤ m + 1 + K ∧
        r = ee (hvar K) j + if j = m + 1 + K then (-1) ^ K * MvPolynomial.X .q else 0} with hS
  refine (sysQ m hk hn).act_zero_iff ⟨⟨by simp, by simp⟩, by simp, by simp⟩ rfl ?_ ?_ he
  · intro p l h1 h2 hl
    have hK : 1 ≤ K := by simp at h2; omega
    rw [← Ideal.Quotient.eq_zero_iff_mem, map_sub, sub_eq_zero, hG' l hl]
    rw [qpieri_mod (I := Ideal.span S) hK (fun j h1 h2 => Ideal.subset_span ⟨j, h1, by omega, by rw [if_neg (by omega), add_zero]⟩)
      (Ideal.subset_span ⟨m + 1 + K, by omega, le_refl _, by rw [if_pos rfl]⟩) hl h1 (by simpa using h2)]
    congr 1
    show _ = (sysQ m hk hn).GL (tq m K p l)
    rw [tq, if_pos hl, GSys.GL_sum]
    apply Finset.sum_congr rfl
    intro g hg
    rw [Pi1]
    split
    · rename_i h
      rw [GSys.GL_single, hG' _ (clsA_lab (om_box (boxV_vec hk hl) hg h))]
      simp [inq]
    · rename_i h
      rw [GSys.GL_single, hG' _ (clsA_lab (om_rot_box (boxV_vec hk hl) hg (not_le.1 h)))]
      simp [inq]
  · rintro r ⟨j, h1, h2, rfl⟩
    obtain ⟨p, rfl⟩ : ∃ p, j = m + 1 + p := ⟨j - (m + 1), by omega⟩
    have := act_elem (m := m) (K := K) (sysQ m hk hn) hG (c := Polynomial.X) tq_col p (by omega) (by omega)
    rw [map_add, LinearMap.add_apply, this]
    by_cases h : p < K
    · rw [if_pos h, if_neg (by omega)]; simp
    · rw [if_neg h, if_pos (by omega), map_mul, Module.End.mul_apply, PSys.act_q, map_pow, map_neg, map_one, Finsupp.smul_single]
      obtain ⟨d, rfl⟩ : ∃ d, K = d + 1 := ⟨K - 1, by omega⟩
      rw [negpow_apply, pow_succ, Nat.add_sub_cancel]
      simp

end Verif
