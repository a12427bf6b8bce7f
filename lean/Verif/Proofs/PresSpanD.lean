import Verif.Proofs.PresAlgD
/-!
# Spanning sets modulo the relations of `OG(m, 2m+2k)`
-/

namespace Verif
open Spec

section
variable {A : Type*} [CommRing A] [Algebra ℚ A] [Algebra (Polynomial ℚ) A] {c : ℤ → A} {δ : A} {m k : ℕ}

theorem subH_mem (c : ℤ → A) (p : ℤ) : c p ∈ subH c := Algebra.subset_adjoin ⟨p, rfl⟩

theorem qd_mem (c : ℤ → A) (r : ℕ) : qd c r ∈ subH c := by
  unfold qd
  refine Subalgebra.add_mem _ (Subalgebra.pow_mem _ (subH_mem c _) _) (Subalgebra.mul_mem _ ?_ (Subalgebra.sum_mem _ fun i _ =>
    Subalgebra.mul_mem _ (Subalgebra.pow_mem _ (Subalgebra.neg_mem _ (Subalgebra.one_mem _)) _) (Subalgebra.mul_mem _ (subH_mem c _) (subH_mem c _))))
  exact ofNat_mem _ 2

/-- the subring of `IG(m, 2m+2k)` -/
theorem span_low {k : ℕ} (c0 : c 0 = 1) (cneg : ∀ p < 0, c p = 0) (cbig : ∀ p, (m + 2 * k : ℤ) < p → c p = 0)
    (hdet : ∀ j, m < j → ee c j = 0) (hquad : ∀ r : ℕ, k < r → qd c r = 0) : SpanN (subH c : Set A) (2 ^ m * (m + k).choose m) := by
  cases m with
  | succ m =>
    obtain ⟨g, hg⟩ := span_BC (m := m) (k := k) c0 cneg (fun p hp => cbig p (by push_cast; omega)) (fun j h1 _ => hdet j h1) (fun r h1 _ => hquad r h1)
    refine SpanN.of ?_ g hg
    rw [Fintype.card_prod, Fintype.card_fin, Fintype.card_coe, Finset.card_powerset, Nat.card_Icc, Nat.add_sub_cancel, mul_comm]
  | zero =>
    have hc : ∀ p : ℕ, 1 ≤ p → c p = 0 := by
      intro p hp
      have h := newton c0 cneg (p := p) hp
      rw [Finset.sum_eq_single 0] at h
      · rw [pow_zero, ee_zero, Nat.cast_zero, sub_zero, one_mul, one_mul] at h
        exact h
      · intro i _ hi
        rw [hdet i (by omega), mul_zero, zero_mul]
      · intro h'
        simp at h'
    refine SpanN.of (τ := Unit) (by simp) (fun _ => 1) fun x hx => ?_
    have : x ∈ (⊥ : Subalgebra (Polynomial ℚ) A) := by
      refine Algebra.adjoin_le ?_ hx
      rintro _ ⟨p, rfl⟩
      rcases lt_trichotomy p 0 with h | rfl | h
      · rw [cneg p h]; exact Subalgebra.zero_mem _
      · rw [c0]; exact Subalgebra.one_mem _
      · obtain ⟨p, rfl⟩ := Int.eq_ofNat_of_zero_le h.le
        have : c (p : ℤ) = 0 := hc p (by omega)
        rw [SetLike.mem_coe, this]; exact Subalgebra.zero_mem _
    obtain ⟨a, ha⟩ := Algebra.mem_bot.1 this
    exact ⟨fun _ => a, by simp [ha]⟩

/-- the multiples of `δ` -/
theorem span_del (c0 : c 0 = 1) (cneg : ∀ p < 0, c p = 0) (cbig : ∀ p, (m + 1 + 2 * k : ℤ) ≤ p → c p = 0)
    (hdet : ∀ j, m + 1 < j → ee c j = 0) (hquad : ∀ r : ℕ, k < r → qd c r = 0) (hm : δ * ee c (m + 1) = 0) :
    SpanN ((δ * ·) '' (subH c : Set A)) (2 ^ m * (m + k).choose m) := by
  let I : Ideal A := LinearMap.ker (LinearMap.mulLeft A δ)
  have hI : ∀ x, x ∈ I ↔ δ * x = 0 := fun x => LinearMap.mem_ker
  let φ : A →+* A ⧸ I := Ideal.Quotient.mk I
  have hφ : ∀ x, φ x = 0 ↔ δ * x = 0 := fun x => Ideal.Quotient.eq_zero_iff_mem.trans (hI x)
  obtain ⟨g, hg⟩ := span_low (A := A ⧸ I) (c := fun p => φ (c p)) (m := m) (k := k) (by beta_reduce; rw [c0, map_one])
    (fun p hp => by beta_reduce; rw [cneg p hp, map_zero]) (fun p hp => by beta_reduce; rw [cbig p (by omega), map_zero]) (by
      intro j hj
      rw [← map_ee φ c j, hφ]
      by_cases h : j = m + 1
      · rw [h, hm]
      · rw [hdet j (by omega), mul_zero]) (by
      intro r hr
      have := congrArg φ (hquad r hr)
      rw [map_zero] at this
      rw [← this, qd, qd]
      simp only [map_add, map_mul, map_pow, map_sum, map_neg, map_one, map_ofNat])
  choose g' hg' using fun t => Ideal.Quotient.mk_surjective (I := I) (g t)
  refine ⟨fun t => δ * g' t, ?_⟩
  rintro _ ⟨x, hx, rfl⟩
  have hx' : φ x ∈ subH fun p => φ (c p) := by
    have h1 : φ x ∈ (subH c).map (Ideal.Quotient.mkₐ (Polynomial ℚ) I) := ⟨x, hx, rfl⟩
    unfold subH at h1 ⊢
    rw [AlgHom.map_adjoin, ← Set.range_comp] at h1
    exact h1
  obtain ⟨a, ha⟩ := hg _ hx'
  refine ⟨a, ?_⟩
  have h2 : φ (x - ∑ t, algebraMap (Polynomial ℚ) A (a t) * g' t) = 0 := by
    rw [map_sub, sub_eq_zero, ha, map_sum]
    refine Finset.sum_congr rfl fun t _ => ?_
    rw [map_mul]
    show _ = _ * Ideal.Quotient.mk I (g' t)
    rw [hg' t]
    rfl
  rw [hφ, mul_sub, sub_eq_zero] at h2
  refine Eq.trans h2 ?_
  rw [Finset.mul_sum]
  exact Finset.sum_congr rfl fun t _ => by ring

/-- **The spanning set.** -/
theorem span_D (c0 : c 0 = 1) (cneg : ∀ p < 0, c p = 0) (cbig : ∀ p, (m + 1 + 2 * (k + 1 : ℕ) : ℤ) ≤ p → c p = 0)
    (hdet : ∀ j, m + 1 < j → j < m + 1 + 2 * (k + 1) → ee c j = 0) (hquad : ∀ r : ℕ, k + 1 < r → r < m + 1 + (k + 1) → qd c r = 0)
    (hδ : δ ^ 2 = qd c (k + 1)) (hm : δ * ee c (m + 1) = 0) :
    SpanN (Algebra.adjoin (Polynomial ℚ) (Set.range c ∪ {δ}) : Set A) (2 ^ (m + 1) * (m + 1 + (k + 1)).choose (k + 1)) := by
  obtain ⟨h1, h2⟩ := strongD (m := m + 1) (k := k + 1) (by omega) c0 cneg (fun p hp => cbig p (by push_cast at hp ⊢; omega)) hdet hquad (by
    rw [← hδ]
    linear_combination δ * hm)
  have e1 := span_noA (m := m) (k := k) c0 cneg cbig h1 h2
  have e2 := span_del (k := k + 1) (δ := δ) c0 cneg cbig h1 h2 hm
  have hN : (noA (m + 1 + (k + 1)) (k + 1)).card + 2 ^ m * (m + (k + 1)).choose m = 2 ^ (m + 1) * (m + 1 + (k + 1)).choose (k + 1) := by
    have h3 := card_noA (m + (k + 1)) (k + 1)
    rw [card_Wd (by omega), card_Wd (by omega), show m + (k + 1) + 1 = m + 1 + (k + 1) by omega, Nat.add_sub_cancel, Nat.add_sub_cancel] at h3
    rw [← h3, Nat.choose_symm_add]
  rw [← hN]
  refine SpanN.add e1 e2 fun x hx => ?_
  replace hx : x ∈ Algebra.adjoin (Polynomial ℚ) (Set.range c ∪ {δ}) := hx
  suffices h : ∃ y ∈ subH c, ∃ z ∈ subH c, x = y + δ * z by
    obtain ⟨y, hy, z, hz, rfl⟩ := h
    exact ⟨y, hy, δ * z, ⟨z, hz, rfl⟩, rfl⟩
  induction hx using Algebra.adjoin_induction with
  | mem x hx =>
    rcases hx with ⟨p, rfl⟩ | rfl
    · exact ⟨c p, subH_mem c p, 0, Subalgebra.zero_mem _, by ring⟩
    · exact ⟨0, Subalgebra.zero_mem _, 1, Subalgebra.one_mem _, by ring⟩
  | algebraMap a => exact ⟨_, Subalgebra.algebraMap_mem _ a, 0, Subalgebra.zero_mem _, by ring⟩
  | add x x' _ _ h h' =>
    obtain ⟨y, hy, z, hz, rfl⟩ := h
    obtain ⟨y', hy', z', hz', rfl⟩ := h'
    exact ⟨y + y', Subalgebra.add_mem _ hy hy', z + z', Subalgebra.add_mem _ hz hz', by ring⟩
  | mul x x' _ _ h h' =>
    obtain ⟨y, hy, z, hz, rfl⟩ := h
    obtain ⟨y', hy', z', hz', rfl⟩ := h'
    refine ⟨y * y' + qd c (k + 1) * (z * z'), Subalgebra.add_mem _ (Subalgebra.mul_mem _ hy hy')
      (Subalgebra.mul_mem _ (qd_mem c _) (Subalgebra.mul_mem _ hz hz')), y * z' + z * y',
      Subalgebra.add_mem _ (Subalgebra.mul_mem _ hy hz') (Subalgebra.mul_mem _ hz hy'), ?_⟩
    rw [← hδ]
    ring

end

end Verif
