import Verif.Proofs.AltA
import Verif.Props.RimHook
import Verif.Model.RimProd
import Mathlib.GroupTheory.Perm.Fin
/-!
# Removing rim hooks is reducing modulo `n`
-/

namespace Verif
open Spec Cyl Finset Alt

variable {m : ℕ}

theorem clsA.bound {k : ℤ} {l : List Int} (h : clsA (m + 1) k l) (i : ℕ) : part l i ≤ k ∨ part l i = 0 := by
  by_cases hi : i < l.length
  · left; rw [part_of_lt hi]; exact h.2.2 _ (List.getElem_mem hi)
  · right; exact part_of_ge (by omega)

theorem not_inRect {k : ℤ} {K : ℤ} (hk : 0 ≤ k) {l : List Int} (h : clsA (m + 1) K l) (hn : ¬ InRect l (m + 1) k) : k < part l 0 := by
  by_contra hc
  refine hn ⟨h.2.1, fun x hx => ?_⟩
  obtain ⟨i, hi, rfl⟩ := List.mem_iff_getElem.1 hx
  have h1 := h.1.isPartition.part_anti (i := 0) (j := i) (by omega)
  rw [part_of_lt hi] at h1
  omega

theorem clsA_hook {K : ℤ} {n : ℤ} {l x : List Int} (h : clsA (m + 1) K l) (hx : TopHook n l x) : clsA (m + 1) K x := by
  have hc := hx.contained h.1.isPartition
  have hlen : x.length ≤ l.length := by
    by_contra hcon
    have h1 := hc l.length
    rw [part_of_ge (l := l) le_rfl, part_of_lt (by omega)] at h1
    have h2 := hx.1.2 _ (List.getElem_mem (l := x) (n := l.length) (by omega))
    omega
  refine ⟨hx.1, hlen.trans h.2.1, fun y hy => ?_⟩
  obtain ⟨i, hi, rfl⟩ := List.mem_iff_getElem.1 hy
  have h1 := hc i
  rw [part_of_lt hi, part_of_lt (l := l) (by omega)] at h1
  exact h1.trans (h.2.2 _ (List.getElem_mem _))

/-- Removing a hook from the first row subtracts `n` from the first entry and sorts. -/
theorem Dq_hook {k : ℕ} {K : ℤ} {l x : List Int} (h : clsA (m + 1) K l) (h0 : (k : ℤ) < part l 0) {b : ℕ}
    (hb : RimHook l x 0 b) (hx : ReducedPart x) (hs : x.sum = l.sum - (k + m + 1 : ℕ)) :
    b ≤ m ∧ Dq m k (bt (vec m l)) = ((-1) ^ (m + b) * Polynomial.X : Polynomial ℚ) • Dq m k (bt (vec m x)) := by
  have hsz := topHook_size hb
  have hxn := fun i => hx.isPartition.part_nonneg i
  have hln := fun i => h.1.isPartition.part_nonneg i
  have hbl : b < l.length := by
    by_contra hc
    have h1 := hb.2.2.2
    rw [part_of_ge (l := l) (by omega)] at h1
    have := hxn b
    omega
  have hbm : b ≤ m := by have := h.2.1; omega
  refine ⟨hbm, ?_⟩
  have c1 : ∀ i : Fin (m + 1), (bt (vec m l) i : ℤ) = part l i + ((m : ℤ) - (i.val : ℤ)) := fun i => bt_cast (hln i)
  have c2 : ∀ i : Fin (m + 1), (bt (vec m x) i : ℤ) = part x i + ((m : ℤ) - (i.val : ℤ)) := fun i => bt_cast (hxn i)
  have hge : k + m + 1 ≤ bt (vec m l) 0 := by
    have := c1 0
    simp at this
    omega
  have hD := Dq_periodic m k
  rw [hD.sub_n hge]
  have hcyc : bt (vec m x) = Function.update (bt (vec m l)) 0 (bt (vec m l) 0 - (k + m + 1)) ∘ Fin.cycleRange (⟨b, by omega⟩ : Fin (m + 1)) := by
    funext j
    have hc1 := c1 j
    have hc2 := c2 j
    rw [Function.comp_apply]
    rcases lt_trichotomy j.val b with hj | hj | hj
    · have hlt : j < (⟨b, by omega⟩ : Fin (m + 1)) := hj
      have e := Fin.coe_cycleRange_of_lt hlt
      rw [Function.update_of_ne (by intro h'; rw [h'] at e; simp at e)]
      have := c1 (Fin.cycleRange (⟨b, by omega⟩ : Fin (m + 1)) j)
      rw [e] at this
      have h3 := hb.2.2.1 j (by omega) hj
      push_cast at this
      omega
    · have : j = (⟨b, by omega⟩ : Fin (m + 1)) := Fin.ext hj
      rw [this, Fin.cycleRange_self, Function.update_self, ← this]
      have h1 := c1 0
      simp only [Fin.val_zero] at h1
      rw [hj] at hc2
      rw [hs] at hsz
      push_cast at hsz h1
      omega
    · have hgt : (⟨b, by omega⟩ : Fin (m + 1)) < j := hj
      rw [Fin.cycleRange_of_gt hgt, Function.update_of_ne (by intro h'; rw [h'] at hj; simp at hj)]
      have h3 := hb.2.1 j (by omega)
      omega
  rw [hcyc, hD.alt.perm, Fin.sign_cycleRange]
  have hsq : ((-1) ^ (m + b) : Polynomial ℚ) = (-1) ^ m * (-1) ^ b := pow_add _ _ _
  have hz : ∀ z : LMod, ((((-1) ^ b : ℤˣ) : ℤ)) • z = ((-1) ^ b : Polynomial ℚ) • z := by
    intro z
    rw [← Int.cast_smul_eq_zsmul (Polynomial ℚ)]
    push_cast
    rfl
  show cq m • _ = (((-1) ^ (m + b) * Polynomial.X : Polynomial ℚ)) • ((((-1) ^ b : ℤˣ) : ℤ)) • _
  rw [hz, smul_smul, hsq, cq]
  congr 1
  have : ((-1) ^ b * (-1) ^ b : Polynomial ℚ) = 1 := by rw [← mul_pow]; simp
  calc (-1) ^ m * Polynomial.X = (-1) ^ m * Polynomial.X * ((-1) ^ b * (-1) ^ b : Polynomial ℚ) := by rw [this, mul_one]
    _ = _ := by ring

/-- Without a hook of that size the class is reduced to `0`. -/
theorem Dq_nohook {k : ℕ} {K : ℤ} {l : List Int} (h : clsA (m + 1) K l) (h0 : (k : ℤ) < part l 0)
    (hno : ¬ ∃ x, TopHook (k + m + 1 : ℕ) l x) : Dq m k (bt (vec m l)) = 0 := by
  have hln := fun i => h.1.isPartition.part_nonneg i
  have c1 : ∀ i : Fin (m + 1), (bt (vec m l) i : ℤ) = part l i + ((m : ℤ) - (i.val : ℤ)) := fun i => bt_cast (hln i)
  have c0 := c1 0
  simp only [Fin.val_zero] at c0
  have hge : k + m + 1 ≤ bt (vec m l) 0 := by push_cast at c0; omega
  have hend : ∀ b, ¬ HookEnd l 0 (k + m + 1 : ℕ) b := by
    intro b hb
    cases hp : rimLoop l.length 0 (l ++ [0]) (k + m + 1 : ℕ) with
    | some p => exact hno ⟨_, (rimPass_some h.1.isPartition (by omega) hp).2⟩
    | none =>
      exact rimLoop_none l h.1.isPartition l.length 0 (l ++ [0]) _ (by omega) (by simp)
        (fun j _ => part_concat_zero l j) (by omega) hp b hb
  have hD := Dq_periodic m k
  -- some later row has the reduced entry
  have hex : ∃ j, j ≤ m ∧ part l j - j = part l 0 - (k + m + 1 : ℕ) := by
    by_contra hcon
    push Not at hcon
    have key : ∀ b, b ≤ m → part l 0 - (k + m + 1 : ℕ) < part l b - b := by
      intro b
      induction b with
      | zero => intro _; push_cast; omega
      | succ b ih =>
        intro hb
        have h1 := ih (by omega)
        have h2 := hend b
        have h3 := hcon (b + 1) hb
        unfold HookEnd at h2
        push_cast at h1 h2 h3 ⊢
        by_contra hc
        exact h2 ⟨by omega, by omega, by omega⟩
    have h1 := key m le_rfl
    apply hend m
    have e : part l (m + 1) = 0 := part_of_ge h.2.1
    unfold HookEnd
    rw [e]
    push_cast at h1 ⊢
    exact ⟨by omega, by omega, by omega⟩
  obtain ⟨j, hj, hje⟩ := hex
  have hj0 : j ≠ 0 := by rintro rfl; push_cast at hje; omega
  rw [hD.sub_n hge, hD.alt.zero _ 0 ⟨j, by omega⟩ (by intro h'; exact hj0 (by simpa using (congrArg Fin.val h').symm)) ?_, smul_zero]
  rw [Function.update_self, Function.update_of_ne (by intro h'; exact hj0 (by simpa using (congrArg Fin.val h')))]
  have := c1 ⟨j, by omega⟩
  simp only at this
  push_cast at this c0 hje
  omega

theorem Dq_in {k : ℕ} {K : ℤ} {l : List Int} (h : clsA (m + 1) K l) (hin : InRect l (m + 1) k) :
    Dq m k (bt (vec m l)) = Finsupp.single l 1 := by
  have hc : clsA (m + 1) k l := ⟨h.1, hin⟩
  rw [Dq_bt (boxV_vec (m := m) (Int.natCast_nonneg k) hc), lab_vec' hc]

/-- Along a chain of hooks. -/
theorem Dq_chain {k : ℕ} {K : ℤ} {l x : List Int} {c : ℕ} (h : clsA (m + 1) K l) (hni : ¬ InRect l (m + 1) k)
    (hc : HookChain (k + m + 1 : ℕ) (m + 1) k l c x) :
    clsA (m + 1) K x ∧ ∃ e : ℕ, Dq m k (bt (vec m l)) = ((-1) ^ e * Polynomial.X ^ c : Polynomial ℚ) • Dq m k (bt (vec m x)) := by
  induction hc with
  | start => exact ⟨h, 0, by simp⟩
  | @snoc c y x h1 h2 h3 ih =>
    obtain ⟨ih1, e, ih2⟩ := ih
    have hny : ¬ InRect y (m + 1) k := by
      rcases h2 with rfl | h2
      · cases h1; exact hni
      · exact h2
    obtain ⟨b, hb⟩ := h3.2.1
    refine ⟨clsA_hook ih1 h3, e + (m + b), ?_⟩
    rw [ih2, (Dq_hook ih1 (not_inRect (Int.natCast_nonneg k) ih1 hny) hb h3.1 h3.2.2).2, smul_smul]
    congr 1
    ring

theorem rimHeight_hook {l x : List Int} (hl : ReducedPart l) (hx : ReducedPart x) {b : ℕ} (hb : RimHook l x 0 b) :
    rimHeight x l = b + 1 := by
  have hbl : b < l.length := by
    by_contra hc
    have h1 := hb.2.2.2
    rw [part_of_ge (l := l) (by omega)] at h1
    have := hx.isPartition.part_nonneg b
    omega
  rw [C27_height l x hl]
  have : (List.range l.length).countP (fun i => decide (part x i < part l i)) =
      (List.range l.length).countP (fun i => decide (i < b + 1)) := by
    apply List.countP_congr
    intro i _
    simp only [decide_eq_true_eq]
    rcases lt_trichotomy i b with hi | hi | hi
    · have h1 := hb.2.2.1 i (by omega) hi
      have h2 := hl.isPartition.part_anti (i := i) (j := i + 1) (by omega)
      constructor
      · intro _; omega
      · intro _; omega
    · subst hi
      have := hb.2.2.2
      constructor
      · intro _; omega
      · intro _; omega
    · have := hb.2.1 i (by omega)
      constructor
      · intro _; omega
      · intro _; omega
  rw [this]
  have h2 : ∀ N, (List.range N).countP (fun i => decide (i < b + 1)) = min N (b + 1) := by
    intro N
    induction N with
    | zero => simp
    | succ N ih =>
      rw [List.range_succ, List.countP_append, ih]
      by_cases hN : N < b + 1
      · have : List.countP (fun i => decide (i < b + 1)) [N] = 1 := by simp; omega
        omega
      · have : List.countP (fun i => decide (i < b + 1)) [N] = 0 := by simp; omega
        omega
  rw [h2]
  omega

theorem signPow_eq (e : Int) (f : ℕ) (h : e % 2 = f % 2) : Gr.signPow e = (-1) ^ f := by
  unfold Gr.signPow
  rcases Nat.even_or_odd f with hf | hf
  · rw [hf.neg_one_pow, if_pos]
    have := Nat.even_iff.1 hf
    omega
  · rw [hf.neg_one_pow, if_neg]
    have := Nat.odd_iff.1 hf
    omega

theorem signPow_pm (e : Int) : ∃ f : ℕ, Gr.signPow e = (-1) ^ f := by
  unfold Gr.signPow
  split
  · exact ⟨0, by simp⟩
  · exact ⟨1, by simp⟩

/-- The value computed for one class: exact if at most one hook is removed, exact up to the sign otherwise. -/
theorem rmRimHook_value {k : ℕ} {K : ℤ} {n : ℤ} (hn : n = m + 1 + k) {l : List Int} (h : clsA (m + 1) K l) :
    ∃ v : LMod, Returns (Gr.rmRimHook k n l) (ev v) ∧ (v = Dq m k (bt (vec m l)) ∨
      ∃ (c : ℕ) (x : List Int) (e e' : ℕ), 2 ≤ c ∧ x.sum + c * n = l.sum ∧ clsA (m + 1) k x ∧
        v = Finsupp.single x ((-1) ^ e * Polynomial.X ^ c) ∧
        Dq m k (bt (vec m l)) = Finsupp.single x ((-1) ^ e' * Polynomial.X ^ c)) := by
  have hmk : mkPartition l = .ok l := (C03_partition_ok _).2 h.1.isPartition
  have hnk : n - k = (m + 1 : ℕ) := by push_cast; omega
  have hnn : n = (k + m + 1 : ℕ) := by push_cast; omega
  obtain ⟨d, hd, hdi⟩ := isInRange_iff l h.1.isPartition (n - k) k (by omega) (by omega)
  rw [hnk, Int.toNat_natCast] at hdi
  unfold Gr.rmRimHook
  simp only [hmk, hd, bind, Except.bind]
  cases d with
  | true =>
    refine ⟨Finsupp.single l 1, ⟨_, rfl, wf_sym _, ?_⟩, Or.inl (Dq_in h (hdi.1 rfl)).symm⟩
    simp [inq]
  | false =>
    have hni : ¬ InRect l (m + 1) k := by rw [← hdi]; simp
    have h0 := not_inRect (Int.natCast_nonneg k) h hni
    have hne : l ≠ [] := by rintro rfl; exact hni ⟨by simp, by simp⟩
    have hlen : l.length ≠ 0 := by simpa using hne
    simp only [Bool.false_eq_true, if_false]
    by_cases hbig : n > maxRimSize l
    · have hr : removeRimHooks (l.sum.toNat + 1) l n (n - k) k = some (.ok (some [], 0, 0)) :=
        (C27_trivial l n (n - k) k _).2.2 hne (by omega) (by unfold maxRimSize at hbig; omega)
      rw [hr]
      refine ⟨0, ⟨[], by simp, ?_, by simp⟩, Or.inl (Dq_nohook h h0 ?_).symm⟩
      · exact wf_nil
      · rintro ⟨x, hx⟩
        obtain ⟨b, hb⟩ := hx.2.1
        have h1 := topHook_size hb
        have h2 := hx.2.2
        have h3 := hx.1.isPartition.part_nonneg b
        have hbl : b < l.length := by
          by_contra hc
          have h1 := hb.2.2.2
          rw [part_of_ge (l := l) (by omega)] at h1
          omega
        have h4 : part l 0 ≤ l.sum := by
          cases l with
          | nil => simp
          | cons a l =>
            have : 0 ≤ l.sum := List.sum_nonneg (fun y hy => by
              have := h.1.2 y (by simp [hy]); omega)
            simp [part]; omega
        unfold maxRimSize at hbig
        omega
    · have hr : removeRimHooks (l.sum.toNat + 1) l n (n - k) k = rimWhile l n (n - k) k (l.sum.toNat + 1) l 0 := by
        unfold removeRimHooks
        rw [if_neg hlen, if_neg (by omega), if_neg hbig]
      rw [hr]
      have hsp := rimWhile_spec l h.1.isPartition n (n - k) k (by omega) (by omega) (by omega) (l.sum.toNat + 1) l 0 .start
        (Or.inl rfl) (by push_cast; omega)
      rw [show (n - (k : ℤ)).toNat = m + 1 by omega] at hsp
      rw [hnn] at hsp ⊢
      rcases hsp with ⟨x, c, e1, e2, e3, e4⟩ | ⟨e1, y, c, e2, e3, e4⟩
      · obtain ⟨hxc, f, hf⟩ := Dq_chain h hni e3
        rw [Dq_in hxc e4, Finsupp.smul_single, smul_eq_mul, mul_one] at hf
        have e1' : rimWhile l (k + m + 1 : ℕ) ((k + m + 1 : ℕ) - k) k (l.sum.toNat + 1) l 0 = some (.ok (some x, (c : ℤ), rimHeight x l)) := e1
        rw [e1']
        simp only
        rw [if_pos (by omega)]
        obtain ⟨g, hg⟩ := signPow_pm (rimHeight x l - ((k + m + 1 : ℕ) - k))
        have hret : ∀ g : ℕ, Gr.signPow (rimHeight x l - ((k + m + 1 : ℕ) - k)) = (-1) ^ g → Returns (.ok (Poly.scale (Gr.signPow (rimHeight x l - ((k + m + 1 : ℕ) - k)))
            (Poly.mul (Poly.sym (.S x)) (Poly.pow (Poly.sym .q) (c : ℤ).toNat)))) (ev (Finsupp.single x ((-1) ^ g * Polynomial.X ^ c))) := by
          intro g hg
          refine ⟨_, rfl, wf_scale _ (wf_mul (wf_pow _)), ?_⟩
          · rw [den_scale, den_mul, den_pow, den_sym, den_sym, hg, ev_single, Int.toNat_natCast]
            simp [inq, MvPolynomial.smul_eq_C_mul]
            ring
        have hxs := (e3.facts h.1.isPartition).2.2.1
        by_cases hc1 : c = 1
        · subst hc1
          cases e3 with
          | snoc h1 h2 h3 =>
            cases h1
            obtain ⟨b, hb⟩ := h3.2.1
            obtain ⟨hbm, hq⟩ := Dq_hook h h0 hb h3.1 h3.2.2
            have hh := rimHeight_hook h.1 h3.1 hb
            refine ⟨_, hret (m + b) (signPow_eq _ _ (by rw [hh]; push_cast; omega)), Or.inl ?_⟩
            rw [hq, Dq_in hxc e4, Finsupp.smul_single, smul_eq_mul, mul_one, pow_one]
        · refine ⟨_, hret g hg, Or.inr ⟨c, x, g, f, by omega, ?_, ⟨hxc.1, e4⟩, rfl, hf⟩⟩
          rw [hxs]; ring
      · have e1' : rimWhile l (k + m + 1 : ℕ) ((k + m + 1 : ℕ) - k) k (l.sum.toNat + 1) l 0 = some (.ok (none, 0, 0)) := e1
        rw [e1']
        refine ⟨0, ⟨[], rfl, wf_nil, by simp⟩, Or.inl ?_⟩
        obtain ⟨hyc, f, hf⟩ := Dq_chain h hni e2
        have hny : ¬ InRect y (m + 1) k := by
          rcases e3 with rfl | h2
          · cases e2; exact hni
          · exact h2
        rw [hf, Dq_nohook hyc (not_inRect (Int.natCast_nonneg k) hyc hny) e4, smul_zero]

/-! ### bilinearity -/

theorem lin_sum (T : LMod →ₗ[Polynomial ℚ] LMod) (x : LMod) : T x = ∑ l ∈ x.support, x l • T (Finsupp.single l 1) := by
  conv_lhs => rw [← Finsupp.sum_single x, Finsupp.sum, map_sum]
  apply Finset.sum_congr rfl
  intro l _
  rw [← map_smul, Finsupp.smul_single, smul_eq_mul, mul_one]

theorem GSys.prod_expand {pieri : Int → List Int → Except PyErr Poly} {K : Nat} {cls : List Int → Prop} (Y : GSys pieri K cls)
    {x y : LMod} (hx : ∀ l ∈ x.support, cls l) (hy : ∀ l ∈ y.support, cls l) :
    Y.prod x y = ∑ mu ∈ y.support, ∑ l ∈ x.support, (y mu * x l) • Y.prod (Finsupp.single l 1) (Finsupp.single mu 1) := by
  have hs : ∀ {l}, cls l → ∀ a ∈ (Finsupp.single l (1 : Polynomial ℚ)).support, cls a := by
    intro l hl a ha
    rw [Finset.mem_singleton.1 (Finsupp.support_single_subset ha)]
    exact hl
  have e : ∀ x y, Y.prod x y = Y.act (Y.GL x) y := fun _ _ => rfl
  rw [e, lin_sum (Y.act (Y.GL x)) y]
  apply Finset.sum_congr rfl
  intro mu hmu
  rw [← e, Y.prod_comm hx (hs (hy mu hmu)), e, lin_sum (Y.act _) x, Finset.smul_sum]
  apply Finset.sum_congr rfl
  intro l hl
  rw [smul_smul, ← e, Y.prod_comm (hs (hy mu hmu)) (hs (hx l hl))]

theorem clsA_mono {k K : ℤ} (h : k ≤ K) {l : List Int} (hl : clsA (m + 1) k l) : clsA (m + 1) K l :=
  ⟨hl.1, hl.2.1, fun x hx => (hl.2.2 x hx).trans h⟩

/-- The quantum product of linear combinations is the reduction of the classical product. -/
theorem rim_hook_lin {k K : ℕ} {n n' : ℤ} (hn : n = m + 1 + k) (hn' : n' = m + 1 + K) (hkK : 2 * k ≤ K) {x y : LMod}
    (hx : ∀ l ∈ x.support, clsA (m + 1) k l) (hy : ∀ l ∈ y.support, clsA (m + 1) k l) :
    (sysQ m (Int.natCast_nonneg k) hn).prod x y = redq m k ((sysC m (Int.natCast_nonneg K) hn').prod x y) := by
  have hm : ∀ {l}, clsA (m + 1) k l → clsA (m + 1) K l := fun h => clsA_mono (by omega) h
  rw [GSys.prod_expand _ hx hy, GSys.prod_expand _ (fun l hl => hm (hx l hl)) (fun l hl => hm (hy l hl)), map_sum]
  apply Finset.sum_congr rfl
  intro mu hmu
  rw [map_sum]
  apply Finset.sum_congr rfl
  intro l hl
  rw [map_smul, rim_hook hn hn' (hx l hl) (hy mu hmu) (hm (hx l hl)) (hm (hy mu hmu))]
  have h1 := (hx l hl).bound 0
  have h2 := (hy mu hmu).bound 0
  omega

/-- Sizes of the classes of a classical product. -/
theorem prod_size {K : ℕ} {n' : ℤ} (hn' : n' = m + 1 + K) {x y : LMod}
    (hx : ∀ l ∈ x.support, clsA (m + 1) K l) (hy : ∀ l ∈ y.support, clsA (m + 1) K l) {A B : ℤ}
    (hA : ∀ l ∈ x.support, l.sum ≤ A) (hB : ∀ l ∈ y.support, l.sum ≤ B) :
    ∀ l ∈ ((sysC m (Int.natCast_nonneg K) hn').prod x y).support, l.sum ≤ A + B := by
  rw [GSys.prod_expand _ hx hy]
  refine sum_support (Q := fun l => l.sum ≤ A + B) (fun mu hmu => sum_support (Q := fun l => l.sum ≤ A + B) (fun l hl nu hnu => ?_))
  have h1 := Finsupp.support_smul hnu
  have h2 : HomX 0 (l.sum + mu.sum) ((sysC m (Int.natCast_nonneg K) hn').prod (Finsupp.single l 1) (Finsupp.single mu 1)) := by
    have := (sysC m (Int.natCast_nonneg K) hn').G_hom (n := 0) (fun p => tc_hom p) l (hx l hl) _ _ (hom_single mu)
    have e : (sysC m (Int.natCast_nonneg K) hn').prod (Finsupp.single l 1) (Finsupp.single mu 1) =
        (sysC m (Int.natCast_nonneg K) hn').act ((sysC m (Int.natCast_nonneg K) hn').G l) (Finsupp.single mu 1) := by
      unfold GSys.prod GSys.GL
      rw [ev_single, map_mul, subst_inq, subst_S]
      simp [inq]
    rwa [e]
  obtain ⟨d, hd⟩ : ∃ d, (((sysC m (Int.natCast_nonneg K) hn').prod (Finsupp.single l 1) (Finsupp.single mu 1)) nu).coeff d ≠ 0 := by
    by_contra hcon
    push Not at hcon
    rw [Finsupp.mem_support_iff] at h1
    exact h1 (Polynomial.ext (by simpa using hcon))
  have h3 := h2 nu d hd
  have := hA l hl
  have := hB mu hmu
  omega

/-- The value of the rim hook rule. -/
noncomputable def redVal : Option (Rat × Nat × List Int) → LMod
  | none => 0
  | some (s, d, y) => Finsupp.single y (Polynomial.C s * Polynomial.X ^ d)

theorem hookRed_value {k : ℕ} {K n : ℤ} (hn : n = m + 1 + k) {l : List Int} {r : Option (Rat × Nat × List Int)}
    (h : HookRed n (m + 1) k l r) (hl : clsA (m + 1) K l) : Dq m k (bt (vec m l)) = redVal r := by
  have hnn : n = (k + m + 1 : ℕ) := by push_cast; omega
  subst hnn
  induction h with
  | fits h => rw [Dq_in hl h]; simp [redVal]
  | stop h1 h2 => exact Dq_nohook hl (not_inRect (Int.natCast_nonneg k) hl h1) h2
  | zero h1 h2 h3 ih =>
    obtain ⟨b, hb⟩ := h2.2.1
    rw [(Dq_hook hl (not_inRect (Int.natCast_nonneg k) hl h1) hb h2.1 h2.2.2).2, ih (clsA_hook hl h2)]
    simp [redVal]
  | @hook l x b s d y h1 h2 h3 h4 ih =>
    obtain ⟨hbm, hq⟩ := Dq_hook hl (not_inRect (Int.natCast_nonneg k) hl h1) h3 h2.1 h2.2.2
    rw [hq, ih (clsA_hook hl h2)]
    simp only [redVal]
    rw [Finsupp.smul_single, smul_eq_mul]
    have : ((-1) ^ (m + b) : Polynomial ℚ) = (-1) ^ (m - b) := by
      rw [show m + b = (m - b) + 2 * b by omega, pow_add, pow_mul]
      simp
    rw [this, show m + 1 - (b + 1) = m - b by omega, map_mul, map_pow, map_neg, map_one, pow_succ]
    congr 1
    ring

theorem hookRed_total (n : ℤ) (hn : 0 < n) (rows : ℕ) (cols : ℤ) : ∀ (s : ℕ) (l : List Int), IsPartition l → l.sum.toNat < s → ∃ r, HookRed n rows cols l r := by
  intro s
  induction s with
  | zero => intro l _ h; omega
  | succ s ih =>
    intro l hl hs
    by_cases h1 : InRect l rows cols
    · exact ⟨_, .fits h1⟩
    by_cases h2 : ∃ x, TopHook n l x
    · obtain ⟨x, hx⟩ := h2
      have hx0 : 0 ≤ x.sum := List.sum_nonneg (fun y hy => by have := hx.1.2 y hy; omega)
      obtain ⟨r, hr⟩ := ih x hx.1.isPartition (by have := hx.2.2; omega)
      obtain ⟨b, hb⟩ := hx.2.1
      cases r with
      | none => exact ⟨_, .zero h1 hx hr⟩
      | some r => exact ⟨_, .hook h1 hx hb hr⟩
    · exact ⟨_, .stop h1 h2⟩

theorem hookRed_unique {n : ℤ} {rows : ℕ} {cols : ℤ} {l : List Int} {r r' : Option (Rat × Nat × List Int)} (hl : IsPartition l)
    (h : HookRed n rows cols l r) (h' : HookRed n rows cols l r') : r = r' := by
  induction h generalizing r' with
  | fits h1 =>
    cases h' with
    | fits => rfl
    | stop h2 => exact absurd h1 h2
    | zero h2 => exact absurd h1 h2
    | hook h2 => exact absurd h1 h2
  | stop h1 h2 =>
    cases h' with
    | fits h3 => exact absurd h3 h1
    | stop => rfl
    | zero _ h3 => exact absurd ⟨_, h3⟩ h2
    | hook _ h3 => exact absurd ⟨_, h3⟩ h2
  | zero h1 h2 h3 ih =>
    cases h' with
    | fits h3 => exact absurd h3 h1
    | stop _ h4 => exact absurd ⟨_, h2⟩ h4
    | zero => rfl
    | hook _ h4 _ h5 =>
      rw [h4.unique hl h2] at h5
      exact absurd (ih h2.1.isPartition h5) (by simp)
  | hook h1 h2 hb h3 ih =>
    cases h' with
    | fits h3 => exact absurd h3 h1
    | stop _ h4 => exact absurd ⟨_, h2⟩ h4
    | zero _ h4 h5 =>
      rw [h4.unique hl h2] at h5
      exact absurd (ih h2.1.isPartition h5) (by simp)
    | hook _ h4 hb' h5 =>
      rw [h4.unique hl h2] at h5 hb'
      have e := ih h2.1.isPartition h5
      simp only [Option.some.injEq, Prod.mk.injEq] at e
      obtain ⟨rfl, rfl, rfl⟩ := e
      have hbb : ∀ {l x : List Int} {b b' : ℕ}, IsPartition l → RimHook l x 0 b → RimHook l x 0 b' → ¬ b < b' := by
        intro l x b b' hl h h' hlt
        have h1 := h.2.1 b' (by omega)
        have h2 := h'.2.2.2
        omega
      have hbe := le_antisymm (not_lt.1 (hbb hl hb' hb)) (not_lt.1 (hbb hl hb hb'))
      rw [hbe]

end Verif
