import Verif.Proofs.Pfaff
/-!
# The expansions in the rings
-/

namespace Verif
open Spec

section
open Polynomial
variable {S : Type*} [CommRing S] {n : ℕ} {c : S} {Op : List L3 → List L3 → S[X]}

theorem PfOp.shift (H : PfOp n c Op) {u w : List L3} (hu : u ∈ Wd n 0) (hw : w ∈ Wd n 0) {i : ℕ} (hi : i ≤ n) :
    ∑ j ∈ Finset.range (labN u).length, (-1) ^ j * (if i ≤ (labN u).getD j 0 then (Op (remA j u) w).coeff ((labN u).getD j 0 - i) else 0) =
      (pf (C c) X .z u w).coeff (n - i) := by
  rw [← H.low u hu w hw (n - i) (by omega), finsetSum_coeff]
  refine Finset.sum_congr rfl (fun j _ => ?_)
  have hj := labN_getD_le u j
  rw [(mem_Wd.1 hu).1] at hj
  have e : ((-1) ^ j * (X ^ (n - (labN u).getD j 0) * Op (remA j u) w) : S[X]) = C ((-1) ^ j) * (X ^ (n - (labN u).getD j 0) * Op (remA j u) w) := by
    simp
  rw [e, coeff_C_mul, coeff_X_pow_mul']
  congr 1
  by_cases h : i ≤ (labN u).getD j 0
  · rw [if_pos h, if_pos (by omega)]
    congr 1
    omega
  · rw [if_neg h, if_neg (by omega)]

theorem PfOp.odd (H : PfOp n c Op) {u w : List L3} (hu : u ∈ Wd n 0) (hw : w ∈ Wd n 0) :
    ∑ j ∈ Finset.range (labN u).length, (-1) ^ j * (Op (remA j u) w).coeff ((labN u).getD j 0) =
      if u = w ∧ (labN u).length % 2 = 1 then c else 0 := by
  have := H.shift hu hw (Nat.zero_le n)
  have hu' := mem_Wd.1 hu
  have hw' := mem_Wd.1 hw
  rw [Nat.sub_zero, ← hu'.1, (pf_inv c u w (by omega) hu'.2 hw'.2).2.2.2] at this
  rw [← this]
  exact Finset.sum_congr rfl (fun j _ => by simp)

/-- the factors of the two-row classes -/
def eFac (S : Type*) [CommRing S] (i : ℕ) : S := if i = 0 then 1 else 2

theorem PfOp.even (H : PfOp n c Op) {u w : List L3} (hu : u ∈ Wd n 0) (hw : w ∈ Wd n 0) (ho : (labN u).length % 2 = 1) {b : ℕ}
    (hb : 1 ≤ b) (hbn : b ≤ n) (hlt : ∀ p ∈ labN u, p < b) :
    ∑ i ∈ Finset.range (n + 1), (-1) ^ i * eFac S i * ∑ v ∈ Wd n 0, (∑ j ∈ Finset.range (labN u).length, (-1) ^ j *
      (if i ≤ (labN u).getD j 0 then (Op (remA j u) v).coeff ((labN u).getD j 0 - i) else 0)) * (Op v w).coeff (b + i) =
      if labN w = b :: labN u then c ^ 2 else 0 := by
  have hu' := mem_Wd.1 hu
  have key := H.ins u hu w hw b hb hbn hlt
  have hT : ∀ v ∈ Wd n 0, ∀ i ≤ n, (wt (C c) X .lr u v).coeff (n - i + 1) = eFac S i * (pf (C c) X .z u v).coeff (n - i) := by
    intro v hv i hi
    have hv' := mem_Wd.1 hv
    obtain ⟨-, h1, -, h3⟩ := pf_inv c u v (by omega) hu'.2 hv'.2
    unfold eFac
    by_cases h0 : i = 0
    · subst h0
      rw [if_pos rfl, Nat.sub_zero, one_mul, ← hu'.1, h3, wt_top c u v _ (by omega) (by omega)]
      simp [ho]
    · rw [if_neg h0, h1 _ (by omega)]
  have e : ∀ v ∈ Wd n 0, (wt (C c) (-X) .lr u v * Op v w).coeff (n + 1 + b) =
      ∑ i ∈ Finset.range (n + 1), (-1) ^ (n - i + 1) * (eFac S i * (pf (C c) X .z u v).coeff (n - i)) * (Op v w).coeff (b + i) := by
    intro v hv
    have hv' := mem_Wd.1 hv
    have hneg : wt (C c) (-X : S[X]) .lr u v = (wt (C c) X .lr u v).comp (C (-1) * X) := by
      have := wt_map (compRingHom (-X : S[X])) (C c) X .lr u v
      simpa using this.symm
    rw [coeff_mul, Finset.Nat.sum_antidiagonal_eq_sum_range_succ_mk, show (n + 1 + b).succ = (n + 2) + b by omega, Finset.sum_range_add,
      Finset.sum_range_succ', hneg]
    simp only [comp_C_mul_X_coeff]
    have hz : ∑ x ∈ Finset.range b, (wt (C c) X .lr u v).coeff (n + 2 + x) * (-1) ^ (n + 2 + x) * (Op v w).coeff (n + 1 + b - (n + 2 + x)) = 0 := by
      refine Finset.sum_eq_zero (fun x _ => ?_)
      rw [wt_deg c u v .lr _ (by omega) (by simp [stE]; omega), zero_mul, zero_mul]
    rw [hz, (pf_inv c u v (by omega) hu'.2 hv'.2).1, zero_mul, zero_mul, add_zero, add_zero,
      ← Finset.sum_range_reflect]
    refine Finset.sum_congr rfl (fun i hi => ?_)
    rw [Finset.mem_range] at hi
    rw [show n + 1 - 1 - i = n - i by omega, hT v hv i (by omega), show n + 1 + b - (n - i + 1) = b + i by omega]
    ring
  rw [finsetSum_coeff, Finset.sum_congr rfl e, Finset.sum_comm] at key
  have h2 : ((-1 : S) ^ (n + 1)) * (-1) ^ (n + 1) = 1 := by rw [← pow_add, Even.neg_one_pow ⟨n + 1, rfl⟩]
  have key2 := congrArg (fun z => (-1) ^ (n + 1) * z) key
  simp only [← mul_assoc, h2, one_mul] at key2
  rw [← key2, Finset.mul_sum]
  refine Finset.sum_congr rfl (fun i hi => ?_)
  rw [Finset.mem_range] at hi
  rw [Finset.mul_sum, Finset.mul_sum]
  refine Finset.sum_congr rfl (fun v hv => ?_)
  rw [H.shift hu hv (by omega)]
  have h3 : ((-1 : S) ^ (n + 1)) * (-1) ^ (n - i + 1) = (-1) ^ i := by
    rw [← pow_add, show n + 1 + (n - i + 1) = i + 2 * (n - i + 1) by omega, pow_add, pow_mul]
    simp
  linear_combination (-(eFac S i * (pf (C c) X .z u v).coeff (n - i) * (Op v w).coeff (b + i))) * h3

end

section
variable {X : Space} {pieri : Int → List Int → Except PyErr Poly} {n B : ℕ}

theorem labW_remA {n j : ℕ} {u : List L3} (hu : u ∈ Wd n 0) : labW (remA j u) = (labW u).eraseIdx j := by
  have hu' := mem_Wd.1 hu
  rw [labW_labN _ (by rw [remA_cols]; exact hu'.2), labW_labN _ hu'.2, remA_lab, List.eraseIdx_map]

/-- linear maps that are given by a product on the classes -/
theorem lin_prod_max (Z : RingOn X pieri (stdSpc n) (clsBC n 0) B) {f : List Int → LMod} {y : LMod}
    (h : ∀ l, clsBC n 0 l → f l = Z.Y.prod y (Finsupp.single l 1)) {x : LMod} (hx : ∀ l ∈ x.support, clsBC n 0 l) :
    lin f x = Z.Y.prod y x := by
  rw [lmod_sum x, map_sum]
  have : Z.Y.prod y (∑ l ∈ x.support, x l • Finsupp.single l 1) = ∑ l ∈ x.support, Z.Y.prod y (x l • Finsupp.single l 1) := by
    unfold GiamSys.prod
    rw [map_sum]
  rw [this]
  refine Finset.sum_congr rfl (fun l hl => ?_)
  rw [map_smul, Z.Y.prod_smul_right, ← h l (hx l hl)]
  simp [lin]

/-- the special operators are products -/
theorem tM_prod (hn : 0 < n) (Z : RingOn X pieri (stdSpc n) (clsBC n 0) B) {N : ℕ → List L3 → List L3 → Polynomial ℚ} {c : Polynomial ℚ}
    (hz : ∀ u ∈ Wd n 0, ∀ w ∈ Wd n 0, N 0 u w = if u = w then 1 else 0)
    (ht : ∀ p l, 1 ≤ p → p ≤ n → tM (Wd n 0) labW N p l = c • Z.Y.t p l)
    {g : Polynomial ℚ} (htop : ∀ u ∈ Wd n 0, ∀ w ∈ Wd n 0, N (n + 1) u w = if u = w then g else 0)
    (hhigh : ∀ p, n + 1 < p → ∀ u ∈ Wd n 0, ∀ w ∈ Wd n 0, N p u w = 0) (p : ℕ) {x : LMod} (hx : ∀ l ∈ x.support, clsBC n 0 l) :
    lin (tM (Wd n 0) labW N p) x = Z.Y.prod (tM (Wd n 0) labW N p []) x := by
  have hdiag : ∀ p e, (∀ u ∈ Wd n 0, ∀ w ∈ Wd n 0, N p u w = if u = w then e else 0) → ∀ l, clsBC n 0 l →
      tM (Wd n 0) labW N p l = Finsupp.single l e := by
    intro p e he l hl
    obtain ⟨u, hu, rfl⟩ := (Wd_cls (Nat.zero_le n) l).1 hl
    rw [tM_lab N Wd_inj p hu, Finset.sum_eq_single u]
    · rw [he u hu u hu, if_pos rfl]
    · intro w hw hne
      rw [he u hu w hw, if_neg hne.symm, Finsupp.single_zero]
    · intro h; exact absurd hu h
  have hd2 : ∀ p e, (∀ u ∈ Wd n 0, ∀ w ∈ Wd n 0, N p u w = if u = w then e else 0) →
      lin (tM (Wd n 0) labW N p) x = Z.Y.prod (tM (Wd n 0) labW N p []) x := by
    intro p e he
    refine lin_prod_max Z (fun l hl => ?_) hx
    have e1 : (Finsupp.single [] e : LMod) = e • Finsupp.single [] 1 := by simp
    rw [hdiag p e he l hl, hdiag p e he [] (clsBC_nil (Nat.zero_le n)), e1, Z.Y.prod_smul_left, Z.Y.one_prod]
    simp
  rcases Nat.eq_zero_or_pos p with rfl | h1
  · exact hd2 0 1 hz
  · rcases le_or_gt p n with h2 | h2
    · have hs : stdSpc n (p : Int) := ⟨by omega, by omega⟩
      have hc : clsBC n 0 (num2spec (p : Int)) := by
        rw [num2spec_pos (by omega)]
        rw [clsBC_eq (Nat.zero_le n)]
        refine ⟨⟨List.pairwise_singleton _ _, by simp; omega⟩, List.pairwise_singleton _ _, by simp; omega, ?_⟩
        intro x hx
        rw [List.mem_singleton.1 hx]
        push_cast
        omega
      refine lin_prod_max Z (fun l hl => ?_) hx
      have e1 := Z.Y.prod_special hs hc Z.nil (Z.unit p hs hc) (supp_single hl 1)
      rw [ht p l h1 h2, ht p [] h1 h2, Z.Y.prod_smul_left, Z.unit p hs hc, e1]
      simp [lin]
    · rcases Nat.eq_or_lt_of_le (show n + 1 ≤ p from h2) with rfl | h3
      · exact hd2 _ g htop
      · exact hd2 p 0 (fun u hu w hw => by rw [hhigh p h3 u hu w hw, ite_self])

theorem clsBC_row0 {p : ℕ} (h1 : 1 ≤ p) (h2 : p ≤ n) : clsBC n 0 [(p : Int)] := by
  rw [clsBC_eq (Nat.zero_le n)]
  refine ⟨⟨List.pairwise_singleton _ _, by simp; omega⟩, List.pairwise_singleton _ _, by simp; omega, ?_⟩
  intro x hx
  rw [List.mem_singleton.1 hx]
  push_cast
  omega

theorem tM_row (Z : RingOn X pieri (stdSpc n) (clsBC n 0) B) {N : ℕ → List L3 → List L3 → Polynomial ℚ} {c : Polynomial ℚ}
    (ht : ∀ p l, 1 ≤ p → p ≤ n → tM (Wd n 0) labW N p l = c • Z.Y.t p l) {p : ℕ} (h1 : 1 ≤ p) (h2 : p ≤ n) {l : List Int} (hl : clsBC n 0 l) :
    tM (Wd n 0) labW N p l = c • Z.Y.prod (Finsupp.single [(p : Int)] 1) (Finsupp.single l 1) := by
  have hs : stdSpc n (p : Int) := ⟨by omega, by omega⟩
  have hn : num2spec (p : Int) = [(p : Int)] := num2spec_pos (by omega)
  have hc : clsBC n 0 (num2spec (p : Int)) := by rw [hn]; exact clsBC_row0 h1 h2
  have e1 := Z.Y.prod_special hs hc Z.nil (Z.unit p hs hc) (supp_single hl 1)
  rw [hn] at e1
  rw [ht p l h1 h2, e1]
  simp [lin]

theorem labN_getD_pos (u : List L3) {j : ℕ} (h : j < (labN u).length) : 1 ≤ (labN u).getD j 0 := by
  rw [List.getD_eq_getElem _ _ h]; exact (labN_le u _ (List.getElem_mem h)).1

variable {Op : List L3 → List L3 → Polynomial (Polynomial ℚ)} {c : Polynomial ℚ}

/-- **The expansion for an odd number of parts.** -/
theorem pfaff_odd (H : PfOp n c Op) (hc : c ≠ 0) (Z : RingOn X pieri (stdSpc n) (clsBC n 0) B)
    (ht : ∀ p l, 1 ≤ p → p ≤ n → tM (Wd n 0) labW (fun p u w => (Op u w).coeff p) p l = c • Z.Y.t p l) {u : List L3} (hu : u ∈ Wd n 0) :
    ∑ j ∈ Finset.range (labN u).length, ((-1) ^ j : Polynomial ℚ) •
      Z.Y.prod (Finsupp.single [(((labN u).getD j 0 : ℕ) : Int)] 1) (Finsupp.single ((labW u).eraseIdx j) 1) =
      if (labN u).length % 2 = 1 then Finsupp.single (labW u) 1 else 0 := by
  have hu' := mem_Wd.1 hu
  apply smul_right_injective LMod hc
  beta_reduce
  rw [Finset.smul_sum]
  have e : ∀ j ∈ Finset.range (labN u).length, c • ((-1) ^ j : Polynomial ℚ) •
      Z.Y.prod (Finsupp.single [(((labN u).getD j 0 : ℕ) : Int)] 1) (Finsupp.single ((labW u).eraseIdx j) 1) =
      ∑ w ∈ Wd n 0, Finsupp.single (labW w) ((-1) ^ j * (Op (remA j u) w).coeff ((labN u).getD j 0)) := by
    intro j hj
    rw [Finset.mem_range] at hj
    have hr := remA_mem (j := j) hu
    have hcl : clsBC n 0 (labW (remA j u)) := (Wd_cls (Nat.zero_le n) _).2 ⟨_, hr, rfl⟩
    have h2 := labN_getD_le u j
    rw [smul_comm, ← labW_remA hu, ← tM_row Z ht (labN_getD_pos u hj) (by omega) hcl, tM_lab _ Wd_inj _ hr, Finset.smul_sum]
    refine Finset.sum_congr rfl (fun w _ => ?_)
    rw [Finsupp.smul_single, smul_eq_mul]
  rw [Finset.sum_congr rfl e, Finset.sum_comm]
  have e2 : ∀ w ∈ Wd n 0, ∑ j ∈ Finset.range (labN u).length, Finsupp.single (labW w) ((-1) ^ j * (Op (remA j u) w).coeff ((labN u).getD j 0)) =
      if u = w then (if (labN u).length % 2 = 1 then Finsupp.single (labW u) c else (0 : LMod)) else 0 := by
    intro w hw
    rw [← Finsupp.single_finsetSum, H.odd hu hw]
    by_cases h : u = w
    · subst h
      by_cases ho : (labN u).length % 2 = 1 <;> simp [ho]
    · simp [h]
  rw [Finset.sum_congr rfl e2, Finset.sum_ite_eq, if_pos hu]
  split <;> simp

/-- the two-row classes, up to a factor -/
noncomputable def twoRow (Z : RingOn X pieri (stdSpc n) (clsBC n 0) B) (N : ℕ → List L3 → List L3 → Polynomial ℚ) (b a : ℕ) : LMod :=
  ∑ i ∈ Finset.range (n + 1), ((-1) ^ i * eFac (Polynomial ℚ) i) •
    if i ≤ a then Z.Y.prod (tM (Wd n 0) labW N (b + i) []) (tM (Wd n 0) labW N (a - i) []) else 0

theorem tM_supp (N : ℕ → List L3 → List L3 → Polynomial ℚ) (p : ℕ) (l : List Int) :
    ∀ mu ∈ (tM (Wd n 0) labW N p l).support, clsBC n 0 mu := by
  intro mu hmu
  exact (Wd_cls (Nat.zero_le n) mu).2 (tM_support N p l mu hmu)

theorem pfaff_even_aux (hn : 0 < n) (H : PfOp n c Op) (Z : RingOn X pieri (stdSpc n) (clsBC n 0) B)
    (hz : ∀ u ∈ Wd n 0, ∀ w ∈ Wd n 0, (Op u w).coeff 0 = if u = w then 1 else 0)
    (ht : ∀ p l, 1 ≤ p → p ≤ n → tM (Wd n 0) labW (fun p u w => (Op u w).coeff p) p l = c • Z.Y.t p l)
    {g : Polynomial ℚ} (htop : ∀ u ∈ Wd n 0, ∀ w ∈ Wd n 0, (Op u w).coeff (n + 1) = if u = w then g else 0)
    (hhigh : ∀ p, n + 1 < p → ∀ u ∈ Wd n 0, ∀ w ∈ Wd n 0, (Op u w).coeff p = 0) {u : List L3} (hu : u ∈ Wd n 0)
    (ho : (labN u).length % 2 = 1) {b : ℕ} (hlt : ∀ p ∈ labN u, p < b) (hcl : clsBC n 0 ((b : Int) :: labW u)) :
    Finsupp.single ((b : Int) :: labW u) (c ^ 2) = ∑ j ∈ Finset.range (labN u).length, ((-1) ^ j : Polynomial ℚ) •
      Z.Y.prod (twoRow Z (fun p u w => (Op u w).coeff p) b ((labN u).getD j 0)) (Finsupp.single ((labW u).eraseIdx j) 1) := by
  set N : ℕ → List L3 → List L3 → Polynomial ℚ := fun p u w => (Op u w).coeff p with hN
  have hu' := mem_Wd.1 hu
  have tp : ∀ (p : ℕ) {x : LMod}, (∀ l ∈ x.support, clsBC n 0 l) →
      lin (tM (Wd n 0) labW N p) x = Z.Y.prod (tM (Wd n 0) labW N p []) x :=
    fun p x hx => tM_prod hn Z hz ht htop hhigh p hx
  have hcr : ∀ j, clsBC n 0 ((labW u).eraseIdx j) := fun j => by
    rw [← labW_remA hu]
    exact (Wd_cls (Nat.zero_le n) _).2 ⟨_, remA_mem hu, rfl⟩
  have hbb := cls_tail hcl
  -- the word with the new part
  obtain ⟨w0, hw0, hlab⟩ := (Wd_cls (Nat.zero_le n) _).1 hcl
  have hw0' := mem_Wd.1 hw0
  have hiff : ∀ w ∈ Wd n 0, labN w = b :: labN u ↔ w0 = w := by
    intro w hw
    have hw' := mem_Wd.1 hw
    have hinj : Function.Injective (List.map (fun p : ℕ => (p : Int))) := List.map_injective_iff.2 (fun a b h => by simpa using h)
    have h0 : labN w0 = b :: labN u := by
      apply hinj
      rw [← labW_labN _ hw0'.2, hlab, labW_labN _ hu'.2, List.map_cons]
    rw [← h0, eq_comm]
    exact labN_inj (by omega) hw0'.2 hw'.2
  have e0 : Finsupp.single ((b : Int) :: labW u) (c ^ 2) = ∑ w ∈ Wd n 0, Finsupp.single (labW w) (if labN w = b :: labN u then c ^ 2 else 0) := by
    rw [Finset.sum_eq_single w0]
    · rw [if_pos ((hiff w0 hw0).2 rfl), hlab]
    · intro w hw hne
      rw [if_neg (fun h => hne ((hiff w hw).1 h).symm), Finsupp.single_zero]
    · intro h; exact absurd hw0 h
  -- the inner sums
  have e1 : ∀ i j, (if i ≤ (labN u).getD j 0 then tM (Wd n 0) labW N ((labN u).getD j 0 - i) ((labW u).eraseIdx j) else 0) =
      ∑ v ∈ Wd n 0, Finsupp.single (labW v) (if i ≤ (labN u).getD j 0 then N ((labN u).getD j 0 - i) (remA j u) v else 0) := by
    intro i j
    split
    · rw [← labW_remA hu, tM_lab _ Wd_inj _ (remA_mem hu)]
    · simp
  have e2 : ∀ (p : ℕ) (f : List L3 → Polynomial ℚ), lin (tM (Wd n 0) labW N p) (∑ v ∈ Wd n 0, Finsupp.single (labW v) (f v)) =
      ∑ w ∈ Wd n 0, Finsupp.single (labW w) (∑ v ∈ Wd n 0, f v * N p v w) := by
    intro p f
    rw [map_sum]
    have : ∀ v ∈ Wd n 0, lin (tM (Wd n 0) labW N p) (Finsupp.single (labW v) (f v)) = ∑ w ∈ Wd n 0, Finsupp.single (labW w) (f v * N p v w) := by
      intro v hv
      rw [lin, Finsupp.linearCombination_single, tM_lab N Wd_inj p hv, Finset.smul_sum]
      exact Finset.sum_congr rfl (fun w _ => by rw [Finsupp.smul_single, smul_eq_mul])
    rw [Finset.sum_congr rfl this, Finset.sum_comm]
    exact Finset.sum_congr rfl (fun w _ => by rw [← Finsupp.single_finsetSum])
  have e3 : Finsupp.single ((b : Int) :: labW u) (c ^ 2) = ∑ i ∈ Finset.range (n + 1), ((-1) ^ i * eFac (Polynomial ℚ) i) •
      lin (tM (Wd n 0) labW N (b + i)) (∑ j ∈ Finset.range (labN u).length, ((-1) ^ j : Polynomial ℚ) •
        if i ≤ (labN u).getD j 0 then tM (Wd n 0) labW N ((labN u).getD j 0 - i) ((labW u).eraseIdx j) else 0) := by
    have e4 : ∀ i, ∑ j ∈ Finset.range (labN u).length, ((-1) ^ j : Polynomial ℚ) •
        (if i ≤ (labN u).getD j 0 then tM (Wd n 0) labW N ((labN u).getD j 0 - i) ((labW u).eraseIdx j) else 0) =
        ∑ v ∈ Wd n 0, Finsupp.single (labW v) (∑ j ∈ Finset.range (labN u).length, (-1) ^ j *
          (if i ≤ (labN u).getD j 0 then N ((labN u).getD j 0 - i) (remA j u) v else 0)) := by
      intro i
      simp only [e1, Finset.smul_sum, Finsupp.smul_single, smul_eq_mul]
      rw [Finset.sum_comm]
      exact Finset.sum_congr rfl (fun v _ => by rw [← Finsupp.single_finsetSum])
    simp only [e4, e2, Finset.smul_sum, Finsupp.smul_single, smul_eq_mul]
    rw [Finset.sum_comm, e0]
    refine Finset.sum_congr rfl (fun w hw => ?_)
    rw [← Finsupp.single_finsetSum, ← H.even hu hw ho (by omega) (by omega) hlt]
  rw [e3]
  -- products
  have e5 : ∀ i j, (if i ≤ (labN u).getD j 0 then tM (Wd n 0) labW N ((labN u).getD j 0 - i) ((labW u).eraseIdx j) else 0) =
      if i ≤ (labN u).getD j 0 then Z.Y.prod (tM (Wd n 0) labW N ((labN u).getD j 0 - i) []) (Finsupp.single ((labW u).eraseIdx j) 1) else 0 := by
    intro i j
    split
    · rw [← tp _ (supp_single (hcr j) 1)]
      simp [lin]
    · rfl
  have hsupp : ∀ i j, ∀ l ∈ (if i ≤ (labN u).getD j 0 then tM (Wd n 0) labW N ((labN u).getD j 0 - i) ((labW u).eraseIdx j) else 0 : LMod).support,
      clsBC n 0 l := by
    intro i j l hl
    split at hl
    · exact tM_supp N _ _ l hl
    · simp at hl
  simp only [map_sum, map_smul, Finset.smul_sum]
  rw [Finset.sum_comm]
  refine Finset.sum_congr rfl (fun j _ => ?_)
  unfold twoRow
  rw [GiamSys.prod_sum_left, Finset.smul_sum]
  refine Finset.sum_congr rfl (fun i _ => ?_)
  rw [tp _ (hsupp i j), e5, Z.Y.prod_smul_left, smul_comm]
  congr 2
  split
  · rw [Z.Y.prod_assoc _ (tM_supp N _ _) (supp_single (hcr j) 1)]
  · simp [GiamSys.prod, GiamSys.GL]

/-- the classes of two rows -/
theorem twoRow_eq (hn : 0 < n) (H : PfOp n c Op) (Z : RingOn X pieri (stdSpc n) (clsBC n 0) B)
    (hz : ∀ u ∈ Wd n 0, ∀ w ∈ Wd n 0, (Op u w).coeff 0 = if u = w then 1 else 0)
    (ht : ∀ p l, 1 ≤ p → p ≤ n → tM (Wd n 0) labW (fun p u w => (Op u w).coeff p) p l = c • Z.Y.t p l)
    {g : Polynomial ℚ} (htop : ∀ u ∈ Wd n 0, ∀ w ∈ Wd n 0, (Op u w).coeff (n + 1) = if u = w then g else 0)
    (hhigh : ∀ p, n + 1 < p → ∀ u ∈ Wd n 0, ∀ w ∈ Wd n 0, (Op u w).coeff p = 0) {a b : ℕ} (h1 : 1 ≤ a) (h2 : a < b) (hbn : b ≤ n) :
    twoRow Z (fun p u w => (Op u w).coeff p) b a = Finsupp.single [(b : Int), (a : Int)] (c ^ 2) := by
  have hca : clsBC n 0 [(a : Int)] := clsBC_row0 h1 (by omega)
  obtain ⟨v, hv, hlab⟩ := (Wd_cls (Nat.zero_le n) _).1 hca
  have hv' := mem_Wd.1 hv
  have hinj : Function.Injective (List.map (fun p : ℕ => (p : Int))) := List.map_injective_iff.2 (fun a b h => by simpa using h)
  have hlN : labN v = [a] := by
    apply hinj
    rw [← labW_labN _ hv'.2, hlab]
    rfl
  have hcb : clsBC n 0 ((b : Int) :: labW v) := by
    rw [hlab, clsBC_eq (Nat.zero_le n)]
    refine ⟨⟨by simp; omega, by simp; omega⟩, by unfold KStrict; simp; omega, by simp; omega, ?_⟩
    intro x hx
    simp at hx
    omega
  have key := pfaff_even_aux hn H Z hz ht htop hhigh hv (by rw [hlN]; rfl) (b := b) (by rw [hlN]; simpa using h2) hcb
  rw [hlab, hlN] at key
  simp only [List.length_singleton, Finset.range_one, Finset.sum_singleton, pow_zero, one_smul, List.getD_cons_zero, List.eraseIdx_cons_zero] at key
  rw [key]
  refine (Z.Y.prod_one Z.nil ?_).symm
  unfold twoRow
  refine supp_sum _ _ (fun i _ l hl => ?_)
  have hl := Finsupp.support_smul hl
  split at hl
  · exact Z.Y.prod_support _ (tM_supp _ _ _) l hl
  · simp at hl

/-- **The expansion along the first row for an even number of parts.** -/
theorem pfaff_even (hn : 0 < n) (H : PfOp n c Op) (hc : c ≠ 0) (Z : RingOn X pieri (stdSpc n) (clsBC n 0) B)
    (hz : ∀ u ∈ Wd n 0, ∀ w ∈ Wd n 0, (Op u w).coeff 0 = if u = w then 1 else 0)
    (ht : ∀ p l, 1 ≤ p → p ≤ n → tM (Wd n 0) labW (fun p u w => (Op u w).coeff p) p l = c • Z.Y.t p l)
    {g : Polynomial ℚ} (htop : ∀ u ∈ Wd n 0, ∀ w ∈ Wd n 0, (Op u w).coeff (n + 1) = if u = w then g else 0)
    (hhigh : ∀ p, n + 1 < p → ∀ u ∈ Wd n 0, ∀ w ∈ Wd n 0, (Op u w).coeff p = 0) {u : List L3} (hu : u ∈ Wd n 0)
    (ho : (labN u).length % 2 = 1) {b : ℕ} (hlt : ∀ p ∈ labN u, p < b) (hcl : clsBC n 0 ((b : Int) :: labW u)) :
    Finsupp.single ((b : Int) :: labW u) 1 = ∑ j ∈ Finset.range (labN u).length, ((-1) ^ j : Polynomial ℚ) •
      Z.Y.prod (Finsupp.single [(b : Int), (((labN u).getD j 0 : ℕ) : Int)] 1) (Finsupp.single ((labW u).eraseIdx j) 1) := by
  have hc2 : c ^ 2 ≠ 0 := pow_ne_zero 2 hc
  apply smul_right_injective LMod hc2
  beta_reduce
  have hu' := mem_Wd.1 hu
  have hbb := cls_tail hcl
  rw [Finset.smul_sum, Finsupp.smul_single, smul_eq_mul, mul_one, pfaff_even_aux hn H Z hz ht htop hhigh hu ho hlt hcl]
  refine Finset.sum_congr rfl (fun j hj => ?_)
  rw [Finset.mem_range] at hj
  have hmem : (labN u).getD j 0 ∈ labN u := by rw [List.getD_eq_getElem _ _ hj]; exact List.getElem_mem hj
  have e : (Finsupp.single [(b : Int), (((labN u).getD j 0 : ℕ) : Int)] (c ^ 2) : LMod) = (c ^ 2) • Finsupp.single [(b : Int), (((labN u).getD j 0 : ℕ) : Int)] 1 := by
    simp
  rw [twoRow_eq hn H Z hz ht htop hhigh (labN_getD_pos u hj) (hlt _ hmem) (by omega), e, Z.Y.prod_smul_left, smul_comm]

end

end Verif
