import Verif.Proofs.DualQA
import Verif.Props.Jacobi
/-!
# C80: multiplication with S[n-m] and with S[1,...,1] in the quantum ring of Gr(m,n)

Both permute the classes, up to a power of `q`; the structure constants have a cyclic symmetry of order `n`.
-/

namespace Verif
open Spec Cyl

/-- The class of `S[k] * S[l]`: a full row is added, or a full column removed. -/
def Spec.rotL (m : ℕ) (k : ℤ) (l : List Int) : List Int := if l.length < m then k :: l else (l.map (· - 1)).filter (· ≠ 0)

/-- The power of `q` in `S[k] * S[l]`. -/
def Spec.rotE (m : ℕ) (l : List Int) : ℕ := if l.length < m then 0 else 1

/-- The class of `S[1^m] * S[l]`: a full column is added, or a full row removed. -/
def Spec.torL (m : ℕ) (k : ℤ) (l : List Int) : List Int := if part l 0 < k then (List.range m).map (fun i => part l i + 1) else l.tail

/-- The power of `q` in `S[1^m] * S[l]`. -/
def Spec.torE (k : ℤ) (l : List Int) : ℕ := if part l 0 < k then 0 else 1

section
variable {m : ℕ} {k : ℤ}

theorem rotL_cls (hk : 1 ≤ k) {l : List Int} (hl : clsA (m + 1) k l) : clsA (m + 1) k (rotL (m + 1) k l) := by
  unfold rotL
  split
  · rename_i h
    refine ⟨⟨List.pairwise_cons.2 ⟨fun a ha => hl.2.2 a ha, hl.1.1⟩, ?_⟩, by simpa using h, ?_⟩
    · intro x hx
      rcases List.mem_cons.1 hx with rfl | hx
      · omega
      · exact hl.1.2 x hx
    · intro x hx
      rcases List.mem_cons.1 hx with rfl | hx
      · omega
      · exact hl.2.2 x hx
  · refine ⟨⟨(List.pairwise_map.2 (hl.1.1.imp (fun h => by omega))).filter _, fun x hx => ?_⟩, ?_, fun x hx => ?_⟩
    · obtain ⟨h1, h2⟩ := List.mem_filter.1 hx
      obtain ⟨y, hy, rfl⟩ := List.mem_map.1 h1
      have := hl.1.2 y hy
      simp only [ne_eq, decide_eq_true_eq] at h2
      omega
    · refine (List.length_filter_le _ _).trans ?_
      simpa using hl.2.1
    · obtain ⟨h1, h2⟩ := List.mem_filter.1 hx
      obtain ⟨y, hy, rfl⟩ := List.mem_map.1 h1
      have := hl.2.2 y hy
      omega

theorem Om_full {f : Fin (m + 1) → ℤ} (hf : BoxV k f) : Om k k f = {sh k f} := by
  ext g
  rw [mem_Om, Finset.mem_singleton]
  constructor
  · rintro ⟨-, h2, h3⟩
    have h4 : ∑ i, g i = ∑ i, sh k f i := by rw [sum_sh, h3]
    funext i
    exact (Finset.sum_eq_sum_iff_of_le (fun i _ => h2 i)).1 h4 i (Finset.mem_univ i)
  · rintro rfl
    refine ⟨fun i => ?_, le_refl _, sum_sh k f⟩
    refine Fin.cases ?_ (fun j => ?_) i
    · show f 0 ≤ sh k f 0
      rw [sh_zero]
      have := hf.first
      have := hf.last
      omega
    · rw [sh_succ]
      exact hf.anti j

theorem tq_full (hk : 1 ≤ k) {l : List Int} (hl : clsA (m + 1) k l) :
    tq m k k.toNat l = Finsupp.single (rotL (m + 1) k l) (Polynomial.X ^ rotE (m + 1) l) := by
  have hB := boxV_vec (m := m) (by omega) hl
  have hz : part l m = 0 ↔ l.length < m + 1 := by
    constructor
    · intro h
      by_contra hn
      have h1 : m < l.length := by omega
      rw [part_of_lt h1] at h
      have := hl.1.2 _ (List.getElem_mem h1)
      omega
    · intro h
      exact part_of_ge (by omega)
  have h0 : sh k (vec m l) 0 = part l m + k := by
    rw [sh_zero]; simp [vec]
  rw [tq, if_pos hl, show ((k.toNat : ℕ) : ℤ) = k by omega, Om_full hB, Finset.sum_singleton, Pi1, h0]
  have hlast : 0 ≤ part l m := hl.1.isPartition.part_nonneg m
  by_cases h : l.length < m + 1
  · have hc := rotL_cls (m := m) hk hl
    have e : rotL (m + 1) k l = k :: l := if_pos h
    rw [if_pos (by rw [hz.2 h]; omega), show rotE (m + 1) l = 0 from if_pos h, pow_zero]
    rw [e] at hc ⊢
    congr 1
    rw [← lab_vec' hc]
    congr 1
    funext i
    refine Fin.cases ?_ (fun j => ?_) i
    · rw [h0, hz.2 h]; simp [vec, part]
    · rw [sh_succ]; simp [vec, part]
  · have hc := rotL_cls (m := m) hk hl
    have e : rotL (m + 1) k l = (l.map (· - 1)).filter (· ≠ 0) := if_neg h
    have hpos : part l m ≠ 0 := fun h' => h (hz.1 h')
    rw [if_neg (by omega), show rotE (m + 1) l = 1 from if_neg h, pow_one]
    congr 1
    rw [← lab_vec' hc]
    congr 1
    funext i
    show dn k (sh k (vec m l)) i - 1 = part (rotL (m + 1) k l) i
    have hp : IsPartition (l.map (· - 1)) := by
      refine ⟨List.pairwise_map.2 (hl.1.1.imp (fun h => by omega)), fun x hx => ?_⟩
      obtain ⟨y, hy, rfl⟩ := List.mem_map.1 hx
      have := hl.1.2 y hy
      omega
    rw [dn_sh, e, part_filter hp]
    have hi : (i : ℕ) < l.length := by omega
    rw [part_of_lt (by simpa using hi)]
    simp only [vec]
    rw [part_of_lt hi]
    simp

theorem torL_cls (hk : 1 ≤ k) {l : List Int} (hl : clsA (m + 1) k l) : clsA (m + 1) k (torL (m + 1) k l) := by
  unfold torL
  split
  · rename_i h
    refine ⟨⟨List.pairwise_map.2 (List.pairwise_lt_range.imp (fun h => ?_)), fun x hx => ?_⟩, by simp, fun x hx => ?_⟩
    · have := hl.1.isPartition.part_anti (Nat.le_of_lt h)
      omega
    · obtain ⟨y, -, rfl⟩ := List.mem_map.1 hx
      have := hl.1.isPartition.part_nonneg y
      omega
    · obtain ⟨y, -, rfl⟩ := List.mem_map.1 hx
      have := hl.1.isPartition.part_anti (Nat.zero_le y)
      omega
  · exact ⟨⟨hl.1.1.sublist (List.tail_sublist l), fun x hx => hl.1.2 x (List.mem_of_mem_tail hx)⟩,
      by have := hl.2.1; rw [List.length_tail]; omega, fun x hx => hl.2.2 x (List.mem_of_mem_tail hx)⟩

theorem rotL_torL (hk : 1 ≤ k) {l : List Int} (hl : clsA (m + 1) k l) : rotL (m + 1) k (torL (m + 1) k l) = l := by
  unfold torL
  split
  · rename_i h
    rw [rotL, if_neg (by simp)]
    have e : ((List.range (m + 1)).map (fun i => part l i + 1)).map (· - 1) = (List.range (m + 1)).map (part l) := by
      rw [List.map_map]
      refine List.map_congr_left (fun i _ => ?_)
      simp
    rw [e]
    have hp : IsPartition ((List.range (m + 1)).map (part l)) := by
      refine ⟨List.pairwise_map.2 (List.pairwise_lt_range.imp (fun h => hl.1.isPartition.part_anti (Nat.le_of_lt h))), fun x hx => ?_⟩
      obtain ⟨y, -, rfl⟩ := List.mem_map.1 hx
      exact hl.1.isPartition.part_nonneg y
    rw [← partClip_eq_filter hp]
    conv_rhs => rw [← lab_vec' hl, lab]
    congr 1
    refine List.ext_getElem (by simp) (fun i _ _ => ?_)
    rw [List.getElem_ofFn]
    simp [vec]
  · rename_i h
    cases l with
    | nil => exact absurd (show part [] 0 < k by rw [part_nil]; omega) h
    | cons a t =>
      have ha := hl.2.2 a (by simp)
      have hlen := hl.2.1
      simp only [List.length_cons] at hlen
      have h' : ¬ a < k := by simpa [part] using h
      rw [List.tail_cons, rotL, if_pos (by omega)]
      congr 1
      omega

theorem rotE_torL {l : List Int} (hl : clsA (m + 1) k l) : torE k l + rotE (m + 1) (torL (m + 1) k l) = 1 := by
  unfold torE torL rotE
  have := hl.2.1
  by_cases h : part l 0 < k
  · simp [h]
  · simp only [h, if_false, List.length_tail]
    rw [if_pos (by omega)]

end

section
variable {m : ℕ} {n : ℤ} {X : Space}

theorem grClass_single {m : ℕ} {n : ℤ} {l : List Int} (hl : GrClass m n l) (a : Polynomial ℚ) :
    ∀ nu ∈ (Finsupp.single l a).support, GrClass m n nu := by
  intro nu hnu
  rw [Finset.mem_singleton.1 (Finsupp.support_single_subset hnu)]
  exact hl

theorem seidel_on (hm : 1 ≤ m + 1) (hX : mkGr (m + 1 : ℕ) n = .ok X) (hk : 1 ≤ n - (m + 1 : ℕ)) {l : List Int} (hl : GrClass (m + 1) n l) :
    (ringQ hm hX).on.Y.prod (Finsupp.single [n - (m + 1 : ℕ)] 1) (Finsupp.single l 1) =
      Finsupp.single (rotL (m + 1) (n - (m + 1 : ℕ)) l) (Polynomial.X ^ rotE (m + 1) l) := by
  have hX' := hX
  obtain ⟨rfl, -, -⟩ := mkGr_ok hX'
  have hspc : stdSpc (ringQ hm hX).K (n - (m + 1 : ℕ)) := ⟨by omega, by
    show n - (m + 1 : ℕ) ≤ ((n - (m + 1 : ℕ)).toNat : ℕ)
    omega⟩
  have hc : GrClass (m + 1) n (num2spec (n - (m + 1 : ℕ))) := by
    rw [num2spec_pos (by omega)]
    exact ⟨⟨by simp, by simp; omega⟩, by simp, by simp⟩
  have h := (ringQ hm hX).on.Y.prod_special hspc hc (ringQ hm hX).on.nil ((ringQ hm hX).on.unit _ hspc hc)
    (y := Finsupp.single l 1) (grClass_single hl 1)
  rw [num2spec_pos (by omega)] at h
  rw [h, ← tq_full hk hl]
  have ht : (ringQ hm hX).on.Y.t (n - (m + 1 : ℕ)) l = tq m (n - (m + 1 : ℕ)) (n - (m + 1 : ℕ)).toNat l := rfl
  rw [← ht]
  simp [lin]

/-- the column -/
theorem col_cls (hk : 1 ≤ n - (m + 1 : ℕ)) : GrClass (m + 1) n (List.replicate (m + 1) 1) := by
  refine ⟨⟨List.pairwise_replicate.2 (Or.inr (le_refl _)), fun x hx => ?_⟩, by simp, fun x hx => ?_⟩
  · rw [List.eq_of_mem_replicate hx]; omega
  · rw [List.eq_of_mem_replicate hx]; push_cast at *; omega

theorem row_cls (hk : 1 ≤ n - (m + 1 : ℕ)) : GrClass (m + 1) n [n - (m + 1 : ℕ)] :=
  ⟨⟨by simp, by simp; omega⟩, by simp, by simp⟩

theorem row_col (hm : 1 ≤ m + 1) (hX : mkGr (m + 1 : ℕ) n = .ok X) (hk : 1 ≤ n - (m + 1 : ℕ)) {x : LMod}
    (hx : ∀ l ∈ x.support, GrClass (m + 1) n l) :
    (ringQ hm hX).on.Y.prod (Finsupp.single [n - (m + 1 : ℕ)] 1)
      ((ringQ hm hX).on.Y.prod (Finsupp.single (List.replicate (m + 1) 1) 1) x) = (Polynomial.X : Polynomial ℚ) • x := by
  rw [← (ringQ hm hX).on.Y.prod_assoc _ (grClass_single (col_cls hk) 1) hx, seidel_on hm hX hk (col_cls hk)]
  have h1 : rotL (m + 1) (n - (m + 1 : ℕ)) (List.replicate (m + 1) 1) = [] := by
    rw [rotL, if_neg (by simp)]
    simp
  have h2 : rotE (m + 1) (List.replicate (m + 1) (1 : ℤ)) = 1 := if_neg (by simp)
  have h3 : (Finsupp.single [] (Polynomial.X ^ 1) : LMod) = (Polynomial.X : Polynomial ℚ) • Finsupp.single [] 1 := by simp
  rw [h1, h2, h3, GiamSys.prod_smul_left, GiamSys.one_prod]

theorem col_row (hm : 1 ≤ m + 1) (hX : mkGr (m + 1 : ℕ) n = .ok X) (hk : 1 ≤ n - (m + 1 : ℕ)) {x : LMod}
    (hx : ∀ l ∈ x.support, GrClass (m + 1) n l) :
    (ringQ hm hX).on.Y.prod (Finsupp.single (List.replicate (m + 1) 1) 1)
      ((ringQ hm hX).on.Y.prod (Finsupp.single [n - (m + 1 : ℕ)] 1) x) = (Polynomial.X : Polynomial ℚ) • x := by
  rw [← row_col hm hX hk hx, ← (ringQ hm hX).on.Y.prod_assoc _ (grClass_single (col_cls hk) 1) hx,
    ← (ringQ hm hX).on.Y.prod_assoc _ (grClass_single (row_cls hk) 1) hx,
    (ringQ hm hX).on.Y.prod_comm (grClass_single (row_cls hk) 1) (grClass_single (col_cls hk) 1)]

theorem X_smul_inj {x y : LMod} (h : (Polynomial.X : Polynomial ℚ) • x = (Polynomial.X : Polynomial ℚ) • y) : x = y :=
  smul_right_injective _ Polynomial.X_ne_zero h

theorem row_inj (hm : 1 ≤ m + 1) (hX : mkGr (m + 1 : ℕ) n = .ok X) (hk : 1 ≤ n - (m + 1 : ℕ)) {x y : LMod}
    (hx : ∀ l ∈ x.support, GrClass (m + 1) n l) (hy : ∀ l ∈ y.support, GrClass (m + 1) n l)
    (h : (ringQ hm hX).on.Y.prod (Finsupp.single [n - (m + 1 : ℕ)] 1) x = (ringQ hm hX).on.Y.prod (Finsupp.single [n - (m + 1 : ℕ)] 1) y) :
    x = y := by
  have := congrArg ((ringQ hm hX).on.Y.prod (Finsupp.single (List.replicate (m + 1) 1) 1)) h
  rw [col_row hm hX hk hx, col_row hm hX hk hy] at this
  exact X_smul_inj this

theorem smul_X_single (a : ℕ) (l : List Int) : (Finsupp.single l (Polynomial.X ^ a) : LMod) = (Polynomial.X ^ a : Polynomial ℚ) • Finsupp.single l 1 := by
  simp

theorem seidel_col (hm : 1 ≤ m + 1) (hX : mkGr (m + 1 : ℕ) n = .ok X) (hk : 1 ≤ n - (m + 1 : ℕ)) {l : List Int} (hl : GrClass (m + 1) n l) :
    (ringQ hm hX).on.Y.prod (Finsupp.single (List.replicate (m + 1) 1) 1) (Finsupp.single l 1) =
      Finsupp.single (torL (m + 1) (n - (m + 1 : ℕ)) l) (Polynomial.X ^ torE (n - (m + 1 : ℕ)) l) := by
  have ht : GrClass (m + 1) n (torL (m + 1) (n - (m + 1 : ℕ)) l) := torL_cls hk hl
  apply row_inj hm hX hk (GiamSys.prod_support _ _ (grClass_single hl 1)) (grClass_single ht _)
  rw [row_col hm hX hk (grClass_single hl 1), smul_X_single, GiamSys.prod_smul_right, seidel_on hm hX hk ht, rotL_torL hk hl,
    Finsupp.smul_single, Finsupp.smul_single, smul_eq_mul, smul_eq_mul, ← pow_add, rotE_torL hl, mul_one, pow_one]

theorem rotL_inj (hk : 1 ≤ n - (m + 1 : ℕ)) {l l' : List Int} (hl : GrClass (m + 1) n l) (hl' : GrClass (m + 1) n l')
    (h : rotL (m + 1) (n - (m + 1 : ℕ)) l = rotL (m + 1) (n - (m + 1 : ℕ)) l') : l = l' := by
  obtain ⟨X, hX⟩ : ∃ X, mkGr (m + 1 : ℕ) n = .ok X := ⟨_, by
    unfold mkGr
    rw [if_neg (by omega), if_neg (by omega)]⟩
  have hm : 1 ≤ m + 1 := by omega
  have h1 := seidel_on hm hX hk hl
  have h2 := seidel_on hm hX hk hl'
  have h3 : (ringQ hm hX).on.Y.prod (Finsupp.single [n - (m + 1 : ℕ)] 1) (Finsupp.single l (Polynomial.X ^ rotE (m + 1) l')) =
      (ringQ hm hX).on.Y.prod (Finsupp.single [n - (m + 1 : ℕ)] 1) (Finsupp.single l' (Polynomial.X ^ rotE (m + 1) l)) := by
    rw [smul_X_single _ l, smul_X_single _ l', GiamSys.prod_smul_right, GiamSys.prod_smul_right, h1, h2, h, Finsupp.smul_single,
      Finsupp.smul_single, smul_eq_mul, smul_eq_mul, mul_comm]
  have h4 := row_inj hm hX hk (grClass_single hl _) (grClass_single hl' _) h3
  have hne : (Polynomial.X : Polynomial ℚ) ^ rotE (m + 1) l' ≠ 0 := pow_ne_zero _ Polynomial.X_ne_zero
  rcases (Finsupp.single_eq_single_iff _ _ _ _).1 h4 with h | h
  · exact h.1
  · exact absurd h.1 hne

/-- The cyclic symmetry, before taking coefficients. -/
theorem seidel_sym (hm : 1 ≤ m + 1) (hX : mkGr (m + 1 : ℕ) n = .ok X) (hk : 1 ≤ n - (m + 1 : ℕ)) {l mu nu : List Int}
    (hl : GrClass (m + 1) n l) (hmu : GrClass (m + 1) n mu) (hnu : GrClass (m + 1) n nu) :
    (Polynomial.X : Polynomial ℚ) ^ rotE (m + 1) l * (ringQ hm hX).on.Y.prod (Finsupp.single (rotL (m + 1) (n - (m + 1 : ℕ)) l) 1)
        (Finsupp.single mu 1) (rotL (m + 1) (n - (m + 1 : ℕ)) nu) =
      Polynomial.X ^ rotE (m + 1) nu * (ringQ hm hX).on.Y.prod (Finsupp.single l 1) (Finsupp.single mu 1) nu := by
  have key : ∀ x : LMod, (∀ l ∈ x.support, GrClass (m + 1) n l) →
      (ringQ hm hX).on.Y.prod (Finsupp.single [n - (m + 1 : ℕ)] 1) x (rotL (m + 1) (n - (m + 1 : ℕ)) nu) = Polynomial.X ^ rotE (m + 1) nu * x nu := by
    intro x hx
    have e : x = ∑ l ∈ x.support, x l • Finsupp.single l 1 := by
      conv_lhs => rw [← Finsupp.sum_single x]
      refine Finset.sum_congr rfl (fun l _ => ?_)
      simp
    conv_lhs => rw [e]
    rw [GiamSys.prod_single, map_sum, Finsupp.finsetSum_apply]
    have h2 : ∀ l ∈ x.support, (((ringQ hm hX).on.Y.act ((ringQ hm hX).on.Y.G [n - (m + 1 : ℕ)])) (x l • Finsupp.single l 1))
        (rotL (m + 1) (n - (m + 1 : ℕ)) nu) = if l = nu then Polynomial.X ^ rotE (m + 1) nu * x nu else 0 := by
      intro l hl
      rw [map_smul, ← GiamSys.prod_single, seidel_on hm hX hk (hx l hl), Finsupp.smul_apply, Finsupp.single_apply]
      by_cases h : l = nu
      · subst h
        simp [mul_comm]
      · rw [if_neg h, if_neg (fun h' => h (rotL_inj hk (hx l hl) hnu h')), smul_zero]
    rw [Finset.sum_congr rfl h2, Finset.sum_ite_eq']
    split
    · rfl
    · rename_i h
      rw [Finsupp.notMem_support_iff.1 h, mul_zero]
  rw [← key _ (GiamSys.prod_support _ _ (grClass_single hmu 1)), ← GiamSys.prod_assoc _ _ (grClass_single hl 1) (grClass_single hmu 1),
    seidel_on hm hX hk hl, smul_X_single, GiamSys.prod_smul_left]
  rfl

end

/-- A result which is one class times a power of `q` has exactly one term. -/
theorem one_term {r : Except PyErr Poly} {l : List Int} {d : ℕ} (h : Returns r (ev (Finsupp.single l (Polynomial.X ^ d)))) :
    r = .ok [(List.replicate d Sym.q ++ [.S l], 1)] := by
  obtain ⟨w, hw, hw1, hw2⟩ := h
  rw [hw]
  congr 1
  have hs : WF [(List.replicate d Sym.q ++ [.S l], (1 : ℚ))] := by
    refine ⟨by simp, fun t ht => ?_⟩
    rw [List.mem_singleton.1 ht]
    exact ⟨one_ne_zero, qmono_sorted d l⟩
  refine (perm_of_den_eq hw1 hs ?_).eq_singleton
  rw [hw2, ev_single]
  simp [inq, monoDen_replicate, monoDen]

section
variable {m : ℕ} {n : ℤ} {X : Space} (hm : 1 ≤ m) (hmn : m < n) (hX : mkGr m n = .ok X) {fuel : ℕ} (hf : giamBound m n ≤ fuel)
include hm hmn hX hf

/-- **C80**: `qmult(S[n-m], S[l])` is one class times a power of `q`. -/
theorem C80_row {l : List Int} (hl : GrClass m n l) :
    GrClass m n (rotL m (n - m) l) ∧
      Gr.qmult X fuel (Poly.sym (.S [n - m])) (Poly.sym (.S l)) =
        .ok [(List.replicate (rotE m l) .q ++ [.S (rotL m (n - m) l)], 1)] := by
  cases m with
  | zero => omega
  | succ m =>
    have hk : 1 ≤ n - (m + 1 : ℕ) := by omega
    refine ⟨rotL_cls hk hl, ?_⟩
    have h := (ringQ hm hX).on.mult hf (wf_sym (.S [n - (m + 1 : ℕ)])) (x := Finsupp.single [n - (m + 1 : ℕ)] 1) (by simp [inq])
      (grClass_single (row_cls hk) 1) (wf_sym (.S l)) (y := Finsupp.single l 1) (by simp [inq]) (grClass_single hl 1)
    rw [seidel_on hm hX hk hl] at h
    exact one_term h

example : Gr.qmult ⟨.A, 3, 5⟩ 28 (Poly.sym (.S [3])) (Poly.sym (.S [3, 1])) = .ok [([.q, .S [2]], 1)] := by
  decide +kernel

/-- **C80**: `qmult(S[1,...,1], S[l])` likewise. -/
theorem C80_column {l : List Int} (hl : GrClass m n l) :
    GrClass m n (torL m (n - m) l) ∧
      Gr.qmult X fuel (Poly.sym (.S (List.replicate m 1))) (Poly.sym (.S l)) =
        .ok [(List.replicate (torE (n - m) l) .q ++ [.S (torL m (n - m) l)], 1)] := by
  cases m with
  | zero => omega
  | succ m =>
    have hk : 1 ≤ n - (m + 1 : ℕ) := by omega
    refine ⟨torL_cls hk hl, ?_⟩
    have h := (ringQ hm hX).on.mult hf (wf_sym (.S (List.replicate (m + 1) 1))) (x := Finsupp.single (List.replicate (m + 1) 1) 1) (by simp [inq])
      (grClass_single (col_cls hk) 1) (wf_sym (.S l)) (y := Finsupp.single l 1) (by simp [inq]) (grClass_single hl 1)
    rw [seidel_col hm hX hk hl] at h
    exact one_term h

example : Gr.qmult ⟨.A, 3, 5⟩ 28 (Poly.sym (.S [1, 1])) (Poly.sym (.S [3, 1])) = .ok [([.q, .S [1]], 1)] := by
  decide +kernel

/-- **C80**: rotating a factor and the class looked up does not change the coefficient, up to the powers of `q`. -/
theorem C80_cyclic {l mu nu : List Int} (hl : GrClass m n l) (hmu : GrClass m n mu) (hnu : GrClass m n nu) :
    ∃ w w', Gr.qmult X fuel (Poly.sym (.S l)) (Poly.sym (.S mu)) = .ok w ∧
      Gr.qmult X fuel (Poly.sym (.S (rotL m (n - m) l))) (Poly.sym (.S mu)) = .ok w' ∧
      (∀ d d', d' + rotE m l = d + rotE m nu →
        coeffOf (List.replicate d' Sym.q ++ [.S (rotL m (n - m) nu)]) w' = coeffOf (List.replicate d Sym.q ++ [.S nu]) w) ∧
      (rotE m nu < rotE m l → coeffOf [.S nu] w = 0) ∧ (rotE m l < rotE m nu → coeffOf [.S (rotL m (n - m) nu)] w' = 0) := by
  cases m with
  | zero => omega
  | succ m =>
    have hk : 1 ≤ n - (m + 1 : ℕ) := by omega
    have hr : GrClass (m + 1) n (rotL (m + 1) (n - (m + 1 : ℕ)) l) := rotL_cls hk hl
    obtain ⟨w, h1, h2, h3⟩ := (ringQ hm hX).on.mult hf (wf_sym (.S l)) (x := Finsupp.single l 1) (by simp [inq])
      (grClass_single hl 1) (wf_sym (.S mu)) (y := Finsupp.single mu 1) (by simp [inq]) (grClass_single hmu 1)
    obtain ⟨w', h1', h2', h3'⟩ := (ringQ hm hX).on.mult hf (wf_sym (.S (rotL (m + 1) (n - (m + 1 : ℕ)) l)))
      (x := Finsupp.single (rotL (m + 1) (n - (m + 1 : ℕ)) l) 1) (by simp [inq])
      (grClass_single hr 1) (wf_sym (.S mu)) (y := Finsupp.single mu 1) (by simp [inq]) (grClass_single hmu 1)
    have key := seidel_sym hm hX hk hl hmu hnu
    have c1 : ∀ d, coeffOf (List.replicate d Sym.q ++ [.S nu]) w =
        ((ringQ hm hX).on.Y.prod (Finsupp.single l 1) (Finsupp.single mu 1) nu).coeff d := by
      intro d
      rw [coeffOf_den h2 (qmono_sorted d _), h3, expo_qmono, coeff_ev]
    have c2 : ∀ d, coeffOf (List.replicate d Sym.q ++ [.S (rotL (m + 1) (n - (m + 1 : ℕ)) nu)]) w' =
        ((ringQ hm hX).on.Y.prod (Finsupp.single (rotL (m + 1) (n - (m + 1 : ℕ)) l) 1) (Finsupp.single mu 1)
          (rotL (m + 1) (n - (m + 1 : ℕ)) nu)).coeff d := by
      intro d
      rw [coeffOf_den h2' (qmono_sorted d _), h3', expo_qmono, coeff_ev]
    refine ⟨w, w', h1, h1', fun d d' hd => ?_, fun h => ?_, fun h => ?_⟩
    · rw [c1, c2]
      have := congrArg (fun p => Polynomial.coeff p (d' + rotE (m + 1) l)) key
      simp only [Polynomial.coeff_X_pow_mul] at this
      rw [this, hd, Polynomial.coeff_X_pow_mul]
    · have e := c1 0
      simp only [List.replicate_zero, List.nil_append] at e
      rw [e]
      have := congrArg (fun p => Polynomial.coeff p (rotE (m + 1) nu)) key
      simp only [Polynomial.coeff_X_pow_mul', le_refl, if_true, Nat.sub_self] at this
      rw [← this, if_neg (by omega)]
    · have e := c2 0
      simp only [List.replicate_zero, List.nil_append] at e
      rw [e]
      have := congrArg (fun p => Polynomial.coeff p (rotE (m + 1) l)) key
      simp only [Polynomial.coeff_X_pow_mul', le_refl, if_true, Nat.sub_self] at this
      rw [this, if_neg (by omega)]

end

/-! ### examples -/

/-- on `Gr(2,5)`: a row is added to `[2]`, a column removed from `[3,1]` -/
example : GrClass 2 5 [2] ∧ rotL 2 3 [2] = [3, 2] ∧ rotE 2 [2] = 0 ∧ GrClass 2 5 [3, 1] ∧ rotL 2 3 [3, 1] = [2] ∧ rotE 2 [3, 1] = 1 ∧
    Gr.qmult ⟨.A, 3, 5⟩ 30 (Poly.sym (.S [3])) (Poly.sym (.S [3, 1])) = .ok [([.q, .S [2]], 1)] := by
  refine ⟨by unfold GrClass ReducedPart InRect; decide, by decide, by decide, by unfold GrClass ReducedPart InRect; decide,
    by decide, by decide, by decide +kernel⟩

/-- on `Gr(2,5)`: a column is added to `[2]`, a row removed from `[3,1]` -/
example : torL 2 3 [2] = [3, 1] ∧ torE 3 [2] = 0 ∧ torL 2 3 [3, 1] = [1] ∧ torE 3 [3, 1] = 1 ∧
    Gr.qmult ⟨.A, 3, 5⟩ 30 (Poly.sym (.S [1, 1])) (Poly.sym (.S [3, 1])) = .ok [([.q, .S [1]], 1)] := by
  refine ⟨by decide, by decide, by decide, by decide, by decide +kernel⟩

/-- on `Gr(2,5)`: `S[2,1] * S[2,1] = S[3,3] + q S[1]`; rotating `[2,1]` to `q S[1]` and `[3,3]` to `q S[2,2]`, `[1]` to `S[3,1]`:
`S[1] * S[2,1] = S[3,1] + S[2,2]` -/
example : rotL 2 3 [2, 1] = [1] ∧ rotL 2 3 [3, 3] = [2, 2] ∧ rotL 2 3 [1] = [3, 1] ∧
    (Gr.qmult ⟨.A, 3, 5⟩ 30 (Poly.sym (.S [2, 1])) (Poly.sym (.S [2, 1]))).toOption.map
      (fun w => (coeffOf [.S [3, 3]] w, coeffOf [.q, .S [1]] w)) = some (1, 1) ∧
    (Gr.qmult ⟨.A, 3, 5⟩ 30 (Poly.sym (.S [1])) (Poly.sym (.S [2, 1]))).toOption.map
      (fun w => (coeffOf [.S [2, 2]] w, coeffOf [.S [3, 1]] w)) = some (1, 1) := by
  refine ⟨by decide, by decide, by decide, by decide +kernel, by decide +kernel⟩

end Verif
