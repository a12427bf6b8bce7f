import Verif.Proofs.IndexD
import Mathlib.Algebra.BigOperators.Intervals
import Mathlib.Algebra.BigOperators.Ring.Finset
import Mathlib.Tactic.Ring
import Mathlib.Tactic.Linarith
/-! Reversing index lists; sums over index lists. -/

namespace Verif
open Spec

theorem reverse_map_range (f : Nat → Int) (m : Nat) :
    ((List.range m).map f).reverse = (List.range m).map (fun j => f (m - 1 - j)) := by
  apply List.ext_getElem
  · simp
  · intro i h1 h2
    simp at h1 h2
    rw [List.getElem_reverse]
    simp

/-- the index sequence of the dual -/
def dualSeq (p : Nat → Int) (m : Nat) (N : Int) (j : Nat) : Int := N + 1 - p (m - 1 - j)

theorem dualize_reverse (p : Nat → Int) (m : Nat) (N : Int) :
    (((List.range m).map p).reverse.map (fun x => N + 1 - x)) = (List.range m).map (dualSeq p m N) := by
  rw [reverse_map_range, List.map_map]
  rfl

theorem dualSeq_iso {p : Nat → Int} {m : Nat} {N : Int} (h : IsoSeq p m N) :
    IsoSeq (dualSeq p m N) m N where
  mono i j hij hj := by
    have := h.mono (m - 1 - j) (m - 1 - i) (by omega) (by omega)
    unfold dualSeq; omega
  pos i hi := by
    have := h.le (m - 1 - i) (by omega)
    unfold dualSeq; omega
  le i hi := by
    have := h.pos (m - 1 - i) (by omega)
    unfold dualSeq; omega
  iso i j hi hj := by
    have := h.iso (m - 1 - i) (m - 1 - j) (by omega) (by omega)
    unfold dualSeq; omega

/-- symmetric pair sums, in terms of the full square -/
theorem pair_sum_square (g : Nat → Nat → Int) (hs : ∀ i j, g i j = g j i) (m : Nat) :
    2 * ∑ j ∈ Finset.range m, ∑ i ∈ Finset.range j, g i j + ∑ j ∈ Finset.range m, g j j =
      ∑ j ∈ Finset.range m, ∑ i ∈ Finset.range m, g i j := by
  induction m with
  | zero => simp
  | succ m ih =>
    rw [Finset.sum_range_succ (fun j => ∑ i ∈ Finset.range j, g i j), Finset.sum_range_succ (fun j => g j j),
      Finset.sum_range_succ (fun j => ∑ i ∈ Finset.range (m + 1), g i j)]
    have h1 : ∑ j ∈ Finset.range m, ∑ i ∈ Finset.range (m + 1), g i j =
        ∑ j ∈ Finset.range m, ∑ i ∈ Finset.range m, g i j + ∑ j ∈ Finset.range m, g m j := by
      rw [← Finset.sum_add_distrib]
      apply Finset.sum_congr rfl
      intro j _
      rw [Finset.sum_range_succ]
    rw [h1, Finset.sum_range_succ]
    have h2 : ∑ j ∈ Finset.range m, g m j = ∑ j ∈ Finset.range m, g j m :=
      Finset.sum_congr rfl (fun j _ => hs m j)
    rw [h2]
    linarith

theorem pair_sum_reflect (g : Nat → Nat → Int) (hs : ∀ i j, g i j = g j i) (m : Nat) :
    ∑ j ∈ Finset.range m, ∑ i ∈ Finset.range j, g (m - 1 - i) (m - 1 - j) =
      ∑ j ∈ Finset.range m, ∑ i ∈ Finset.range j, g i j := by
  have h1 := pair_sum_square g hs m
  have h2 := pair_sum_square (fun i j => g (m - 1 - i) (m - 1 - j)) (fun i j => hs _ _) m
  have h3 := Finset.sum_range_reflect (fun j => g j j) m
  have h4 : ∑ j ∈ Finset.range m, ∑ i ∈ Finset.range m, g (m - 1 - i) (m - 1 - j) =
      ∑ j ∈ Finset.range m, ∑ i ∈ Finset.range m, g i j := by
    rw [← Finset.sum_range_reflect (fun j => ∑ i ∈ Finset.range m, g i j)]
    apply Finset.sum_congr rfl
    intro j _
    exact Finset.sum_range_reflect (fun i => g i (m - 1 - j)) m
  linarith

theorem pair_sum_one (m : Nat) :
    2 * ∑ j ∈ Finset.range m, ∑ _i ∈ Finset.range j, (1 : Int) = m * (m - 1) := by
  have := pair_sum_square (fun _ _ => 1) (fun _ _ => rfl) m
  simp only [Finset.sum_const, Finset.card_range, nsmul_eq_mul, mul_one] at this ⊢
  linarith

theorem dcnt_eq_sum (p : Nat → Int) (b : Int) (j : Nat) :
    dcnt p b j = ∑ i ∈ Finset.range j, if p i + p j > b then (1 : Int) else 0 := by
  unfold dcnt
  rw [Finset.sum_boole]

/-- the pairs above the bound and the pairs above the bound in the dual are complementary -/
theorem dcnt_dual {p : Nat → Int} {m : Nat} {N : Int} (h : IsoSeq p m N) :
    2 * (∑ j ∈ Finset.range m, dcnt p (N + 1) j + ∑ j ∈ Finset.range m, dcnt (dualSeq p m N) (N + 1) j) =
      m * (m - 1) := by
  rw [← pair_sum_one]
  congr 1
  simp only [dcnt_eq_sum]
  have h1 := pair_sum_reflect (fun i j => if p i + p j > N + 1 then (1 : Int) else 0)
    (fun i j => by rw [add_comm]) m
  rw [← h1, ← Finset.sum_add_distrib]
  apply Finset.sum_congr rfl
  intro j hj
  rw [← Finset.sum_add_distrib]
  apply Finset.sum_congr rfl
  intro i hi
  rw [Finset.mem_range] at hi hj
  have := h.iso (m - 1 - i) (m - 1 - j) (by omega) (by omega)
  unfold dualSeq
  split <;> split <;> omega

theorem dual_sum (p : Nat → Int) (m : Nat) (N : Int) :
    ∑ j ∈ Finset.range m, dualSeq p m N j = m * (N + 1) - ∑ j ∈ Finset.range m, p j := by
  unfold dualSeq
  rw [Finset.sum_sub_distrib, Finset.sum_range_reflect]
  simp

theorem sum_map_range (f : Nat → Int) (m : Nat) :
    ((List.range m).map f).sum = ∑ j ∈ Finset.range m, f j := by
  induction m with
  | zero => simp
  | succ m ih => rw [List.range_succ, List.map_append, List.sum_append, ih, Finset.sum_range_succ]; simp

theorem backC_dual_sum {p : Nat → Int} {m : Nat} {k n : Int} (h : IsoSeq p m (2 * n)) :
    2 * (∑ j ∈ Finset.range m, backC p k n j + ∑ j ∈ Finset.range m, backC (dualSeq p m (2 * n)) k n j)
      = 4 * k * m + m * (m + 1) := by
  unfold backC
  rw [Finset.sum_add_distrib, Finset.sum_add_distrib, Finset.sum_sub_distrib, Finset.sum_sub_distrib, dual_sum]
  have h1 := dcnt_dual h
  simp only [Finset.sum_const, Finset.card_range, nsmul_eq_mul]
  linarith

/-! ### Type D -/

/-- exchange `M` and `M + 1` -/
def swapMid (M x : Int) : Int := if x = M then M + 1 else if x = M + 1 then M else x

theorem swapMid_swapMid (M x : Int) : swapMid M (swapMid M x) = x := by
  unfold swapMid
  split
  · rw [if_neg (by omega), if_pos rfl]; omega
  · split
    · rw [if_pos rfl]; omega
    · rfl

theorem swapMid_iso {p : Nat → Int} {m : Nat} {M : Int} (h : IsoSeq p m (2 * M)) :
    IsoSeq (fun j => swapMid M (p j)) m (2 * M) where
  mono i j hij hj := by
    have h1 := h.mono i j hij hj
    have h2 := h.iso i j (by omega) hj
    unfold swapMid
    split
    · split
      · omega
      · split <;> omega
    · split
      · split
        · omega
        · split <;> omega
      · split
        · omega
        · split <;> omega
  pos i hi := by
    have h1 := h.pos i hi
    have h2 := h.le i hi
    unfold swapMid
    split
    · omega
    · split <;> omega
  le i hi := by
    have h1 := h.pos i hi
    have h2 := h.le i hi
    unfold swapMid
    split
    · omega
    · split <;> omega
  iso i j hi hj := by
    have h2 := h.iso i j hi hj
    unfold swapMid
    split
    · split
      · omega
      · split <;> omega
    · split
      · split
        · omega
        · split <;> omega
      · split
        · omega
        · split <;> omega

theorem backD_swapMid {p : Nat → Int} {m : Nat} {k M : Int} (h : IsoSeq p m (2 * M)) {j : Nat} (hj : j < m) :
    backD (fun j => swapMid M (p j)) k M j = backD p k M j := by
  have hd : dcnt (fun j => swapMid M (p j)) (2 * M + 1) j = dcnt p (2 * M + 1) j := by
    unfold dcnt
    congr 2
    apply Finset.filter_congr
    intro i hi
    rw [Finset.mem_range] at hi
    have h1 := h.mono i j hi hj
    have h2 := h.iso i j (by omega) hj
    beta_reduce
    unfold swapMid
    split
    · split
      · omega
      · split <;> omega
    · split
      · split
        · omega
        · split <;> omega
      · split
        · omega
        · split <;> omega
  unfold backD backC
  rw [hd]
  beta_reduce
  have : swapMid M (p j) + (if swapMid M (p j) ≤ M then 1 else 0) = p j + (if p j ≤ M then 1 else 0) := by
    unfold swapMid
    by_cases h1 : p j = M
    · rw [if_pos h1, if_neg (by omega), if_pos (by omega)]; omega
    · rw [if_neg h1]
      by_cases h2 : p j = M + 1
      · rw [if_pos h2, if_pos (by omega), if_neg (by omega)]; omega
      · rw [if_neg h2]
  omega

theorem backD_dual_sum {p : Nat → Int} {m : Nat} {k M : Int} (h : IsoSeq p m (2 * M)) :
    2 * (∑ j ∈ Finset.range m, backD p k M j + ∑ j ∈ Finset.range m, backD (dualSeq p m (2 * M)) k M j)
      = 4 * k * m + m * (m - 1) := by
  have h1 := backC_dual_sum (k := k) h
  have h2 : ∑ j ∈ Finset.range m, (if p j ≤ M then (1 : Int) else 0) +
      ∑ j ∈ Finset.range m, (if dualSeq p m (2 * M) j ≤ M then (1 : Int) else 0) = m := by
    rw [← Finset.sum_range_reflect (fun j => if p j ≤ M then (1 : Int) else 0), ← Finset.sum_add_distrib]
    have : ∀ j ∈ Finset.range m, ((if p (m - 1 - j) ≤ M then (1 : Int) else 0) +
        if dualSeq p m (2 * M) j ≤ M then (1 : Int) else 0) = 1 := by
      intro j _
      unfold dualSeq
      split <;> split <;> omega
    rw [Finset.sum_congr rfl this]
    simp
  unfold backD
  rw [Finset.sum_sub_distrib, Finset.sum_sub_distrib]
  linarith

end Verif
