import Verif.Proofs.IndexC
/-! The index maps of types B and C as sequences. -/

namespace Verif
open Spec

theorem kseq_of_kstrict {l : List Int} {k : Int} (hk : 0 ≤ k) (hl : IsPartition l) (hs : KStrict k l) :
    KSeq (part l) k where
  anti i := hl.part_anti (Nat.le_succ i)
  strict i hi := by
    by_cases h : i + 1 < l.length
    · exact (pairwise_iff_part.1 hs) i (i + 1) (by omega) h hi
    · rw [part_of_ge (i := i + 1) (by omega)]; omega

theorem countInner_eq (l : List Int) (c k δ : Int) (j : Nat) :
    countInner (l ++ rep 0 c) k j δ = cnt (part l) k δ j := by
  unfold countInner cnt
  rw [← countP_range_eq_card]
  simp only [at'_pad, cond]

theorem idxCount_eq (idx : List Int) (b : Int) (j : Nat) : idxCount idx j b = dcnt (part idx) b j := by
  unfold idxCount dcnt
  rw [← countP_range_eq_card]
  rfl

/-- type C index sequence of a partition sequence -/
def seqC (lam : Nat → Int) (k n : Int) (j : Nat) : Int := n + k + 1 - lam j + cnt lam k 0 j

theorem seqC_key {lam : Nat → Int} {k n : Int} (h : KSeq lam k) {i j : Nat} (hij : i < j) :
    (cond lam k 0 i j → seqC lam k n i + seqC lam k n j ≥ 2 * n + 2) ∧
    (¬ cond lam k 0 i j → seqC lam k n i + seqC lam k n j ≤ 2 * n) := by
  unfold seqC
  constructor
  · intro hc
    have h1 := cnt_ge h (by omega) hij hc
    have h2 := cnt_nonneg (lam := lam) (k := k) (δ := 0) i
    unfold cond at hc
    omega
  · intro hc
    have h1 := cnt_lt h (by omega) hij hc
    have h2 := cnt_zero (δ := 0) h (by omega) (not_cond_gt h (by omega) hij hc)
    unfold cond at hc
    omega

theorem seqC_succ {lam : Nat → Int} {k n : Int} (h : KSeq lam k) (j : Nat) :
    seqC lam k n j < seqC lam k n (j + 1) := by
  unfold seqC
  by_cases hj : lam j ≤ k
  · have := cnt_succ (δ := 0) h (by omega) j hj
    have := h.anti j
    omega
  · have h1 := cnt_zero (δ := 0) h (by omega) (show k < lam j by omega)
    have h2 := h.strict j (by omega)
    have h3 := cnt_nonneg (lam := lam) (k := k) (δ := 0) (j + 1)
    omega

theorem seqC_mono {lam : Nat → Int} {k n : Int} (h : KSeq lam k) {i j : Nat} (hij : i < j) :
    seqC lam k n i < seqC lam k n j := by
  induction j with
  | zero => omega
  | succ j ih =>
    by_cases hi : i = j
    · subst hi; exact seqC_succ h i
    · exact lt_trans (ih (by omega)) (seqC_succ h j)

theorem seqC_isoSeq {lam : Nat → Int} {k n : Int} {m : Nat} (h : KSeq lam k) (hm : (m : Int) = n - k)
    (h0 : ∀ i, 0 ≤ lam i) (h1 : ∀ i, lam i ≤ n + k) : IsoSeq (seqC lam k n) m (2 * n) where
  mono i j hij _ := seqC_mono h hij
  pos i _ := by
    have := h1 i
    have := cnt_nonneg (lam := lam) (k := k) (δ := 0) i
    unfold seqC; omega
  le i hi := by
    have := h0 i
    have := cnt_le (lam := lam) (k := k) (δ := 0) i
    unfold seqC; omega
  iso i j hi hj := by
    rcases Nat.lt_trichotomy i j with hij | hij | hij
    · have := seqC_key (n := n) h hij
      by_cases hc : cond lam k 0 i j
      · have := this.1 hc; omega
      · have := this.2 hc; omega
    · subst hij; omega
    · have := seqC_key (n := n) h hij
      by_cases hc : cond lam k 0 j i
      · have := this.1 hc; omega
      · have := this.2 hc; omega

/-- the counts computed from the index sequence agree with those computed from the partition -/
theorem dcnt_seqC {lam : Nat → Int} {k n : Int} (h : KSeq lam k) (j : Nat) :
    dcnt (seqC lam k n) (2 * n + 1) j = cnt lam k 0 j := by
  unfold dcnt cnt
  congr 2
  apply Finset.filter_congr
  intro i hi
  rw [Finset.mem_range] at hi
  have := seqC_key (n := n) h hi
  constructor
  · intro hgt
    by_contra hc
    have := this.2 hc
    omega
  · intro hc
    have := this.1 hc
    omega

/-- type C: partition sequence of an index sequence -/
def backC (p : Nat → Int) (k n : Int) (j : Nat) : Int := n + k + 1 - p j + dcnt p (2 * n + 1) j

theorem backC_anti {p : Nat → Int} {m : Nat} {k n : Int} (h : IsoSeq p m (2 * n)) {j : Nat}
    (hj : j + 1 < m) : backC p k n (j + 1) ≤ backC p k n j := by
  have := dcnt_succ h hj
  unfold backC
  split at this <;> omega

theorem backC_gt {p : Nat → Int} {m : Nat} {k n : Int} (h : IsoSeq p m (2 * n)) {j : Nat}
    (hj : j < m) : k < backC p k n j ↔ p j ≤ n := by
  unfold backC
  constructor
  · intro hk
    by_contra hp
    have := dcnt_le h hj (by omega)
    omega
  · intro hp
    have := dcnt_zero h hj hp
    omega

theorem backC_strict {p : Nat → Int} {m : Nat} {k n : Int} (h : IsoSeq p m (2 * n)) {j : Nat}
    (hj : j + 1 < m) (hk : k < backC p k n j) : backC p k n (j + 1) < backC p k n j := by
  have h1 := dcnt_succ h hj
  have h2 := (backC_gt h (by omega)).1 hk
  rw [if_pos h2] at h1
  unfold backC
  omega

theorem backC_le {p : Nat → Int} {m : Nat} {k n : Int} (h : IsoSeq p m (2 * n)) (hkn : k ≤ n + k) {j : Nat}
    (hj : j < m) : backC p k n j ≤ n + k := by
  unfold backC
  by_cases hp : p j ≤ n
  · have := dcnt_zero h hj hp
    have := h.pos j hj
    omega
  · have := dcnt_le h hj (by omega)
    omega

theorem backC_nonneg {p : Nat → Int} {m : Nat} {k n : Int} (h : IsoSeq p m (2 * n)) (hm : (m : Int) = n - k)
    {j : Nat} (hj : j < m) : 0 ≤ backC p k n j := by
  have key : ∀ d, d < m → 0 ≤ backC p k n (m - 1 - d) := by
    intro d
    induction d with
    | zero =>
      intro hd
      have := dcnt_last h (show m - 1 < m by omega)
      unfold backC
      simp only [Nat.sub_zero]
      omega
    | succ d ih =>
      intro hd
      have h1 := ih (by omega)
      have h2 := backC_anti (k := k) h (show m - 1 - (d + 1) + 1 < m by omega)
      rw [show m - 1 - (d + 1) + 1 = m - 1 - d by omega] at h2
      omega
  have := key (m - 1 - j) (by omega)
  rwa [show m - 1 - (m - 1 - j) = j by omega] at this

theorem backC_cond {p : Nat → Int} {m : Nat} {k n : Int} (h : IsoSeq p m (2 * n)) {i j : Nat}
    (hij : i < j) (hj : j < m) : cond (backC p k n) k 0 i j ↔ p i + p j > 2 * n + 1 := by
  unfold cond backC
  have hiso := h.iso i j (by omega) hj
  constructor
  · intro hc
    by_contra hle
    have h1 := dcnt_pair_le h hij hj (by omega)
    have h2 := dcnt_nonneg (p := p) (2 * n + 1) i
    omega
  · intro hgt
    have := dcnt_pair_gt h hij hj hgt
    omega

end Verif
