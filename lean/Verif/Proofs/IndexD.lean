import Verif.Proofs.IndexBC
/-! The index maps of type D as sequences.  `M` is half the dimension of the ambient space. -/

namespace Verif
open Spec

/-- row `j` is the first row equal to `k` -/
def FirstK (lam : Nat → Int) (k : Int) (j : Nat) : Prop := lam j = k ∧ (j = 0 ∨ k < lam (j - 1))

instance (lam : Nat → Int) (k : Int) (j : Nat) : Decidable (FirstK lam k j) := by
  unfold FirstK; infer_instance

/-- the offset of row `j` -/
def offD (lam : Nat → Int) (k nt : Int) (j : Nat) : Int :=
  if lam j > k then 0 else if FirstK lam k j ∧ (nt + (j : Int)) % 2 = 1 then 0 else 1

def seqD (lam : Nat → Int) (k M nt : Int) (j : Nat) : Int :=
  M + k - lam j + cnt lam k (-1) j + offD lam k nt j

variable {lam : Nat → Int} {k M nt : Int}

theorem offD_le (j : Nat) : 0 ≤ offD lam k nt j ∧ offD lam k nt j ≤ 1 := by
  unfold offD
  split
  · omega
  split <;> omega

/-- rows longer than `k` -/
theorem seqD_gt (h : KSeq lam k) {j : Nat} (hj : k < lam j) : seqD lam k M nt j = M + k - lam j := by
  unfold seqD
  rw [cnt_zero h (by omega) hj]
  unfold offD
  rw [if_pos hj]
  omega

theorem cnt_firstK (h : KSeq lam k) {j : Nat} (hj : FirstK lam k j) : cnt lam k (-1) j = 0 := by
  unfold cnt
  rw [Nat.cast_eq_zero, Finset.card_eq_zero, Finset.filter_eq_empty_iff]
  intro i hi
  rw [Finset.mem_range] at hi
  obtain ⟨h1, h2⟩ := hj
  rcases h2 with h2 | h2
  · omega
  have := h.gap (show i ≤ j - 1 by omega) h2
  unfold cond
  omega

theorem seqD_first (h : KSeq lam k) {j : Nat} (hj : FirstK lam k j) :
    seqD lam k M nt j = M + offD lam k nt j := by
  unfold seqD
  rw [cnt_firstK h hj, hj.1]
  omega

theorem offD_first {j : Nat} (hj : FirstK lam k j) :
    offD lam k nt j = if (nt + (j : Int)) % 2 = 1 then 0 else 1 := by
  unfold offD
  rw [if_neg (by have := hj.1; omega)]
  simp only [hj, true_and]

theorem offD_other {j : Nat} (h1 : lam j ≤ k) (h2 : ¬ FirstK lam k j) : offD lam k nt j = 1 := by
  unfold offD
  rw [if_neg (by omega), if_neg (fun hc => h2 hc.1)]

theorem seqD_other (h : KSeq lam k) {j : Nat} (h1 : lam j ≤ k) (h2 : ¬ FirstK lam k j) :
    M + 2 ≤ seqD lam k M nt j := by
  unfold seqD
  rw [offD_other h1 h2]
  have hn := cnt_nonneg (lam := lam) (k := k) (δ := -1) j
  by_cases hlt : lam j < k
  · omega
  · have hj : j ≠ 0 := fun hj => h2 ⟨by omega, Or.inl hj⟩
    have hp : lam (j - 1) ≤ k := by
      by_contra hc
      exact h2 ⟨by omega, Or.inr (by omega)⟩
    have := cnt_ge h (by omega) (show j - 1 < j by omega)
      (cond_of_le (δ := -1) h (by omega) (show j - 1 < j by omega) hp)
    omega

theorem seqD_lt_iff (h : KSeq lam k) (j : Nat) : seqD lam k M nt j < M ↔ k < lam j := by
  constructor
  · intro hlt
    by_contra hc
    by_cases hf : FirstK lam k j
    · rw [seqD_first h hf] at hlt
      have := offD_le (lam := lam) (k := k) (nt := nt) j
      omega
    · have := seqD_other (M := M) (nt := nt) h (by omega) hf
      omega
  · intro hk
    rw [seqD_gt h hk]; omega

theorem seqD_le_iff (h : KSeq lam k) (j : Nat) : seqD lam k M nt j ≤ M ↔ offD lam k nt j = 0 := by
  by_cases hk : k < lam j
  · rw [seqD_gt h hk]
    unfold offD
    rw [if_pos hk]
    simp only [iff_true]
    omega
  · by_cases hf : FirstK lam k j
    · rw [seqD_first h hf]
      have := offD_le (lam := lam) (k := k) (nt := nt) j
      omega
    · have := seqD_other (M := M) (nt := nt) h (by omega) hf
      rw [offD_other (by omega) hf]
      omega

theorem seqD_key (h : KSeq lam k) {i j : Nat} (hij : i < j) :
    (cond lam k (-1) i j → seqD lam k M nt i + seqD lam k M nt j ≥ 2 * M + 2) ∧
    (¬ cond lam k (-1) i j → seqD lam k M nt i + seqD lam k M nt j ≤ 2 * M) := by
  have oi := offD_le (lam := lam) (k := k) (nt := nt) i
  have oj := offD_le (lam := lam) (k := k) (nt := nt) j
  constructor
  · intro hc
    have h1 := cnt_ge h (by omega) hij hc
    have h2 := cnt_nonneg (lam := lam) (k := k) (δ := -1) i
    have h3 : offD lam k nt j = 1 := by
      apply offD_other
      · by_contra hlt
        have := cnt_zero (δ := -1) h (by omega) (show k < lam j by omega)
        omega
      · intro hf
        have := cnt_firstK h hf
        omega
    unfold seqD
    unfold cond at hc
    omega
  · intro hc
    have h1 := cnt_lt h (by omega) hij hc
    have hk := not_cond_gt h (by omega) hij hc
    rw [seqD_gt h hk]
    unfold seqD
    unfold cond at hc
    omega

theorem seqD_succ (h : KSeq lam k) (j : Nat) : seqD lam k M nt j < seqD lam k M nt (j + 1) := by
  by_cases hj : lam j ≤ k
  · have h1 := cnt_succ (δ := -1) h (by omega) j hj
    have h2 := h.anti j
    have h3 := offD_le (lam := lam) (k := k) (nt := nt) j
    have h4 : offD lam k nt (j + 1) = 1 := by
      apply offD_other (by omega)
      rintro ⟨_, h5 | h5⟩
      · omega
      · simp at h5; omega
    unfold seqD
    omega
  · by_cases hj' : lam (j + 1) ≤ k
    · have h1 := (seqD_lt_iff (M := M) (nt := nt) h j).2 (by omega)
      have h2 := mt (seqD_lt_iff (M := M) (nt := nt) h (j + 1)).1 (by omega)
      omega
    · rw [seqD_gt h (by omega), seqD_gt h (by omega)]
      have := h.strict j (by omega)
      omega

theorem seqD_mono (h : KSeq lam k) {i j : Nat} (hij : i < j) :
    seqD lam k M nt i < seqD lam k M nt j := by
  induction j with
  | zero => omega
  | succ j ih =>
    by_cases hi : i = j
    · subst hi; exact seqD_succ h i
    · exact lt_trans (ih (by omega)) (seqD_succ h j)

theorem seqD_isoSeq {m : Nat} (h : KSeq lam k) (hm : (m : Int) = M - k)
    (h0 : ∀ i, 0 ≤ lam i) (h1 : ∀ i, i < m → lam i ≤ M - 1 + k) : IsoSeq (seqD lam k M nt) m (2 * M) where
  mono i j hij _ := seqD_mono h hij
  pos i hi := by
    have := h1 i hi
    have := cnt_nonneg (lam := lam) (k := k) (δ := -1) i
    have := offD_le (lam := lam) (k := k) (nt := nt) i
    unfold seqD; omega
  le i hi := by
    have := h0 i
    have := cnt_le (lam := lam) (k := k) (δ := -1) i
    have := offD_le (lam := lam) (k := k) (nt := nt) i
    unfold seqD; omega
  iso i j hi hj := by
    rcases Nat.lt_trichotomy i j with hij | hij | hij
    · have := seqD_key (M := M) (nt := nt) h hij
      by_cases hc : cond lam k (-1) i j
      · have := this.1 hc; omega
      · have := this.2 hc; omega
    · subst hij; omega
    · have := seqD_key (M := M) (nt := nt) h hij
      by_cases hc : cond lam k (-1) j i
      · have := this.1 hc; omega
      · have := this.2 hc; omega

theorem dcnt_seqD (h : KSeq lam k) (j : Nat) :
    dcnt (seqD lam k M nt) (2 * M + 1) j = cnt lam k (-1) j := by
  unfold dcnt cnt
  congr 2
  apply Finset.filter_congr
  intro i hi
  rw [Finset.mem_range] at hi
  have := seqD_key (M := M) (nt := nt) h hi
  constructor
  · intro hgt
    by_contra hc
    have := this.2 hc
    omega
  · intro hc
    have := this.1 hc
    omega

/-! ### Backward -/

def backD (p : Nat → Int) (k M : Int) (j : Nat) : Int :=
  backC p k M j - (if p j ≤ M then 1 else 0)

variable {p : Nat → Int} {m : Nat}

theorem backD_ge (h : IsoSeq p m (2 * M)) {j : Nat} (hj : j < m) (hp : p j ≤ M) :
    backD p k M j = M + k - p j := by
  unfold backD backC
  rw [dcnt_zero h hj hp, if_pos hp]
  omega

theorem backD_le' (h : IsoSeq p m (2 * M)) {j : Nat} (hj : j < m) (hp : M < p j) :
    backD p k M j = backC p k M j ∧ backD p k M j ≤ k := by
  have := mt (backC_gt (k := k) h hj).1 (by omega)
  unfold backD
  rw [if_neg (by omega)]
  omega

theorem backD_anti (h : IsoSeq p m (2 * M)) {j : Nat} (hj : j + 1 < m) :
    backD p k M (j + 1) ≤ backD p k M j := by
  have h0 := backC_anti (k := k) h hj
  have h1 := h.mono j (j + 1) (by omega) hj
  by_cases hp : p (j + 1) ≤ M
  · rw [backD_ge h hj hp, backD_ge h (by omega) (by omega)]
    omega
  · obtain ⟨h2, h3⟩ := backD_le' (k := k) h hj (by omega)
    by_cases hp' : p j ≤ M
    · rw [backD_ge h (by omega) hp']; omega
    · obtain ⟨h4, h5⟩ := backD_le' (k := k) h (show j < m by omega) (by omega)
      omega

theorem backD_gt (h : IsoSeq p m (2 * M)) {j : Nat} (hj : j < m) : k < backD p k M j ↔ p j < M := by
  by_cases hp : p j ≤ M
  · rw [backD_ge h hj hp]; omega
  · have := (backD_le' (k := k) h hj (by omega)).2
    omega

theorem backD_strict (h : IsoSeq p m (2 * M)) {j : Nat} (hj : j + 1 < m) (hk : k < backD p k M j) :
    backD p k M (j + 1) < backD p k M j := by
  have h1 := h.mono j (j + 1) (by omega) hj
  have h2 := (backD_gt h (by omega)).1 hk
  by_cases hp : p (j + 1) ≤ M
  · rw [backD_ge h hj hp, backD_ge h (by omega) (by omega)]
    omega
  · have := (backD_le' (k := k) h hj (by omega)).2
    omega

theorem backD_le (h : IsoSeq p m (2 * M)) (hM : 1 ≤ M) {j : Nat}
    (hj : j < m) : backD p k M j ≤ M - 1 + k := by
  by_cases hp : p j ≤ M
  · rw [backD_ge h hj hp]
    have := h.pos j hj
    omega
  · have := (backD_le' (k := k) h hj (by omega)).2
    omega

theorem backD_nonneg (h : IsoSeq p m (2 * M)) (hk : 0 ≤ k) (hm : (m : Int) = M - k)
    {j : Nat} (hj : j < m) : 0 ≤ backD p k M j := by
  by_cases hp : p j ≤ M
  · rw [backD_ge h hj hp]
    omega
  · rw [(backD_le' (k := k) h hj (by omega)).1]
    exact backC_nonneg h hm hj

theorem backD_cond (h : IsoSeq p m (2 * M)) {i j : Nat}
    (hij : i < j) (hj : j < m) : cond (backD p k M) k (-1) i j ↔ p i + p j > 2 * M + 1 := by
  have hiso := h.iso i j (by omega) hj
  have hmono := h.mono i j hij hj
  unfold cond
  by_cases hs : p i + p j > 2 * M + 1
  · simp only [hs, iff_true]
    obtain ⟨h2, h3⟩ := backD_le' (k := k) h hj (by omega)
    by_cases hp : p i ≤ M
    · have h4 := (backC_cond (k := k) h hij hj).2 hs
      unfold cond at h4
      have h5 : backD p k M i = backC p k M i - 1 := by unfold backD; rw [if_pos hp]
      omega
    · obtain ⟨h4, h5⟩ := backD_le' (k := k) h (show i < m by omega) (by omega)
      omega
  · simp only [hs, iff_false]
    have h1 := dcnt_pair_le h hij hj (by omega)
    rw [backD_ge h (by omega) (show p i ≤ M by omega)]
    by_cases hp : p j ≤ M
    · rw [backD_ge h hj hp]
      rw [dcnt_zero h hj hp] at h1
      have : ∀ d : Nat, i + d < m → p i + d ≤ p (i + d) := by
        intro d
        induction d with
        | zero => intro _; simp
        | succ d ih =>
          intro hd
          have h6 := ih (by omega)
          have h7 := h.mono (i + d) (i + (d + 1)) (by omega) hd
          push_cast
          omega
      have h8 := this (j - i) (by omega)
      rw [show i + (j - i) = j by omega] at h8
      omega
    · rw [(backD_le' (k := k) h hj (by omega)).1]
      unfold backC
      omega

/-- a row after all-long rows -/
theorem backD_first (h : IsoSeq p m (2 * M)) {j : Nat} (hj : j < m)
    (hprev : j = 0 ∨ p (j - 1) < M) (hp : M + 2 ≤ p j) : backD p k M j < k := by
  have hall : ∀ i, i < j → p i ≤ M - 1 := by
    intro i hi
    rcases hprev with h0 | h0
    · omega
    · have := h.mono_le (show i ≤ j - 1 by omega) (by omega)
      omega
  have h1 := h.card_interval j (by omega) (2 * M + 2 - p j) (M - 1) (by omega)
  have h2 : dcnt p (2 * M + 1) j = (((Finset.range j).filter
      (fun l => 2 * M + 2 - p j ≤ p l ∧ p l ≤ M - 1)).card : Nat) := by
    unfold dcnt
    congr 2
    apply Finset.filter_congr
    intro i hi
    rw [Finset.mem_range] at hi
    have := hall i hi
    omega
  rw [(backD_le' (k := k) h hj (by omega)).1]
  unfold backC
  omega

theorem backD_mid (h : IsoSeq p m (2 * M)) {j : Nat} (hj : j < m)
    (hp : p j = M ∨ p j = M + 1) : backD p k M j = k := by
  rcases hp with hp | hp
  · rw [backD_ge h hj (by omega)]; omega
  · rw [(backD_le' (k := k) h hj (by omega)).1]
    have h1 := dcnt_le h hj (by omega)
    have h2 := dcnt_nonneg (p := p) (2 * M + 1) j
    unfold backC
    omega

theorem mid_prev (h : IsoSeq p m (2 * M)) {j : Nat} (hj : j < m)
    (hp : p j = M ∨ p j = M + 1) : j = 0 ∨ p (j - 1) < M := by
  by_cases h0 : j = 0
  · exact Or.inl h0
  · right
    have h1 := h.mono (j - 1) j (by omega) hj
    have h2 := h.iso (j - 1) j (by omega) hj
    omega

/-! ### The number of missing indices -/

theorem pyRange_length (a b : Int) : (pyRange a b).length = (b - a).toNat := by simp [pyRange]

theorem mem_pyRange {a b x : Int} : x ∈ pyRange a b ↔ a ≤ x ∧ x < b := by
  unfold pyRange
  rw [List.mem_map]
  constructor
  · rintro ⟨i, hi, rfl⟩
    rw [List.mem_range] at hi
    have : Int.ofNat i = (i : Int) := rfl
    omega
  · rintro ⟨h1, h2⟩
    refine ⟨(x - a).toNat, ?_, ?_⟩
    · rw [List.mem_range]; omega
    · have : Int.ofNat (x - a).toNat = ((x - a).toNat : Int) := rfl
      omega

theorem pyRange_nodup (a b : Int) : (pyRange a b).Nodup := by
  unfold pyRange
  refine List.Nodup.map ?_ List.nodup_range
  intro i j hij
  have h1 : Int.ofNat i = (i : Int) := rfl
  have h2 : Int.ofNat j = (j : Int) := rfl
  simp only [h1, h2] at hij
  omega

/-- If exactly the first `J` entries are at most `M`, then `M - J` of the numbers `1..M` are missing. -/
theorem missing_length (h : IsoSeq p m (2 * M)) (hM : 0 ≤ M) {J : Nat} (hJ : J ≤ m)
    (hle : ∀ i, i < m → (p i ≤ M ↔ i < J)) :
    (((pyRange 1 (M + 1)).filter (fun x => decide (x ∉ (List.range m).map p))).length : Int) = M - J := by
  have h1 : (pyRange 1 (M + 1)).length =
      ((pyRange 1 (M + 1)).filter (fun x => decide (x ∈ (List.range m).map p))).length +
      ((pyRange 1 (M + 1)).filter (fun x => !decide (x ∈ (List.range m).map p))).length := by
    rw [← List.length_append]
    exact (List.filter_append_perm _ _).length_eq.symm
  have h2 : ((pyRange 1 (M + 1)).filter (fun x => decide (x ∈ (List.range m).map p))).length = J := by
    have hperm : List.Perm ((pyRange 1 (M + 1)).filter (fun x => decide (x ∈ (List.range m).map p)))
        ((List.range J).map p) := by
      rw [List.perm_ext_iff_of_nodup]
      · intro x
        rw [List.mem_filter, mem_pyRange, decide_eq_true_iff, List.mem_map, List.mem_map]
        constructor
        · rintro ⟨hx, i, hi, rfl⟩
          rw [List.mem_range] at hi
          exact ⟨i, by rw [List.mem_range]; exact (hle i hi).1 (by omega), rfl⟩
        · rintro ⟨i, hi, rfl⟩
          rw [List.mem_range] at hi
          have := (hle i (by omega)).2 hi
          have := h.pos i (by omega)
          exact ⟨by omega, i, by rw [List.mem_range]; omega, rfl⟩
      · exact (pyRange_nodup _ _).filter _
      · refine List.Pairwise.imp (fun hab => ne_of_lt hab) (pairwise_map_range.2 ?_)
        intro i j hij hj
        exact h.mono i j hij (by omega)
    rw [hperm.length_eq]; simp
  rw [pyRange_length, h2] at h1
  have h3 : (fun x => decide (x ∉ (List.range m).map p)) = (fun x => !decide (x ∈ (List.range m).map p)) := by
    funext x; exact decide_not
  rw [h3]
  omega

end Verif
