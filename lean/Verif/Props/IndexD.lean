import Verif.Spec.Dec
import Verif.Proofs.IndexD
import Verif.Props.IndexBC
/-!
# Property C11: typed partitions and index sets of `OG(m,2n+2)`
-/

namespace Verif
open Spec

theorem mkOGeven_ok {m n : Int} {X : Space} (hX : mkOG m (2 * n + 2) = .ok X) :
    X = ⟨.D, n + 1 - m, n⟩ ∧ 0 ≤ m ∧ 0 ≤ n + 1 := by
  unfold mkOG at hX
  split at hX
  · cases hX
  rw [if_neg (by omega)] at hX
  injection hX with hX
  rw [show (2 * n + 2) / 2 = n + 1 by omega, show n + 1 - 1 = n by omega] at hX
  exact ⟨hX.symm, by omega, by omega⟩

/-- the marker used by `part2indexD_inner` -/
def markD (x : List Int) (M : Int) : Int := if x.length > 0 ∧ last' x = 0 then M + 1 else M

theorem part2indexD_eq (x : List Int) (k n : Int) :
    part2indexD x k n =
      (List.range (n + 1 - k).toNat).map (seqD (part x) k (n + 1) (markD x (n + 1))) := by
  unfold part2indexD
  apply List.map_congr_left
  intro j _
  simp only [at'_pad, countInner_eq]
  have hm : markD x (n + 1) = if x.length > 0 ∧ last' x = 0 then n + 2 else n + 1 := by
    unfold markD
    rw [show n + 1 + 1 = n + 2 by omega]
  rw [← hm]
  unfold seqD offD
  by_cases h1 : part x j > k
  · rw [if_pos h1, if_pos h1]; omega
  · rw [if_neg h1, if_neg h1]
    by_cases h2 : FirstK (part x) k j ∧ (markD x (n + 1) + (j : Int)) % 2 = 1
    · rw [if_pos h2, if_pos ⟨h2.1.1, h2.1.2, h2.2⟩]; omega
    · rw [if_neg h2, if_neg (fun h3 => h2 ⟨⟨h3.1, h3.2.1⟩, h3.2.2⟩)]; omega

theorem mem_iff_exists_part {l : List Int} {x : Int} : x ∈ l ↔ ∃ i, i < l.length ∧ part l i = x := by
  rw [List.mem_iff_getElem]
  constructor
  · rintro ⟨i, hi, rfl⟩
    exact ⟨i, hi, part_of_lt hi⟩
  · rintro ⟨i, hi, rfl⟩
    exact ⟨i, hi, (part_of_lt hi).symm⟩

theorem part_append_zero (l : List Int) (i : Nat) : part (l ++ [0]) i = part l i :=
  part_append_zeros l 1 i

theorem last'_reduced {l : List Int} (hl : ReducedPart l) (h : l.length > 0) : last' l ≠ 0 := by
  unfold last'
  rw [List.getLastD_eq_getLast?, List.getLast?_eq_getLast_of_ne_nil (by rintro rfl; simp at h)]
  have := hl.2 _ (List.getLast_mem (l := l) (by rintro rfl; simp at h))
  simp only [Option.getD_some]
  omega

theorem markD_reduced {l : List Int} (hl : ReducedPart l) (M : Int) : markD l M = M := by
  unfold markD
  rw [if_neg]
  rintro ⟨h1, h2⟩
  exact last'_reduced hl h1 h2

theorem markD_marked (l : List Int) (M : Int) : markD (l ++ [0]) M = M + 1 := by
  unfold markD last'
  rw [if_pos]
  simp

theorem exists_firstK {l : List Int} {k : Int} (hl : IsPartition l) (hm : k ∈ l) :
    ∃ j, j < l.length ∧ FirstK (part l) k j := by
  obtain ⟨i, hi, hk⟩ := mem_iff_exists_part.1 hm
  induction i with
  | zero => exact ⟨0, hi, hk, Or.inl rfl⟩
  | succ i ih =>
    by_cases hp : part l i = k
    · exact ih (by omega) hp
    · have := hl.part_anti (show i ≤ i + 1 by omega)
      exact ⟨i + 1, hi, hk, Or.inr (by simp; omega)⟩

theorem index2partD_eq {p : Nat → Int} {k n : Int} (hiso : IsoSeq p (n + 1 - k).toNat (2 * (n + 1))) :
    index2partD ((List.range (n + 1 - k).toNat).map p) k n =
      let la := partClip ((List.range (n + 1 - k).toNat).map (backD p k (n + 1)))
      .ok (if k ∉ la then la else
        if ((pyRange 1 (n + 1 + 1)).filter
          (fun x => decide (x ∉ (List.range (n + 1 - k).toNat).map p))).length % 2 = 1 then la ++ [0] else la) := by
  unfold index2partD
  rw [if_neg (by simp)]
  have hla : (List.range (n + 1 - k).toNat).map (fun j =>
      if at' ((List.range (n + 1 - k).toNat).map p) j ≤ n + 1 then
        n + k + 1 - at' ((List.range (n + 1 - k).toNat).map p) j
      else n + k + 2 - at' ((List.range (n + 1 - k).toNat).map p) j +
        idxCount ((List.range (n + 1 - k).toNat).map p) j (2 * n + 3))
      = (List.range (n + 1 - k).toNat).map (backD p k (n + 1)) := by
    apply List.map_congr_left
    intro j hj
    rw [List.mem_range] at hj
    rw [idxCount_eq, at'_eq_part, part_map_range _ _ _ hj]
    have hd : dcnt (part ((List.range (n + 1 - k).toNat).map p)) (2 * n + 3) j
        = dcnt p (2 * (n + 1) + 1) j := by
      unfold dcnt
      congr 2
      apply Finset.filter_congr
      intro i hi
      rw [Finset.mem_range] at hi
      rw [part_map_range _ _ _ hj, part_map_range _ _ _ (by omega)]
      omega
    rw [hd]
    by_cases hp : p j ≤ n + 1
    · rw [if_pos hp, backD_ge hiso hj hp]; omega
    · rw [if_neg hp, (backD_le' hiso hj (by omega)).1]
      unfold backC
      omega
  simp only [hla]
  rw [show n + 2 = n + 1 + 1 by omega]
  split <;> simp_all

/-- C11: the index list of a class is isotropic, and converting back gives the class with its type.
For maximal isotropic subspaces the index list moreover lies in the component with an even number
of the numbers `1..n+1` missing. -/
theorem C11_part_index_part (m n : Int) (hmn : m ≤ n + 1) (X : Space) (hX : mkOG m (2 * n + 2) = .ok X)
    (x : List Int) (hx : TypedClass (n + 1 - m) m.toNat (2 * n + 1 - m) x) :
    IndexList m.toNat (2 * n + 2) (X.part2index x) ∧ Isotropic (2 * n + 2) (X.part2index x) ∧
      (m = n + 1 → (X.part2index x).countP (fun y => decide (y ≤ n + 1)) % 2 = m.toNat % 2) ∧
      X.index2part (X.part2index x) = .ok x := by
  obtain ⟨rfl, h0, h1⟩ := mkOGeven_ok hX
  obtain ⟨mu, hmu, hk, hr, hxe⟩ := hx
  set k := n + 1 - m with hkdef
  have hmm : n + 1 - k = m := by omega
  have hpx : part x = part mu := by
    funext i
    rcases hxe with rfl | ⟨_, rfl⟩
    · rfl
    · exact part_append_zero _ _
  have hks : KSeq (part mu) k := kseq_of_kstrict (by omega) hmu.isPartition hk
  have hiso := seqD_isoSeq (m := m.toNat) (M := n + 1) (nt := markD x (n + 1)) hks (by omega)
    (fun i => hmu.isPartition.part_nonneg i)
    (fun i hi => by
      have := InRect.part_le hr (by omega) i
      omega)
  rw [show 2 * (n + 1) = 2 * n + 2 by omega] at hiso
  simp only [Space.part2index, Space.index2part, part2indexD_eq, hmm, hpx]
  refine ⟨(indexList_of_isoSeq hiso).1, (indexList_of_isoSeq hiso).2, ?_, ?_⟩
  · -- parity in the maximal case
    intro hmax
    have hk0 : k = 0 := by omega
    have hxmu : x = mu := by
      rcases hxe with h | ⟨h, _⟩
      · exact h
      · have := hmu.2 _ h; omega
    have hmk : markD x (n + 1) = n + 1 := by rw [hxmu]; exact markD_reduced hmu _
    rw [hmk] at hiso ⊢
    -- the number of entries at most n+1
    have hcount : ∀ J : Nat, J ≤ m.toNat →
        (∀ i, i < m.toNat → (seqD (part mu) k (n + 1) (n + 1) i ≤ n + 1 ↔ i < J)) →
        ((List.range m.toNat).map (seqD (part mu) k (n + 1) (n + 1))).countP
          (fun y => decide (y ≤ n + 1)) = J := by
      intro J hJ hle
      rw [List.countP_map]
      have : (List.range m.toNat).countP
          ((fun y => decide (y ≤ n + 1)) ∘ seqD (part mu) k (n + 1) (n + 1)) =
          (List.range m.toNat).countP (fun i => decide (i < J)) := by
        apply List.countP_congr
        intro i hi
        rw [List.mem_range] at hi
        simpa using hle i hi
      rw [this, countP_range_eq_card]
      have : (Finset.range m.toNat).filter (fun i => i < J) = Finset.range J := by
        ext i; simp; omega
      rw [this, Finset.card_range]
    have hpos : ∀ i, i < mu.length → k < part mu i := by
      intro i hi
      rw [part_of_lt hi]
      have := hmu.2 _ (List.getElem_mem hi)
      omega
    by_cases hlen : mu.length = m.toNat
    · rw [hcount m.toNat (le_refl _)]
      intro i hi
      have := (seqD_lt_iff (M := n + 1) (nt := n + 1) hks i).2 (hpos i (by omega))
      omega
    · have hr1 := hr.1
      have hf : FirstK (part mu) k mu.length := by
        refine ⟨by rw [part_of_ge (le_refl _), hk0], ?_⟩
        by_cases hz : mu.length = 0
        · exact Or.inl hz
        · exact Or.inr (hpos _ (by omega))
      have hsq := seqD_first (M := n + 1) (nt := n + 1) hks hf
      rw [offD_first hf] at hsq
      by_cases hpar : (n + 1 + (mu.length : Int)) % 2 = 1
      · rw [if_pos hpar] at hsq
        rw [hcount (mu.length + 1) (by omega)]
        · omega
        · intro i hi
          rcases Nat.lt_trichotomy i mu.length with h | h | h
          · have := (seqD_lt_iff (M := n + 1) (nt := n + 1) hks i).2 (hpos i h)
            omega
          · subst h; omega
          · have := seqD_mono (M := n + 1) (nt := n + 1) hks h
            omega
      · rw [if_neg hpar] at hsq
        rw [hcount mu.length (by omega)]
        · omega
        · intro i hi
          rcases Nat.lt_trichotomy i mu.length with h | h | h
          · have := (seqD_lt_iff (M := n + 1) (nt := n + 1) hks i).2 (hpos i h)
            omega
          · subst h; omega
          · have := seqD_mono (M := n + 1) (nt := n + 1) hks h
            omega
  · have hiso2 : IsoSeq (seqD (part mu) k (n + 1) (markD x (n + 1))) (n + 1 - k).toNat (2 * (n + 1)) := by
      rw [hmm, show 2 * (n + 1) = 2 * n + 2 by omega]; exact hiso
    have heq := index2partD_eq hiso2
    rw [hmm] at heq
    rw [heq]
    have hla : partClip ((List.range m.toNat).map
        (backD (seqD (part mu) k (n + 1) (markD x (n + 1))) k (n + 1))) = mu := by
      apply partClip_map_part hmu hr.1
      intro j hj
      have ho := offD_le (lam := part mu) (k := k) (nt := markD x (n + 1)) j
      have hle := seqD_le_iff (M := n + 1) (nt := markD x (n + 1)) hks j
      unfold backD backC
      rw [dcnt_seqD hks]
      by_cases hz : offD (part mu) k (markD x (n + 1)) j = 0
      · rw [if_pos (hle.2 hz)]
        unfold seqD
        omega
      · rw [if_neg (fun hc => hz (hle.1 hc))]
        unfold seqD
        omega
    simp only [hla]
    congr 1
    by_cases hkm : k ∈ mu
    · rw [if_neg (by simpa using hkm)]
      have hkpos := hmu.2 _ hkm
      obtain ⟨j, hjl, hf⟩ := exists_firstK hmu.isPartition hkm
      have hjm : j < m.toNat := lt_of_lt_of_le hjl hr.1
      have hsq := seqD_first (M := n + 1) (nt := markD x (n + 1)) hks hf
      rw [offD_first hf] at hsq
      have hlt : ∀ i, i < j → seqD (part mu) k (n + 1) (markD x (n + 1)) i < n + 1 := by
        intro i hi
        rw [seqD_lt_iff hks]
        rcases hf.2 with h | h
        · omega
        · have := hmu.isPartition.part_anti (show i ≤ j - 1 by omega)
          omega
      have hmiss : ∀ J : Nat, J ≤ m.toNat →
          (∀ i, i < m.toNat → (seqD (part mu) k (n + 1) (markD x (n + 1)) i ≤ n + 1 ↔ i < J)) →
          ((((pyRange 1 (n + 1 + 1)).filter (fun y => decide (y ∉ (List.range m.toNat).map
          (seqD (part mu) k (n + 1) (markD x (n + 1)))))).length : Nat) : Int) = n + 1 - J := by
        intro J hJ hle
        have := missing_length hiso2 (by omega) (J := J) (by rw [hmm]; exact hJ) (by rw [hmm]; exact hle)
        rw [hmm] at this
        exact this
      by_cases hpar : (markD x (n + 1) + (j : Int)) % 2 = 1
      · rw [if_pos hpar] at hsq
        have hm1 := hmiss (j + 1) (by omega) (by
          intro i hi
          rcases Nat.lt_trichotomy i j with h | h | h
          · have := hlt i h; omega
          · subst h; omega
          · have := seqD_mono (M := n + 1) (nt := markD x (n + 1)) hks h; omega)
        rcases hxe with h | ⟨_, h⟩
        · rw [h, markD_reduced hmu] at hpar
          rw [if_neg, h]
          omega
        · rw [h, markD_marked] at hpar
          rw [if_pos, h]
          omega
      · rw [if_neg hpar] at hsq
        have hm1 := hmiss j (by omega) (by
          intro i hi
          rcases Nat.lt_trichotomy i j with h | h | h
          · have := hlt i h; omega
          · subst h; omega
          · have := seqD_mono (M := n + 1) (nt := markD x (n + 1)) hks h; omega)
        rcases hxe with h | ⟨_, h⟩
        · rw [h, markD_reduced hmu] at hpar
          rw [if_neg, h]
          omega
        · rw [h, markD_marked] at hpar
          rw [if_pos, h]
          omega
    · rw [if_pos hkm]
      rcases hxe with h | ⟨h, _⟩
      · exact h.symm
      · exact absurd h hkm

/-- `OG(2,8)`: the classes of type 1 and 2 on the same partition -/
example : (Space.mk .D 2 3).part2index [3, 2] = [3, 4] ∧ (Space.mk .D 2 3).part2index [3, 2, 0] = [3, 5] ∧
    (Space.mk .D 2 3).index2part ((Space.mk .D 2 3).part2index [3, 2]) = .ok [3, 2] := by decide +kernel

/-- C11: every isotropic index list (for maximal subspaces: of the right component) is the index list
of the class it converts to. -/
theorem C11_index_part_index (m n : Int) (hmn : m ≤ n + 1) (X : Space) (hX : mkOG m (2 * n + 2) = .ok X)
    (idx : List Int) (hi : IndexList m.toNat (2 * n + 2) idx) (hiso : Isotropic (2 * n + 2) idx)
    (hmax : m = n + 1 → idx.countP (fun y => decide (y ≤ n + 1)) % 2 = m.toNat % 2) :
    ∃ x, X.index2part idx = .ok x ∧ TypedClass (n + 1 - m) m.toNat (2 * n + 1 - m) x ∧
      X.part2index x = idx := by
  obtain ⟨rfl, h0, h1⟩ := mkOGeven_ok hX
  have hmm : n + 1 - (n + 1 - m) = m := by omega
  generalize hkdef : n + 1 - m = k at *
  have hs : IsoSeq (part idx) m.toNat (2 * (n + 1)) := by
    rw [show 2 * (n + 1) = 2 * n + 2 by omega]; exact isoSeq_of_indexList hi hiso
  have hidx : idx = (List.range m.toNat).map (part idx) := by
    conv_lhs => rw [list_eq_map_part idx, hi.1]
  have hred := reduced_of_seq (f := backD (part idx) k (n + 1)) (m := m.toNat) (k := k)
    (c := n + 1 - 1 + k) (fun j hj => backD_nonneg hs (by omega) (by omega) hj)
    (fun j hj => backD_anti hs hj)
    (fun j hj hk => backD_strict hs hj hk) (fun j hj => backD_le hs (by omega) hj)
  have heq := index2partD_eq (p := part idx) (k := k) (n := n) (by rw [hmm]; exact hs)
  rw [hmm, ← hidx] at heq
  set la := partClip ((List.range m.toNat).map (backD (part idx) k (n + 1))) with hlad
  obtain ⟨hr1, hr2, hr3⟩ := hred
  have hpl : ∀ j, j < m.toNat → part la j = backD (part idx) k (n + 1) j := by
    intro j hj
    rw [hlad, part_partClip, part_map_range _ _ _ hj]
  have hc : 2 * n + 1 - m = n + 1 - 1 + k := by omega
  -- number of missing entries when the first J entries are at most n+1
  have hmiss : ∀ J : Nat, J ≤ m.toNat → (∀ i, i < m.toNat → (part idx i ≤ n + 1 ↔ i < J)) →
      (((pyRange 1 (n + 1 + 1)).filter (fun y => decide (y ∉ idx))).length : Int) = n + 1 - J := by
    intro J hJ hle
    have := missing_length hs (by omega) hJ hle
    rw [← hidx] at this
    exact this
  have hcount : ∀ J : Nat, J ≤ m.toNat → (∀ i, i < m.toNat → (part idx i ≤ n + 1 ↔ i < J)) →
      idx.countP (fun y => decide (y ≤ n + 1)) = J := by
    intro J hJ hle
    rw [hidx, List.countP_map]
    have : (List.range m.toNat).countP ((fun y => decide (y ≤ n + 1)) ∘ part idx) =
        (List.range m.toNat).countP (fun i => decide (i < J)) := by
      apply List.countP_congr
      intro i hi
      rw [List.mem_range] at hi
      simpa using hle i hi
    rw [this, countP_range_eq_card]
    have : (Finset.range m.toNat).filter (fun i => i < J) = Finset.range J := by
      ext i; simp; omega
    rw [this, Finset.card_range]
  refine ⟨_, heq, ⟨la, hr1, hr2, by rw [hc]; exact hr3, ?_⟩, ?_⟩
  · by_cases hkm : k ∈ la
    · simp only [hkm, not_true, if_false]
      split
      · exact Or.inr ⟨trivial, rfl⟩
      · exact Or.inl rfl
    · simp only [hkm, not_false_iff, if_true]; exact Or.inl trivial
  · set x := (if k ∉ la then la else
        if ((pyRange 1 (n + 1 + 1)).filter (fun y => decide (y ∉ idx))).length % 2 = 1 then la ++ [0] else la)
      with hxd
    have hpx : part x = part la := by
      funext i
      rw [hxd]
      split
      · rfl
      · split
        · exact part_append_zero _ _
        · rfl
    have hks : KSeq (part la) k := kseq_of_kstrict (by omega) hr1.isPartition hr2
    simp only [Space.part2index, part2indexD_eq, hpx, hmm]
    conv_rhs => rw [hidx]
    apply List.map_congr_left
    intro j hj
    rw [List.mem_range] at hj
    have hcnt : cnt (part la) k (-1) j = dcnt (part idx) (2 * (n + 1) + 1) j := by
      unfold cnt dcnt
      congr 2
      apply Finset.filter_congr
      intro i hi'
      rw [Finset.mem_range] at hi'
      rw [← backD_cond (k := k) hs hi' hj]
      unfold cond
      rw [hpl j hj, hpl i (by omega)]
    have hoff : offD (part la) k (markD x (n + 1)) j = if part idx j ≤ n + 1 then 0 else 1 := by
      by_cases hlt : part idx j < n + 1
      · rw [if_pos (by omega)]
        unfold offD
        rw [if_pos]
        rw [hpl j hj]
        exact (backD_gt hs hj).2 hlt
      · by_cases hmid : part idx j = n + 1 ∨ part idx j = n + 1 + 1
        · have hprev := mid_prev hs hj hmid
          have hf : FirstK (part la) k j := by
            refine ⟨by rw [hpl j hj]; exact backD_mid hs hj hmid, ?_⟩
            rcases hprev with h | h
            · exact Or.inl h
            · right
              rw [hpl _ (by omega)]
              exact (backD_gt hs (by omega)).2 h
          rw [offD_first hf]
          have hlow : ∀ i, i < j → part idx i < n + 1 := by
            intro i hi'
            rcases hprev with h | h
            · omega
            · have := hs.mono_le (show i ≤ j - 1 by omega) (by omega)
              omega
          have hhigh : ∀ i, i < m.toNat → j < i → n + 1 < part idx i := by
            intro i hi' hji
            have := hs.mono j i hji hi'
            omega
          -- parity of the marker
          have hmark : (((markD x (n + 1)) : Int) - (n + 1)) % 2 =
              (((pyRange 1 (n + 1 + 1)).filter (fun y => decide (y ∉ idx))).length : Int) % 2 := by
            by_cases hkm : k ∈ la
            · rw [if_neg (by simpa using hkm)] at hxd
              by_cases hodd : ((pyRange 1 (n + 1 + 1)).filter (fun y => decide (y ∉ idx))).length % 2 = 1
              · rw [if_pos hodd] at hxd
                rw [hxd, markD_marked]
                omega
              · rw [if_neg hodd] at hxd
                rw [hxd, markD_reduced hr1]
                omega
            · rw [if_pos hkm] at hxd
              rw [hxd, markD_reduced hr1]
              -- `k` is not a part, so `k = 0`
              have hk0 : k = 0 := by
                by_contra hkne
                apply hkm
                rw [mem_iff_exists_part]
                refine ⟨j, ?_, hf.1⟩
                by_contra hge
                have := part_of_ge (l := la) (i := j) (by omega)
                have := hf.1
                omega
              have hm2 := hmax (by omega)
              rcases hmid with h | h
              · have hJ : ∀ i, i < m.toNat → (part idx i ≤ n + 1 ↔ i < j + 1) := by
                  intro i hi'
                  rcases Nat.lt_trichotomy i j with h' | h' | h'
                  · have := hlow i h'; omega
                  · subst h'; omega
                  · have := hhigh i hi' h'; omega
                have e1 := hmiss (j + 1) (by omega) hJ
                have e2 := hcount (j + 1) (by omega) hJ
                omega
              · have hJ : ∀ i, i < m.toNat → (part idx i ≤ n + 1 ↔ i < j) := by
                  intro i hi'
                  rcases Nat.lt_trichotomy i j with h' | h' | h'
                  · have := hlow i h'; omega
                  · subst h'; omega
                  · have := hhigh i hi' h'; omega
                have e1 := hmiss j (by omega) hJ
                have e2 := hcount j (by omega) hJ
                omega
          rcases hmid with h | h
          · have hJ : ∀ i, i < m.toNat → (part idx i ≤ n + 1 ↔ i < j + 1) := by
              intro i hi'
              rcases Nat.lt_trichotomy i j with h' | h' | h'
              · have := hlow i h'; omega
              · subst h'; omega
              · have := hhigh i hi' h'; omega
            have e1 := hmiss (j + 1) (by omega) hJ
            rw [if_pos (by omega), if_pos (by omega)]
          · have hJ : ∀ i, i < m.toNat → (part idx i ≤ n + 1 ↔ i < j) := by
              intro i hi'
              rcases Nat.lt_trichotomy i j with h' | h' | h'
              · have := hlow i h'; omega
              · subst h'; omega
              · have := hhigh i hi' h'; omega
            have e1 := hmiss j (by omega) hJ
            rw [if_neg (by omega), if_neg (by omega)]
        · rw [if_neg (by omega)]
          apply offD_other
          · rw [hpl j hj]
            have := mt (backD_gt (k := k) hs hj).1 hlt
            omega
          · rintro ⟨h2, h3⟩
            rw [hpl j hj] at h2
            have := backD_first (k := k) hs hj (by
              rcases h3 with h | h
              · exact Or.inl h
              · by_cases hj0 : j = 0
                · exact Or.inl hj0
                · right
                  rw [hpl _ (by omega)] at h
                  exact (backD_gt hs (by omega)).1 h) (by omega)
            omega
    unfold seqD
    rw [hcnt, hoff, hpl j hj]
    unfold backD backC
    omega

example : (Space.mk .D 2 3).index2part [3, 4] = .ok [3, 2] ∧ (Space.mk .D 2 3).index2part [3, 5] = .ok [3, 2, 0] := by
  decide +kernel

/-- C11: without the component condition the round trip fails for maximal isotropic subspaces: both
families of maximal isotropic subspaces occur among isotropic index lists, the library works with one. -/
theorem C11_other_component : ∃ X, mkOG 1 (2 * 0 + 2) = .ok X ∧ IndexList 1 2 [2] ∧ Isotropic 2 [2] ∧
    X.index2part [2] = .ok [] ∧ X.part2index [] = [1] := by
  refine ⟨_, rfl, ?_, ?_, ?_, ?_⟩
  · unfold IndexList; decide
  · unfold Isotropic; decide
  · decide
  · decide

example : ∃ X, mkOG 2 (2 * 3 + 2) = .ok X ∧ TypedClass (3 + 1 - 2) 2 (2 * 3 + 1 - 2) [3, 2, 0] ∧
    X.part2index [3, 2, 0] = [3, 5] ∧ X.index2part [3, 5] = .ok [3, 2, 0] := by
  refine ⟨_, rfl, ?_, ?_, ?_⟩
  · refine ⟨[3, 2], ?_, ?_, ?_, Or.inr ?_⟩
    · unfold ReducedPart; decide
    · unfold KStrict; decide
    · unfold InRect; decide
    · decide
  · decide
  · decide

end Verif
