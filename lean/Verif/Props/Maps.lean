import Verif.Spec.Dec
import Verif.Proofs.Conj
import Verif.Props.IndexD
/-!
# Properties C13, C14, C42: partition pairs, type swaps, special classes
-/

namespace Verif
open Spec

/-! ## C13 -/

theorem part_map (f : Int → Int) (h0 : f 0 = 0) (l : List Int) (i : Nat) : part (l.map f) i = f (part l i) := by
  by_cases h : i < l.length
  · rw [part_of_lt (by simpa using h), part_of_lt h, List.getElem_map]
  · rw [part_of_ge (by simpa using h), part_of_ge (by omega), h0]

theorem isPartition_map_min {l : List Int} (h : IsPartition l) {k : Int} (hk : 0 ≤ k) :
    IsPartition (l.map (fun x => min x k)) := by
  refine ⟨List.pairwise_map.2 (h.1.imp (fun hab => by omega)), ?_⟩
  intro x hx
  rw [List.mem_map] at hx
  obtain ⟨y, hy, rfl⟩ := hx
  have := h.2 y hy
  omega

theorem isPartition_map_max {l : List Int} (h : IsPartition l) {k : Int} :
    IsPartition (l.map (fun x => max (x - k) 0)) := by
  refine ⟨List.pairwise_map.2 (h.1.imp (fun hab => by omega)), ?_⟩
  intro x hx
  rw [List.mem_map] at hx
  obtain ⟨y, hy, rfl⟩ := hx
  omega

theorem typed_isPartition {k : Int} {mu x : List Int} (hmu : ReducedPart mu)
    (hx : x = mu ∨ (k ∈ mu ∧ x = mu ++ [0])) : IsPartition x ∧ (∀ i, part x i = part mu i) := by
  rcases hx with rfl | ⟨_, rfl⟩
  · exact ⟨hmu.isPartition, fun _ => rfl⟩
  · refine ⟨⟨List.pairwise_append.2 ⟨hmu.1, by simp, ?_⟩, ?_⟩, part_append_zero mu⟩
    · intro a ha b hb
      have := hmu.2 a ha
      simp at hb
      omega
    · intro y hy
      rw [List.mem_append] at hy
      rcases hy with hy | hy
      · have := hmu.2 y hy; omega
      · simp at hy; omega

theorem partConj_pad (l : List Int) (c : Int) : partConj (l ++ rep 0 c) = partConj l := by
  rw [← partConj_partClip (l ++ rep 0 c), ← partConj_partClip l]
  congr 1
  exact partClip_append_zeros l _

theorem last'_eq_part (l : List Int) : last' l = part l (l.length - 1) := by
  unfold last'
  cases l using List.reverseRecOn with
  | nil => simp [part]
  | append_singleton l x =>
    rw [part_of_lt (by simp)]
    simp

theorem last'_partClip_ne {l : List Int} (h : (partClip l).length > 0) : last' (partClip l) ≠ 0 := by
  have := partClip_noTrailing l
  unfold NoTrailingZero at this
  unfold last'
  rw [List.getLastD_eq_getLast?]
  cases hc : (partClip l).getLast? with
  | none => rw [List.getLast?_eq_none_iff] at hc; rw [hc] at h; simp at h
  | some y => rw [hc] at this; simpa using this

theorem partClip_length_le_of {l : List Int} {m : Nat} (h : ∀ i, m ≤ i → part l i = 0) :
    (partClip l).length ≤ m := by
  by_contra hlt
  have h1 := last'_partClip_ne (l := l) (by omega)
  rw [last'_eq_part, part_partClip] at h1
  exact h1 (h _ (by omega))

/-- C13: the top partition consists of the first `k` columns (listed by their heights, exactly `k` of
them), the bottom one of the boxes to the right of column `k`. -/
theorem C13_pair_spec (k : Int) (hk : 0 ≤ k) (mu x : List Int) (hmu : ReducedPart mu)
    (hx : x = mu ∨ (k ∈ mu ∧ x = mu ++ [0])) :
    ((part2pair x k).1.length : Int) = k ∧
    (∀ j : Nat, (j : Int) < k → part (part2pair x k).1 j = (mu.countP (fun y => decide ((j : Int) + 1 ≤ y)) : Nat)) ∧
    (∀ i, part (part2pair x k).2 i = max (part mu i - k) 0) := by
  obtain ⟨hp, hpart⟩ := typed_isPartition hmu hx
  have hmin := isPartition_map_min hp hk
  have hlen := partConj_length hmin
  have hle : ((partConj (x.map (fun y => min y k))).length : Int) ≤ k := by
    rw [hlen, part_map _ (by omega)]
    omega
  refine ⟨?_, ?_, ?_⟩
  · unfold part2pair rep
    simp only [List.length_append, List.length_replicate]
    omega
  · intro j hj
    unfold part2pair rep
    simp only
    rw [part_append_zeros, partConj_isConjugate hmin j]
    have h1 : (x.map (fun y => min y k)).countP (fun y => decide ((j : Int) + 1 ≤ y)) =
        x.countP (fun y => decide ((j : Int) + 1 ≤ y)) := by
      rw [List.countP_map]
      apply List.countP_congr
      intro y _
      simp only [Function.comp_apply, decide_eq_true_iff]
      omega
    rw [h1]
    rcases hx with rfl | ⟨_, rfl⟩
    · rfl
    · rw [List.countP_append]
      have : ¬ ((j : Int) + 1 ≤ 0) := by omega
      simp [this]
  · intro i
    unfold part2pair
    simp only
    have h1 : part (partClip (x.map (fun y => max (y - k) 0))) i = max (part mu i - k) 0 := by
      rw [part_partClip, part_map _ (by omega), hpart]
    split
    · rw [part_append_zero, h1]
    · exact h1

example : ReducedPart [4, 2, 1] ∧ part2pair [4, 2, 1] 2 = ([3, 2], [2]) ∧ part2pair [4, 2, 1, 0] 2 = ([3, 2], [2, 0]) := by
  decide +kernel

/-- C13: `pair2part` inverts `part2pair` on classes, marked or not. -/
theorem C13_part_pair_part (k : Int) (hk : 0 ≤ k) (mu x : List Int) (hmu : ReducedPart mu)
    (hx : x = mu ∨ (k ∈ mu ∧ x = mu ++ [0])) : pair2part (part2pair x k) = .ok x := by
  obtain ⟨hp, hpart⟩ := typed_isPartition hmu hx
  obtain ⟨hs1, _, _⟩ := C13_pair_spec k hk mu x hmu hx
  by_cases hk0 : k = 0
  · subst hk0
    have hxm : x = mu := by
      rcases hx with h | ⟨h, _⟩
      · exact h
      · have := hmu.2 _ h; omega
    unfold pair2part
    rw [if_pos (by omega)]
    subst hxm
    unfold part2pair
    simp only
    rw [if_neg (fun h => last'_reduced hmu h.1 h.2)]
    have : x.map (fun y => max (y - 0) 0) = x := by
      conv_rhs => rw [← List.map_id x]
      apply List.map_congr_left
      intro y hy
      have := hmu.2 y hy
      simp only [id]; omega
    rw [this, partClip_of_noTrailing hmu.noTrailing]
  · have hmin := isPartition_map_min hp hk
    have hmax := isPartition_map_max (k := k) hp
    unfold pair2part
    rw [if_neg (by omega)]
    have htop : partConj (part2pair x k).1 = mu.map (fun y => min y k) := by
      unfold part2pair
      simp only
      rw [partConj_pad, partConj_partConj hmin]
      have hred : NoTrailingZero (mu.map (fun y => min y k)) := by
        intro hc
        rw [List.getLast?_map, Option.map_eq_some_iff] at hc
        obtain ⟨y, hy, hy2⟩ := hc
        have := hmu.2 y (List.mem_of_getLast? hy)
        omega
      rw [← partClip_of_noTrailing hred, partClip_eq_iff]
      intro i
      rw [part_map _ (by omega), part_map _ (by omega), hpart]
    simp only [htop]
    -- number of rows longer than `k`
    have hb : ∃ b : Nat, (partClip (x.map (fun y => max (y - k) 0))).length = b ∧ b ≤ mu.length ∧
        (∀ i, i < b → k < part mu i) ∧ (∀ i, b ≤ i → part mu i ≤ k) := by
      refine ⟨_, rfl, ?_, ?_, ?_⟩
      · apply partClip_length_le_of
        intro i hi
        rw [part_map _ (by omega), hpart, part_of_ge hi]
        omega
      · intro i hi
        have h1 := last'_partClip_ne (l := x.map (fun y => max (y - k) 0)) (by omega)
        rw [last'_eq_part, part_partClip, part_map _ (by omega), hpart] at h1
        have := hmu.isPartition.part_anti (i := i)
          (j := (partClip (x.map (fun y => max (y - k) 0))).length - 1) (by omega)
        omega
      · intro i hi
        have h1 : part (partClip (x.map (fun y => max (y - k) 0))) i = 0 := part_of_ge hi
        rw [part_partClip, part_map _ (by omega), hpart] at h1
        omega
    obtain ⟨b, hb1, hb2, hb3, hb4⟩ := hb
    have hpos : ∀ i, i < mu.length → 0 < part mu i := by
      intro i hi
      rw [part_of_lt hi]
      exact hmu.2 _ (List.getElem_mem hi)
    have hmain : ∀ p2 : List Int, (∀ i, part p2 i = max (part mu i - k) 0) → p2.length ≤ mu.length →
        b ≤ p2.length →
        (List.range p2.length).map (fun i => at' (mu.map (fun y => min y k)) i + at' p2 i) ++
          (mu.map (fun y => min y k)).drop p2.length = mu := by
      intro p2 h1 h2 h3
      have hmu' : mu = (List.range p2.length).map (part mu) ++ mu.drop p2.length := by
        conv_lhs => rw [← List.take_append_drop p2.length mu]
        congr 1
        apply List.ext_getElem
        · simp; omega
        · intro i e1 e2
          simp at e1 e2
          simp only [List.getElem_take, List.getElem_map, List.getElem_range]
          rw [part_of_lt]
      conv_rhs => rw [hmu']
      congr 1
      · apply List.map_congr_left
        intro i _
        rw [at'_eq_part, at'_eq_part, part_map _ (by omega), h1]
        omega
      · rw [← List.map_drop]
        conv_rhs => rw [← List.map_id (mu.drop p2.length)]
        apply List.map_congr_left
        intro y hy
        rw [List.mem_iff_getElem] at hy
        obtain ⟨i, hi, rfl⟩ := hy
        rw [List.getElem_drop]
        have h4 := hb4 (p2.length + i) (by omega)
        simp only [List.length_drop] at hi
        rw [part_of_lt (by omega)] at h4
        simp only [id]
        omega
    rcases hx with hx | ⟨hkm, hx⟩
    · have hbot : (part2pair x k).2 = partClip (x.map (fun y => max (y - k) 0)) := by
        unfold part2pair
        simp only
        rw [if_neg]
        rw [hx]
        exact fun h => last'_reduced hmu h.1 h.2
      rw [hbot, hb1, if_neg (by simp; omega), ← hb1, if_neg]
      · congr 1
        rw [hx] at hb1 ⊢
        apply hmain
        · intro i; rw [part_partClip, part_map _ (by omega)]
        · omega
        · omega
      · exact fun h => last'_partClip_ne h.1 h.2
    · have hbot : (part2pair x k).2 = partClip (x.map (fun y => max (y - k) 0)) ++ [0] := by
        unfold part2pair
        simp only
        rw [if_pos]
        rw [hx]
        simp [last']
      have hlt : b + 1 ≤ mu.length := by
        obtain ⟨i, hi, hik⟩ := mem_iff_exists_part.1 hkm
        by_contra hc
        have := hb3 i (by omega)
        omega
      have hl2 : ((part2pair x k).2).length = b + 1 := by rw [hbot]; simp [hb1]
      rw [hl2, if_neg (by simp; omega), if_pos]
      · congr 1
        conv_rhs => rw [hx]
        rw [← hl2, hmain]
        · intro i; rw [hbot, part_append_zero, part_partClip, part_map _ (by omega), hpart]
        · omega
        · omega
      · refine ⟨by omega, ?_⟩
        rw [hbot]
        simp [last']

example : pair2part (part2pair [4, 2, 1] 2) = .ok [4, 2, 1] ∧ pair2part (part2pair [4, 2, 1, 0] 2) = .ok [4, 2, 1, 0] := by
  decide +kernel

/-- C13: `part2pair` inverts `pair2part` on pairs consisting of `k` column heights and a strict
partition with at most as many rows as the shortest column. -/
theorem C13_pair_part_pair (k : Int) (hk : 0 < k) (top bot : List Int) (ht : IsPartition top)
    (hlen : (top.length : Int) = k) (hb : bot.Pairwise (· > ·)) (hpos : ∀ y ∈ bot, 0 < y)
    (hrows : (bot.length : Int) ≤ part top (top.length - 1)) :
    ∃ l, pair2part (top, bot) = .ok l ∧ ReducedPart l ∧ KStrict k l ∧ part2pair l k = (top, bot) := by
  have hcr := partConj_reduced ht
  have hcl := partConj_length ht
  have h0 : part top (top.length - 1) ≤ part top 0 := ht.part_anti (by omega)
  have hclen : bot.length ≤ (partConj top).length := by rw [hcl]; omega
  -- the conjugate of `top` has parts at most `k`, the first `bot.length` of them equal to `k`
  have hck : ∀ i, part (partConj top) i ≤ k := by
    intro i
    rw [partConj_isConjugate ht i]
    have := List.countP_le_length (l := top) (p := fun x => decide ((i : Int) + 1 ≤ x))
    omega
  have hceq : ∀ i, i < bot.length → part (partConj top) i = k := by
    intro i hi
    rw [partConj_isConjugate ht i, ← hlen]
    congr 1
    rw [List.countP_eq_length]
    intro y hy
    rw [mem_iff_exists_part] at hy
    obtain ⟨j, hj, rfl⟩ := hy
    have := ht.part_anti (show j ≤ top.length - 1 by omega)
    simp only [decide_eq_true_iff]
    omega
  have hred : ReducedPart bot := ⟨hb.imp (fun h => le_of_lt h), hpos⟩
  have hbn := fun i => hred.isPartition.part_nonneg i
  set a := (List.range bot.length).map (fun i => at' (partConj top) i + at' bot i) ++
    (partConj top).drop bot.length with ha
  have hpair : pair2part (top, bot) = .ok a := by
    unfold pair2part
    simp only
    rw [if_neg (by omega), if_neg (by omega), if_neg]
    exact fun h => last'_reduced hred h.1 h.2
  have halen : a.length = (partConj top).length := by
    rw [ha]; simp; omega
  have hapart : ∀ i, part a i = part (partConj top) i + part bot i := by
    intro i
    by_cases h1 : i < bot.length
    · rw [part_of_lt (by omega)]
      simp only [ha]
      rw [List.getElem_append_left (by simpa using h1)]
      simp [at'_eq_part]
    · rw [part_of_ge (l := bot) (by omega)]
      by_cases h2 : i < (partConj top).length
      · rw [part_of_lt (by omega), part_of_lt h2]
        simp only [ha]
        rw [List.getElem_append_right (by simpa using h1)]
        simp only [List.length_map, List.length_range, List.getElem_drop, Int.add_zero]
        congr 1
        omega
      · rw [part_of_ge (by omega), part_of_ge (by omega)]; rfl
  have hbstrict : ∀ i, i + 1 < bot.length → part bot (i + 1) < part bot i := by
    intro i hi
    exact (pairwise_iff_part.1 hb) i (i + 1) (by omega) hi
  have hap : IsPartition a := by
    apply isPartition_of_part
    intro i
    rw [hapart, hapart]
    have h1 := hcr.isPartition.part_anti (show i ≤ i + 1 by omega)
    have h2 := hred.isPartition.part_anti (show i ≤ i + 1 by omega)
    omega
  have har : ReducedPart a := by
    refine ⟨hap.1, ?_⟩
    intro y hy
    rw [mem_iff_exists_part] at hy
    obtain ⟨i, hi, rfl⟩ := hy
    rw [hapart]
    have h1 := hbn i
    have h2 : 0 < part (partConj top) i := by
      rw [part_of_lt (by omega)]
      exact hcr.2 _ (List.getElem_mem _)
    omega
  have hbig : ∀ i, k < part a i → i < bot.length := by
    intro i hi
    by_contra hc
    rw [hapart, part_of_ge (l := bot) (by omega)] at hi
    have := hck i
    omega
  refine ⟨a, hpair, har, ?_, ?_⟩
  · apply pairwise_iff_part.2
    intro i j hij hj hki
    have h1 := hbig i hki
    rw [hapart, hapart]
    have h2 := hcr.isPartition.part_anti (le_of_lt hij)
    by_cases h3 : j < bot.length
    · have h4 := (pairwise_iff_part.1 hb) i j hij h3
      omega
    · rw [part_of_ge (l := bot) (by omega)]
      have h5 := hred.2 (part bot i) (mem_iff_exists_part.2 ⟨i, h1, rfl⟩)
      omega
  · unfold part2pair
    simp only
    have htop : a.map (fun y => min y k) = partConj top := by
      apply List.ext_getElem
      · simp [halen]
      · intro i h1 h2
        rw [List.getElem_map, ← part_of_lt, ← part_of_lt, hapart]
        by_cases h3 : i < bot.length
        · rw [hceq i h3]
          have := hbn i
          omega
        · rw [part_of_ge (l := bot) (by omega)]
          have := hck i
          omega
    rw [if_neg (fun h => last'_reduced har h.1 h.2), htop, partConj_partConj ht]
    congr 1
    · obtain ⟨c, hc⟩ := partClip_append top
      conv_rhs => rw [hc]
      congr 1
      unfold rep
      congr 1
      have := congrArg List.length hc
      simp at this
      omega
    · rw [← partClip_of_noTrailing hred.noTrailing, partClip_eq_iff]
      intro i
      rw [part_map _ (by omega), hapart]
      by_cases h3 : i < bot.length
      · rw [hceq i h3]
        have := hbn i
        omega
      · rw [part_of_ge (l := bot) (by omega)]
        have := hck i
        omega

example : IsPartition [3, 2] ∧ pair2part ([3, 2], [4, 1]) = .ok [6, 3, 1] ∧ part2pair [6, 3, 1] 2 = ([3, 2], [4, 1]) := by
  decide +kernel

/-- C13, error branch: `IndexError` exactly when the bottom has more rows than the tallest column. -/
theorem C13_pair2part_raises_iff (top bot : List Int) (ht : IsPartition top) (hne : top ≠ []) :
    pair2part (top, bot) = .error .indexError ↔ part top 0 < bot.length := by
  have hl : 0 < top.length := List.length_pos_iff.2 hne
  have hc := partConj_length ht
  have hn := ht.part_nonneg 0
  unfold pair2part
  simp only
  rw [if_neg (by omega)]
  split
  · rename_i h; constructor
    · intro _; omega
    · intro _; rfl
  · rename_i h
    constructor
    · intro h2; cases h2
    · intro h2; omega

example : part2pair [4, 2, 0] 2 = ([2, 2], [2, 0]) ∧ pair2part ([2, 2], [2, 0]) = .ok [4, 2, 0] ∧
    ReducedPart [4, 2] := by
  refine ⟨by decide, by decide, ?_⟩
  unfold ReducedPart; decide

example : IsPartition [2, 1] ∧ (2 : Int) = ([2, 1] : List Int).length ∧ pair2part ([2, 1], [3]) = .ok [5, 1] ∧
    part2pair [5, 1] 2 = ([2, 1], [3]) := by
  refine ⟨?_, by decide, by decide, by decide⟩
  unfold IsPartition; decide

example : pair2part ([1], [2, 1]) = .error .indexError := by decide

/-! ## C14 -/

theorem dropLast_append_zero (l : List Int) : (l ++ [0]).dropLast = l := by simp

/-- C14: `type_swap` exchanges the two classes of a partition with a part `k`, and fixes a class of a
partition without one. -/
theorem C14_type_swap (m n : Int) (hmn : m ≤ n) (X : Space) (hX : mkOG m (2 * n + 2) = .ok X)
    (mu : List Int) (hmu : ReducedPart mu) :
    ((n + 1 - m) ∈ mu → X.typeSwap mu = mu ++ [0] ∧ X.typeSwap (mu ++ [0]) = mu) ∧
    ((n + 1 - m) ∉ mu → X.typeSwap mu = mu) := by
  obtain ⟨rfl, hm0, hn0⟩ := mkOGeven_ok hX
  simp only [Space.typeSwap, if_true]
  unfold typeSwap
  constructor
  · intro hk
    have hl : mu.length > 0 := List.length_pos_of_mem hk
    constructor
    · rw [if_neg (by omega), if_neg (by simpa using hk), if_neg (last'_reduced hmu hl)]
    · rw [if_neg (by simp), if_neg (by simp [hk]), if_pos (by simp [last']), dropLast_append_zero]
  · intro hk
    split
    · rename_i h; rw [List.length_eq_zero_iff] at h; exact h.symm
    · rename_i h
      rw [if_neg (last'_reduced hmu (by omega))]

/-- `OG(2,8)` -/
example : (Space.mk .D 2 3).typeSwap [3, 2] = [3, 2, 0] ∧ (Space.mk .D 2 3).typeSwap [3, 2, 0] = [3, 2] ∧
    (Space.mk .D 2 3).typeSwap [3, 1] = [3, 1] := by decide +kernel

/-- C14: `miami_swap` exchanges the two classes exactly when the number of parts greater than `k` is odd. -/
theorem C14_miami_swap (m n : Int) (hmn : m ≤ n) (X : Space) (hX : mkOG m (2 * n + 2) = .ok X)
    (mu : List Int) (hmu : ReducedPart mu) :
    ((n + 1 - m) ∈ mu → mu.countP (fun y => decide (n + 1 - m < y)) % 2 = 1 →
      X.miamiSwap mu = mu ++ [0] ∧ X.miamiSwap (mu ++ [0]) = mu) ∧
    ((n + 1 - m) ∈ mu → mu.countP (fun y => decide (n + 1 - m < y)) % 2 = 0 →
      X.miamiSwap mu = mu ∧ X.miamiSwap (mu ++ [0]) = mu ++ [0]) ∧
    ((n + 1 - m) ∉ mu → X.miamiSwap mu = mu) := by
  obtain ⟨rfl, hm0, hn0⟩ := mkOGeven_ok hX
  simp only [Space.miamiSwap, if_true]
  unfold miamiSwapInner
  have hcount : (mu ++ [0]).countP (fun y => decide (n + 1 - m < y)) =
      mu.countP (fun y => decide (n + 1 - m < y)) := by
    have : ¬ (n + 1 - m < 0) := by omega
    rw [List.countP_append]; simp [this]
  refine ⟨?_, ?_, ?_⟩
  · intro hk hodd
    have hl : mu.length > 0 := List.length_pos_of_mem hk
    constructor
    · rw [if_neg (by simpa using hk), if_neg (by omega), if_neg (last'_reduced hmu hl)]
    · rw [if_neg (by simp [hk]), hcount, if_neg (by omega), if_pos (by simp [last']), dropLast_append_zero]
  · intro hk heven
    constructor
    · rw [if_neg (by simpa using hk), if_pos heven]
    · rw [if_neg (by simp [hk]), hcount, if_pos heven]
  · intro hk
    rw [if_pos hk]

example : (Space.mk .D 2 3).miamiSwap [3, 2] = [3, 2, 0] ∧ (Space.mk .D 2 3).miamiSwap [3, 2, 0] = [3, 2] ∧
    (Space.mk .D 2 3).miamiSwap [2, 1] = [2, 1] ∧ (Space.mk .D 2 3).miamiSwap [3, 1] = [3, 1] := by decide +kernel

/-- C14: both swaps map classes to classes of the same codimension and are their own inverses. -/
theorem C14_involutions (m n : Int) (hmn : m ≤ n) (X : Space) (hX : mkOG m (2 * n + 2) = .ok X)
    (x : List Int) (hx : TypedClass (n + 1 - m) m.toNat (2 * n + 1 - m) x) :
    (TypedClass (n + 1 - m) m.toNat (2 * n + 1 - m) (X.typeSwap x) ∧ (X.typeSwap x).sum = x.sum ∧
      X.typeSwap (X.typeSwap x) = x) ∧
    (TypedClass (n + 1 - m) m.toNat (2 * n + 1 - m) (X.miamiSwap x) ∧ (X.miamiSwap x).sum = x.sum ∧
      X.miamiSwap (X.miamiSwap x) = x) := by
  obtain ⟨mu, hmu, hks, hr, hxe⟩ := hx
  obtain ⟨t1, t2⟩ := C14_type_swap m n hmn X hX mu hmu
  obtain ⟨m1, m2, m3⟩ := C14_miami_swap m n hmn X hX mu hmu
  have c1 : TypedClass (n + 1 - m) m.toNat (2 * n + 1 - m) mu := ⟨mu, hmu, hks, hr, Or.inl rfl⟩
  have c2 : (n + 1 - m) ∈ mu → TypedClass (n + 1 - m) m.toNat (2 * n + 1 - m) (mu ++ [0]) :=
    fun h => ⟨mu, hmu, hks, hr, Or.inr ⟨h, rfl⟩⟩
  rcases hxe with rfl | ⟨hk, rfl⟩
  · by_cases hk : (n + 1 - m) ∈ x
    · refine ⟨?_, ?_⟩
      · rw [(t1 hk).1, (t1 hk).2]
        exact ⟨c2 hk, by simp, rfl⟩
      · rcases Nat.mod_two_eq_zero_or_one (x.countP (fun y => decide (n + 1 - m < y))) with h | h
        · rw [(m2 hk h).1, (m2 hk h).1]; exact ⟨c1, rfl, rfl⟩
        · rw [(m1 hk h).1, (m1 hk h).2]; exact ⟨c2 hk, by simp, rfl⟩
    · rw [t2 hk, t2 hk, m3 hk, m3 hk]
      exact ⟨⟨c1, rfl, rfl⟩, ⟨c1, rfl, rfl⟩⟩
  · refine ⟨?_, ?_⟩
    · rw [(t1 hk).2, (t1 hk).1]
      exact ⟨c1, by simp, rfl⟩
    · rcases Nat.mod_two_eq_zero_or_one (mu.countP (fun y => decide (n + 1 - m < y))) with h | h
      · rw [(m2 hk h).2, (m2 hk h).2]; exact ⟨c2 hk, rfl, rfl⟩
      · rw [(m1 hk h).2, (m1 hk h).1]; exact ⟨c1, by simp, rfl⟩

example : TypedClass (3 + 1 - 2) 2 (2 * 3 + 1 - 2) [2, 2, 0] ∧ (Space.mk .D 2 3).typeSwap [2, 2, 0] = [2, 2] ∧
    (Space.mk .D 2 3).typeSwap [2, 2] = [2, 2, 0] ∧ (Space.mk .D 2 3).miamiSwap [2, 2, 0] = [2, 2, 0] := by
  decide +kernel

/-- C14: `schub_type` is 0, 1, 2: no part `k`; part `k`, unmarked; part `k`, marked. -/
theorem C14_schub_type (m n : Int) (X : Space) (hX : mkOG m (2 * n + 2) = .ok X)
    (mu : List Int) (hmu : ReducedPart mu) :
    ((n + 1 - m) ∉ mu → X.schubType mu = .ok 0) ∧
    ((n + 1 - m) ∈ mu → X.schubType mu = .ok 1 ∧ X.schubType (mu ++ [0]) = .ok 2) := by
  obtain ⟨rfl, hm0, hn0⟩ := mkOGeven_ok hX
  unfold Space.schubType
  simp only [ne_eq, not_true, if_false]
  constructor
  · intro h; rw [if_pos h]
  · intro h
    have hl : mu.length > 0 := List.length_pos_of_mem h
    constructor
    · rw [if_neg (by simpa using h), if_pos]
      right
      unfold last'
      rw [List.getLastD_eq_getLast?, List.getLast?_eq_getLast_of_ne_nil (by rintro rfl; simp at hl)]
      exact hmu.2 _ (List.getLast_mem _)
    · rw [if_neg (by simp [h]), if_neg]
      simp [last']

example : (Space.mk .D 2 3).schubType [3, 1] = .ok 0 ∧ (Space.mk .D 2 3).schubType [3, 2] = .ok 1 ∧
    (Space.mk .D 2 3).schubType [3, 2, 0] = .ok 2 := by decide +kernel

/-- C14: on lists (rather than symbols) `type_swap` always fails, whatever the list: the code forgets
an argument of its own method. -/
theorem C14_type_swap_list_raises (X : Space) (l : List Int) : X.typeSwapList l = .error .typeError := rfl

/-- C14: on the other spaces both swaps change nothing, also where `k` is a part. -/
theorem C14_other_types (m n : Int) (X : Space) (hX : mkGr m n = .ok X ∨ mkIG m (2 * n) = .ok X ∨ mkOG m (2 * n + 1) = .ok X)
    (l : List Int) : X.typeSwap l = l ∧ X.miamiSwap l = l := by
  rcases hX with h | h | h
  · unfold mkGr at h
    split at h
    · cases h
    · split at h
      · cases h
      · injection h with h; subst h; exact ⟨rfl, rfl⟩
  · obtain ⟨rfl, _⟩ := mkIG_ok h; exact ⟨rfl, rfl⟩
  · obtain ⟨rfl, _⟩ := mkOGodd_ok h; exact ⟨rfl, rfl⟩

example : (∃ X, mkIG 3 (2 * 5) = .ok X ∧ X.k = 2 ∧ X.typeSwap [3, 2] = [3, 2] ∧ X.miamiSwap [3, 2] = [3, 2]) ∧
    ∃ X, mkOG 3 (2 * 4 + 2) = .ok X ∧ X.k = 2 ∧ X.typeSwap [3, 2] = [3, 2, 0] ∧ X.miamiSwap [3, 2] = [3, 2, 0] :=
  ⟨⟨_, rfl, by decide⟩, ⟨_, rfl, by decide⟩⟩

example : ∃ X, mkOG 2 (2 * 3 + 2) = .ok X ∧ TypedClass (3 + 1 - 2) 2 (2 * 3 + 1 - 2) [3, 2, 0] ∧
    X.typeSwap [3, 2, 0] = [3, 2] ∧ X.miamiSwap [3, 2, 0] = [3, 2] ∧ X.miamiSwap [2, 1] = [2, 1] := by
  refine ⟨_, rfl, ⟨[3, 2], ?_, ?_, ?_, Or.inr ?_⟩, ?_, ?_, ?_⟩
  · unfold ReducedPart; decide
  · unfold KStrict; decide
  · unfold InRect; decide
  all_goals decide

/-! ## C42 -/

/-- C42: `spec2num` inverts `num2spec` on positive numbers in every type, on negative ones in type D. -/
theorem C42_spec_num (X : Space) (p : Int) (h : 0 < p ∨ (p < 0 ∧ X.type = .D)) :
    X.spec2num (num2spec p) = .ok p := by
  unfold num2spec
  rcases h with h | ⟨h, hD⟩
  · rw [if_pos h]
    simp [Space.spec2num, at']
  · rw [if_neg (show ¬ p > 0 by omega)]
    simp [Space.spec2num, at', hD]

example : (Space.mk .C 1 3).spec2num (num2spec 3) = .ok 3 ∧ (Space.mk .D 2 3).spec2num (num2spec (-2)) = .ok (-2) := by
  decide +kernel

/-- C42: in types A, B, C a negative number is refused. -/
theorem C42_negative_raises (X : Space) (p : Int) (h : p ≤ 0) (hX : X.type ≠ .D) :
    X.spec2num (num2spec p) = .error .valueError := by
  unfold num2spec
  rw [if_neg (show ¬ p > 0 by omega)]
  unfold Space.spec2num
  rw [if_pos (by simp [hX])]

example : (Space.mk .C 1 3).spec2num (num2spec (-2)) = .error .valueError := by decide +kernel

/-- C42: `ValueError` exactly on lists with a second part, unless in type D that part is a zero. -/
theorem C42_raises_iff (X : Space) (p : List Int) :
    X.spec2num p = .error .valueError ↔ ∃ a b l, p = a :: b :: l ∧ (X.type = .D → b ≠ 0) := by
  unfold Space.spec2num
  match p with
  | [] => simp
  | [a] => simp
  | a :: b :: l =>
    by_cases hb : X.type = .D → b ≠ 0
    · rw [if_pos]
      · simp only [true_iff]
        exact ⟨a, b, l, rfl, hb⟩
      · refine ⟨by simp, ?_⟩
        by_cases hD : X.type = .D
        · exact Or.inr (by simpa [at'] using hb hD)
        · exact Or.inl hD
    · rw [if_neg]
      · simp only [List.length_cons]
        rw [if_neg (by omega), if_pos (by omega)]
        constructor
        · intro h; cases h
        · rintro ⟨a', b', l', he, h⟩
          injection he with h1 h2
          injection h2 with h2 h3
          exact absurd (h2 ▸ h) hb
      · rintro ⟨_, h⟩
        apply hb
        intro hD
        rcases h with h | h
        · exact absurd hD h
        · simpa [at'] using h

example : (Space.mk .C 1 3).spec2num [2, 0] = .error .valueError ∧
    (Space.mk .D 2 3).spec2num [2, 1] = .error .valueError ∧ (Space.mk .D 2 3).spec2num [2, 0] = .ok (-2) := by
  decide +kernel

/-- C42, disagreement: in type D longer lists whose second part is zero are accepted although they are
not special classes, and the empty list raises `IndexError`, not `ValueError`. -/
theorem C42_refuted_not_special : ∃ X, mkOG 2 (2 * 3 + 2) = .ok X ∧ X.spec2num [3, 0, 7] = .ok (-3) ∧
    X.spec2num [] = .error .indexError := by
  refine ⟨_, rfl, ?_, ?_⟩ <;> decide

example : (⟨.D, 2, 3⟩ : Space).spec2num (num2spec (-2)) = .ok (-2) ∧
    (⟨.C, 2, 3⟩ : Space).spec2num (num2spec 3) = .ok 3 ∧
    (⟨.A, 2, 3⟩ : Space).spec2num [2, 1] = .error .valueError := by
  refine ⟨?_, ?_, ?_⟩ <;> decide

end Verif
