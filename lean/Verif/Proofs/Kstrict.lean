import Verif.Model.Kstrict
import Verif.Proofs.Enum
/-! `all_kstrict` walks through the k-strict partitions. -/

namespace Verif
open Spec

/-- largest possible next part after `x` in a `k`-strict partition -/
def nxtK (k : Nat) (x : Nat) : Nat := if x > k then x - 1 else x

/-- one step of the loop in `all_kstrict`: `None`/empty stops it -/
def stepK (k : Int) (l : List Int) : Option (List Int) :=
  if itrKstrict l k = [] then none else some (itrKstrict l k)

theorem topB_nxtK_le (k r a : Nat) (h : a ≤ k) : topB (nxtK k) r a = List.replicate r (a : Int) := by
  induction r with
  | zero => rfl
  | succ r ih =>
    have : nxtK k a = a := by unfold nxtK; rw [if_neg (by omega)]
    simp [topB, this, ih, List.replicate_succ]

theorem topB_length (nxt : Nat → Nat) (r a : Nat) : (topB nxt r a).length = r := by
  induction r generalizing a with
  | zero => rfl
  | succ r ih => simp [topB, ih]

theorem topB_nxtK_get (k r a : Nat) (h : k ≤ a) :
    topB (nxtK k) r a = (List.range r).map (fun i : Nat => max (k : Int) ((a : Int) - (i : Int))) := by
  induction r generalizing a with
  | zero => rfl
  | succ r ih =>
    rw [List.range_succ_eq_map, List.map_cons, List.map_map]
    simp only [topB]
    congr 1
    · simp; omega
    · by_cases hak : a > k
      · rw [show nxtK k a = a - 1 from if_pos hak, ih (a - 1) (by omega)]
        apply List.map_congr_left
        intro i _
        simp only [Function.comp]
        push_cast
        omega
      · have : a = k := by omega
        subst this
        rw [show nxtK a a = a from if_neg hak, ih a (le_refl _)]
        apply List.map_congr_left
        intro i _
        simp only [Function.comp]
        push_cast
        omega

theorem itrKstrict_eq_nil_of_clip {l : List Int} {k : Int} (h : partClip l = []) :
    itrKstrict l k = [] := by
  unfold itrKstrict; simp [h]

theorem itrKstrict_length {l : List Int} {k : Int} (h : partClip l ≠ []) :
    (itrKstrict l k).length = l.length := by
  have h2 : (partClip l).length ≠ 0 := by simpa using h
  have h3 := partClip_length_le l
  unfold itrKstrict
  simp only [h2, if_false]
  split
  · simp; omega
  · split
    · simp; omega
    · simp [rep]; omega

theorem itrKstrict_cons (x : Int) (xs : List Int) (k : Int) (h : partClip xs ≠ []) :
    itrKstrict (x :: xs) k = x :: itrKstrict xs k := by
  have h2 : (partClip xs).length ≠ 0 := by simpa using h
  have h3 : partClip (x :: xs) = x :: partClip xs := by
    rw [partClip_cons]; simp [h]
  unfold itrKstrict
  rw [h3]
  obtain ⟨c, hc⟩ : ∃ c, (partClip xs).length = c + 1 := ⟨_, (Nat.succ_pred h2).symm⟩
  have e1 : (x :: partClip xs).length = c + 2 := by simp [hc]
  have e2 : at' (x :: xs) (c + 2 - 1) = at' xs (c + 1 - 1) := rfl
  have e3 : (x :: xs).length - (c + 2) + 1 = xs.length - (c + 1) + 1 := by simp
  have e4 : (x :: xs).take (c + 2 - 1) = x :: xs.take (c + 1 - 1) := rfl
  simp only [e1, hc, e2, e3, e4]
  have e5 : ((x :: xs).length : Int) = xs.length + 1 := by simp
  rw [e5]
  have e6 : at' xs (c + 1 - 1) - 1 + ((c + 2 : Nat) : Int) - ((xs.length : Int) + 1)
    = at' xs (c + 1 - 1) - 1 + ((c + 1 : Nat) : Int) - (xs.length : Int) := by push_cast; omega
  have e7 : (xs.length : Int) + 1 - ((c + 2 : Nat) : Int) - (at' xs (c + 1 - 1) - 1) + k
    = (xs.length : Int) - ((c + 1 : Nat) : Int) - (at' xs (c + 1 - 1) - 1) + k := by push_cast; omega
  rw [e6, e7]
  simp only [Nat.add_eq_zero_iff, OfNat.ofNat_ne_zero, one_ne_zero, and_false, if_false]
  split
  · rfl
  · split <;> rfl

theorem stepK_none_iff (k : Int) (l : List Int) : stepK k l = none ↔ l = List.replicate l.length 0 := by
  rw [← partClip_eq_nil_iff]
  unfold stepK
  constructor
  · intro h
    split at h
    · rename_i h'
      by_contra hne
      have := itrKstrict_length (k := k) hne
      rw [h'] at this
      simp only [List.length_nil] at this
      have hl : l = [] := List.length_eq_zero_iff.1 this.symm
      subst hl
      exact hne rfl
    · cases h
  · intro h
    rw [if_pos (itrKstrict_eq_nil_of_clip h)]

theorem walks_stepK (k : Nat) : Walks (nxtK k) (stepK k) where
  nil := by rw [stepK_none_iff]; rfl
  zero xs h := (stepK_none_iff k xs).1 h
  inner x xs ys h := by
    have hne : partClip xs ≠ [] := by
      intro h'
      rw [partClip_eq_nil_iff, ← stepK_none_iff (k : Int)] at h'
      rw [h'] at h; cases h
    unfold stepK at *
    rw [itrKstrict_cons _ _ _ hne]
    split at h
    · cases h
    · injection h with h
      simp [h]
  carry r a := by
    have hc : partClip (((a + 1 : Nat) : Int) :: List.replicate r 0) = [((a + 1 : Nat) : Int)] := by
      rw [partClip_cons, partClip_replicate]; simp; omega
    have hitr : itrKstrict (((a + 1 : Nat) : Int) :: List.replicate r 0) k = topB (nxtK k) (r + 1) a := by
      unfold itrKstrict
      rw [hc]
      simp only [List.length_cons, List.length_replicate, List.length_nil, Nat.zero_add,
        one_ne_zero, if_false, Nat.sub_self, List.take_zero, List.nil_append, Nat.add_sub_cancel]
      have e1 : at' (((a + 1 : Nat) : Int) :: List.replicate r 0) 0 - 1 = (a : Int) := by
        simp [at']
      rw [e1]
      split
      · rename_i h
        rw [topB_nxtK_le _ _ _ (by omega)]
      · rename_i h
        rw [topB_nxtK_get _ _ _ (by omega)]
        split
        · rename_i h2
          apply List.map_congr_left
          intro i hi
          rw [List.mem_range] at hi
          push_cast at h2
          omega
        · rename_i h2
          push_cast at h2
          have e2 : ((a : Int) - k + 1).toNat = a - k + 1 := by omega
          rw [e2]
          have e3 : r + 1 = (a - k + 1) + (r - (a - k)) := by omega
          conv_rhs => rw [e3, List.range_add, List.map_append]
          congr 1
          · apply List.map_congr_left
            intro i hi
            rw [List.mem_range] at hi
            omega
          · unfold rep
            rw [show (((r + 1 : Nat) : Int) - (1 : Nat) - a + k).toNat = r - (a - k) by omega]
            apply List.ext_getElem
            · simp
            · intro i h1 h3
              simp
              omega
    unfold stepK
    rw [hitr]
    simp [topB]
  stop r := by rw [stepK_none_iff]; simp

theorem allKstrictLoop_of_runs {k : Int} {x : List Int} {L : List (List Int)} (r : Runs (stepK k) x L)
    (res : List (List Int)) (hnd : (res ++ L.map partClip).Nodup) (fuel : Nat) (hf : L.length ≤ fuel) :
    allKstrictLoop k fuel x res = some (res ++ L.map partClip) := by
  induction r generalizing fuel res with
  | @last x h =>
    obtain ⟨f, rfl⟩ : ∃ f, fuel = f + 1 := ⟨fuel - 1, by simp at hf; omega⟩
    have hx : partClip x ∉ res := by
      intro hm
      rw [List.nodup_append] at hnd
      exact hnd.2.2 _ hm _ (by simp) rfl
    have hi : itrKstrict x k = [] := by
      unfold stepK at h
      split at h
      · assumption
      · cases h
    simp only [allKstrictLoop, hi]
    simp [hx]
  | @cons x y L h _ ih =>
    obtain ⟨f, rfl⟩ : ∃ f, fuel = f + 1 := ⟨fuel - 1, by simp at hf; omega⟩
    have hx : partClip x ∉ res := by
      intro hm
      rw [List.nodup_append] at hnd
      exact hnd.2.2 _ hm _ (by simp) rfl
    have hi : itrKstrict x k ≠ [] ∧ itrKstrict x k = y := by
      unfold stepK at h
      split at h
      · cases h
      · injection h with h
        exact ⟨by assumption, h⟩
    simp only [allKstrictLoop, hi.1, hx, not_false_eq_true, if_true, if_false]
    rw [hi.2, ih (res ++ [partClip x]) (by simpa using hnd) f (by simp at hf; omega)]
    simp

theorem adm_nxtK_iff (k : Nat) (b : Nat) (l : List Int) :
    Adm (nxtK k) b l ↔ IsPartition l ∧ KStrict k l ∧ ∀ x ∈ l, x ≤ b := by
  induction l generalizing b with
  | nil => simp [Adm, IsPartition, KStrict]
  | cons x xs ih =>
    simp only [Adm, ih, IsPartition, KStrict, List.pairwise_cons, List.mem_cons]
    constructor
    · rintro ⟨h0, h1, ⟨h2, h3⟩, hk, h4⟩
      have hb : ∀ y ∈ xs, y ≤ x ∧ ((k : Int) < x → y < x) := by
        intro y hy
        have := h4 y hy
        unfold nxtK at this
        split at this
        · constructor
          · omega
          · intro _; omega
        · constructor
          · omega
          · intro _; omega
      refine ⟨⟨⟨fun y hy => (hb y hy).1, h2⟩, ?_⟩, ⟨fun y hy => (hb y hy).2, hk⟩, ?_⟩
      · rintro y (rfl | hy)
        · exact h0
        · exact h3 y hy
      · rintro y (rfl | hy)
        · exact h1
        · exact le_trans (hb y hy).1 h1
    · rintro ⟨⟨⟨h1, h2⟩, h3⟩, ⟨h5, h6⟩, h4⟩
      have h0 := h3 x (Or.inl rfl)
      refine ⟨h0, h4 x (Or.inl rfl), ⟨h2, fun y hy => h3 y (Or.inr hy)⟩, h6, ?_⟩
      intro y hy
      have := h1 y hy
      have := h5 y hy
      unfold nxtK
      split <;> omega

theorem allKstrict_eq (k r c : Nat) (h : k ≤ c) (fuel : Nat)
    (hf : (enumB (nxtK k) r c).length ≤ fuel) :
    allKstrict fuel k r c = some ((enumB (nxtK k) r c).map partClip) := by
  unfold allKstrict
  have : firstKstrict k r c = topB (nxtK k) r c := by
    rw [topB_nxtK_get _ _ _ h]; rfl
  rw [this, allKstrictLoop_of_runs ((walks_stepK k).runs r c) [] _ _ hf]
  · simp
  · simpa using enumB_clip_nodup _ _ _

/-- members of the clipped enumeration of a rectangle -/
theorem mem_clip_enumB_kstrict (k r c : Nat) (l : List Int) :
    l ∈ (enumB (nxtK k) r c).map partClip ↔ ReducedPart l ∧ KStrict k l ∧ InRect l r c := by
  rw [List.mem_map]
  constructor
  · rintro ⟨x, hx, rfl⟩
    rw [mem_enumB, adm_nxtK_iff] at hx
    obtain ⟨h1, h2, h3, h4⟩ := hx
    refine ⟨h2.partClip, h3.sublist (partClip_sublist x), ?_, ?_⟩
    · rw [← h1]; exact partClip_length_le x
    · intro y hy; exact h4 y ((partClip_sublist x).mem hy)
  · rintro ⟨h1, h2, h3, h4⟩
    refine ⟨l ++ List.replicate (r - l.length) 0, ?_, ?_⟩
    · rw [mem_enumB, adm_nxtK_iff]
      refine ⟨by simp; omega, ⟨?_, ?_⟩, ?_, ?_⟩
      · rw [List.pairwise_append]
        refine ⟨h1.1, ?_, ?_⟩
        · simp [List.pairwise_replicate]
        · intro a ha b hb
          rw [List.mem_replicate] at hb
          have := h1.2 a ha
          omega
      · intro x hx
        rw [List.mem_append, List.mem_replicate] at hx
        rcases hx with hx | hx
        · exact le_of_lt (h1.2 x hx)
        · omega
      · unfold KStrict
        rw [List.pairwise_append]
        refine ⟨h2, ?_, ?_⟩
        · rw [List.pairwise_replicate]; right; omega
        · intro a ha b hb
          rw [List.mem_replicate] at hb
          have := h1.2 a ha
          omega
      · intro x hx
        rw [List.mem_append, List.mem_replicate] at hx
        rcases hx with hx | hx
        · exact h4 x hx
        · omega
    · rw [partClip_append_zeros, partClip_of_noTrailing h1.noTrailing]

end Verif
