import Verif.Spec.RimHook
import Verif.Spec.Fuel
import Verif.Proofs.Conj
import Mathlib.Tactic.Ring
/-!
# `remove_rim_hooks`: lemmas
-/

namespace Verif
open Spec

theorem part_set (l : List Int) (i j : Nat) (v : Int) (hi : i < l.length) :
    part (l.set i v) j = if j = i then v else part l j := by
  unfold part
  rw [List.getD_eq_getElem?_getD, List.getD_eq_getElem?_getD, List.getElem?_set]
  by_cases h : i = j
  · subst h; simp [hi]
  · rw [if_neg h, if_neg (fun h' => h h'.symm)]

theorem sum_set_part (l : List Int) (i : Nat) (v : Int) (hi : i < l.length) :
    (l.set i v).sum = l.sum + v - part l i := by
  induction l generalizing i with
  | nil => simp at hi
  | cons a l ih =>
    cases i with
    | zero => simp [part]; omega
    | succ i =>
      have := ih i (by simpa using hi)
      simp only [List.set_cons_succ, List.sum_cons, this]
      simp only [part, List.getD_cons_succ]; omega

/-- A hook of `r` boxes from row `i` on ends in row `b`. -/
def HookEnd (l : List Int) (i : Nat) (r : Int) (b : Nat) : Prop :=
  i ≤ b ∧ part l (b + 1) ≤ part l i + ((b : Int) - i) - r ∧ part l i + ((b : Int) - i) - r < part l b

theorem rimLoop_some (l : List Int) (hl : IsPartition l) (c : Nat) : ∀ (i : Nat) (p : List Int) (r : Int)
    (p' : List Int), i + c = l.length → p.length = l.length + 1 → (∀ j, i ≤ j → part p j = part l j) →
    0 < r → rimLoop c i p r = some p' →
    p'.length = p.length ∧ p'.sum = p.sum - r ∧ ∃ b, HookEnd l i r b ∧ b < l.length ∧
      (∀ j, j < i ∨ b < j → part p' j = part p j) ∧
      (∀ j, i ≤ j → j < b → part p' j = part l (j + 1) - 1 ∧ 0 < part l (j + 1)) ∧
      part p' b = part l i + ((b : Int) - i) - r := by
  induction c with
  | zero => intro i p r p' _ _ _ _ h; simp [rimLoop] at h
  | succ c ih =>
    intro i p r p' hic hlen hp hr h
    have h0 : at' p i = part l i := hp i (le_refl _)
    have h1 : at' p (i + 1) = part l (i + 1) := hp (i + 1) (by omega)
    have hi : i < p.length := by omega
    have hanti := hl.part_anti (Nat.le_succ i)
    have hnn := hl.part_nonneg (i + 1)
    simp only [rimLoop, h0, h1] at h
    split at h
    · rename_i hd
      have := Option.some.inj h
      subst this
      refine ⟨by simp, ?_, i, ⟨le_refl _, by omega, by omega⟩, by omega, ?_, ?_, ?_⟩
      · rw [sum_set_part _ _ _ hi, show part p i = part l i from h0]; omega
      · intro j hj; rw [part_set _ _ _ _ hi, if_neg (by omega)]
      · intro j _ _; omega
      · rw [part_set _ _ _ _ hi, if_pos rfl]; omega
    · rename_i hd
      by_cases hpos : part l (i + 1) > 0
      · rw [if_pos hpos] at h
        have e1 : at' (p.set i (part l i - (part l i - part l (i + 1) + 1))) i = part l (i + 1) - 1 := by
          rw [at'_eq_part, part_set _ _ _ _ hi, if_pos rfl]; omega
        have e2 : at' (p.set i (part l i - (part l i - part l (i + 1) + 1))) (i + 1) = part l (i + 1) := by
          rw [at'_eq_part, part_set _ _ _ _ hi, if_neg (by omega)]; exact h1
        rw [e1, e2] at h
        split at h
        · rw [if_pos (by omega)] at h; simp at h
        · obtain ⟨g1, g2, b, g3, g4, g5, g6, g7⟩ := ih (i + 1) _ _ p' (by omega) (by simpa using hlen)
            (fun j hj => by rw [part_set _ _ _ _ hi, if_neg (by omega)]; exact hp j (by omega)) (by omega) h
          obtain ⟨k1, k2, k3⟩ := g3
          refine ⟨by simpa using g1, ?_, b, ⟨by omega, by omega, by omega⟩, g4, ?_, ?_, by omega⟩
          · rw [g2, sum_set_part _ _ _ hi, show part p i = part l i from h0]; omega
          · intro j hj
            rw [g5 j (by omega), part_set _ _ _ _ hi, if_neg (by omega)]
          · intro j hj1 hj2
            by_cases hj : j = i
            · subst hj
              refine ⟨?_, hpos⟩
              rw [g5 j (by omega), part_set _ _ _ _ hi, if_pos rfl]; omega
            · exact g6 j (by omega) hj2
      · rw [if_neg hpos] at h
        split at h
        · omega
        · -- the rest of the rows are empty
          exfalso
          have hz : part l (i + 1) = 0 := by omega
          obtain ⟨g1, g2, b, g3, g4, g5, g6, g7⟩ := ih (i + 1) _ _ p' (by omega) (by simpa using hlen)
            (fun j hj => by rw [part_set _ _ _ _ hi, if_neg (by omega)]; exact hp j (by omega)) (by omega) h
          obtain ⟨k1, k2, k3⟩ := g3
          have a1 := hl.part_anti (i := i + 1) (j := b) (by omega)
          have a2 := hl.part_nonneg (b + 1)
          by_cases hb : b = i + 1
          · subst hb; omega
          · have := (g6 (i + 1) (le_refl _) (by omega)).2
            have a3 := hl.part_anti (i := i + 1) (j := i + 1 + 1) (by omega)
            omega

theorem rimLoop_none (l : List Int) (hl : IsPartition l) (c : Nat) : ∀ (i : Nat) (p : List Int) (r : Int),
    i + c = l.length → p.length = l.length + 1 → (∀ j, i ≤ j → part p j = part l j) →
    0 < r → rimLoop c i p r = none → ∀ b, ¬ HookEnd l i r b := by
  induction c with
  | zero =>
    intro i p r hic _ _ hr _ b ⟨h1, h2, h3⟩
    have e0 : part l b = 0 := part_of_ge (by omega)
    have e1 := hl.part_nonneg (b + 1)
    omega
  | succ c ih =>
    intro i p r hic hlen hp hr h b hb
    obtain ⟨b1, b2, b3⟩ := hb
    have h0 : at' p i = part l i := hp i (le_refl _)
    have h1 : at' p (i + 1) = part l (i + 1) := hp (i + 1) (by omega)
    have hi : i < p.length := by omega
    have hanti := hl.part_anti (Nat.le_succ i)
    have hnn := hl.part_nonneg (i + 1)
    simp only [rimLoop, h0, h1] at h
    split at h
    · simp at h
    · rename_i hd
      have hbi : b ≠ i := by rintro rfl; omega
      have hab := hl.part_anti (i := i + 1) (j := b) (by omega)
      have hbn := hl.part_nonneg (b + 1)
      have hbn' := hl.part_nonneg b
      by_cases hpos : part l (i + 1) > 0
      · rw [if_pos hpos] at h
        have e1 : at' (p.set i (part l i - (part l i - part l (i + 1) + 1))) i = part l (i + 1) - 1 := by
          rw [at'_eq_part, part_set _ _ _ _ hi, if_pos rfl]; omega
        have e2 : at' (p.set i (part l i - (part l i - part l (i + 1) + 1))) (i + 1) = part l (i + 1) := by
          rw [at'_eq_part, part_set _ _ _ _ hi, if_neg (by omega)]; exact h1
        rw [e1, e2] at h
        split at h
        · omega
        · exact ih (i + 1) _ _ (by omega) (by simpa using hlen)
            (fun j hj => by rw [part_set _ _ _ _ hi, if_neg (by omega)]; exact hp j (by omega)) (by omega) h b
            ⟨by omega, by omega, by omega⟩
      · have hz : part l (i + 1) = 0 := by omega
        omega

/-- The hook of a given size from row `0` ends in at most one row. -/
theorem hookEnd_unique {l : List Int} (hl : IsPartition l) {r : Int} {b b' : Nat} (h : HookEnd l 0 r b)
    (h' : HookEnd l 0 r b') : b = b' := by
  obtain ⟨_, h2, h3⟩ := h
  obtain ⟨_, k2, k3⟩ := h'
  rcases lt_trichotomy b b' with hlt | heq | hgt
  · have := hl.part_anti (i := b + 1) (j := b') (by omega); omega
  · exact heq
  · have := hl.part_anti (i := b' + 1) (j := b) (by omega); omega

theorem part_concat_zero (l : List Int) (j : Nat) : part (l ++ [0]) j = part l j := by
  simpa using part_append_zeros l 1 j

theorem sum_eq_part_sum (l : List Int) (N : Nat) (h : l.length ≤ N) :
    l.sum = ((List.range N).map (part l)).sum := by
  induction N generalizing l with
  | zero => have : l = [] := List.length_eq_zero_iff.1 (by omega)
            subst this; simp
  | succ N ih =>
    rw [List.range_succ_eq_map, List.map_cons, List.sum_cons, List.map_map]
    cases l with
    | nil =>
      have h1 : (List.map (part [] ∘ Nat.succ) (List.range N)).sum = 0 := by
        rw [List.map_congr_left (g := fun _ => (0 : Int)) (fun j _ => by simp)]
        rw [List.map_const']
        induction (List.range N).length with
        | zero => rfl
        | succ n ih => rw [List.replicate_succ, List.sum_cons, ih]; rfl
      rw [h1]; simp
    | cons a l =>
      have := ih l (by simpa using h)
      rw [List.sum_cons, this]
      rfl

/-- The size of a hook from the first row, read off its two ends. -/
theorem topHook_size {l x : List Int} {b : Nat} (hx : RimHook l x 0 b) :
    l.sum - x.sum = part l 0 + b - part x b := by
  obtain ⟨_, h1, h2, _⟩ := hx
  have key : ∀ N, ((List.range N).map (part l)).sum - ((List.range N).map (part x)).sum =
      if N ≤ b then part l 0 + N - part l N else part l 0 + b - part x b := by
    intro N
    induction N with
    | zero => simp
    | succ N ih =>
      rw [List.range_succ, List.map_append, List.map_append, List.sum_append, List.sum_append]
      simp only [List.map_cons, List.map_nil, List.sum_cons, List.sum_nil, add_zero]
      by_cases hN : N + 1 ≤ b
      · rw [if_pos (by omega)] at ih
        rw [if_pos hN]
        have := h2 N (by omega) (by omega)
        push_cast; omega
      · rw [if_neg hN]
        by_cases hN' : N ≤ b
        · rw [if_pos hN'] at ih
          have : N = b := by omega
          subst this; omega
        · rw [if_neg hN'] at ih
          have := h1 N (by omega); omega
  have := key (l.length + x.length + b + 1)
  rw [if_neg (by omega)] at this
  rw [sum_eq_part_sum l (l.length + x.length + b + 1) (by omega),
    sum_eq_part_sum x (l.length + x.length + b + 1) (by omega)]
  exact this

theorem Spec.TopHook.hookEnd {r : Int} {l x : List Int} (h : TopHook r l x) :
    ∃ b, RimHook l x 0 b ∧ HookEnd l 0 r b := by
  obtain ⟨hx, ⟨b, hb⟩, hs⟩ := h
  refine ⟨b, hb, by omega, ?_, ?_⟩
  · have := topHook_size hb
    have h1 := hb.2.1 (b + 1) (by omega)
    have h2 := hx.isPartition.part_anti (i := b) (j := b + 1) (by omega)
    push_cast; omega
  · have := topHook_size hb
    have := hb.2.2.2
    push_cast; omega

theorem Spec.TopHook.unique {r : Int} {l x y : List Int} (hl : IsPartition l) (h : TopHook r l x)
    (h' : TopHook r l y) : x = y := by
  obtain ⟨b, hb, he⟩ := h.hookEnd
  obtain ⟨b', hb', he'⟩ := h'.hookEnd
  have := hookEnd_unique hl he he'
  subst this
  apply eq_of_part_eq h.1.noTrailing h'.1.noTrailing
  intro j
  rcases lt_trichotomy j b with hj | hj | hj
  · rw [hb.2.2.1 j (by omega) hj, hb'.2.2.1 j (by omega) hj]
  · subst hj
    have h1 := topHook_size hb
    have h2 := topHook_size hb'
    have h3 := h.2.2
    have h4 := h'.2.2
    omega
  · rw [hb.2.1 j (by omega), hb'.2.1 j (by omega)]

/-- One pass of the inner loop removes the hook of the given size from the first row, if there is one. -/
theorem rimPass_some {l : List Int} (hl : IsPartition l) {r : Int} (hr : 0 < r) {p : List Int}
    (h : rimLoop l.length 0 (l ++ [0]) r = some p) :
    IsPartition p ∧ TopHook r l (partClip p) := by
  obtain ⟨g1, g2, b, ⟨_, g31, g32⟩, g4, g5, g6, g7⟩ := rimLoop_some l hl l.length 0 (l ++ [0]) r p (by omega)
    (by simp) (fun j _ => part_concat_zero l j) hr h
  have hp : IsPartition p := by
    apply isPartition_of_part
    intro j
    rcases lt_trichotomy (j + 1) b with hj | hj | hj
    · have h1 := (g6 j (by omega) (by omega)).1
      have h2 := (g6 (j + 1) (by omega) (by omega)).1
      have := hl.part_anti (i := j + 1) (j := j + 1 + 1) (by omega)
      omega
    · have h1 := (g6 j (by omega) (by omega)).1
      rw [hj, h1, g7, hj]; omega
    · by_cases hjb : j = b
      · subst hjb
        rw [g5 (j + 1) (by omega), part_concat_zero, g7]; omega
      · rw [g5 (j + 1) (by omega), g5 j (by omega), part_concat_zero, part_concat_zero]
        exact hl.part_anti (by omega)
  refine ⟨hp, hp.partClip, ⟨b, by omega, ?_, ?_, ?_⟩, ?_⟩
  · intro j hj
    rw [part_partClip, g5 j hj, part_concat_zero]
  · intro j hj1 hj2
    rw [part_partClip]; exact (g6 j hj1 hj2).1
  · rw [part_partClip, g7]; omega
  · rw [partClip_sum, g2]; simp

theorem rimPass_none {l : List Int} (hl : IsPartition l) {r : Int} (hr : 0 < r)
    (h : rimLoop l.length 0 (l ++ [0]) r = none) : ¬ ∃ x, TopHook r l x := by
  rintro ⟨x, hx⟩
  obtain ⟨b, _, he⟩ := hx.hookEnd
  exact rimLoop_none l hl l.length 0 (l ++ [0]) r (by omega) (by simp)
    (fun j _ => part_concat_zero l j) hr h b he

theorem isInRange_iff (l : List Int) (hl : IsPartition l) (nrow ncol : Int) (h1 : 0 ≤ nrow) (h2 : 0 ≤ ncol) :
    ∃ d, isInRange l nrow ncol = .ok d ∧ (d = true ↔ InRect l nrow.toNat ncol) := by
  unfold isInRange
  rw [if_neg (by omega)]
  cases l with
  | nil => exact ⟨true, by simp, by simp [InRect]⟩
  | cons a l =>
    simp only [List.length_cons]
    rw [if_neg (by omega)]
    have h0 : at' (a :: l) 0 = a := rfl
    rw [h0]
    split
    · rename_i h
      refine ⟨false, rfl, by simp, ?_⟩
      rintro ⟨h', _⟩
      simp at h'; omega
    · rename_i h
      split
      · rename_i ha
        refine ⟨false, rfl, by simp, ?_⟩
        rintro ⟨_, h'⟩
        have := h' a (by simp); omega
      · rename_i ha
        refine ⟨true, rfl, fun _ => ⟨by simp; omega, ?_⟩, fun _ => rfl⟩
        intro x hx
        have := hl.1
        rw [List.pairwise_cons] at this
        rcases List.mem_cons.1 hx with rfl | hx
        · omega
        · have := this.1 x hx; omega

/-- Containment along a chain. -/
theorem Spec.TopHook.contained {r : Int} {l x : List Int} (hl : IsPartition l) (h : TopHook r l x) : Contained x l := by
  obtain ⟨_, ⟨b, hb⟩, _⟩ := h
  intro j
  rcases lt_trichotomy j b with hj | hj | hj
  · have := hb.2.2.1 j (by omega) hj
    have h2 := hl.part_anti (i := j) (j := j + 1) (by omega)
    omega
  · subst hj; have := hb.2.2.2; omega
  · rw [hb.2.1 j (by omega)]

theorem Spec.HookChain.facts {r : Int} {rows : Nat} {cols : Int} {l : List Int} (hl : IsPartition l) {c : Nat}
    {x : List Int} (h : HookChain r rows cols l c x) :
    IsPartition x ∧ Contained x l ∧ x.sum = l.sum - c * r ∧ (0 < c → ReducedPart x) := by
  induction h with
  | start => exact ⟨hl, fun i => le_refl _, by simp, fun h => by omega⟩
  | @snoc c y x _ _ h3 ih =>
    obtain ⟨i1, i2, i3, _⟩ := ih
    refine ⟨h3.1.isPartition, fun i => le_trans (TopHook.contained i1 h3 i) (i2 i), ?_, fun _ => h3.1⟩
    rw [h3.2.2, i3]; push_cast; ring

/-- Number of rows of `orig` with a box outside `x`, with the code's special case for the empty `x`. -/
def rimHeight (x orig : List Int) : Int :=
  if x = [] then orig.length
  else ((List.range orig.length).countP (fun i => decide (part x i < part orig i)) : Nat)

theorem skewHeight_ok {x orig : List Int} (hx : ReducedPart x) (ho : IsPartition orig) (h : Contained x orig) :
    skewCheck x orig = true := by
  induction x generalizing orig with
  | nil => simp [skewCheck]
  | cons a x ih =>
    have h0 := h 0
    have ha := hx.2 a (by simp)
    cases orig with
    | nil => simp [part] at h0; omega
    | cons b orig =>
      simp only [skewCheck]
      have h0' : a ≤ b := h0
      rw [if_neg (by omega)]
      apply ih
      · exact ⟨(List.pairwise_cons.1 hx.1).2, fun y hy => hx.2 y (by simp [hy])⟩
      · exact ⟨(List.pairwise_cons.1 ho.1).2, fun y hy => ho.2 y (by simp [hy])⟩
      · intro i; exact h (i + 1)

end Verif
