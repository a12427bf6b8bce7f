import Verif.Spec.Dec
import Verif.Proofs.RimHook
import Verif.Props.Partitions
/-!
# Property C27: `remove_rim_hooks` and `is_in_range`
-/

namespace Verif
open Spec

/-! ## `is_in_range` -/

/-- C27: `is_in_range(nrow, ncol)` decides whether the partition fits into the grid. -/
theorem C27_in_range (l : List Int) (hl : IsPartition l) (nrow ncol : Int) (h1 : 0 ≤ nrow) (h2 : 0 ≤ ncol) :
    (isInRange l nrow ncol = .ok true ↔ InRect l nrow.toNat ncol) ∧
    (isInRange l nrow ncol = .ok false ↔ ¬ InRect l nrow.toNat ncol) := by
  obtain ⟨d, hd, hi⟩ := isInRange_iff l hl nrow ncol h1 h2
  rw [hd, ← hi]
  cases d <;> simp

example : isInRange [4, 2, 1] 3 4 = .ok true ∧ isInRange [4, 2, 1] 2 4 = .ok false := by decide +kernel

/-- C27, error branch: negative grid sizes raise `ValueError`, for every partition. -/
theorem C27_in_range_error (l : List Int) (nrow ncol : Int) :
    isInRange l nrow ncol = .error .valueError ↔ nrow < 0 ∨ ncol < 0 := by
  unfold isInRange
  by_cases h : nrow < 0 ∨ ncol < 0
  · simp [h]
  · rw [if_neg h]
    constructor
    · intro h'
      split at h'
      · simp at h'
      · split at h'
        · simp at h'
        · split at h' <;> simp at h'
    · intro h'; exact absurd h' h

example : isInRange [4, 2, 1] 3 (-1) = .error .valueError := by decide +kernel

example : IsPartition [3, 2] ∧ isInRange [3, 2] 2 3 = .ok true ∧ isInRange [3, 2] 2 2 = .ok false := by
  refine ⟨?_, rfl, rfl⟩
  unfold IsPartition; decide

/-! ## `remove_rim_hooks` -/

theorem rimWhile_spec (l : List Int) (hl : IsPartition l) (r nrow ncol : Int) (hr : 0 < r) (h1 : 0 ≤ nrow)
    (h2 : 0 ≤ ncol) (fuel : Nat) : ∀ (cur : List Int) (c : Nat),
    HookChain r nrow.toNat ncol l c cur → (c = 0 ∨ ¬ InRect cur nrow.toNat ncol) → cur.sum < fuel →
    (∃ x c', rimWhile l r nrow ncol fuel cur c = some (.ok (some x, (c' : Nat), rimHeight x l)) ∧ c < c' ∧
      HookChain r nrow.toNat ncol l c' x ∧ InRect x nrow.toNat ncol) ∨
    (rimWhile l r nrow ncol fuel cur c = some (.ok (none, 0, 0)) ∧
      ∃ y c', HookChain r nrow.toNat ncol l c' y ∧ (c' = 0 ∨ ¬ InRect y nrow.toNat ncol) ∧
        ¬ ∃ x, TopHook r y x) := by
  induction fuel with
  | zero =>
    intro cur c hc hg hs
    have h0 := (hc.facts hl).1
    have : 0 ≤ cur.sum := by
      have h2 := h0.2
      clear hs hc h0 hg
      induction cur with
      | nil => simp
      | cons a cur ih =>
        have := ih (fun x hx => h2 x (by simp [hx]))
        have := h2 a (by simp)
        rw [List.sum_cons]; omega
    push_cast at hs
    omega
  | succ fuel ih =>
    intro cur c hc hg hs
    obtain ⟨hp, hcont, hsum, _⟩ := hc.facts hl
    simp only [rimWhile]
    cases hpass : rimLoop cur.length 0 (cur ++ [0]) r with
    | none =>
      right
      exact ⟨rfl, cur, c, hc, hg, rimPass_none hp hr hpass⟩
    | some p =>
      obtain ⟨hpp, htop⟩ := rimPass_some hp hr hpass
      have hni : isNonIncreasing p = true := (isNonIncreasing_iff p).2 hpp.1
      have hmk : mkPartition (partClip p) = .ok (partClip p) :=
        (C03_partition_ok _).2 htop.1.isPartition
      obtain ⟨d, hd, hdi⟩ := isInRange_iff _ htop.1.isPartition nrow ncol h1 h2
      have hchain : HookChain r nrow.toNat ncol l (c + 1) (partClip p) := hc.snoc hg htop
      obtain ⟨hp', hcont', hsum', hred'⟩ := hchain.facts hl
      simp only [hni, hmk, hd]
      cases d with
      | true =>
        left
        refine ⟨partClip p, c + 1, ?_, by omega, hchain, hdi.1 rfl⟩
        have hsk : skewPartitionHeight (partClip p) l = .ok (rimHeight (partClip p) l) := by
          unfold skewPartitionHeight rimHeight
          rw [skewHeight_ok (hred' (by omega)) hl hcont']
          cases hx : partClip p with
          | nil => simp
          | cons a x => simp [skewCount_eq]
        rw [hsk]
        simp
      | false =>
        have hne : partClip p ≠ cur := by
          intro he
          have := htop.2.2
          rw [he] at this; omega
        rw [if_neg hne]
        have hnr : ¬ InRect (partClip p) nrow.toNat ncol := by rw [← hdi]; simp
        have hlt : (partClip p).sum < fuel := by
          have := htop.2.2
          push_cast at hs; omega
        rcases ih (partClip p) (c + 1) hchain (Or.inr hnr) hlt with ⟨x, c', e1, e2, e3, e4⟩ | ⟨e1, e2⟩
        · left
          exact ⟨x, c', by simpa using e1, by omega, e3, e4⟩
        · right
          exact ⟨by simpa using e1, e2⟩

/-- C27: `remove_rim_hooks(r, (nrow, ncol))` on a partition terminates without exception; it either
returns the shape after removing `c ≥ 1` hooks from the first row, the first such shape inside the grid,
with the number of hooks and the number of rows they touch; or it returns `(0, 0, 0)`, when it arrives at
a shape without a hook of that size in the first row. -/
theorem C27_contract (l : List Int) (hl : IsPartition l) (hne : l ≠ []) (r nrow ncol : Int) (hr : 0 < r)
    (hmax : r ≤ l.sum + l.length - 1) (h1 : 0 ≤ nrow) (h2 : 0 ≤ ncol) :
    (∃ x c, Terminates (fun f => removeRimHooks f l r nrow ncol) (.ok (some x, (c : Nat), rimHeight x l)) ∧
      1 ≤ c ∧ HookChain r nrow.toNat ncol l c x ∧ InRect x nrow.toNat ncol) ∨
    (Terminates (fun f => removeRimHooks f l r nrow ncol) (.ok (none, 0, 0)) ∧
      ∃ y c, HookChain r nrow.toNat ncol l c y ∧ (c = 0 ∨ ¬ InRect y nrow.toNat ncol) ∧
        ¬ ∃ x, TopHook r y x) := by
  have hrw : ∀ f, removeRimHooks f l r nrow ncol = rimWhile l r nrow ncol f l 0 := by
    intro f
    unfold removeRimHooks maxRimSize
    rw [if_neg (by simpa using hne), if_neg (by omega), if_neg (by omega)]
  have hchain0 : HookChain r nrow.toNat ncol l 0 l := .start
  have mono : ∀ f cur t v, rimWhile l r nrow ncol f cur t = some v →
      rimWhile l r nrow ncol (f + 1) cur t = some v := by
    intro f
    induction f with
    | zero => intro cur t v h; simp [rimWhile] at h
    | succ f ih =>
      intro cur t v h
      rw [rimWhile] at h ⊢
      cases hpass : rimLoop cur.length 0 (cur ++ [0]) r with
      | none => simpa [hpass] using h
      | some p =>
        simp only [hpass] at h ⊢
        split
        · simpa [*] using h
        · rename_i hni
          simp only [hni] at h
          cases hmk : mkPartition (partClip p) with
          | error e => simpa [hmk] using h
          | ok nw =>
            simp only [hmk] at h ⊢
            cases hd : isInRange nw nrow ncol with
            | error e => simpa [hd] using h
            | ok d =>
              cases d with
              | true => simpa [hd] using h
              | false =>
                simp only [hd] at h ⊢
                split
                · simpa [*] using h
                · rename_i hnc
                  simp only [hnc, if_false] at h
                  exact ih _ _ _ (by simpa using h)
  have mono' : ∀ f g cur t v, f ≤ g → rimWhile l r nrow ncol f cur t = some v →
      rimWhile l r nrow ncol g cur t = some v := by
    intro f g cur t v hfg h
    induction g with
    | zero => have : f = 0 := by omega
              subst this; exact h
    | succ g ih =>
      by_cases hfg' : f = g + 1
      · subst hfg'; exact h
      · exact mono _ _ _ _ (ih (by omega))
  rcases rimWhile_spec l hl r nrow ncol hr h1 h2 (l.sum.toNat + 1) l 0 hchain0 (Or.inl rfl)
    (by push_cast; omega) with ⟨x, c, e1, e2, e3, e4⟩ | ⟨e1, e2⟩
  · left
    refine ⟨x, c, ⟨l.sum.toNat + 1, fun f hf => ?_⟩, by omega, e3, e4⟩
    show removeRimHooks f l r nrow ncol = _
    rw [hrw]
    exact mono' _ _ _ _ _ hf e1
  · right
    refine ⟨⟨l.sum.toNat + 1, fun f hf => ?_⟩, e2⟩
    show removeRimHooks f l r nrow ncol = _
    rw [hrw]
    exact mono' _ _ _ _ _ hf e1

example : IsPartition [6, 4, 1] ∧ removeRimHooks 30 [6, 4, 1] 5 2 3 = some (.ok (some [1], 2, 3)) ∧
    removeRimHooks 30 [6, 2] 5 2 3 = some (.ok (none, 0, 0)) := by decide +kernel

/-- C27: what the caller relies on. If hooks were removed, the result is a partition without trailing
zeros inside the grid, contained in the input, with exactly `q * r` boxes fewer. -/
theorem C27_result (l : List Int) (hl : IsPartition l) (hne : l ≠ []) (r nrow ncol : Int) (hr : 0 < r)
    (hmax : r ≤ l.sum + l.length - 1) (h1 : 0 ≤ nrow) (h2 : 0 ≤ ncol) (x : List Int) (q h : Int)
    (hres : Terminates (fun f => removeRimHooks f l r nrow ncol) (.ok (some x, q, h))) :
    1 ≤ q ∧ ReducedPart x ∧ InRect x nrow.toNat ncol ∧ Contained x l ∧ x.sum = l.sum - q * r ∧
      h = rimHeight x l := by
  rcases C27_contract l hl hne r nrow ncol hr hmax h1 h2 with ⟨x', c, t, hc, hch, hin⟩ | ⟨t, _⟩
  · have e := hres.unique t
    simp only [Except.ok.injEq, Prod.mk.injEq, Option.some.injEq] at e
    obtain ⟨rfl, rfl, rfl⟩ := e
    obtain ⟨_, f2, f3, f4⟩ := hch.facts hl
    exact ⟨by omega, f4 (by omega), hin, f2, f3, rfl⟩
  · have e := hres.unique t
    simp at e

example : removeRimHooks 30 [5, 3] 5 2 3 = some (.ok (some [2, 1], 1, 2)) := by decide +kernel

/-- C27: the hook that a step removes is determined by its size. -/
theorem C27_hook_unique (l : List Int) (hl : IsPartition l) (r : Int) (x y : List Int) (hx : TopHook r l x)
    (hy : TopHook r l y) : x = y := hx.unique hl hy

/-- C27: the height of a reduced partition's result is the number of rows of the removed region. -/
theorem C27_height (l x : List Int) (hl : ReducedPart l) :
    rimHeight x l = ((List.range l.length).countP (fun i => decide (part x i < part l i)) : Nat) := by
  unfold rimHeight
  split
  · rename_i h
    subst h
    symm
    congr 1
    conv_rhs => rw [← List.length_range (n := l.length)]
    rw [List.countP_eq_length]
    intro i hi
    have hi' : i < l.length := by simpa using hi
    rw [part_nil, part_of_lt hi']
    simpa using hl.2 _ (List.getElem_mem hi')
  · rfl

example : rimHeight [3, 1] [4, 3, 1] = 3 := by decide +kernel

/-- C27, trivial branches: empty partitions, non-positive sizes and sizes that are certainly too large. -/
theorem C27_trivial (l : List Int) (r nrow ncol : Int) (f : Nat) :
    (l = [] → removeRimHooks f l r nrow ncol = some (.ok (some [], 0, 0))) ∧
    (l ≠ [] → r ≤ 0 → removeRimHooks f l r nrow ncol = some (.ok (some l, 0, 0))) ∧
    (l ≠ [] → 0 < r → l.sum + l.length - 1 < r →
      removeRimHooks f l r nrow ncol = some (.ok (some [], 0, 0))) := by
  refine ⟨?_, ?_, ?_⟩
  · rintro rfl; rfl
  · intro h1 h2
    unfold removeRimHooks
    rw [if_neg (by simpa using h1), if_pos h2]
  · intro h1 h2 h3
    unfold removeRimHooks maxRimSize
    rw [if_neg (by simpa using h1), if_neg (by omega), if_pos h3]

example : removeRimHooks 1 [] 4 2 2 = some (.ok (some [], 0, 0)) ∧
    removeRimHooks 1 [2, 1] 0 2 2 = some (.ok (some [2, 1], 0, 0)) ∧
    removeRimHooks 1 [2, 1] 7 2 2 = some (.ok (some [], 0, 0)) := ⟨rfl, rfl, rfl⟩

/-- C27, error branch: a negative grid raises `ValueError` as soon as a hook can be removed. -/
theorem C27_grid_error (l : List Int) (hl : IsPartition l) (r nrow ncol : Int) (hr : 0 < r)
    (hneg : nrow < 0 ∨ ncol < 0) (x : List Int) (hx : TopHook r l x)
    (hmax : r ≤ l.sum + l.length - 1) (f : Nat) :
    removeRimHooks (f + 1) l r nrow ncol = some (.error .valueError) := by
  have hne : l.length ≠ 0 := by
    intro h
    have : l = [] := List.length_eq_zero_iff.1 h
    subst this
    obtain ⟨_, ⟨b, hb⟩, _⟩ := hx
    have h1 := hb.2.2.2
    rename_i hxr _
    have := hxr.isPartition.part_nonneg b
    simp at h1; omega
  unfold removeRimHooks maxRimSize
  rw [if_neg hne, if_neg (by omega), if_neg (by omega)]
  rw [rimWhile]
  cases hpass : rimLoop l.length 0 (l ++ [0]) r with
  | none => exact absurd ⟨x, hx⟩ (rimPass_none hl hr hpass)
  | some p =>
    obtain ⟨hpp, htop⟩ := rimPass_some hl hr hpass
    have hni : isNonIncreasing p = true := (isNonIncreasing_iff p).2 hpp.1
    have hmk : mkPartition (partClip p) = .ok (partClip p) := (C03_partition_ok _).2 htop.1.isPartition
    have hr' := (C27_in_range_error (partClip p) nrow ncol).2 hneg
    simp [hni, hmk, hr']

example : removeRimHooks 5 [3, 1] 2 (-1) 3 = some (.error .valueError) := by decide +kernel

/-- Two hooks of size `5` are removed from `(5,5)`; they touch two rows. -/
example : removeRimHooks 20 [5, 5] 5 2 3 = some (.ok (some [], 2, 2)) ∧ IsPartition [5, 5] := by
  refine ⟨by decide +kernel, ?_⟩
  unfold IsPartition; decide

/-- C27, remark: a shape that already fits is reduced all the same. -/
theorem C27_removes_though_in_range :
    InRect [2, 1] 5 5 ∧ removeRimHooks 20 [2, 1] 3 5 5 = some (.ok (some [], 1, 2)) := by
  refine ⟨?_, by decide +kernel⟩
  unfold InRect; decide

/-- C27, remark: only hooks that start in the first row are found. `(2,2)` has a hook of size 1 (its
corner), but the answer is `(0, 0, 0)`. -/
theorem C27_misses_lower_hooks :
    RimHook [2, 2] [2, 1] 1 1 ∧ removeRimHooks 20 [2, 2] 1 1 1 = some (.ok (none, 0, 0)) := by
  refine ⟨⟨le_refl _, ?_, ?_, by decide⟩, by decide +kernel⟩
  · intro j hj
    match j, hj with
    | 0, _ => rfl
    | 1, hj => omega
    | j + 2, _ => rw [part_of_ge (by simp), part_of_ge (by simp)]
  · intro j h1 h2; omega

end Verif
