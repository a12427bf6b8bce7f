import Verif.Proofs.Partition
import Verif.Proofs.Runs
import Verif.Model.Conversions
import Mathlib.Data.Nat.Choose.Basic
import Mathlib.Data.List.Nodup
/-!
# Structural enumeration of bounded decreasing lists

`enumB nxt r a`: all lists of length `r` with first entry in `0..a` and each entry at most `nxt` of the
previous one, in descending lexicographic order.
-/

namespace Verif
open Spec

/-- The lexicographically first element of `enumB`. -/
def topB (nxt : Nat → Nat) : Nat → Nat → List Int
  | 0, _ => []
  | r + 1, a => (a : Int) :: topB nxt r (nxt a)

def enumB (nxt : Nat → Nat) : Nat → Nat → List (List Int)
  | 0, _ => [[]]
  | r + 1, 0 => (enumB nxt r (nxt 0)).map (fun t => 0 :: t)
  | r + 1, a + 1 => (enumB nxt r (nxt (a + 1))).map (fun t => ((a + 1 : Nat) : Int) :: t)
      ++ enumB nxt (r + 1) a

/-- Admissible lists. -/
def Adm (nxt : Nat → Nat) : Nat → List Int → Prop
  | _, [] => True
  | b, x :: xs => 0 ≤ x ∧ x ≤ b ∧ Adm nxt (nxt x.toNat) xs

theorem mem_enumB (nxt : Nat → Nat) (r a : Nat) (l : List Int) :
    l ∈ enumB nxt r a ↔ l.length = r ∧ Adm nxt a l := by
  induction r generalizing a l with
  | zero =>
    simp only [enumB, List.mem_singleton, List.length_eq_zero_iff]
    constructor
    · rintro rfl; exact ⟨rfl, trivial⟩
    · exact And.left
  | succ r ih =>
    induction a with
    | zero =>
      simp only [enumB, List.mem_map, ih]
      constructor
      · rintro ⟨t, ⟨h1, h2⟩, rfl⟩
        exact ⟨by simp [h1], by simp [Adm, h2]⟩
      · rintro ⟨h1, h2⟩
        cases l with
        | nil => simp at h1
        | cons x xs =>
          obtain ⟨hx0, hx1, h3⟩ := h2
          have : x = 0 := by push_cast at hx1; omega
          subst this
          exact ⟨xs, ⟨by simpa using h1, by simpa using h3⟩, rfl⟩
    | succ a iha =>
      simp only [enumB, List.mem_append, List.mem_map, ih, iha]
      constructor
      · rintro (⟨t, ⟨h1, h2⟩, rfl⟩ | ⟨h1, h2⟩)
        · refine ⟨by simp [h1], ?_, le_refl _, ?_⟩
          · omega
          · simpa using h2
        · refine ⟨h1, ?_⟩
          cases l with
          | nil => trivial
          | cons x xs =>
            obtain ⟨hx0, hx1, h3⟩ := h2
            exact ⟨hx0, by push_cast at *; omega, h3⟩
      · rintro ⟨h1, h2⟩
        cases l with
        | nil => simp at h1
        | cons x xs =>
          obtain ⟨hx0, hx1, h3⟩ := h2
          by_cases hx : x = ((a + 1 : Nat) : Int)
          · left
            refine ⟨xs, ⟨by simpa using h1, ?_⟩, by rw [hx]⟩
            rw [hx] at h3
            simpa using h3
          · right
            exact ⟨h1, hx0, by push_cast at *; omega, h3⟩

theorem enumB_length_mem {nxt : Nat → Nat} {r a : Nat} {l : List Int} (h : l ∈ enumB nxt r a) :
    l.length = r := ((mem_enumB _ _ _ _).1 h).1

theorem listLt_cons (x : Int) (a b : List Int) : listLt (x :: a) (x :: b) = listLt a b := by
  simp [listLt]

/-- the enumeration is strictly descending in Python's list order -/
theorem enumB_sorted (nxt : Nat → Nat) (r a : Nat) :
    (enumB nxt r a).Pairwise (fun x y => listLt y x = true) := by
  induction r generalizing a with
  | zero => simp [enumB]
  | succ r ih =>
    induction a with
    | zero =>
      simp only [enumB]
      rw [List.pairwise_map]
      exact (ih _).imp (fun h => by rw [listLt_cons]; exact h)
    | succ a iha =>
      simp only [enumB]
      rw [List.pairwise_append]
      refine ⟨?_, iha, ?_⟩
      · rw [List.pairwise_map]
        exact (ih _).imp (fun h => by rw [listLt_cons]; exact h)
      · intro x hx y hy
        rw [List.mem_map] at hx
        obtain ⟨t, _, rfl⟩ := hx
        rw [mem_enumB] at hy
        cases y with
        | nil => simp at hy
        | cons z zs =>
          obtain ⟨_, _, h2, _⟩ := hy
          have : z < ((a + 1 : Nat) : Int) := by push_cast; omega
          simp only [listLt, if_pos this]

theorem listLt_irrefl (a : List Int) : listLt a a = false := by
  induction a with
  | nil => rfl
  | cons x a ih => simp [listLt, ih]

theorem enumB_nodup (nxt : Nat → Nat) (r a : Nat) : (enumB nxt r a).Nodup := by
  apply (enumB_sorted nxt r a).imp
  rintro x y h rfl
  rw [listLt_irrefl] at h
  exact absurd h (by simp)

/-- Clipping is injective on lists of equal length. -/
theorem partClip_inj_of_length {l m : List Int} (hlen : l.length = m.length)
    (h : partClip l = partClip m) : l = m := by
  rw [partClip_eq_iff] at h
  apply List.ext_getElem hlen
  intro i h1 h2
  have := h i
  rwa [part_of_lt h1, part_of_lt h2] at this

theorem enumB_clip_nodup (nxt : Nat → Nat) (r a : Nat) : ((enumB nxt r a).map partClip).Nodup := by
  rw [List.nodup_map_iff_inj_on (enumB_nodup nxt r a)]
  intro x hx y hy h
  exact partClip_inj_of_length (by rw [enumB_length_mem hx, enumB_length_mem hy]) h

/-- A step function that walks through `enumB`. -/
structure Walks (nxt : Nat → Nat) (step : List Int → Option (List Int)) : Prop where
  nil : step [] = none
  zero : ∀ xs, step xs = none → xs = List.replicate xs.length 0
  inner : ∀ x xs ys, step xs = some ys → step (x :: xs) = some (x :: ys)
  carry : ∀ r (a : Nat), step (((a + 1 : Nat) : Int) :: List.replicate r 0) = some (topB nxt (r + 1) a)
  stop : ∀ r, step (List.replicate r 0) = none

theorem Walks.runs {nxt : Nat → Nat} {step : List Int → Option (List Int)} (w : Walks nxt step)
    (r a : Nat) : Runs step (topB nxt r a) (enumB nxt r a) := by
  induction r generalizing a with
  | zero => rw [enumB]; exact Runs.last w.nil
  | succ r ih =>
    induction a with
    | zero =>
      rw [enumB]
      apply Runs.map_last (f := fun t => (0 : Int) :: t) (ih (nxt 0))
      · intro u v h; exact w.inner _ _ _ h
      · intro u hu h
        rw [w.zero u h]
        exact w.stop (u.length + 1)
    | succ a iha =>
      rw [enumB]
      apply Runs.map_append (f := fun t => ((a + 1 : Nat) : Int) :: t) (ih (nxt (a + 1))) iha
      · intro u v h; exact w.inner _ _ _ h
      · intro u hu h
        rw [w.zero u h, enumB_length_mem hu]
        exact w.carry r a

/-- number of weakly decreasing lists -/
theorem enumB_id_length (r a : Nat) : (enumB id r a).length = (a + r).choose r := by
  induction r generalizing a with
  | zero => simp [enumB]
  | succ r ih =>
    induction a with
    | zero => simp [enumB, ih]
    | succ a iha =>
      simp only [enumB, List.length_append, List.length_map, ih, iha, id]
      rw [show a + 1 + (r + 1) = (a + 1 + r) + 1 by omega, Nat.choose_succ_succ,
        show a + (r + 1) = a + 1 + r by omega]

theorem adm_id_iff (b : Nat) (l : List Int) :
    Adm id b l ↔ IsPartition l ∧ ∀ x ∈ l, x ≤ b := by
  induction l generalizing b with
  | nil => simp [Adm, IsPartition]
  | cons x xs ih =>
    simp only [Adm, ih, id, IsPartition, List.pairwise_cons, List.mem_cons]
    constructor
    · rintro ⟨h0, h1, ⟨h2, h3⟩, h4⟩
      have hx : (x.toNat : Int) = x := by omega
      rw [hx] at h4
      refine ⟨⟨⟨h4, h2⟩, ?_⟩, ?_⟩
      · rintro y (rfl | hy)
        · exact h0
        · exact h3 y hy
      · rintro y (rfl | hy)
        · exact h1
        · exact le_trans (h4 y hy) h1
    · rintro ⟨⟨⟨h1, h2⟩, h3⟩, h4⟩
      refine ⟨h3 x (Or.inl rfl), h4 x (Or.inl rfl), ⟨h2, fun y hy => h3 y (Or.inr hy)⟩, ?_⟩
      intro y hy
      have := h1 y hy
      have := h3 x (Or.inl rfl)
      omega

theorem topB_id (r a : Nat) : topB id r a = List.replicate r (a : Int) := by
  induction r with
  | zero => rfl
  | succ r ih => simp [topB, ih, List.replicate_succ]

/-! ### `part_itr` walks through the weakly decreasing lists -/

theorem partClip_eq_nil_iff (l : List Int) : partClip l = [] ↔ l = List.replicate l.length 0 := by
  constructor
  · intro h
    obtain ⟨c, hc⟩ := partClip_append l
    rw [h, List.nil_append] at hc
    conv_lhs => rw [hc]
    conv_rhs => rw [hc]
    simp
  · intro h
    rw [h]; exact partClip_replicate _

theorem partItr_none_iff (l : List Int) : partItr l = none ↔ l = List.replicate l.length 0 := by
  unfold partItr
  rw [← partClip_eq_nil_iff]
  cases l with
  | nil => simp
  | cons a l =>
    simp only [List.length_cons, Nat.add_eq_zero_iff, one_ne_zero, and_false, if_false]
    split
    · rename_i h; simpa using h
    · rename_i h; simpa using h

theorem partItr_cons (x : Int) (xs : List Int) (h : partClip xs ≠ []) :
    partItr (x :: xs) = (partItr xs).map (fun ys => x :: ys) := by
  have hx : xs ≠ [] := by rintro rfl; simp at h
  have h1 : xs.length ≠ 0 := by simpa using hx
  have h2 : (partClip xs).length ≠ 0 := by simpa using h
  have h3 : partClip (x :: xs) = x :: partClip xs := by
    rw [partClip_cons]; simp [h]
  unfold partItr partLen
  rw [h3]
  simp only [List.length_cons, Nat.add_eq_zero_iff, one_ne_zero, and_false, if_false, h1, h2,
    Nat.add_sub_cancel, Option.map_some]
  obtain ⟨c, hc⟩ : ∃ c, (partClip xs).length = c + 1 := ⟨_, (Nat.succ_pred h2).symm⟩
  rw [hc]
  simp [at', List.take_succ_cons]

theorem walks_partItr : Walks id partItr where
  nil := rfl
  zero xs h := (partItr_none_iff xs).1 h
  inner x xs ys h := by
    have : partClip xs ≠ [] := by
      intro h'
      rw [partClip_eq_nil_iff, ← partItr_none_iff] at h'
      rw [h'] at h; cases h
    rw [partItr_cons _ _ this, h]; rfl
  carry r a := by
    rw [topB_id]
    have hc : partClip (((a + 1 : Nat) : Int) :: List.replicate r 0) = [((a + 1 : Nat) : Int)] := by
      rw [partClip_cons, partClip_replicate]; simp; omega
    unfold partItr partLen
    rw [hc]
    simp [at']
  stop r := by rw [partItr_none_iff]; simp

theorem partGenLoop_of_runs {x : List Int} {L : List (List Int)} (r : Runs partItr x L)
    (hpos : 0 < x.length) (fuel : Nat) (hf : L.length + 1 ≤ fuel) :
    partGenLoop fuel (some x) = some (L.map partClip) := by
  induction r generalizing fuel with
  | last h =>
    obtain ⟨f, rfl⟩ : ∃ f, fuel = f + 2 := ⟨fuel - 2, by simp at hf; omega⟩
    simp [partGenLoop, hpos, h]
  | @cons x y L h _ ih =>
    obtain ⟨f, rfl⟩ : ∃ f, fuel = f + 1 := ⟨fuel - 1, by simp at hf; omega⟩
    have hy : 0 < y.length := by
      unfold partItr at h
      split at h
      · cases h
      · split at h
        · cases h
        · injection h with h
          rw [← h]; simp [partLen]
          have := partClip_length_le x
          omega
    simp only [partGenLoop, hpos, if_true, h]
    rw [ih hy f (by simp at hf; omega)]
    rfl

theorem partGen_rect (r a : Nat) (hr : 0 < r) (fuel : Nat)
    (hf : (enumB id r a).length + 1 ≤ fuel) :
    partGen fuel (List.replicate r (a : Int)) = some ((enumB id r a).map partClip) := by
  have hne : List.replicate r (a : Int) ≠ [] := by
    intro h; simp at h; omega
  rw [partGen, if_neg hne, ← topB_id]
  apply partGenLoop_of_runs (walks_partItr.runs r a) _ _ hf
  rw [topB_id]; simpa using hr

end Verif
