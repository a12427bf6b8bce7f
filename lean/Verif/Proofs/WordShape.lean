import Verif.Proofs.Word
import Verif.Proofs.WordStar
/-!
# Words and shapes

The word of a class, outermost pair of coordinates first, determines its partition letter by letter. In type D the
innermost pair is special; the parameters say whether it is left out (`k0 = 1`) or not (`r0 = 1`); both are `0` in the
types B and C.
-/

namespace Verif
open Spec

/-- the number of rows -/
def rowsW (r0 : Nat) : List L3 → Nat
  | [] => r0
  | .o :: u => rowsW r0 u
  | _ :: u => rowsW r0 u + 1

/-- the number of coordinates that are left out, `k` -/
def colsW (k0 : Nat) : List L3 → Nat
  | [] => k0
  | .o :: u => colsW k0 u + 1
  | _ :: u => colsW k0 u

theorem rows_add_cols (k0 r0 : Nat) (u : List L3) : rowsW r0 u + colsW k0 u = u.length + (k0 + r0) := by
  induction u with
  | nil => simp [rowsW, colsW]; omega
  | cons p u ih => cases p <;> simp [rowsW, colsW] <;> omega

/-- the partition of a word, with `rowsW` parts -/
def shapeW (k0 r0 : Nat) : List L3 → List Int
  | [] => List.replicate r0 0
  | .o :: u => (shapeW k0 r0 u).map (· + 1)
  | .a :: u => ((u.length : Int) + colsW k0 u + 1) :: shapeW k0 r0 u
  | .b :: u => shapeW k0 r0 u ++ [0]

/-- the number of letters `a` beyond `v` -/
def alW : List L3 → Nat → Nat
  | [], _ => 0
  | p :: u, v => if v ≤ u.length then alW u v + (if p = .a then 1 else 0) else 0

/-- the number of letters `o` beyond `v` -/
def beW : List L3 → Nat → Nat
  | [], _ => 0
  | p :: u, v => if v ≤ u.length then beW u v + (if p = .o then 1 else 0) else 0

/-- the positions of the letters `o`, outermost first -/
def posW : List L3 → Nat → Nat
  | [], _ => 0
  | .o :: u, 0 => u.length + 1
  | .o :: u, j + 1 => posW u j
  | _ :: u, j => posW u j

theorem shapeW_length (k0 r0 : Nat) (u : List L3) : (shapeW k0 r0 u).length = rowsW r0 u := by
  induction u with
  | nil => simp [shapeW, rowsW]
  | cons p u ih => cases p <;> simp [rowsW, shapeW, ih]

theorem part_map_succ (l : List Int) (r : Nat) : part (l.map (· + 1)) r = if r < l.length then part l r + 1 else 0 := by
  split
  · rename_i h
    rw [part_of_lt (by simpa using h), part_of_lt h]; simp
  · rename_i h
    rw [part_of_ge (by simpa using h)]

theorem isPartition_replicate (r : Nat) : IsPartition (List.replicate r 0) :=
  ⟨by rw [List.pairwise_replicate]; simp, by simp⟩

theorem part_replicate (r i : Nat) : part (List.replicate r 0) i = 0 := by
  rcases Nat.lt_or_ge i r with h | h
  · rw [part_of_lt (by simpa using h)]; simp
  · rw [part_of_ge (by simpa using h)]

theorem shapeW_isPart (k0 r0 : Nat) (u : List L3) :
    IsPartition (shapeW k0 r0 u) ∧ part (shapeW k0 r0 u) 0 ≤ u.length + colsW k0 u := by
  induction u with
  | nil => exact ⟨isPartition_replicate r0, by simp [shapeW, part_replicate]⟩
  | cons p u ih =>
    obtain ⟨hp, h3⟩ := ih
    obtain ⟨h1, h2⟩ := id hp
    cases p with
    | o =>
      refine ⟨⟨?_, ?_⟩, ?_⟩
      · simp only [shapeW]
        exact h1.map _ (fun a b h => by omega)
      · simp only [shapeW, List.mem_map]
        rintro x ⟨y, hy, rfl⟩
        have := h2 y hy; omega
      · simp only [shapeW, part_map_succ, List.length_cons, colsW]
        split <;> push_cast <;> omega
    | a =>
      refine ⟨⟨?_, ?_⟩, ?_⟩
      · simp only [shapeW]
        refine List.pairwise_cons.2 ⟨?_, h1⟩
        intro x hx
        have : x ≤ part (shapeW k0 r0 u) 0 := by
          obtain ⟨i, hi, rfl⟩ := List.getElem_of_mem hx
          rw [← part_of_lt hi]
          exact hp.part_anti (Nat.zero_le i)
        omega
      · simp only [shapeW, List.mem_cons]
        rintro x (rfl | hx)
        · omega
        · exact h2 x hx
      · simp [shapeW, part, colsW]; omega
    | b =>
      refine ⟨⟨?_, ?_⟩, ?_⟩
      · simp only [shapeW]
        rw [List.pairwise_append]
        refine ⟨h1, by simp, ?_⟩
        intro x hx y hy
        have := h2 x hx
        simp at hy; omega
      · simp only [shapeW, List.mem_append]
        rintro x (hx | hx)
        · exact h2 x hx
        · simp at hx; omega
      · simp only [shapeW, part_append_zero, List.length_cons, colsW]; push_cast; omega

theorem alW_top {u : List L3} {v : Nat} (h : u.length ≤ v) : alW u v = 0 := by
  cases u with
  | nil => rfl
  | cons p u => simp only [List.length_cons] at h; rw [alW, if_neg (by omega)]

theorem beW_top {u : List L3} {v : Nat} (h : u.length ≤ v) : beW u v = 0 := by
  cases u with
  | nil => rfl
  | cons p u => simp only [List.length_cons] at h; rw [beW, if_neg (by omega)]

theorem alW_le {u : List L3} {v : Nat} (p : L3) (h : v ≤ u.length) :
    alW (p :: u) v = alW u v + (if p = .a then 1 else 0) := by rw [alW, if_pos h]

theorem beW_le {u : List L3} {v : Nat} (p : L3) (h : v ≤ u.length) :
    beW (p :: u) v = beW u v + (if p = .o then 1 else 0) := by rw [beW, if_pos h]

theorem stepW (u : List L3) (v : Nat) (h : v < u.length) :
    (alW u v = alW u (v + 1) + 1 ∧ beW u v = beW u (v + 1)) ∨ (alW u v = alW u (v + 1) ∧ beW u v = beW u (v + 1) + 1) ∨
      (alW u v = alW u (v + 1) ∧ beW u v = beW u (v + 1)) := by
  induction u with
  | nil => simp at h
  | cons p u ih =>
    simp only [List.length_cons] at h
    rw [alW_le p (show v ≤ u.length by omega), beW_le p (show v ≤ u.length by omega)]
    rcases Nat.lt_or_ge v u.length with h1 | h1
    · rw [alW_le p (show v + 1 ≤ u.length by omega), beW_le p (show v + 1 ≤ u.length by omega)]
      have := ih h1
      omega
    · rw [alW_top (u := p :: u) (by simp; omega), beW_top (u := p :: u) (by simp; omega), alW_top h1, beW_top h1]
      cases p <;> simp

theorem posW_le (u : List L3) (j : Nat) : posW u j ≤ u.length := by
  induction u generalizing j with
  | nil => simp [posW]
  | cons p u ih =>
    cases p with
    | o => cases j with
      | zero => simp [posW]
      | succ j => have := ih j; simp [posW]; omega
    | a => have := ih j; simp [posW]; omega
    | b => have := ih j; simp [posW]; omega

theorem lt_posW (u : List L3) (j v : Nat) : v < posW u j ↔ j < beW u v := by
  induction u generalizing j with
  | nil => simp [posW, beW]
  | cons p u ih =>
    have hle := posW_le u
    cases p with
    | o => cases j with
      | zero =>
        simp only [posW, beW]
        split
        · simp; omega
        · simp; omega
      | succ j =>
        simp only [posW, beW, ih]
        split
        · simp
        · rename_i h
          rw [beW_top (by omega)]; simp
    | a =>
      simp only [posW, beW, ih]
      split
      · simp
      · rename_i h
        rw [beW_top (by omega)]
    | b =>
      simp only [posW, beW, ih]
      split
      · simp
      · rename_i h
        rw [beW_top (by omega)]

theorem beW_zero (k0 : Nat) (u : List L3) : beW u 0 + k0 = colsW k0 u := by
  induction u with
  | nil => simp [beW, colsW]
  | cons p u ih => cases p <;> simp [beW, colsW] <;> omega

theorem hexW (k0 r0 : Nat) (u : List L3) (r v : Nat) :
    (v : Int) < ex (shapeW k0 r0 u) (colsW k0 u) r ↔ r < alW u v := by
  induction u generalizing r with
  | nil => simp [shapeW, ex, part_replicate, alW]
  | cons p u ih =>
    have hb := shapeW_isPart k0 r0 u
    have hle : ∀ r, ex (shapeW k0 r0 u) (colsW k0 u) r ≤ u.length := by
      intro r
      have := hb.1.part_anti (Nat.zero_le r)
      unfold ex; omega
    cases p with
    | o =>
      have e : ex (shapeW k0 r0 (.o :: u)) (colsW k0 (.o :: u)) r = ex (shapeW k0 r0 u) (colsW k0 u) r := by
        simp only [shapeW, colsW, ex, part_map_succ]
        split
        · push_cast; omega
        · rename_i h
          rw [part_of_ge (by omega)]
          push_cast; omega
      rw [e, ih]
      simp only [alW]
      split
      · simp
      · rw [alW_top (by omega)]
    | a =>
      simp only [alW]
      cases r with
      | zero =>
        have e : ex (shapeW k0 r0 (.a :: u)) (colsW k0 (.a :: u)) 0 = u.length + 1 := by
          simp only [shapeW, colsW, ex, part_cons_zero]; omega
        rw [e]
        split <;> simp <;> omega
      | succ r =>
        have e : ex (shapeW k0 r0 (.a :: u)) (colsW k0 (.a :: u)) (r + 1) = ex (shapeW k0 r0 u) (colsW k0 u) r := by
          simp only [shapeW, colsW, ex, part_cons_succ]
        rw [e, ih]
        split
        · simp
        · rw [alW_top (by omega)]; simp
    | b =>
      have e : ex (shapeW k0 r0 (.b :: u)) (colsW k0 (.b :: u)) r = ex (shapeW k0 r0 u) (colsW k0 u) r := by
        simp only [shapeW, colsW, ex, part_append_zero]
      rw [e, ih]
      simp only [alW]
      split
      · simp
      · rw [alW_top (by omega)]

theorem hcolW (k0 r0 : Nat) (h0 : k0 + r0 ≤ 1) (u : List L3) : ∀ j < colsW k0 u,
    (col (shapeW k0 r0 u) j : Int) + colsW k0 u - j - (k0 + r0 : Nat) = posW u j + alW u (posW u j) := by
  induction u with
  | nil =>
    intro j hj
    simp only [colsW] at hj ⊢
    have : col (shapeW k0 r0 []) j = 0 := by
      unfold col shapeW
      rw [List.countP_eq_zero]
      intro x hx
      rw [List.mem_replicate] at hx
      simp; omega
    rw [this]
    simp only [posW, alW]
    omega
  | cons p u ih =>
    have hle := posW_le u
    have hrc := rows_add_cols k0 r0 u
    have hlen := shapeW_length k0 r0 u
    have hp := (shapeW_isPart k0 r0 u).1
    cases p with
    | o =>
      intro j hj
      simp only [colsW] at hj ⊢
      cases j with
      | zero =>
        have e : col (shapeW k0 r0 (.o :: u)) 0 = rowsW r0 u := by
          unfold col
          rw [← hlen]
          simp only [shapeW]
          rw [List.countP_map, List.countP_eq_length]
          intro x hx
          have := hp.2 x hx
          simp; omega
        rw [e]
        have e2 : posW (.o :: u) 0 = u.length + 1 := rfl
        rw [e2, alW_top (by simp)]
        push_cast; omega
      | succ j =>
        have e : col (shapeW k0 r0 (.o :: u)) (j + 1) = col (shapeW k0 r0 u) j := by
          unfold col
          simp only [shapeW]
          rw [List.countP_map]
          congr 1
          funext x
          simp
        rw [e]
        have e2 : posW (.o :: u) (j + 1) = posW u j := rfl
        rw [e2, alW_le _ (hle j)]
        have := ih j (by omega)
        simp
        push_cast at this ⊢
        omega
    | a =>
      intro j hj
      simp only [colsW] at hj ⊢
      have e : col (shapeW k0 r0 (.a :: u)) j = col (shapeW k0 r0 u) j + 1 := by
        unfold col
        simp only [shapeW]
        rw [List.countP_cons_of_pos]
        simp; omega
      have e2 : posW (.a :: u) j = posW u j := rfl
      rw [e, e2, alW_le _ (hle j)]
      have := ih j hj
      simp
      push_cast at this ⊢
      omega
    | b =>
      intro j hj
      simp only [colsW] at hj ⊢
      have e : col (shapeW k0 r0 (.b :: u)) j = col (shapeW k0 r0 u) j := by
        unfold col
        simp only [shapeW, List.countP_append]
        simp
      have e2 : posW (.b :: u) j = posW u j := rfl
      rw [e, e2, alW_le _ (hle j)]
      have := ih j hj
      simpa using this

theorem codedW (k0 r0 : Nat) (h0 : k0 + r0 ≤ 1) (u : List L3) :
    Coded u.length (colsW k0 u) (k0 + r0) (shapeW k0 r0 u) (alW u) (beW u) (posW u) :=
  ⟨(shapeW_isPart k0 r0 u).1, fun _ => alW_top, fun _ => beW_top, stepW u, fun j _ v => lt_posW u j v,
    by have := beW_zero k0 u; omega, hexW k0 r0 u, hcolW k0 r0 h0 u⟩

theorem inBoxW (k0 r0 : Nat) (u : List L3) :
    InBox (colsW k0 u) u.length (k0 + r0 : Nat) (shapeW k0 r0 u) := by
  obtain ⟨hp, hc⟩ := shapeW_isPart k0 r0 u
  have hrc := rows_add_cols k0 r0 u
  have hlen := shapeW_length k0 r0 u
  refine ⟨hp, (kstrict_part (by omega) hp).2 ?_, fun r hr => part_of_ge (by omega), hc⟩
  intro i hi
  have h1 := hexW k0 r0 u
  by_contra hcon
  obtain ⟨v, hv⟩ : ∃ v : Nat, part (shapeW k0 r0 u) i = colsW k0 u + v + 1 :=
    ⟨(part (shapeW k0 r0 u) i - colsW k0 u - 1).toNat, by omega⟩
  have a1 := (h1 (i + 1) v).1 (by unfold ex; omega)
  have a2 := (h1 i (v + 1)).not.1 (by unfold ex; push_cast; omega)
  rcases Nat.lt_or_ge v u.length with hvl | hvl
  · have := stepW u v hvl
    omega
  · have := alW_top (v := v) hvl
    omega

end Verif
