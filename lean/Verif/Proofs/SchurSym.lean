import Verif.Proofs.SchurPol
import Mathlib.Data.Fintype.Pi
import Mathlib.Order.Interval.Finset.Defs
import Mathlib.Data.Int.Interval
import Mathlib.Algebra.BigOperators.Fin
import Mathlib.Algebra.BigOperators.Intervals
import Mathlib.Algebra.Order.Group.Unbundled.Int
import Mathlib.Algebra.Group.Submonoid.Basic
import Mathlib.GroupTheory.Perm.Fin
import Mathlib.GroupTheory.Perm.Sign
import Mathlib.Tactic.Ring
import Mathlib.Tactic.Linarith
/-!
# Tableau sums are symmetric

Branching by the positions of the largest entry, then a reflection of the middle shape.
-/

namespace Verif.SchurSym
open Spec

section
variable {R : Type} [CommSemiring R] {x : Nat → R}

theorem _root_.Verif.Gen.unique {P : List (List Nat) → Prop} {v w : R} (h : Gen x P v) (h' : Gen x P w) : v = w := by
  obtain ⟨F, h1, rfl⟩ := h
  obtain ⟨G, h2, rfl⟩ := h'
  have : F = G := by ext T; rw [h1, h2]
  rw [this]

theorem _root_.Verif.Gen.sum {ι : Type*} [DecidableEq ι] (I : Finset ι) (P : ι → List (List Nat) → Prop) (v : ι → R)
    (h : ∀ i ∈ I, Gen x (P i) (v i)) (hd : ∀ i j T, P i T → P j T → i = j) :
    Gen x (fun T => ∃ i ∈ I, P i T) (∑ i ∈ I, v i) := by
  induction I using Finset.induction_on with
  | empty => simpa using Gen.empty (x := x) (P := fun _ => False) (by simp)
  | insert a I ha ih =>
    rw [Finset.sum_insert ha]
    refine ((h a (by simp)).union (ih (fun i hi => h i (by simp [hi]))) ?_).congr (fun T => ?_)
    · rintro T h1 ⟨i, hi, h2⟩
      exact ha (hd a i T h1 h2 ▸ hi)
    · simp

end

/-! ### Shapes that differ by a horizontal strip -/

/-- All lists of the same length between `nu` and `nu` shifted down by one row. -/
def strips (nu : List Int) : Finset (List Int) :=
  (Fintype.piFinset fun i : Fin nu.length => Finset.Icc (part nu (i + 1)) (part nu i)).image List.ofFn

theorem part_ofFn {n : Nat} (g : Fin n → Int) (i : Nat) :
    part (List.ofFn g) i = if h : i < n then g ⟨i, h⟩ else 0 := by
  unfold part
  split
  · rename_i h
    rw [List.getD_eq_getElem _ _ (by rw [List.length_ofFn]; exact h), List.getElem_ofFn]
  · rename_i h
    rw [List.getD_eq_default _ _ (by rw [List.length_ofFn]; omega)]

theorem ext_part {l m : List Int} (hl : l.length = m.length) (h : ∀ i, part l i = part m i) : l = m := by
  apply List.ext_getElem hl
  intro i h1 h2
  have := h i
  unfold part at this
  rwa [List.getD_eq_getElem _ _ h1, List.getD_eq_getElem _ _ h2] at this

theorem mem_strips {nu mu : List Int} :
    mu ∈ strips nu ↔ mu.length = nu.length ∧ ∀ i, part nu (i + 1) ≤ part mu i ∧ part mu i ≤ part nu i := by
  unfold strips
  rw [Finset.mem_image]
  constructor
  · rintro ⟨g, hg, rfl⟩
    refine ⟨List.length_ofFn, fun i => ?_⟩
    rw [part_ofFn]
    split
    · rename_i h
      have := Finset.mem_Icc.1 (Fintype.mem_piFinset.1 hg ⟨i, h⟩)
      exact this
    · rw [part_of_ge (l := nu) (i := i) (by omega), part_of_ge (l := nu) (i := i + 1) (by omega)]
      simp
  · rintro ⟨h1, h2⟩
    refine ⟨fun i => part mu i, ?_, ?_⟩
    · rw [Fintype.mem_piFinset]
      intro i
      exact Finset.mem_Icc.2 (h2 i)
    · apply ext_part (by rw [List.length_ofFn, h1])
      intro i
      rw [part_ofFn]
      split
      · rfl
      · rw [part_of_ge (by omega)]

theorem strips_isPartition {nu mu : List Int} (hnu : IsPartition nu) (h : mu ∈ strips nu) : IsPartition mu := by
  obtain ⟨h1, h2⟩ := mem_strips.1 h
  apply isPartition_of_part
  intro i
  have a1 := h2 i
  have a2 := h2 (i + 1)
  have := hnu.part_nonneg (i + 2)
  omega

theorem sum_eq_range (l : List Int) (n : Nat) (h : l.length ≤ n) : l.sum = ∑ i ∈ Finset.range n, part l i := by
  induction l generalizing n with
  | nil =>
    have : ∀ i ∈ Finset.range n, part ([] : List Int) i = 0 := by intro i _; simp [part]
    rw [Finset.sum_congr rfl this]; simp
  | cons a l ih =>
    cases n with
    | zero => simp at h
    | succ n =>
      rw [Finset.sum_range_succ', List.sum_cons, ih n (by simpa using h)]
      simp [part, add_comm]

/-! ### Branching -/

/-- A sorted row with entries at most `m` is its entries below `m` followed by `m`s. -/
theorem row_split {r : List Nat} {m : Nat} (hs : r.Pairwise (· ≤ ·)) (hb : ∀ e ∈ r, e ≤ m) :
    r = r.filter (· ≠ m) ++ List.replicate (r.length - (r.filter (· ≠ m)).length) m := by
  induction r with
  | nil => rfl
  | cons a r ih =>
    rw [List.pairwise_cons] at hs
    have ihr := ih hs.2 (fun e he => hb e (by simp [he]))
    by_cases ha : a = m
    · have hall : ∀ e ∈ r, e = m := fun e he => by
        have := hs.1 e he; have := hb e (by simp [he]); omega
      have hf : (a :: r).filter (· ≠ m) = [] := by
        rw [List.filter_eq_nil_iff]
        intro e he
        rcases List.mem_cons.1 he with h | h
        · simp [h, ha]
        · simp [hall e h]
      rw [hf]
      simp only [List.nil_append, List.length_nil, Nat.sub_zero]
      rw [List.eq_replicate_iff]
      refine ⟨rfl, fun e he => ?_⟩
      rcases List.mem_cons.1 he with h | h
      · rw [h, ha]
      · exact hall e h
    · rw [List.filter_cons_of_pos (by simpa using ha)]
      simp only [List.length_cons, List.cons_append, Nat.add_sub_add_right]
      exact congrArg (a :: ·) ihr

/-- Appending the entries `m`. -/
def addStrip (m : Nat) (nu mu : List Int) (T : List (List Nat)) : List (List Nat) :=
  (List.range nu.length).map (fun i => row T i ++ List.replicate (part nu i - part mu i).toNat m)

theorem row_addStrip {m : Nat} {nu mu : List Int} {T : List (List Nat)} (hl : mu.length = nu.length)
    (hT : T.length = mu.length) (i : Nat) :
    row (addStrip m nu mu T) i = row T i ++ List.replicate (part nu i - part mu i).toNat m := by
  by_cases hi : i < nu.length
  · rw [row_of_lt (by simpa [addStrip] using hi)]
    simp [addStrip]
  · rw [row_of_ge (by simp [addStrip]; omega), row_of_ge (by omega), part_of_ge (l := nu) (by omega),
      part_of_ge (l := mu) (by omega)]
    simp

theorem row_map_filter (T : List (List Nat)) (p : Nat → Bool) (i : Nat) :
    row (T.map (·.filter p)) i = (row T i).filter p := by
  unfold row
  rw [List.getD_eq_getElem?_getD, List.getD_eq_getElem?_getD, List.getElem?_map]
  cases T[i]? <;> simp

theorem length_filter_row {m : Nat} {nu mu : List Int} {T : List (List Nat)} (hl : mu.length = nu.length)
    (hT : Tableau m mu T) (i : Nat) :
    (row (addStrip (m + 1) nu mu T) i).filter (· ≠ m + 1) = row T i := by
  rw [row_addStrip hl hT.1, List.filter_append]
  have h1 : (row T i).filter (· ≠ m + 1) = row T i := by
    rw [List.filter_eq_self]
    intro e he
    have := hT.2.2.2.1 i e he
    simp; omega
  have h2 : (List.replicate (part nu i - part mu i).toNat (m + 1)).filter (· ≠ m + 1) = [] := by
    rw [List.filter_eq_nil_iff]
    intro e he
    simp [(List.mem_replicate.1 he).2]
  rw [h1, h2, List.append_nil]

/-- Tableaux with entries up to `m + 1` whose smaller entries have shape `mu`. -/
def Core (m : Nat) (nu mu : List Int) (T : List (List Nat)) : Prop :=
  Tableau (m + 1) nu T ∧ mu.length = nu.length ∧ ∀ i, (((row T i).filter (· ≠ m + 1)).length : Int) = part mu i

theorem core_iff {m : Nat} {nu mu : List Int} (hnu : IsPartition nu) (hmu : mu ∈ strips nu) (T : List (List Nat)) :
    Core m nu mu T ↔ ∃ T', Tableau m mu T' ∧ addStrip (m + 1) nu mu T' = T := by
  obtain ⟨hl, hst⟩ := mem_strips.1 hmu
  have hmu' := strips_isPartition hnu hmu
  constructor
  · rintro ⟨⟨h1, h2, h3, h4, h5⟩, _, h6⟩
    have hrow : ∀ i, row (T.map (·.filter (· ≠ m + 1))) i = (row T i).filter (· ≠ m + 1) :=
      fun i => row_map_filter T _ i
    have hsplit : ∀ i, row T i = (row T i).filter (· ≠ m + 1) ++
        List.replicate (part nu i - part mu i).toNat (m + 1) := by
      intro i
      have := row_split (h3 i) (fun e he => (h4 i e he).2)
      have e1 : (row T i).length - ((row T i).filter (· ≠ m + 1)).length = (part nu i - part mu i).toNat := by
        have := h2 i; have := h6 i; omega
      rwa [e1] at this
    have hent : ∀ i j, j < ((row T i).filter (· ≠ m + 1)).length →
        entry (T.map (·.filter (· ≠ m + 1))) i j = entry T i j := by
      intro i j hj
      unfold entry
      rw [hrow]
      conv_rhs => rw [hsplit i]
      rw [List.getD_append _ _ _ _ hj]
    refine ⟨T.map (·.filter (· ≠ m + 1)), ⟨?_, ?_, ?_, ?_, ?_⟩, ?_⟩
    · simp; omega
    · intro i; rw [hrow]; exact h6 i
    · intro i; rw [hrow]; exact (h3 i).filter _
    · intro i e he; rw [hrow] at he
      have hm := List.mem_filter.1 he
      have := h4 i e hm.1
      have hne : e ≠ m + 1 := by simpa using hm.2
      omega
    · intro i j hj
      rw [hrow] at hj
      have a1 := h6 i
      have a2 := h6 (i + 1)
      have a3 := hmu'.part_anti (i := i) (j := i + 1) (by omega)
      rw [hent _ _ (by omega), hent _ _ hj]
      apply h5
      exact lt_of_lt_of_le hj (List.length_filter_le _ _)
    · apply ext_row
      · simp [addStrip]; omega
      · intro i
        rw [row_addStrip hl (by simp; omega), hrow]
        exact (hsplit i).symm
  · rintro ⟨T', hT', rfl⟩
    have hrow := fun i => row_addStrip (m := m + 1) hl hT'.1 i
    have hfil := fun i => length_filter_row hl hT' i
    obtain ⟨h1, h2, h3, h4, h5⟩ := hT'
    refine ⟨⟨?_, ?_, ?_, ?_, ?_⟩, hl, ?_⟩
    · simp [addStrip]
    · intro i
      have := h2 i; have := hst i
      rw [hrow, List.length_append, List.length_replicate]
      push_cast; omega
    · intro i
      rw [hrow, List.pairwise_append]
      refine ⟨h3 i, List.pairwise_replicate.2 (Or.inr (le_refl _)), ?_⟩
      intro a ha b hb
      have := (h4 i a ha).2
      have := (List.mem_replicate.1 hb).2
      omega
    · intro i e he
      rw [hrow] at he
      rcases List.mem_append.1 he with he | he
      · have := h4 i e he; omega
      · have := (List.mem_replicate.1 he).2; omega
    · intro i j hj
      have a0 := hst i
      have a1 := hst (i + 1)
      have b0 := h2 i
      have b1 := h2 (i + 1)
      rw [hrow, List.length_append, List.length_replicate] at hj
      have hji : j < (row T' i).length := by omega
      have e1 : entry (addStrip (m + 1) nu mu T') i j = entry T' i j := by
        unfold entry; rw [hrow, List.getD_append _ _ _ _ hji]
      rw [e1]
      by_cases hj2 : j < (row T' (i + 1)).length
      · have e2 : entry (addStrip (m + 1) nu mu T') (i + 1) j = entry T' (i + 1) j := by
          unfold entry; rw [hrow, List.getD_append _ _ _ _ hj2]
        rw [e2]; exact h5 i j hj2
      · have e2 : entry (addStrip (m + 1) nu mu T') (i + 1) j = m + 1 := by
          unfold entry
          rw [hrow, List.getD_append_right _ _ _ _ (by omega), List.getD_eq_getElem _ _ (by simp; omega)]
          simp
        rw [e2, entry_lt hji]
        have := (h4 i _ (List.getElem_mem hji)).2
        omega
    · intro i; rw [hfil]; exact h2 i

theorem exists_core {m : Nat} {nu : List Int} {T : List (List Nat)} (hnu : IsPartition nu) (hT : Tableau (m + 1) nu T) :
    ∃ mu ∈ strips nu, Core m nu mu T := by
  obtain ⟨h1, h2, h3, h4, h5⟩ := id hT
  have hp : ∀ i, part ((List.range nu.length).map
      (fun i => (((row T i).filter (· ≠ m + 1)).length : Int))) i = ((row T i).filter (· ≠ m + 1)).length := by
    intro i
    unfold part
    by_cases hi : i < nu.length
    · rw [List.getD_eq_getElem _ _ (by simpa using hi)]; simp
    · rw [List.getD_eq_default _ _ (by simp; omega), row_of_ge (by omega)]; simp
  refine ⟨(List.range nu.length).map (fun i => (((row T i).filter (· ≠ m + 1)).length : Int)), ?_,
    hT, by simp, fun i => (hp i).symm⟩
  rw [mem_strips]
  refine ⟨by simp, fun i => ?_⟩
  rw [hp]
  have hle := List.length_filter_le (· ≠ m + 1) (row T i)
  have a1 := h2 i
  have a2 := h2 (i + 1)
  refine ⟨?_, by omega⟩
  by_contra hc
  have hsp := row_split (h3 i) (fun e he => (h4 i e he).2)
  have hj : ((row T i).filter (· ≠ m + 1)).length < (row T (i + 1)).length := by omega
  have h := h5 i _ hj
  have hub : entry T (i + 1) ((row T i).filter (· ≠ m + 1)).length ≤ m + 1 := by
    rw [entry_lt hj]; exact (h4 (i + 1) _ (List.getElem_mem hj)).2
  by_cases hlen : ((row T i).filter (· ≠ m + 1)).length < (row T i).length
  · have : entry T i ((row T i).filter (· ≠ m + 1)).length = m + 1 := by
      unfold entry
      conv_lhs => arg 1; rw [hsp]
      rw [List.getD_append_right _ _ _ _ (le_refl _),
        List.getD_eq_getElem _ _ (by rw [List.length_replicate]; omega)]
      simp
    omega
  · have := hnu.part_anti (i := i) (j := i + 1) (by omega)
    omega

section
variable {R : Type} [CommSemiring R] {x : Nat → R}

theorem weight_eq (T : List (List Nat)) (n : Nat) (h : T.length ≤ n) :
    weight x T = ∏ i ∈ Finset.range n, ((row T i).map (fun e => x (e - 1))).prod := by
  unfold weight
  induction T generalizing n with
  | nil =>
    have : ∀ i ∈ Finset.range n, ((row [] i).map (fun e => x (e - 1))).prod = 1 := by intro i _; simp [row]
    rw [Finset.prod_congr rfl this]; simp
  | cons a l ih =>
    cases n with
    | zero => simp at h
    | succ n =>
      rw [Finset.prod_range_succ', List.map_cons, List.prod_cons, ih n (by simpa using h)]
      simp [row, mul_comm]

theorem weight_addStrip {m : Nat} {nu mu : List Int} {T : List (List Nat)} (hmu : mu ∈ strips nu)
    (hT : Tableau m mu T) :
    weight x (addStrip (m + 1) nu mu T) = x m ^ (nu.sum - mu.sum).toNat * weight x T := by
  obtain ⟨hl, hst⟩ := mem_strips.1 hmu
  rw [weight_eq _ nu.length (by simp [addStrip]), weight_eq T nu.length (by rw [hT.1, hl])]
  have : ∀ i ∈ Finset.range nu.length,
      ((row (addStrip (m + 1) nu mu T) i).map (fun e => x (e - 1))).prod =
        x m ^ (part nu i - part mu i).toNat * ((row T i).map (fun e => x (e - 1))).prod := by
    intro i _
    rw [row_addStrip hl hT.1, List.map_append, List.prod_append]
    simp [mul_comm]
  rw [Finset.prod_congr rfl this, Finset.prod_mul_distrib, Finset.prod_pow_eq_pow_sum]
  congr 2
  rw [sum_eq_range nu nu.length (le_refl _), sum_eq_range mu nu.length (by omega), ← Finset.sum_sub_distrib]
  have h0 : ∀ i ∈ Finset.range nu.length, ((part nu i - part mu i).toNat : Int) = part nu i - part mu i := by
    intro i _; have := hst i; omega
  have : ((∑ i ∈ Finset.range nu.length, (part nu i - part mu i).toNat : Nat) : Int) =
      ∑ i ∈ Finset.range nu.length, (part nu i - part mu i) := by
    push_cast
    exact Finset.sum_congr rfl h0
  omega

theorem branch_gen {m : Nat} {nu : List Int} (hnu : IsPartition nu) (v : List Int → R)
    (hv : ∀ mu ∈ strips nu, Gen x (Tableau m mu) (v mu)) :
    Gen x (Tableau (m + 1) nu) (∑ mu ∈ strips nu, x m ^ (nu.sum - mu.sum).toNat * v mu) := by
  refine (Gen.sum (strips nu) (fun mu => Core m nu mu) _ (fun mu hmu => ?_) ?_).congr (fun T => ?_)
  · refine Gen.map (hv mu hmu) (addStrip (m + 1) nu mu) (fun T => core_iff hnu hmu T) ?_
      (fun T hT => weight_addStrip hmu hT)
    intro T T' hT hT' he
    obtain ⟨hl, _⟩ := mem_strips.1 hmu
    apply ext_row (by rw [hT.1, hT'.1])
    intro i
    rw [← length_filter_row hl hT i, he, length_filter_row hl hT' i]
  · intro mu mu' T h h'
    apply ext_part (by rw [h.2.1, h'.2.1])
    intro i
    rw [← h.2.2 i, h'.2.2 i]
  · exact ⟨fun ⟨_, _, h⟩ => h.1, fun h => exists_core hnu h⟩

theorem tab_gen (m : Nat) : ∀ nu, IsPartition nu → ∃ v, Gen x (Tableau m nu) v := by
  induction m with
  | zero =>
    intro nu hnu
    by_cases h : ∀ i, part nu i = 0
    · exact ⟨_, Gen.single (tableau_unique_empty h)⟩
    · refine ⟨0, Gen.empty (fun T hT => h (fun i => ?_))⟩
      have h1 := hT.2.1 i
      rcases hr : row T i with _ | ⟨e, r⟩
      · rw [hr] at h1; simpa using h1.symm
      · have := hT.2.2.2.1 i e (by rw [hr]; simp)
        omega
  | succ m ih =>
    intro nu hnu
    classical
    exact ⟨_, branch_gen hnu (fun mu => if h : IsPartition mu then (ih mu h).choose else 0) (fun mu hmu => by
      rw [dif_pos (strips_isPartition hnu hmu)]
      exact (ih mu (strips_isPartition hnu hmu)).choose_spec)⟩

/-- The sum over all tableaux. -/
noncomputable def tabSum (x : Nat → R) (m : Nat) (nu : List Int) : R :=
  open Classical in if h : ∃ v, Gen x (Tableau m nu) v then h.choose else 0

theorem tabSum_gen {m : Nat} {nu : List Int} (hnu : IsPartition nu) : Gen x (Tableau m nu) (tabSum x m nu) := by
  have h := tab_gen (x := x) m nu hnu
  rw [tabSum, dif_pos h]
  exact h.choose_spec

theorem branch {m : Nat} {nu : List Int} (hnu : IsPartition nu) :
    tabSum x (m + 1) nu = ∑ mu ∈ strips nu, x m ^ (nu.sum - mu.sum).toNat * tabSum x m mu :=
  (tabSum_gen hnu).unique (branch_gen hnu _ (fun _ hmu => tabSum_gen (strips_isPartition hnu hmu)))

theorem tabSum_congr {y : Nat → R} {m : Nat} {nu : List Int} (hnu : IsPartition nu) (h : ∀ i < m, x i = y i) :
    tabSum x m nu = tabSum y m nu := by
  obtain ⟨F, h1, h2⟩ := tabSum_gen (x := x) (m := m) hnu
  refine Gen.unique (x := y) (P := Tableau m nu) ⟨F, h1, ?_⟩ (tabSum_gen hnu)
  rw [h2]
  refine Finset.sum_congr rfl (fun T hT => ?_)
  have hT' := (h1 T).1 hT
  rw [weight_eq T _ (le_refl _), weight_eq T _ (le_refl _)]
  refine Finset.prod_congr rfl (fun i _ => ?_)
  congr 1
  apply List.map_congr_left
  intro e he
  have := hT'.2.2.2.1 i e he
  exact h _ (by omega)

/-! ### Reflection -/

/-- Lower end of the interval for part `i` of a middle shape. -/
def loB (nu ka : List Int) (i : Nat) : Int := max (part ka i) (part nu (i + 1))
/-- Upper end. -/
def hiB (nu ka : List Int) (i : Nat) : Int := if i = 0 then part nu 0 else min (part nu i) (part ka (i - 1))

/-- Reflection of the middle shape. -/
def mirror (nu ka mu : List Int) : List Int :=
  (List.range nu.length).map (fun i => loB nu ka i + hiB nu ka i - part mu i)

theorem part_map_range (n : Nat) (f : Nat → Int) (i : Nat) :
    part ((List.range n).map f) i = if i < n then f i else 0 := by
  unfold part
  split
  · rename_i h
    rw [List.getD_eq_getElem _ _ (by simpa using h)]; simp
  · rename_i h
    rw [List.getD_eq_default _ _ (by simpa using h)]

theorem middle_iff {nu mu ka : List Int} (hnu : IsPartition nu) :
    (mu ∈ strips nu ∧ ka ∈ strips mu) ↔ mu.length = nu.length ∧ ka.length = nu.length ∧ (∀ i, 0 ≤ part ka i) ∧
      (∀ i < nu.length, loB nu ka i ≤ part mu i ∧ part mu i ≤ hiB nu ka i) := by
  constructor
  · rintro ⟨hm, hk⟩
    have hp := strips_isPartition (strips_isPartition hnu hm) hk
    obtain ⟨h1, h2⟩ := mem_strips.1 hm
    obtain ⟨h3, h4⟩ := mem_strips.1 hk
    refine ⟨h1, by omega, fun i => hp.part_nonneg i, fun i hi => ?_⟩
    unfold loB hiB
    have a := h2 i
    have b := h4 i
    refine ⟨max_le (by omega) (by omega), ?_⟩
    split
    · rename_i e; subst e; omega
    · have c := h4 (i - 1)
      rw [show i - 1 + 1 = i by omega] at c
      exact le_min (by omega) (by omega)
  · rintro ⟨h1, h2, h0, h3⟩
    rw [mem_strips, mem_strips]
    have key : ∀ i, part nu (i + 1) ≤ part mu i ∧ part mu i ≤ part nu i ∧ part ka i ≤ part mu i ∧
        part mu (i + 1) ≤ part ka i := by
      intro i
      by_cases hi : i < nu.length
      · have a := h3 i hi
        unfold loB hiB at a
        have a1 := max_le_iff.1 a.1
        refine ⟨a1.2, ?_, a1.1, ?_⟩
        · have := a.2
          split at this
          · rename_i e; subst e; exact this
          · exact (le_min_iff.1 this).1
        · by_cases hi2 : i + 1 < nu.length
          · have b := (h3 (i + 1) hi2).2
            unfold hiB at b
            rw [if_neg (by omega)] at b
            exact (le_min_iff.1 b).2
          · rw [part_of_ge (l := mu) (by omega)]
            exact h0 i
      · rw [part_of_ge (l := nu) (i := i) (by omega), part_of_ge (l := nu) (by omega), part_of_ge (l := mu) (by omega),
          part_of_ge (l := ka) (by omega), part_of_ge (l := mu) (by omega)]
        simp
    exact ⟨⟨h1, fun i => ⟨(key i).1, (key i).2.1⟩⟩, by omega, fun i => ⟨(key i).2.2.2, (key i).2.2.1⟩⟩

theorem loB_hiB_sum {nu ka : List Int} (hl : ka.length = nu.length) (h0 : ∀ i, 0 ≤ part ka i) :
    ∑ i ∈ Finset.range nu.length, (loB nu ka i + hiB nu ka i) = nu.sum + ka.sum := by
  rw [sum_eq_range nu _ (le_refl _), sum_eq_range ka nu.length (by omega)]
  rcases hn : nu.length with _ | n
  · simp
  · rw [Finset.sum_add_distrib, Finset.sum_range_succ' (fun i => hiB nu ka i),
      Finset.sum_range_succ (fun i => loB nu ka i), Finset.sum_range_succ' (fun i => part nu i),
      Finset.sum_range_succ (fun i => part ka i)]
    have e0 : hiB nu ka 0 = part nu 0 := by simp [hiB]
    have en : loB nu ka n = part ka n := by
      unfold loB
      rw [part_of_ge (l := nu) (by omega)]
      exact max_eq_left (h0 n)
    have es : ∑ i ∈ Finset.range n, loB nu ka i + ∑ i ∈ Finset.range n, hiB nu ka (i + 1) =
        ∑ i ∈ Finset.range n, part nu (i + 1) + ∑ i ∈ Finset.range n, part ka i := by
      rw [← Finset.sum_add_distrib, ← Finset.sum_add_distrib]
      refine Finset.sum_congr rfl (fun i _ => ?_)
      simp only [loB, hiB, Nat.add_sub_cancel, if_neg (Nat.succ_ne_zero i)]
      rw [min_comm, max_add_min, add_comm]
    rw [e0, en]
    linarith

theorem mirror_sum {nu mu ka : List Int} (hl : ka.length = nu.length) (hm : mu.length = nu.length)
    (h0 : ∀ i, 0 ≤ part ka i) : (mirror nu ka mu).sum = nu.sum + ka.sum - mu.sum := by
  rw [← loB_hiB_sum hl h0, sum_eq_range (mirror nu ka mu) nu.length (by simp [mirror]),
    sum_eq_range mu nu.length (by omega), ← Finset.sum_sub_distrib]
  refine Finset.sum_congr rfl (fun i hi => ?_)
  rw [mirror, part_map_range, if_pos (Finset.mem_range.1 hi)]

theorem mirror_mem {nu mu ka : List Int} (hnu : IsPartition nu) (hm : mu ∈ strips nu) (hk : ka ∈ strips mu) :
    mirror nu ka mu ∈ strips nu ∧ ka ∈ strips (mirror nu ka mu) := by
  obtain ⟨h1, h2, h0, h3⟩ := (middle_iff hnu).1 ⟨hm, hk⟩
  refine (middle_iff hnu).2 ⟨by simp [mirror], h2, h0, fun i hi => ?_⟩
  rw [mirror, part_map_range, if_pos hi]
  have := h3 i hi
  omega

theorem mirror_mirror {nu mu ka : List Int} (hm : mu.length = nu.length) :
    mirror nu ka (mirror nu ka mu) = mu := by
  apply ext_part (by simp [mirror, hm])
  intro i
  rw [mirror, part_map_range]
  split
  · rename_i hi
    rw [mirror, part_map_range, if_pos hi]; omega
  · rw [part_of_ge (by omega)]

theorem double_sym {nu : List Int} (hnu : IsPartition nu) (F : List Int → R) (a b : R) :
    ∑ mu ∈ strips nu, a ^ (nu.sum - mu.sum).toNat * ∑ ka ∈ strips mu, b ^ (mu.sum - ka.sum).toNat * F ka =
    ∑ mu ∈ strips nu, b ^ (nu.sum - mu.sum).toNat * ∑ ka ∈ strips mu, a ^ (mu.sum - ka.sum).toNat * F ka := by
  simp only [Finset.mul_sum]
  rw [Finset.sum_sigma', Finset.sum_sigma']
  have hmem : ∀ p : (_ : List Int) × List Int, p ∈ (strips nu).sigma (fun mu => strips mu) ↔
      p.1 ∈ strips nu ∧ p.2 ∈ strips p.1 := fun p => Finset.mem_sigma
  refine Finset.sum_bij' (fun p _ => ⟨mirror nu p.2 p.1, p.2⟩) (fun p _ => ⟨mirror nu p.2 p.1, p.2⟩) ?_ ?_ ?_ ?_ ?_
  · intro p hp
    have h := (hmem p).1 hp
    exact Finset.mem_sigma.2 (mirror_mem hnu h.1 h.2)
  · intro p hp
    have h := (hmem p).1 hp
    exact Finset.mem_sigma.2 (mirror_mem hnu h.1 h.2)
  · rintro ⟨mu, ka⟩ hp
    have h := (hmem _).1 hp
    simp only [mirror_mirror (mem_strips.1 h.1).1]
  · rintro ⟨mu, ka⟩ hp
    have h := (hmem _).1 hp
    simp only [mirror_mirror (mem_strips.1 h.1).1]
  · rintro ⟨mu, ka⟩ hp
    have h := (hmem _).1 hp
    obtain ⟨h1, h2, h0, h3⟩ := (middle_iff hnu).1 h
    simp only [mirror_sum h2 h1 h0]
    have e1 : nu.sum - (nu.sum + ka.sum - mu.sum) = mu.sum - ka.sum := by ring
    have e2 : nu.sum + ka.sum - mu.sum - ka.sum = nu.sum - mu.sum := by ring
    rw [e1, e2, ← mul_assoc, ← mul_assoc, mul_comm (a ^ _)]

/-- Exchanging two neighbouring variables. -/
theorem tabSum_swap (m : Nat) : ∀ (nu : List Int), IsPartition nu → ∀ (x : Nat → R) (j : Nat), j + 1 < m →
    tabSum (x ∘ Equiv.swap j (j + 1)) m nu = tabSum x m nu := by
  induction m with
  | zero => intro _ _ _ j hj; omega
  | succ m ih =>
    intro nu hnu x j hj
    by_cases hjm : j + 1 < m
    · rw [branch hnu, branch hnu]
      refine Finset.sum_congr rfl (fun mu hmu => ?_)
      rw [ih mu (strips_isPartition hnu hmu) x j hjm, Function.comp_apply,
        Equiv.swap_apply_of_ne_of_ne (by omega) (by omega)]
    · have hm : m = j + 1 := by omega
      subst hm
      have hx : ∀ y : Nat → R, tabSum y (j + 1 + 1) nu = ∑ mu ∈ strips nu, y (j + 1) ^ (nu.sum - mu.sum).toNat *
          ∑ ka ∈ strips mu, y j ^ (mu.sum - ka.sum).toNat * tabSum y j ka := by
        intro y
        rw [branch hnu]
        refine Finset.sum_congr rfl (fun mu hmu => ?_)
        rw [branch (strips_isPartition hnu hmu)]
      rw [hx, hx, ← double_sym hnu]
      refine Finset.sum_congr rfl (fun mu hmu => ?_)
      simp only [Function.comp_apply, Equiv.swap_apply_left, Equiv.swap_apply_right]
      congr 1
      refine Finset.sum_congr rfl (fun ka hka => ?_)
      congr 1
      apply tabSum_congr (strips_isPartition (strips_isPartition hnu hmu) hka)
      intro i hi
      rw [Function.comp_apply, Equiv.swap_apply_of_ne_of_ne (by omega) (by omega)]

/-- The values `x` rearranged by a permutation of the first `n` indices. -/
def permute {n : Nat} (s : Equiv.Perm (Fin n)) (x : Nat → R) (i : Nat) : R :=
  if h : i < n then x (s ⟨i, h⟩) else x i

theorem tabSum_perm {n : Nat} (s : Equiv.Perm (Fin n)) {nu : List Int} (hnu : IsPartition nu) (x : Nat → R) :
    tabSum (permute s x) n nu = tabSum x n nu := by
  cases n with
  | zero => exact tabSum_congr hnu (fun i hi => by omega)
  | succ n =>
    have hs : s ∈ Submonoid.closure (Set.range fun i : Fin n => Equiv.swap i.castSucc i.succ) := by
      rw [Equiv.Perm.mclosure_swap_castSucc_succ]; trivial
    induction hs using Submonoid.closure_induction generalizing x with
    | mem t ht =>
      obtain ⟨i, rfl⟩ := ht
      rw [← tabSum_swap (n + 1) nu hnu x i (by omega)]
      apply tabSum_congr hnu
      intro j hj
      simp only [permute, dif_pos hj, Function.comp_apply]
      congr 1
      rw [Equiv.swap_apply_def, Equiv.swap_apply_def]
      simp only [Fin.ext_iff, Fin.val_castSucc, Fin.val_succ]
      split
      · simp
      · split <;> simp
    | one =>
      apply tabSum_congr hnu
      intro j hj
      simp [permute, hj]
    | mul s t _ _ hs ht =>
      rw [← hs x, ← ht (permute s x)]
      apply tabSum_congr hnu
      intro j hj
      have := (t ⟨j, hj⟩).2
      simp [permute, hj, this]

end

end Verif.SchurSym
