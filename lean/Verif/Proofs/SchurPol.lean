import Verif.Model.SchurPol
import Verif.Spec.Tableau
import Verif.Proofs.RimHook
import Mathlib.Algebra.BigOperators.Ring.Finset
import Mathlib.Algebra.BigOperators.Group.List.Lemmas
import Mathlib.Algebra.BigOperators.Group.Finset.Basic
/-!
# `SchurPol`: the recursion sums over tableaux
-/

namespace Verif
open Spec

section
variable {R : Type} [CommSemiring R] (x : Nat → R)

/-- `v` is the sum of the weights of all `T` with `P T`. -/
def Gen (P : List (List Nat) → Prop) (v : R) : Prop :=
  ∃ F : Finset (List (List Nat)), (∀ T, T ∈ F ↔ P T) ∧ v = ∑ T ∈ F, weight x T

variable {x}

theorem Gen.congr {P Q : List (List Nat) → Prop} {v : R} (h : Gen x P v) (hPQ : ∀ T, P T ↔ Q T) : Gen x Q v := by
  obtain ⟨F, h1, h2⟩ := h
  exact ⟨F, fun T => (h1 T).trans (hPQ T), h2⟩

theorem Gen.empty {P : List (List Nat) → Prop} (h : ∀ T, ¬ P T) : Gen x P 0 :=
  ⟨∅, fun T => by simp [h T], by simp⟩

theorem Gen.single {P : List (List Nat) → Prop} {T0 : List (List Nat)} (h : ∀ T, P T ↔ T = T0) :
    Gen x P (weight x T0) :=
  ⟨{T0}, fun T => by simp [h T], by simp⟩

theorem Gen.union {P Q : List (List Nat) → Prop} {v w : R} (hP : Gen x P v) (hQ : Gen x Q w)
    (hd : ∀ T, P T → ¬ Q T) : Gen x (fun T => P T ∨ Q T) (v + w) := by
  obtain ⟨F, h1, h2⟩ := hP
  obtain ⟨G, h3, h4⟩ := hQ
  classical
  refine ⟨F ∪ G, fun T => by rw [Finset.mem_union, h1, h3], ?_⟩
  rw [Finset.sum_union, h2, h4]
  rw [Finset.disjoint_left]
  intro T hT hG
  exact hd T ((h1 T).1 hT) ((h3 T).1 hG)

theorem Gen.map {P Q : List (List Nat) → Prop} {v c : R} (hP : Gen x P v)
    (f : List (List Nat) → List (List Nat)) (hf : ∀ T, Q T ↔ ∃ T', P T' ∧ f T' = T)
    (hinj : ∀ T T', P T → P T' → f T = f T' → T = T') (hw : ∀ T, P T → weight x (f T) = c * weight x T) :
    Gen x Q (c * v) := by
  obtain ⟨F, h1, h2⟩ := hP
  classical
  refine ⟨F.image f, fun T => ?_, ?_⟩
  · rw [Finset.mem_image, hf]
    constructor
    · rintro ⟨T', h, e⟩; exact ⟨T', (h1 T').1 h, e⟩
    · rintro ⟨T', h, e⟩; exact ⟨T', (h1 T').2 h, e⟩
  · rw [Finset.sum_image (fun T hT T' hT' e => hinj T T' ((h1 T).1 hT) ((h1 T').1 hT') e), h2, Finset.mul_sum]
    exact Finset.sum_congr rfl (fun T hT => (hw T ((h1 T).1 hT)).symm)

end

/-! ### Rows -/

theorem row_of_ge {T : List (List Nat)} {i : Nat} (h : T.length ≤ i) : row T i = [] :=
  List.getD_eq_default _ _ h

theorem row_of_lt {T : List (List Nat)} {i : Nat} (h : i < T.length) : row T i = T[i] :=
  List.getD_eq_getElem _ _ h

theorem row_set (T : List (List Nat)) (i j : Nat) (r : List Nat) (hi : i < T.length) :
    row (T.set i r) j = if j = i then r else row T j := by
  unfold row
  rw [List.getD_eq_getElem?_getD, List.getD_eq_getElem?_getD, List.getElem?_set]
  by_cases h : i = j
  · subst h; simp [hi]
  · rw [if_neg h, if_neg (fun h' => h h'.symm)]

theorem ext_row {T U : List (List Nat)} (hl : T.length = U.length) (h : ∀ i, row T i = row U i) : T = U := by
  apply List.ext_getElem hl
  intro i h1 h2
  have := h i
  rwa [row_of_lt h1, row_of_lt h2] at this

theorem weight_set {R : Type} [CommSemiring R] (x : Nat → R) (T : List (List Nat)) (i : Nat) (m : Nat)
    (hi : i < T.length) : weight x (T.set i (row T i ++ [m])) = x (m - 1) * weight x T := by
  unfold weight
  induction T generalizing i with
  | nil => simp at hi
  | cons r T ih =>
    cases i with
    | zero =>
      simp only [List.set_cons_zero, List.map_cons, List.prod_cons, row, List.getD_cons_zero,
        List.map_append, List.prod_append, List.map_nil, List.prod_nil, mul_one]
      rw [← mul_assoc, mul_comm _ (x (m - 1))]
    | succ i =>
      have := ih i (by simpa using hi)
      simp only [List.set_cons_succ, List.map_cons, List.prod_cons]
      have hr : row (r :: T) (i + 1) = row T i := by simp [row]
      rw [hr, this, ← mul_assoc, ← mul_assoc, mul_comm (List.prod _) (x (m - 1))]

/-- Tableaux with entries `≤ m` and no `m` in the first `r` rows. -/
def Tab (m r : Nat) (nu : List Int) (T : List (List Nat)) : Prop :=
  Tableau m nu T ∧ ∀ i < r, m ∉ row T i

/-- The first row that contains `m` is not among the first `r` ones. -/
def FirstGE (m r : Nat) (T : List (List Nat)) : Prop := (∀ i < r, m ∉ row T i) ∧ ∃ j, m ∈ row T j

theorem tableau_pred (m : Nat) (nu : List Int) (T : List (List Nat)) :
    Tableau m nu T ↔ Tableau (m + 1) nu T ∧ ∀ i, m + 1 ∉ row T i := by
  unfold Tableau
  constructor
  · rintro ⟨h1, h2, h3, h4, h5⟩
    refine ⟨⟨h1, h2, h3, fun i e he => ?_, h5⟩, fun i he => ?_⟩
    · have := h4 i e he; omega
    · have := h4 i _ he; omega
  · rintro ⟨⟨h1, h2, h3, h4, h5⟩, h6⟩
    refine ⟨h1, h2, h3, fun i e he => ?_, h5⟩
    have := h4 i e he
    have hne : e ≠ m + 1 := fun h => h6 i (h ▸ he)
    omega

/-- A row that contains the largest possible entry ends with it. -/
theorem getLast_of_mem {r : List Nat} {m : Nat} (hs : r.Pairwise (· ≤ ·)) (hb : ∀ e ∈ r, e ≤ m) (hm : m ∈ r) :
    ∃ s, r = s ++ [m] := by
  induction r using List.reverseRecOn with
  | nil => simp at hm
  | append_singleton s a _ =>
    refine ⟨s, ?_⟩
    rw [List.pairwise_append] at hs
    rcases List.mem_append.1 hm with h | h
    · have h1 := hs.2.2 m h a (by simp)
      have h2 := hb a (by simp)
      have : a = m := by omega
      rw [this]
    · simp at h; rw [h]

theorem entry_lt {T : List (List Nat)} {i j : Nat} (h : j < (row T i).length) : entry T i j = (row T i)[j] :=
  List.getD_eq_getElem _ _ h

/-- Entries in the first column grow at least by one per row. -/
theorem tableau_first_col {m : Nat} {nu : List Int} {T : List (List Nat)} (h : Tableau m nu T)
    (hnu : IsPartition nu) (i : Nat) (hi : 0 < part nu i) : i + 1 ≤ entry T i 0 := by
  obtain ⟨_, h2, _, h4, h5⟩ := h
  induction i with
  | zero =>
    have hl := h2 0
    have hp : 0 < (row T 0).length := by omega
    rw [entry_lt hp]
    exact (h4 0 _ (List.getElem_mem hp)).1
  | succ i ih =>
    have h1 := hnu.part_anti (i := i) (j := i + 1) (by omega)
    have := ih (by omega)
    have hl := h2 (i + 1)
    have := h5 i 0 (by omega)
    omega

/-- Removing and adding the last `m` of the first row containing `m`. -/
theorem addBox {m r : Nat} {nu : List Int} (hnu : IsPartition nu) (hr : r < nu.length) (hpos : 0 < part nu r)
    (hlt : part nu (r + 1) < part nu r) (hm : 1 ≤ m) (T : List (List Nat)) :
    (Tab m r nu T ∧ m ∈ row T r) ↔
      ∃ T', Tab m r (nu.set r (part nu r - 1)) T' ∧ T'.set r (row T' r ++ [m]) = T := by
  constructor
  · rintro ⟨⟨⟨h1, h2, h3, h4, h5⟩, h6⟩, h7⟩
    obtain ⟨s, hs⟩ := getLast_of_mem (h3 r) (fun e he => (h4 r e he).2) h7
    have hrT : r < T.length := by omega
    have hlen : (s.length : Int) + 1 = part nu r := by
      have := h2 r; rw [hs] at this; simpa using this
    refine ⟨T.set r s, ⟨⟨?_, ?_, ?_, ?_, ?_⟩, ?_⟩, ?_⟩
    · simpa using h1
    · intro i
      rw [row_set _ _ _ _ hrT, part_set _ _ _ _ hr]
      split
      · omega
      · exact h2 i
    · intro i
      rw [row_set _ _ _ _ hrT]
      split
      · have := h3 r; rw [hs, List.pairwise_append] at this; exact this.1
      · exact h3 i
    · intro i e he
      rw [row_set _ _ _ _ hrT] at he
      split at he
      · exact h4 r e (by rw [hs]; simp [he])
      · exact h4 i e he
    · intro i j hj
      have hent : ∀ i j, j < (row (T.set r s) i).length → entry (T.set r s) i j = entry T i j := by
        intro i j hj
        unfold entry
        rw [row_set _ _ _ _ hrT] at hj ⊢
        split
        · rename_i e; subst e
          rw [if_pos rfl] at hj
          rw [hs, List.getD_append _ _ _ _ hj]
        · rfl
      have hij : j < (row (T.set r s) i).length := by
        rw [row_set _ _ _ _ hrT] at hj ⊢
        split
        · rename_i e; subst e
          rw [if_neg (by omega)] at hj
          have := h2 (i + 1); omega
        · have a1 := h2 i
          have a2 := hnu.part_anti (i := i) (j := i + 1) (by omega)
          split at hj
          · rename_i e; subst e; omega
          · have := h2 (i + 1); omega
      rw [hent _ _ hj, hent _ _ hij]
      apply h5
      rw [row_set _ _ _ _ hrT] at hj
      split at hj
      · rename_i e
        rw [e, hs]; simp; omega
      · exact hj
    · intro i hi
      rw [row_set _ _ _ _ hrT, if_neg (by omega)]
      exact h6 i hi
    · apply ext_row (by simp)
      intro i
      rw [row_set _ _ _ _ (by simpa using hrT), row_set _ _ _ _ hrT, if_pos rfl, row_set _ _ _ _ hrT]
      split
      · rename_i e; subst e; exact hs.symm
      · rfl
  · rintro ⟨T', ⟨⟨h1, h2, h3, h4, h5⟩, h6⟩, rfl⟩
    have hrT : r < T'.length := by rw [h1]; simpa using hr
    have hlen : ((row T' r).length : Int) = part nu r - 1 := by
      rw [h2 r, part_set _ _ _ _ hr, if_pos rfl]
    have hrow : ∀ i, row (T'.set r (row T' r ++ [m])) i = if i = r then row T' r ++ [m] else row T' i :=
      fun i => row_set _ _ _ _ hrT
    have hlen2 : ∀ i, i ≠ r → ((row T' i).length : Int) = part nu i := by
      intro i hi; rw [h2 i, part_set _ _ _ _ hr, if_neg hi]
    refine ⟨⟨⟨?_, ?_, ?_, ?_, ?_⟩, ?_⟩, ?_⟩
    · simpa using h1
    · intro i
      rw [hrow]
      split
      · rename_i e; subst e; rw [List.length_append]; simp; omega
      · rename_i e; exact hlen2 i e
    · intro i
      rw [hrow]
      split
      · rw [List.pairwise_append]
        refine ⟨h3 r, by simp, ?_⟩
        intro a ha b hb
        simp at hb; subst hb
        exact (h4 r a ha).2
      · exact h3 i
    · intro i e he
      rw [hrow] at he
      split at he
      · rcases List.mem_append.1 he with he | he
        · exact h4 r e he
        · simp at he; omega
      · exact h4 i e he
    · intro i j hj
      have ent1 : ∀ i j, i ≠ r → entry (T'.set r (row T' r ++ [m])) i j = entry T' i j := by
        intro i j hi; unfold entry; rw [hrow, if_neg hi]
      have ent2 : ∀ j, j < (row T' r).length → entry (T'.set r (row T' r ++ [m])) r j = entry T' r j := by
        intro j hj; unfold entry; rw [hrow, if_pos rfl, List.getD_append _ _ _ _ hj]
      rw [hrow] at hj
      by_cases e1 : i + 1 = r
      · rw [if_pos e1] at hj
        rw [ent1 i j (by omega), e1]
        simp only [List.length_append, List.length_singleton] at hj
        by_cases hjl : j < (row T' r).length
        · rw [ent2 j hjl, ← e1]
          apply h5; rw [e1]; exact hjl
        · have hjl' : j = (row T' r).length := by omega
          have hval : entry (T'.set r (row T' r ++ [m])) r j = m := by
            unfold entry; rw [hrow, if_pos rfl, hjl']; simp
          rw [hval]
          have a1 := hlen2 i (by omega)
          have a2 := hnu.part_anti (i := i) (j := r) (by omega)
          have hjr : j < (row T' i).length := by omega
          rw [entry_lt hjr]
          have hmem := List.getElem_mem hjr
          have b1 := (h4 i _ hmem).2
          have b2 : (row T' i)[j] ≠ m := fun h => h6 i (by omega) (h ▸ hmem)
          omega
      · rw [if_neg e1] at hj
        rw [ent1 (i + 1) j e1]
        by_cases e2 : i = r
        · subst e2
          have a1 := hlen2 (i + 1) e1
          have hjl : j < (row T' i).length := by omega
          rw [ent2 j hjl]
          exact h5 i j hj
        · rw [ent1 i j e2]
          exact h5 i j hj
    · intro i hi
      rw [hrow, if_neg (by omega)]
      exact h6 i hi
    · rw [hrow, if_pos rfl]; simp

/-- If the row below is as long, the first row containing `m` cannot be this one. -/
theorem no_box {m r : Nat} {nu : List Int} (hpos : 0 < part nu r) (heq : part nu (r + 1) = part nu r)
    (T : List (List Nat)) : ¬ (Tab m r nu T ∧ m ∈ row T r) := by
  rintro ⟨⟨⟨h1, h2, h3, h4, h5⟩, h6⟩, h7⟩
  obtain ⟨s, hs⟩ := getLast_of_mem (h3 r) (fun e he => (h4 r e he).2) h7
  have a1 := h2 r
  have a2 := h2 (r + 1)
  have hl : s.length < (row T (r + 1)).length := by
    rw [hs] at a1; simp at a1; omega
  have h := h5 r s.length hl
  have e1 : entry T r s.length = m := by unfold entry; rw [hs]; simp
  rw [e1, entry_lt hl] at h
  have := (h4 (r + 1) _ (List.getElem_mem hl)).2
  omega

/-! ### The recursion -/

section
variable {R : Type} [CommSemiring R] {x : Nat → R}

theorem isPartition_setPred {nu : List Int} (hnu : IsPartition nu) {r : Nat} (hr : r < nu.length)
    (hpos : 0 < part nu r) (hlt : part nu (r + 1) < part nu r) : IsPartition (nu.set r (part nu r - 1)) := by
  apply isPartition_of_part
  intro i
  have h0 := hnu.part_anti (i := i) (j := i + 1) (by omega)
  rw [part_set _ _ _ _ hr, part_set _ _ _ _ hr]
  split
  · rename_i e; split
    · omega
    · rw [← e]; omega
  · split
    · rename_i e; subst e; omega
    · exact h0

theorem schLoop_gen (g : Nat → Nat → List Int → Option R) (m k : Nat) (nu : List Int) (hnu : IsPartition nu)
    (hm : 2 ≤ m) (hk : 1 ≤ k)
    (hg : ∀ r, k ≤ r + 1 → r < nu.length → 0 < part nu r → part nu (r + 1) < part nu r →
      (1 < part nu r → ∃ v, g m (r + 1) (nu.set r (part nu r - 1)) = some v ∧
        Gen x (Tab m r (nu.set r (part nu r - 1))) v) ∧
      (part nu r = 1 → ∃ v, g (m - 1) 1 (nu.set r (part nu r - 1)) = some v ∧
        Gen x (Tableau (m - 1) (nu.set r (part nu r - 1))) v))
    (c : Nat) : ∀ (r : Nat) (s : R), k ≤ r + 1 → c + r = nu.length ∨ (c = 0 ∧ nu.length ≤ r) →
    Gen x (fun T => Tab m (k - 1) nu T ∧ ¬ FirstGE m r T) s →
    ∃ v, schLoop x g m nu c (r + 1) s = some v ∧ Gen x (Tab m (k - 1) nu) v := by
  induction c with
  | zero =>
    intro r s hkr hc hs
    refine ⟨s, rfl, hs.congr (fun T => ⟨fun h => h.1, fun h => ⟨h, ?_⟩⟩)⟩
    rintro ⟨f1, j, hj⟩
    by_cases hjr : j < r
    · exact f1 j hjr hj
    · rw [row_of_ge (by rw [h.1.1]; omega)] at hj
      simp at hj
  | succ c ih =>
    intro r s hkr hc hs
    have hr : r < nu.length := by omega
    simp only [schLoop, Nat.add_sub_cancel, at'_eq_part]
    by_cases hpos : part nu r > 0
    · rw [if_pos hpos]
      have h0 := hnu.part_anti (i := r) (j := r + 1) (by omega)
      -- splitting off the tableaux whose first `m` is in row `r`
      have hsplit : ∀ T, (Tab m (k - 1) nu T ∧ ¬ FirstGE m (r + 1) T) ↔
          ((Tab m (k - 1) nu T ∧ ¬ FirstGE m r T) ∨ (Tab m r nu T ∧ m ∈ row T r)) := by
        intro T
        constructor
        · rintro ⟨h1, h2⟩
          by_cases hf : FirstGE m r T
          · right
            refine ⟨⟨h1.1, hf.1⟩, ?_⟩
            by_contra hn
            apply h2
            refine ⟨fun i hi => ?_, hf.2⟩
            by_cases hir : i = r
            · subst hir; exact hn
            · exact hf.1 i (by omega)
          · left; exact ⟨h1, hf⟩
        · rintro (⟨h1, h2⟩ | ⟨h1, h2⟩)
          · exact ⟨h1, fun h => h2 ⟨fun i hi => h.1 i (by omega), h.2⟩⟩
          · exact ⟨⟨h1.1, fun i hi => h1.2 i (by omega)⟩, fun h => h.1 r (by omega) h2⟩
      have hdisj : ∀ T, (Tab m (k - 1) nu T ∧ ¬ FirstGE m r T) → ¬ (Tab m r nu T ∧ m ∈ row T r) := by
        rintro T ⟨_, h2⟩ ⟨h3, h4⟩
        exact h2 ⟨h3.2, r, h4⟩
      by_cases hlt : part nu (r + 1) < part nu r
      · rw [if_pos (Or.inr hlt)]
        obtain ⟨g1, g2⟩ := hg r hkr hr hpos hlt
        have key : ∃ t, (if part nu r > 1 then g m (r + 1) (nu.set r (part nu r - 1))
            else g (m - 1) 1 (nu.set r (part nu r - 1))) = some t ∧
            Gen x (Tab m r (nu.set r (part nu r - 1))) t := by
          by_cases h1 : part nu r > 1
          · rw [if_pos h1]; exact g1 h1
          · rw [if_neg h1]
            obtain ⟨v, hv1, hv2⟩ := g2 (by omega)
            refine ⟨v, hv1, hv2.congr (fun T => ?_)⟩
            have hm' : m = m - 1 + 1 := by omega
            rw [tableau_pred, ← hm']
            unfold Tab
            constructor
            · rintro ⟨h1, h2⟩; exact ⟨h1, fun i _ => h2 i⟩
            · rintro ⟨h1, h2⟩
              refine ⟨h1, fun i => ?_⟩
              by_cases hir : i < r
              · exact h2 i hir
              · have hl := h1.2.1 i
                rw [part_set _ _ _ _ hr] at hl
                have : (row T i).length = 0 := by
                  split at hl
                  · omega
                  · have := hnu.part_anti (i := r + 1) (j := i) (by omega)
                    have := hnu.part_nonneg i
                    omega
                rw [List.length_eq_zero_iff.1 this]; simp
        obtain ⟨t, ht1, ht2⟩ := key
        rw [ht1]
        simp only
        have hmap : Gen x (fun T => Tab m r nu T ∧ m ∈ row T r) (x (m - 1) * t) := by
          refine Gen.map ht2 (fun T' => T'.set r (row T' r ++ [m]))
            (fun T => addBox hnu hr hpos hlt (by omega) T) ?_ ?_
          · intro T T' hT hT' he
            have hlT : r < T.length := by rw [hT.1.1]; simpa using hr
            have hlT' : r < T'.length := by rw [hT'.1.1]; simpa using hr
            apply ext_row
            · rw [hT.1.1, hT'.1.1]
            · intro i
              have := congrArg (fun U => row U i) he
              simp only [row_set _ _ _ _ hlT, row_set _ _ _ _ hlT'] at this
              split at this
              · rename_i e; subst e
                exact List.append_cancel_right this
              · exact this
          · intro T hT
            exact weight_set x T r m (by rw [hT.1.1]; simpa using hr)
        exact ih (r + 1) _ (by omega) (by omega) ((hs.union hmap hdisj).congr (fun T => (hsplit T).symm))
      · have heq : part nu (r + 1) = part nu r := by omega
        have hlen : nu.length ≠ r + 1 := by
          intro h
          rw [part_of_ge (l := nu) (i := r + 1) (by omega)] at heq
          omega
        rw [if_neg (by rintro (h | h); exacts [hlen h, hlt h])]
        refine ih (r + 1) _ (by omega) (by omega) (hs.congr (fun T => ?_))
        rw [hsplit]
        constructor
        · exact Or.inl
        · rintro (h | h)
          · exact h
          · exact absurd h (no_box hpos heq T)
    · rw [if_neg hpos]
      refine ⟨s, rfl, hs.congr (fun T => ⟨fun h => h.1, fun h => ⟨h, ?_⟩⟩)⟩
      rintro ⟨f1, j, hj⟩
      by_cases hjr : j < r
      · exact f1 j hjr hj
      · have hl := h.1.2.1 j
        have := hnu.part_anti (i := r) (j := j) (by omega)
        have : (row T j).length = 0 := by omega
        rw [List.length_eq_zero_iff.1 this] at hj
        simp at hj

theorem tableau_unique_empty {m : Nat} {nu : List Int} (h : ∀ i, part nu i = 0) (T : List (List Nat)) :
    Tableau m nu T ↔ T = List.replicate nu.length [] := by
  have hrow : ∀ i, row (List.replicate nu.length ([] : List Nat)) i = [] := by
    intro i
    unfold row
    by_cases hi : i < nu.length
    · rw [List.getD_eq_getElem _ _ (by simpa using hi)]; simp
    · rw [List.getD_eq_default _ _ (by simpa using hi)]
  constructor
  · rintro ⟨h1, h2, _⟩
    apply ext_row (by simpa using h1)
    intro i
    have := h2 i
    rw [h i] at this
    rw [hrow i]
    exact List.length_eq_zero_iff.1 (by omega)
  · rintro rfl
    refine ⟨by simp, ?_, ?_, ?_, ?_⟩
    · intro i; rw [hrow i, h i]; rfl
    · intro i; rw [hrow i]; simp
    · intro i e he; rw [hrow i] at he; simp at he
    · intro i j hj; rw [hrow] at hj; simp at hj

theorem weight_replicate_nil (n : Nat) : weight x (List.replicate n []) = 1 := by
  simp [weight]

/-- The whole recursion sums over the tableaux. -/
theorem sch_gen (f : Nat) : ∀ (m k : Nat) (nu : List Int), IsPartition nu → 1 ≤ m → 1 ≤ k →
    (m = 1 → k = 1) → (m : Int) + nu.sum < f →
    ∃ v, sch x f m k nu = some v ∧ Gen x (Tab m (k - 1) nu) v := by
  induction f with
  | zero =>
    intro m k nu hnu hm _ _ hf
    exfalso
    have : 0 ≤ nu.sum := by
      have h2 := hnu.2
      clear hf hnu
      induction nu with
      | nil => simp
      | cons a nu ih =>
        have := ih (fun x hx => h2 x (by simp [hx]))
        have := h2 a (by simp)
        rw [List.sum_cons]; omega
    push_cast at hf; omega
  | succ f ih =>
    intro m k nu hnu hm hk hmk hf
    simp only [sch]
    by_cases h0 : nu.length = 0 ∨ at' nu 0 = 0 ∨ m = 0
    · rw [if_pos h0]
      simp only [at'_eq_part] at h0
      have hz : ∀ i, part nu i = 0 := by
        intro i
        rcases h0 with h | h | h
        · exact part_of_ge (by omega)
        · have := hnu.part_anti (i := 0) (j := i) (by omega)
          have := hnu.part_nonneg i
          omega
        · omega
      refine ⟨1, rfl, ?_⟩
      rw [← weight_replicate_nil (x := x) nu.length]
      apply Gen.single
      intro T
      unfold Tab
      rw [tableau_unique_empty hz]
      constructor
      · exact fun h => h.1
      · rintro rfl
        refine ⟨rfl, fun i _ hi => ?_⟩
        have h2 := ((tableau_unique_empty (m := m) hz (List.replicate nu.length [])).2 rfl).2.1 i
        rw [hz i] at h2
        have h3 : (row (List.replicate nu.length ([] : List Nat)) i).length = 0 := by omega
        rw [List.length_eq_zero_iff.1 h3] at hi
        simp at hi
    · rw [if_neg h0]
      simp only [at'_eq_part] at h0
      have hp0 : 0 < part nu 0 := by
        have := hnu.part_nonneg 0
        by_contra hc
        exact h0 (Or.inr (Or.inl (by omega)))
      by_cases hlong : nu.length > m ∧ at' nu m > 0
      · rw [if_pos hlong]
        simp only [at'_eq_part] at hlong
        refine ⟨0, rfl, Gen.empty ?_⟩
        rintro T ⟨hT, _⟩
        have h1 := tableau_first_col hT hnu m hlong.2
        have hl := hT.2.1 m
        have hjl : 0 < (row T m).length := by omega
        rw [entry_lt hjl] at h1
        have := (hT.2.2.2.1 m _ (List.getElem_mem hjl)).2
        omega
      · rw [if_neg hlong]
        simp only [at'_eq_part] at hlong ⊢
        by_cases hm1 : m = 1
        · rw [if_pos hm1]
          have hk1 := hmk hm1
          subst hm1; subst hk1
          have hp1 : ∀ i, 1 ≤ i → part nu i = 0 := by
            intro i hi
            have a1 := hnu.part_anti (i := 1) (j := i) hi
            have a2 := hnu.part_nonneg i
            by_cases hl : nu.length > 1
            · have : ¬ part nu 1 > 0 := fun h => hlong ⟨hl, h⟩
              omega
            · rw [part_of_ge (by omega)]
          refine ⟨_, rfl, ?_⟩
          have hlen : 0 < nu.length := by
            by_contra hc
            exact h0 (Or.inl (by omega))
          have hrow : ∀ i, row (List.replicate (part nu 0).toNat 1 :: List.replicate (nu.length - 1) []) i =
              if i = 0 then List.replicate (part nu 0).toNat 1 else [] := by
            intro i
            cases i with
            | zero => simp [row]
            | succ i =>
              simp only [row, List.getD_cons_succ]
              rw [if_neg (by omega)]
              by_cases hi : i < nu.length - 1
              · rw [List.getD_eq_getElem _ _ (by simpa using hi)]; simp
              · rw [List.getD_eq_default _ _ (by simpa using hi)]
          have hw : x 0 ^ (part nu 0).toNat =
              weight x (List.replicate (part nu 0).toNat 1 :: List.replicate (nu.length - 1) []) := by
            have := weight_replicate_nil (x := x) (nu.length - 1)
            unfold weight at this ⊢
            rw [List.map_cons, List.prod_cons, this]
            simp
          rw [hw]
          apply Gen.single
          intro T
          constructor
          · rintro ⟨⟨h1, h2, h3, h4, h5⟩, _⟩
            apply ext_row
            · simp; omega
            · intro i
              rw [hrow]
              split
              · rename_i e; subst e
                have := h2 0
                rw [List.eq_replicate_iff]
                refine ⟨by omega, fun e he => ?_⟩
                have := h4 0 e he; omega
              · have := h2 i
                rw [hp1 i (by omega)] at this
                exact List.length_eq_zero_iff.1 (by omega)
          · rintro rfl
            refine ⟨⟨?_, ?_, ?_, ?_, ?_⟩, fun i hi => by omega⟩
            · simp; omega
            · intro i
              rw [hrow]
              split
              · rename_i e; subst e; simp; omega
              · rw [hp1 i (by omega)]; rfl
            · intro i; rw [hrow]
              split
              · exact List.pairwise_replicate.2 (Or.inr (le_refl _))
              · simp
            · intro i e he; rw [hrow] at he
              split at he
              · have := (List.mem_replicate.1 he).2; omega
              · simp at he
            · intro i j hj
              rw [hrow, if_neg (by omega)] at hj; simp at hj
        · rw [if_neg hm1]
          have hm2 : 2 ≤ m := by omega
          obtain ⟨s, hs1, hs2⟩ := ih (m - 1) 1 nu hnu (by omega) (by omega) (fun _ => rfl) (by push_cast at hf; omega)
          rw [hs1]
          simp only
          have hm' : m = m - 1 + 1 := by omega
          have hstart : Gen x (fun T => Tab m (k - 1) nu T ∧ ¬ FirstGE m (k - 1) T) s := by
            refine hs2.congr (fun T => ?_)
            have : Tab (m - 1) (1 - 1) nu T ↔ Tableau (m - 1) nu T :=
              ⟨fun h => h.1, fun h => ⟨h, fun i hi => by omega⟩⟩
            rw [this, tableau_pred, ← hm']
            constructor
            · rintro ⟨h1, h2⟩
              exact ⟨⟨h1, fun i _ => h2 i⟩, fun ⟨_, j, hj⟩ => h2 j hj⟩
            · rintro ⟨⟨h1, h2⟩, h3⟩
              refine ⟨h1, fun i hi => h3 ⟨h2, i, hi⟩⟩
          have hloop := schLoop_gen (x := x) (sch x f) m k nu hnu hm2 hk ?_ (nu.length + 1 - k) (k - 1) s
            (by omega) (by omega) hstart
          · rwa [show k - 1 + 1 = k by omega] at hloop
          · intro r hkr hr hpos hlt
            have hnu' := isPartition_setPred hnu hr hpos hlt
            have hsum : (nu.set r (part nu r - 1)).sum = nu.sum - 1 := by
              rw [sum_set_part _ _ _ hr]; omega
            refine ⟨fun _ => ?_, fun _ => ?_⟩
            · have := ih m (r + 1) _ hnu' hm (by omega) (fun h => absurd h hm1)
                (by rw [hsum]; push_cast at hf; omega)
              simpa using this
            · obtain ⟨v, hv1, hv2⟩ := ih (m - 1) 1 _ hnu' (by omega) (by omega) (fun _ => rfl)
                (by rw [hsum]; push_cast at hf; omega)
              exact ⟨v, hv1, hv2.congr (fun T => ⟨fun h => h.1, fun h => ⟨h, fun i hi => by omega⟩⟩)⟩

end

end Verif
