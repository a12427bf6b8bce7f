import Verif.Proofs.WordPieri
/-!
# Words and classes: the bijection
-/

namespace Verif
open Spec

theorem shapeW_first {k0 r0 : Nat} {u : List L3} {x : Int} {l : List Int} (h : shapeW k0 r0 u = x :: l) :
    x ≤ u.length + colsW k0 u := by
  have := (inBoxW k0 r0 u).cols
  rw [h] at this
  exact this

theorem shapeW_nonneg (k0 r0 : Nat) (u : List L3) : ∀ x ∈ shapeW k0 r0 u, 0 ≤ x := (inBoxW k0 r0 u).isPart.2

theorem shapeW_inj (k0 r0 : Nat) : ∀ u w : List L3, u.length = w.length → colsW k0 u = colsW k0 w →
    shapeW k0 r0 u = shapeW k0 r0 w → u = w := by
  have oa : ∀ u w : List L3, u.length = w.length → colsW k0 (.o :: u) = colsW k0 (.a :: w) →
      shapeW k0 r0 (.o :: u) = shapeW k0 r0 (.a :: w) → False := by
    intro u w hl hc h
    simp only [shapeW, colsW] at h hc
    rcases hs : shapeW k0 r0 u with _ | ⟨x, l⟩
    · rw [hs] at h; simp at h
    · rw [hs] at h
      simp only [List.map_cons, List.cons.injEq] at h
      have := shapeW_first hs
      omega
  have ob : ∀ u w : List L3, shapeW k0 r0 (.o :: u) = shapeW k0 r0 (.b :: w) → False := by
    intro u w h
    simp only [shapeW] at h
    have h0 : (0 : Int) ∈ (shapeW k0 r0 u).map (· + 1) := by rw [h]; simp
    rw [List.mem_map] at h0
    obtain ⟨x, hx, h1⟩ := h0
    have := shapeW_nonneg k0 r0 u x hx
    omega
  have ab : ∀ u w : List L3, u.length = w.length → colsW k0 (.a :: u) = colsW k0 (.b :: w) →
      shapeW k0 r0 (.a :: u) = shapeW k0 r0 (.b :: w) → False := by
    intro u w hl hc h
    simp only [shapeW, colsW] at h hc
    rcases hs : shapeW k0 r0 w with _ | ⟨x, l⟩
    · rw [hs] at h; simp at h; omega
    · rw [hs] at h
      simp only [List.cons_append, List.cons.injEq] at h
      have := shapeW_first hs
      omega
  intro u
  induction u with
  | nil => intro w hl _ _; exact (List.length_eq_zero_iff.1 (by simpa using hl.symm)).symm
  | cons p u ih =>
    intro w hl hc h
    cases w with
    | nil => simp at hl
    | cons q w =>
      have hL : u.length = w.length := by simpa using hl
      cases p <;> cases q
      · rw [ih w hL (by simpa [colsW] using hc) ?_]
        simp only [shapeW] at h
        exact (List.map_injective_iff.2 (fun a b hab => by simpa using hab)) h
      · exact (oa u w hL hc h).elim
      · exact (ob u w h).elim
      · exact (oa w u hL.symm hc.symm h.symm).elim
      · rw [ih w hL (by simpa [colsW] using hc) ?_]
        simp only [shapeW, List.cons.injEq] at h
        exact h.2
      · exact (ab u w hL hc h).elim
      · exact (ob w u h.symm).elim
      · exact (ab w u hL.symm hc.symm h.symm).elim
      · rw [ih w hL (by simpa [colsW] using hc) ?_]
        simp only [shapeW] at h
        exact List.append_left_injective _ h

theorem strict_head {l : List Int} (h : IsPartition l) (hs : KStrict 0 l) (i : Nat) (hi : 1 ≤ part l i) :
    part l i + i ≤ part l 0 := by
  rw [kstrict_part (le_refl _) h] at hs
  induction i with
  | zero => simp
  | succ i ih =>
    have h1 := h.part_anti (show i ≤ i + 1 by omega)
    have h2 := ih (by omega)
    have h3 := hs i (by omega)
    push_cast
    omega

theorem shapeW_surj : ∀ (n k : Nat) (l : List Int), k ≤ n → IsPartition l → KStrict k l → l.length + k = n →
    part l 0 ≤ n + k → ∃ u : List L3, u.length = n ∧ colsW 0 u = k ∧ shapeW 0 0 u = l := by
  intro n
  induction n with
  | zero =>
    intro k l hk hp hs hl h0
    refine ⟨[], rfl, by simp [colsW]; omega, ?_⟩
    have : l = [] := List.length_eq_zero_iff.1 (by omega)
    simp [shapeW, this]
  | succ n ih =>
    intro k l hk hp hs hl h0
    have hpk := (kstrict_part (k := k) (by omega) hp).1 hs
    rcases l.eq_nil_or_concat with rfl | ⟨l', y, rfl⟩
    · simp at hl
      obtain ⟨u, hu, hc, he⟩ := ih n [] (le_refl _) ⟨by simp, by simp⟩ (by unfold KStrict; simp) (by simp) (by simp [part])
      exact ⟨.o :: u, by simp [hu], by simp [colsW, hc, hl], by simp [shapeW, he]⟩
    · rw [List.concat_eq_append] at *
      by_cases hx : part (l' ++ [y]) 0 = (n + 1 : Nat) + k
      · rcases hl' : l' ++ [y] with _ | ⟨x, t⟩
        · simp at hl'
        · rw [hl'] at hp hs hl h0 hpk hx
          have hx : x = (n + 1 : Nat) + k := hx
          have htp : IsPartition t := ⟨hp.1.tail, fun z hz => hp.2 z (by simp [hz])⟩
          have hpt : ∀ i, part t i = part (x :: t) (i + 1) := fun i => rfl
          obtain ⟨u, hu, hc, he⟩ := ih k t (by simp at hl; omega) htp
            ((kstrict_part (by omega) htp).2 (fun i hi => by rw [hpt] at hi ⊢; rw [hpt]; exact hpk (i + 1) hi))
            (by simp at hl; omega) (by
              have := hpk 0 (by show (k : Int) < x; omega)
              have e : part (x :: t) 0 = x := rfl
              rw [hpt]; omega)
          refine ⟨.a :: u, by simp [hu], by simp [colsW, hc], ?_⟩
          simp only [shapeW, hu, hc, he]
          rw [hx]; push_cast; congr 1; ring
      · by_cases hy : y = 0
        · subst hy
          have hpp : ∀ i, part (l' ++ [0]) i = part l' i := fun i => by
            simpa using part_append_zeros l' 1 i
          have hlp : IsPartition l' := ⟨(List.pairwise_append.1 hp.1).1, fun z hz => hp.2 z (by simp [hz])⟩
          obtain ⟨u, hu, hc, he⟩ := ih k l' (by simp at hl; omega) hlp
            ((kstrict_part (by omega) hlp).2 (fun i hi => by rw [← hpp] at hi ⊢; rw [← hpp]; exact hpk i hi))
            (by simp at hl; omega) (by rw [← hpp]; omega)
          exact ⟨.b :: u, by simp [hu], by simp [colsW, hc], by simp only [shapeW, he]⟩
        · have hge : ∀ z ∈ l' ++ [y], 1 ≤ z := by
            intro z hz
            have h1 : 0 ≤ y := hp.2 y (by simp)
            rcases List.mem_append.1 hz with hz | hz
            · have := (List.pairwise_append.1 hp.1).2.2 z hz y (by simp); omega
            · have : z = y := by simpa using hz
              omega
          have hk0 : k ≠ 0 := by
            rintro rfl
            have hlen : l'.length = n := by simp at hl; omega
            have e : part (l' ++ [y]) n = y := by
              unfold part
              rw [List.getD_eq_getElem _ _ (by simp; omega), List.getElem_append_right (by omega)]
              simp
            have := strict_head hp hs n (by rw [e]; exact hge y (by simp))
            rw [e] at this
            have := hge y (by simp)
            push_cast at hx h0
            omega
          obtain ⟨k', rfl⟩ : ∃ k', k = k' + 1 := ⟨k - 1, by omega⟩
          set L := l' ++ [y] with hL
          have hmp : (L.map (fun z => z - 1)).map (· + 1) = L := by
            rw [List.map_map]
            conv_rhs => rw [← List.map_id L]
            apply List.map_congr_left
            intro z _
            simp
          have hLp : IsPartition (L.map (fun z => z - 1)) := by
            refine ⟨?_, ?_⟩
            · rw [List.pairwise_map]; exact hp.1.imp (fun h => by omega)
            · intro z hz
              rw [List.mem_map] at hz
              obtain ⟨z', hz', rfl⟩ := hz
              have := hge z' hz'; omega
          have hpp : ∀ i, i < L.length → part L i = part (L.map (fun z => z - 1)) i + 1 := by
            intro i hi
            have := part_map_succ (L.map (fun z => z - 1)) i
            rw [hmp, if_pos (by simpa using hi)] at this
            exact this
          obtain ⟨u, hu, hc, he⟩ := ih k' (L.map (fun z => z - 1)) (by omega) hLp
            ((kstrict_part (by omega) hLp).2 (fun i hi => by
              by_cases hi1 : i + 1 < L.length
              · have e1 := hpp i (by omega)
                have e2 := hpp (i + 1) hi1
                have := hpk i (by push_cast; omega)
                omega
              · rw [part_of_ge (by simp; omega)]
                omega))
            (by simp; omega) (by
              have := hpp 0 (by rw [hL]; simp)
              push_cast at h0 hx ⊢; omega)
          exact ⟨.o :: u, by simp [hu], by simp [colsW, hc], by simp only [shapeW, he, hmp]⟩

theorem labW_inj {u w : List L3} (hl : u.length = w.length) (hc : colsW 0 u = colsW 0 w) (h : labW u = labW w) : u = w := by
  apply shapeW_inj 0 0 u w hl hc
  have r1 := rows_add_cols 0 0 u
  have r2 := rows_add_cols 0 0 w
  have hlen : (shapeW 0 0 u).length = (shapeW 0 0 w).length := by rw [shapeW_length, shapeW_length]; omega
  apply List.ext_getElem hlen
  intro i h1 h2
  have := (partClip_eq_iff _ _).1 h i
  unfold part at this
  rwa [List.getD_eq_getElem _ _ h1, List.getD_eq_getElem _ _ h2] at this

/-- The classes of types B and C. -/
def clsBC (n k : Nat) (l : List Int) : Prop := ReducedPart l ∧ InBox k n 0 l

theorem clsBC_labW (u : List L3) : clsBC u.length (colsW 0 u) (labW u) :=
  ⟨(inBoxW 0 0 u).isPart.partClip, inBox_labW u⟩

theorem labW_surj {n k : Nat} (hk : k ≤ n) {l : List Int} (h : clsBC n k l) :
    ∃ u : List L3, u.length = n ∧ colsW 0 u = k ∧ labW u = l := by
  obtain ⟨hr, hb⟩ := h
  have hlen : l.length ≤ n - k := by
    by_contra hc
    have := hb.rows (n - k) (by omega)
    rw [part_of_lt (by omega)] at this
    have := hr.2 _ (List.getElem_mem (l := l) (show n - k < l.length by omega))
    omega
  have hpp : ∀ i, part (l ++ List.replicate (n - k - l.length) 0) i = part l i := fun i => part_append_zeros _ _ i
  have hip : IsPartition (l ++ List.replicate (n - k - l.length) 0) := by
    refine ⟨?_, ?_⟩
    · rw [List.pairwise_append]
      refine ⟨hr.1, List.pairwise_replicate.2 (Or.inr (le_refl _)), ?_⟩
      intro a ha b hb
      rw [List.mem_replicate] at hb
      have := hr.2 a ha
      omega
    · intro x hx
      rcases List.mem_append.1 hx with hx | hx
      · have := hr.2 x hx; omega
      · rw [List.mem_replicate] at hx; omega
  obtain ⟨u, h1, h2, h3⟩ := shapeW_surj n k (l ++ List.replicate (n - k - l.length) 0) hk hip
    ((kstrict_part (by omega) hip).2 (fun i hi => by
      rw [hpp] at hi ⊢; rw [hpp]
      exact (kstrict_part (by omega) hb.isPart).1 hb.kstrict i hi))
    (by simp; omega) (by rw [hpp]; exact hb.cols)
  refine ⟨u, h1, h2, ?_⟩
  unfold labW
  rw [h3]
  apply eq_of_part_eq (partClip_noTrailing _) hr.noTrailing
  intro i
  rw [part_partClip, hpp]

end Verif
