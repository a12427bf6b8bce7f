import Verif.Proofs.WordDSign
/-!
# Words with an inner letter and the classes of type D: the bijection
-/

namespace Verif
open Spec

/-! ### Shapes -/

theorem shapeW_surj_gen {d : Nat} (hd : d ≤ 1) : ∀ (n k : Nat) (l : List Int), IsPartition l → KStrict k l → l.length + k = n + d →
    part l 0 ≤ n + k → ∃ (u : List L3) (k0 r0 : Nat), k0 + r0 = d ∧ u.length = n ∧ colsW k0 u = k ∧ shapeW k0 r0 u = l := by
  intro n
  induction n with
  | zero =>
    intro k l hp hs hl h0
    refine ⟨[], k, l.length, by omega, rfl, rfl, ?_⟩
    simp only [shapeW]
    rcases l with _ | ⟨x, l⟩
    · rfl
    · have h1 : l = [] := List.length_eq_zero_iff.1 (by simp at hl; omega)
      subst h1
      have h2 : k = 0 := by simp at hl; omega
      subst h2
      have h3 : x ≤ 0 := by simpa [part] using h0
      have h4 := hp.2 x (by simp)
      simp; omega
  | succ n ih =>
    intro k l hp hs hl h0
    have hpk := (kstrict_part (k := k) (by omega) hp).1 hs
    rcases l.eq_nil_or_concat with rfl | ⟨l', y, rfl⟩
    · simp at hl
      obtain ⟨u, k0, r0, hd', hu, hc, he⟩ := ih (n + d) [] ⟨by simp, by simp⟩ (by unfold KStrict; simp) (by simp) (by simp [part]; omega)
      exact ⟨.o :: u, k0, r0, hd', by simp [hu], by simp [colsW, hc, hl]; omega, by simp [shapeW, he]⟩
    · rw [List.concat_eq_append] at *
      by_cases hx : part (l' ++ [y]) 0 = (n + 1 : Nat) + k
      · rcases hl' : l' ++ [y] with _ | ⟨x, t⟩
        · simp at hl'
        · rw [hl'] at hp hs hl h0 hpk hx
          have hx : x = (n + 1 : Nat) + k := hx
          have htp : IsPartition t := ⟨hp.1.tail, fun z hz => hp.2 z (by simp [hz])⟩
          have hpt : ∀ i, part t i = part (x :: t) (i + 1) := fun i => rfl
          obtain ⟨u, k0, r0, hd', hu, hc, he⟩ := ih k t htp
            ((kstrict_part (by omega) htp).2 (fun i hi => by rw [hpt] at hi ⊢; rw [hpt]; exact hpk (i + 1) hi))
            (by simp at hl; omega) (by
              have := hpk 0 (by show (k : Int) < x; omega)
              have e : part (x :: t) 0 = x := rfl
              rw [hpt]; omega)
          refine ⟨.a :: u, k0, r0, hd', by simp [hu], by simp [colsW, hc], ?_⟩
          simp only [shapeW, hu, hc, he]
          rw [hx]; push_cast; congr 1; ring
      · by_cases hy : y = 0
        · subst hy
          have hpp : ∀ i, part (l' ++ [0]) i = part l' i := fun i => by
            simpa using part_append_zeros l' 1 i
          have hlp : IsPartition l' := ⟨(List.pairwise_append.1 hp.1).1, fun z hz => hp.2 z (by simp [hz])⟩
          obtain ⟨u, k0, r0, hd', hu, hc, he⟩ := ih k l' hlp
            ((kstrict_part (by omega) hlp).2 (fun i hi => by rw [← hpp] at hi ⊢; rw [← hpp]; exact hpk i hi))
            (by simp at hl; omega) (by rw [← hpp]; omega)
          exact ⟨.b :: u, k0, r0, hd', by simp [hu], by simp [colsW, hc], by simp only [shapeW, he]⟩
        · have hge : ∀ z ∈ l' ++ [y], 1 ≤ z := by
            intro z hz
            have h1 : 0 ≤ y := hp.2 y (by simp)
            rcases List.mem_append.1 hz with hz | hz
            · have := (List.pairwise_append.1 hp.1).2.2 z hz y (by simp); omega
            · have : z = y := by simpa using hz
              omega
          have hk0 : k ≠ 0 := by
            rintro rfl
            have hlen : l'.length = n + d := by simp at hl; omega
            have e : part (l' ++ [y]) (n + d) = y := by
              unfold part
              rw [List.getD_eq_getElem _ _ (by simp; omega), List.getElem_append_right (by omega)]
              simp
            have := strict_head hp hs (n + d) (by rw [e]; exact hge y (by simp))
            rw [e] at this
            have := hge y (by simp)
            push_cast at *
            omega
          obtain ⟨k', rfl⟩ : ∃ k', k = k' + 1 := ⟨k - 1, by omega⟩
          set L := l' ++ [y] with hL
          have hmp : (L.map (fun z => z - 1)).map (· + 1) = L := by
            rw [List.map_map]
            conv_rhs => rw [← List.map_id L]
            apply List.map_congr_left
            intro z _
            simp
          have hLp : IsPartition (L.map (fun z => z - 1)) := by
            refine ⟨?_, ?_⟩
            · rw [List.pairwise_map]; exact hp.1.imp (fun h => by omega)
            · intro z hz
              rw [List.mem_map] at hz
              obtain ⟨z', hz', rfl⟩ := hz
              have := hge z' hz'; omega
          have hpp : ∀ i, i < L.length → part L i = part (L.map (fun z => z - 1)) i + 1 := by
            intro i hi
            have := part_map_succ (L.map (fun z => z - 1)) i
            rw [hmp, if_pos (by simpa using hi)] at this
            exact this
          obtain ⟨u, k0, r0, hd', hu, hc, he⟩ := ih k' (L.map (fun z => z - 1)) hLp
            ((kstrict_part (by omega) hLp).2 (fun i hi => by
              by_cases hi1 : i + 1 < L.length
              · have e1 := hpp i (by omega)
                have e2 := hpp (i + 1) hi1
                have := hpk i (by push_cast; omega)
                omega
              · rw [part_of_ge (by simp; omega)]
                omega))
            (by simp; omega) (by
              have := hpp 0 (by rw [hL]; simp)
              push_cast at h0 hx ⊢; omega)
          exact ⟨.o :: u, k0, r0, hd', by simp [hu], by simp [colsW, hc], by simp only [shapeW, he, hmp]⟩

theorem mem_shapeW {k0 r0 : Nat} (h : k0 + r0 = 1) : ∀ u : List L3, (colsW k0 u : Int) ∈ shapeW k0 r0 u ↔ r0 = 1 := by
  intro u
  induction u with
  | nil =>
    rcases Nat.eq_zero_or_pos r0 with rfl | h1
    · simp [shapeW]
    · obtain rfl : r0 = 1 := by omega
      obtain rfl : k0 = 0 := by omega
      simp [shapeW, colsW]
  | cons p u ih =>
    cases p
    · simp only [shapeW, colsW, List.mem_map]
      rw [← ih]
      constructor
      · rintro ⟨x, hx, e⟩
        push_cast at e
        obtain rfl : x = colsW k0 u := by omega
        exact hx
      · intro hx; exact ⟨_, hx, by push_cast; rfl⟩
    · simp only [shapeW, colsW, List.mem_cons]
      rw [← ih]
      constructor
      · rintro (h1 | h1)
        · omega
        · exact h1
      · exact Or.inr
    · simp only [shapeW, colsW, List.mem_append, List.mem_singleton]
      rw [← ih]
      constructor
      · rintro (h1 | h1)
        · exact h1
        · have := colsW_add k0 u
          rw [ih]; omega
      · exact Or.inl

/-! ### Labels -/

/-- the parts of the class of a word with an inner letter -/
def clD (U : WordD) : List Int := partClip (shD U)

/-- the class of a word with an inner letter; a final zero marks type `2` -/
def labD (U : WordD) : List Int := clD U ++ if U.2 = .b then [0] else []

theorem clD_reduced (U : WordD) : ReducedPart (clD U) := (inBox_shD U).isPart.partClip

theorem part_clD (U : WordD) (i : Nat) : part (clD U) i = part (shD U) i := part_partClip _ _

theorem part_labD (U : WordD) (i : Nat) : part (labD U) i = part (shD U) i := by
  rw [← part_clD]
  unfold labD
  split
  · exact part_append_zero _ i
  · rw [List.append_nil]

theorem colHeight_labD (U : WordD) : colHeight (labD U) = colHeight (shD U) := by
  have h : colHeight (clD U) = colHeight (shD U) := funext (fun c => col_partClip (inBox_shD U).isPart c)
  rw [← h]
  unfold labD
  split
  · exact colHeight_append_zero _
  · rw [List.append_nil]

theorem labD_sum (U : WordD) : (labD U).sum = (shD U).sum := by
  have : (clD U).sum = (shD U).sum := partClip_sum _
  rw [← this]
  unfold labD
  split <;> simp

theorem isPartition_labD (U : WordD) : IsPartition (labD U) := by
  have h := (clD_reduced U).isPartition
  unfold labD
  split
  · refine ⟨?_, ?_⟩
    · rw [List.pairwise_append]
      refine ⟨h.1, by simp, ?_⟩
      intro a ha b hb
      have := h.2 a ha
      simp at hb; omega
    · intro x hx
      rcases List.mem_append.1 hx with hx | hx
      · exact h.2 x hx
      · simp at hx; omega
  · rw [List.append_nil]; exact h

theorem inBox_of_part {k : Nat} {n d : Int} {l l' : List Int} (h : InBox k n d l) (h' : IsPartition l') (hp : ∀ i, part l' i = part l i) :
    InBox k n d l' := by
  refine ⟨h', ?_, fun r hr => by rw [hp]; exact h.rows r hr, by rw [hp]; exact h.cols⟩
  rw [kstrict_part (by omega) h']
  intro i
  rw [hp, hp]
  exact (kstrict_part (by omega) h.isPart).1 h.kstrict i

theorem inBox_labD (U : WordD) : InBox (colsD U) U.1.length 1 (labD U) :=
  inBox_of_part (inBox_shD U) (isPartition_labD U) (part_labD U)

theorem inBox_clD (U : WordD) : InBox (colsD U) U.1.length 1 (clD U) :=
  inBox_of_part (inBox_shD U) (clD_reduced U).isPartition (part_clD U)

theorem mem_clD {U : WordD} (h : 0 < colsD U) : (colsD U : Int) ∈ clD U ↔ U.2 ≠ .o := by
  unfold clD
  rw [mem_partClip_of_ne (by omega)]
  unfold colsD shD
  rw [mem_shapeW U.2.k0_add_r0]
  cases U.2 <;> simp [L3.r0]

theorem zero_mem_labD (U : WordD) : (0 : Int) ∈ labD U ↔ U.2 = .b := by
  have h0 : (0 : Int) ∉ clD U := fun h => by have := (clD_reduced U).2 0 h; omega
  unfold labD
  split
  · rename_i h; simp [h]
  · rename_i h; simp [h, h0]

theorem clsType_labD {U : WordD} (h : 0 < colsD U) : clsType (colsD U) (labD U) = U.2.ty := by
  unfold clsType
  have e : (colsD U : Int) ∈ labD U ↔ U.2 ≠ .o := by
    rw [← mem_clD h]
    unfold labD
    split
    · rw [List.mem_append]
      constructor
      · rintro (h1 | h1)
        · exact h1
        · simp at h1; omega
      · exact Or.inl
    · rw [List.append_nil]
  simp only [e, zero_mem_labD]
  cases U.2 <;> simp [L3.ty]

theorem clsType_labD_zero {U : WordD} (h : U.2 ≠ .b) : clsType 0 (labD U) = 0 := by
  unfold clsType
  rw [if_neg]
  rw [zero_mem_labD]
  exact h

/-! ### Classes -/

/-- the classes of type D -/
def clsD (n k : Nat) (y : List Int) : Prop :=
  ∃ mu, ReducedPart mu ∧ InBox k n 1 mu ∧ (y = mu ∨ ((k : Int) ∈ mu ∧ y = mu ++ [0]))

/-- the words of the classes of `(n, k)`, type D; the maximal case `k = 0` has no types -/
def WdD (n k : Nat) : Finset WordD :=
  ((words n).toFinset ×ˢ {.o, .a, .b}).filter (fun U => colsD U = k ∧ (k = 0 → U.2 = .a))

theorem mem_WdD {n k : Nat} {U : WordD} : U ∈ WdD n k ↔ U.1.length = n ∧ colsD U = k ∧ (k = 0 → U.2 = .a) := by
  unfold WdD
  rw [Finset.mem_filter, Finset.mem_product, List.mem_toFinset, mem_words]
  have : U.2 ∈ ({.o, .a, .b} : Finset L3) := by cases U.2 <;> decide
  tauto

theorem shD_inj {U W : WordD} (hl : U.1.length = W.1.length) (hc : colsD U = colsD W) (h2 : U.2 = W.2) (h : clD U = clD W) : U = W := by
  rcases U with ⟨u, i⟩
  rcases W with ⟨w, j⟩
  simp only at hl h2
  subst h2
  have : u = w := by
    apply shapeW_inj i.k0 i.r0 u w hl hc
    have r1 := rows_add_cols i.k0 i.r0 u
    have r2 := rows_add_cols i.k0 i.r0 w
    unfold colsD at hc
    simp only at hc
    have hlen : (shapeW i.k0 i.r0 u).length = (shapeW i.k0 i.r0 w).length := by rw [shapeW_length, shapeW_length]; omega
    apply List.ext_getElem hlen
    intro x h1 h2
    have := (partClip_eq_iff _ _).1 h x
    unfold part shD at this
    rwa [List.getD_eq_getElem _ _ h1, List.getD_eq_getElem _ _ h2] at this
  rw [this]

theorem WdD_inj {n k : Nat} : ∀ U ∈ WdD n k, ∀ W ∈ WdD n k, labD U = labD W → U = W := by
  intro U hU W hW h
  rw [mem_WdD] at hU hW
  have h2 : U.2 = W.2 := by
    rcases Nat.eq_zero_or_pos k with hk | hk
    · rw [hU.2.2 hk, hW.2.2 hk]
    · have e1 := clsType_labD (U := U) (by omega)
      have e2 := clsType_labD (U := W) (by omega)
      rw [h, hU.2.1, ← hW.2.1, e2] at e1
      cases hi : U.2 <;> cases hj : W.2 <;> rw [hi, hj] at e1 <;> simp [L3.ty] at e1 ⊢
  refine shD_inj (by omega) (by omega) h2 ?_
  unfold labD at h
  rw [h2] at h
  exact List.append_cancel_right h

theorem clsD_labD {n k : Nat} {U : WordD} (hU : U ∈ WdD n k) : clsD n k (labD U) := by
  rw [mem_WdD] at hU
  have hb := inBox_clD U
  rw [hU.1, hU.2.1] at hb
  refine ⟨clD U, clD_reduced U, hb, ?_⟩
  unfold labD
  split
  · rename_i h
    right
    have hk : 0 < k := by
      by_contra hc
      have := hU.2.2 (by omega)
      rw [h] at this; cases this
    refine ⟨?_, rfl⟩
    have := (mem_clD (U := U) (by omega)).2 (by rw [h]; simp)
    rwa [hU.2.1] at this
  · left; rw [List.append_nil]

theorem WdD_cls {n k : Nat} (hk : k ≤ n + 1) (y : List Int) : clsD n k y ↔ ∃ U ∈ WdD n k, labD U = y := by
  constructor
  swap
  · rintro ⟨U, hU, rfl⟩; exact clsD_labD hU
  rintro ⟨l, hr, hb, hy⟩
  have hlen : l.length ≤ n + 1 - k := by
    by_contra hc
    have := hb.rows (n + 1 - k) (by omega)
    rw [part_of_lt (by omega)] at this
    have := hr.2 _ (List.getElem_mem (l := l) (show n + 1 - k < l.length by omega))
    omega
  have hpp : ∀ i, part (l ++ List.replicate (n + 1 - k - l.length) 0) i = part l i := fun i => part_append_zeros _ _ i
  have hip : IsPartition (l ++ List.replicate (n + 1 - k - l.length) 0) := by
    refine ⟨?_, ?_⟩
    · rw [List.pairwise_append]
      refine ⟨hr.1, List.pairwise_replicate.2 (Or.inr (le_refl _)), ?_⟩
      intro a ha b hb
      rw [List.mem_replicate] at hb
      have := hr.2 a ha
      omega
    · intro x hx
      rcases List.mem_append.1 hx with hx | hx
      · have := hr.2 x hx; omega
      · rw [List.mem_replicate] at hx; omega
  obtain ⟨u, k0, r0, h0, h1, h2, h3⟩ := shapeW_surj_gen (le_refl 1) n k (l ++ List.replicate (n + 1 - k - l.length) 0) hip
    ((kstrict_part (by omega) hip).2 (fun i hi => by
      rw [hpp] at hi ⊢; rw [hpp]
      exact (kstrict_part (by omega) hb.isPart).1 hb.kstrict i hi))
    (by simp; omega) (by rw [hpp]; exact hb.cols)
  have hcl : partClip (shapeW k0 r0 u) = l := by
    rw [h3]
    apply eq_of_part_eq (partClip_noTrailing _) hr.noTrailing
    intro i
    rw [part_partClip, hpp]
  have build : ∀ i : L3, i.k0 = k0 → i.r0 = r0 → (k = 0 → i = .a) → y = l ++ (if i = .b then [0] else []) →
      ∃ U ∈ WdD n k, labD U = y := by
    intro i e1 e2 e3 e4
    refine ⟨(u, i), mem_WdD.2 ⟨h1, ?_, e3⟩, ?_⟩
    · unfold colsD; simp only [e1]; exact h2
    · rw [e4]
      unfold labD clD shD
      simp only [e1, e2, hcl]
  rcases Nat.eq_zero_or_pos r0 with hr0 | hr0
  · have hk0 : 0 < k := by have := colsW_add k0 u; omega
    rcases hy with rfl | ⟨hm, rfl⟩
    · exact build .o (by simp [L3.k0]; omega) (by simp [L3.r0]; omega) (by omega) (by simp)
    · exfalso
      have : (k : Int) ∈ shapeW k0 r0 u := by rw [h3]; simp [hm]
      rw [← h2, mem_shapeW h0] at this
      omega
  · rcases hy with rfl | ⟨hm, rfl⟩
    · exact build .a (by simp [L3.k0]; omega) (by simp [L3.r0]; omega) (fun _ => rfl) (by simp)
    · have := hr.2 _ hm
      exact build .b (by simp [L3.k0]; omega) (by simp [L3.r0]; omega) (by omega) (by simp)

/-! ### Letters -/

theorem labD_b (u : List L3) (i : L3) : labD (.b :: u, i) = labD (u, i) := by
  have : clD (.b :: u, i) = clD (u, i) := by
    unfold clD
    rw [partClip_eq_iff]
    intro x
    exact part_append_zeros (shapeW i.k0 i.r0 u) 1 x
  unfold labD
  rw [this]

theorem clD_a (u : List L3) (i : L3) : clD (.a :: u, i) = ((u.length : Int) + colsD (u, i) + 1) :: clD (u, i) := by
  unfold clD shD
  simp only [shapeW]
  rw [partClip_cons, if_neg]
  · rfl
  · rintro ⟨_, h⟩; omega

theorem labD_a (u : List L3) (i : L3) : labD (.a :: u, i) = ((u.length : Int) + colsD (u, i) + 1) :: labD (u, i) := by
  unfold labD
  rw [clD_a]; rfl

theorem clD_o (u : List L3) (i : L3) : clD (.o :: u, i) = (shD (u, i)).map (· + 1) := by
  unfold clD shD
  simp only [shapeW]
  apply partClip_of_noTrailing
  intro h
  obtain ⟨x, hx, e⟩ := List.mem_map.1 (List.mem_of_getLast? h)
  have := shapeW_nonneg i.k0 i.r0 u x hx
  omega

theorem colsD_o (u : List L3) (i : L3) : colsD (.o :: u, i) = colsD (u, i) + 1 := rfl
theorem colsD_a (u : List L3) (i : L3) : colsD (.a :: u, i) = colsD (u, i) := rfl
theorem colsD_b (u : List L3) (i : L3) : colsD (.b :: u, i) = colsD (u, i) := rfl

end Verif
