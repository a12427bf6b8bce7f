import Verif.Proofs.WordDLead
/-!
# The rings of `OG(m, 2n+2)`
-/

namespace Verif
open Spec

theorem clsD_iff {n k : Nat} (hk : k ≤ n + 1) (l : List Int) : clsD n k l ↔ TypedClass k (n + 1 - k) (n + k) l := by
  constructor
  · intro h; exact (clsD_typed hk h).1
  · rintro ⟨mu, h1, h2, h3, h4⟩
    exact ⟨mu, h1, inBox_of_class (d := 1) (m := n + 1 - k) (by omega) rfl (by omega) h1 h2 h3, h4⟩

theorem clsD_nil {n k : Nat} (hk : k ≤ n + 1) : clsD n k [] :=
  (clsD_iff hk _).2 ⟨[], ⟨List.Pairwise.nil, by simp⟩, List.Pairwise.nil, ⟨by simp, by simp⟩, Or.inl rfl⟩

/-- bound for the recursion depth -/
def boundD (n k : Nat) : Nat := (n + 1 - k) * (n + k) * (n + k + 1) + (n + k + 1)

theorem measBC_lt_boundD {n k : Nat} (hk : k ≤ n + 1) {l : List Int} (h : clsD n k l) : measBC n k l < boundD n k := by
  obtain ⟨mu, h0, _, h2, h5⟩ := (clsD_iff hk l).1 h
  have h3 : l.sum ≤ ((n + 1 - k) * (n + k) : Nat) := by
    have := List.sum_le_card_nsmul mu ((n : Int) + k) (fun x hx => by have := h2.2 x hx; omega)
    rw [nsmul_eq_mul] at this
    have h4 : (mu.length : Int) ≤ (n + 1 - k : Nat) := by have := h2.1; omega
    have h5 := Int.mul_le_mul_of_nonneg_right h4 (show (0 : Int) ≤ n + k by omega)
    rw [Typed.sum (k := k) (mu := mu) ‹_›]
    push_cast at h5 ⊢
    omega
  have h4 : l.sum.toNat ≤ (n + 1 - k) * (n + k) := by omega
  have := Nat.mul_le_mul_right (n + k + 1) h4
  unfold measBC boundD
  omega

/-! ### The classical system -/

/-- the classical system of `OG(n+1-k, 2n+2)` -/
noncomputable def sysD (n k : Nat) (hk : k ≤ n + 1) : GiamSys (k : Int) (Space.pieriFn ⟨.D, k, n⟩) (spcD n k) (clsD n k) where
  t := tDD 0 0 n k
  nz := spcD_nz
  closed p l := tDD_closed 0 0 hk p l
  ret p l hp hl := by
    show Returns (pieriD p l _ _) _
    exact retDD hk (fun _ => spcD_nz p hp) hl
  comm a b l ha hb := tDD_comm (fun _ => rfl) (fun _ => by ring) (fun _ => spcD_nz a ha) (fun _ => spcD_nz b hb) l
  meas := measBC n k
  deg _ hl h0 := degDD hl h0
  step _ hl h0 := stepDD hk (Or.inl rfl) hl h0

theorem hQ_zero {k : Nat} (h : k = 0) : hQ k = 0 := if_pos h

theorem hQ_sq {k : Nat} (h : k ≠ 0) : hQ' k = hQ k ^ 2 := by
  unfold hQ' hQ; rw [if_neg h, if_neg h]

theorem spcD_pos {n k : Nat} (hk : k ≤ n) {p : Int} (h : spcD n k p) : 0 < n := by
  rcases h with ⟨h1, h2⟩ | ⟨h1, _⟩ <;> omega

/-- the quantum system of `OG(n+1-k, 2n+2)` -/
noncomputable def sysQD (ord : List Int → List Int) (n k : Nat) (hk : k ≤ n) (hk1 : k ≠ 1) :
    GiamSys (k : Int) (Space.qpieriFn ord ⟨.D, k, n⟩) (spcD n k) (clsD n k) where
  t := tDD (hQ k) (hQ' k) n k
  nz := spcD_nz
  closed p l := tDD_closed _ _ (by omega) p l
  ret p l hp hl := by
    show Returns (qpieriD ord p l _ _) _
    exact retQD ord hk (spcD_pos hk hp) hk1 (fun _ => spcD_nz p hp) hl
  comm a b l ha hb := tDD_comm hQ_zero hQ_sq (fun _ => spcD_nz a ha) (fun _ => spcD_nz b hb) l
  meas := measBC n k
  deg _ hl h0 := degDD hl h0
  step _ hl h0 := stepDD (by omega) (Or.inr hk1) hl h0

/-! ### Grading, integrality, classical limit -/

theorem cfD_int {n k : Nat} (hk : k ≤ n + 1) {p : Int} (hp : k = 0 → p ≠ 0) {U W : WordD} (hU : U ∈ WdD n k) (hW : W ∈ WdD n k) :
    ∃ z : ℤ, cfD k p U W = z := by
  by_cases h : cfD k p U W = 0
  · exact ⟨0, by rw [h]; simp⟩
  · obtain ⟨_, _, _, _, _, _, _, hc⟩ := (termD_word_iff hk hp hU hW _).2 ⟨h, rfl⟩
    have : ∃ e : Nat, cfD k p U W = 2 ^ e := by
      rcases Nat.lt_trichotomy p.natAbs k with h1 | h1 | h1
      · exact ⟨_, hc.small h1⟩
      · by_cases h2 : numComps k 1 (labD U) (labD W) = 0
        · exact ⟨0, by rw [(hc.tie h1 h2).1]; simp⟩
        · exact ⟨_, hc.middle h1 (by omega)⟩
      · exact ⟨_, (hc.large h1).2⟩
    obtain ⟨e, he⟩ := this
    exact ⟨2 ^ e, by rw [he]; push_cast; rfl⟩

theorem q1D_int {n k : Nat} (hk : k ≤ n + 1) {p : Int} (hp : k = 0 → p ≠ 0) {U W : WordD} (hU : U ∈ WdD n k) (hW : W ∈ WdD n k) :
    ∃ z : ℤ, q1D k p U W = z := by
  unfold q1D
  rcases ha : aOf W.1 with _ | w'
  · exact ⟨0, by simp⟩
  · have hW' := mem_WdD.1 hW
    have hk0 : k ≠ 0 := by
      have := (aOf_length ha).2
      have h1 := hW'.2.1
      have h2 := colsW_add W.2.k0 W.1
      unfold colsD at h1
      omega
    have hU1 : (.b :: U.1, U.2) ∈ WdD (n + 1) k := by
      rw [mem_WdD] at hU ⊢
      exact ⟨by simp [hU.1], hU.2.1, hU.2.2⟩
    exact cfD_int (n := n + 1) (by omega) hp hU1 (aOf_mem hk0 hW ha _ (L3.k0_sw _))

theorem q2D_int {n k : Nat} (hk : k ≤ n + 1) {p : Int} (hp : k = 0 → p ≠ 0) {U W : WordD} (hU : U ∈ WdD n k) (hW : W ∈ WdD n k) :
    ∃ z : ℤ, q2D k p U W = z := by
  rcases U with ⟨u, i⟩
  rcases W with ⟨w, j⟩
  unfold q2D
  split
  · rename_i u' w' e1 e2
    simp only at e1 e2
    subst e1; subst e2
    have hU1 : (.b :: u', i) ∈ WdD n k := by rw [mem_WdD] at hU ⊢; exact hU
    have hW1 : (.a :: w', j) ∈ WdD n k := by rw [mem_WdD] at hW ⊢; exact hW
    exact cfD_int hk hp hU1 hW1
  · exact ⟨0, by simp⟩

theorem MDc_eq {n k : Nat} (p : Int) {U W : WordD} (hU : U ∈ WdD n k) (hW : W ∈ WdD n k) :
    MDg 0 0 k p U W = Polynomial.C (cfD k p U W) := by
  rw [MDg_eq 0 0 p hU hW (Or.inl rfl)]; simp

theorem homD {n k : Nat} (hk : k ≤ n + 1) (N : Int) {p : Int} (hp : k = 0 → p ≠ 0) (l : List Int) :
    HomX N (p.natAbs + l.sum) (tDD 0 0 n k p l) := by
  by_cases hl : clsD n k l
  · obtain ⟨U, hU, rfl⟩ := (WdD_cls hk l).1 hl
    intro mu d hd
    obtain ⟨W, hW, rfl⟩ := (WdD_cls hk mu).1 (tDD_closed 0 0 hk p _ mu (Finsupp.mem_support_iff.2 (fun h => hd (by rw [h]; simp))))
    rw [tDD_apply _ _ _ hU hW, MDc_eq p hU hW, Polynomial.coeff_C] at hd
    split at hd
    · rename_i h; subst h
      rw [cfD_sum hk hp hU hW hd]; push_cast; ring
    · exact absurd rfl hd
  · rw [tDD_ne 0 0 hk p hl]; exact HomX.zero _

theorem homQD {n k : Nat} (hk : k ≤ n + 1) (hk1 : k ≠ 1) {p : Int} (hp : k = 0 → p ≠ 0) (l : List Int) :
    HomX (Space.mk .D k n).degreeQ (p.natAbs + l.sum) (tDD (hQ k) (hQ' k) n k p l) := by
  by_cases hl : clsD n k l
  · obtain ⟨U, hU, rfl⟩ := (WdD_cls hk l).1 hl
    intro mu d hd
    obtain ⟨W, hW, rfl⟩ := (WdD_cls hk mu).1 (tDD_closed _ _ hk p _ mu (Finsupp.mem_support_iff.2 (fun h => hd (by rw [h]; simp))))
    rw [tDD_apply _ _ _ hU hW, MDq_coeff p hk1 hU hW] at hd
    have hcase : (d = 0 ∧ cfD k p U W ≠ 0) ∨ ((0 < k ∧ d = 1) ∧ q1D k p U W ≠ 0) ∨ (d = qexp k ∧ q2D k p U W ≠ 0) := by
      by_contra hc
      push Not at hc
      apply hd
      have h1 : (if d = 0 then cfD k p U W else 0) = 0 := by split; exacts [hc.1 ‹_›, rfl]
      have h2 : (if 0 < k ∧ d = 1 then q1D k p U W else 0) = 0 := by split; exacts [hc.2.1 ‹_›, rfl]
      have h3 : (if d = qexp k then q2D k p U W else 0) = 0 := by split; exacts [hc.2.2 ‹_›, rfl]
      rw [h1, h2, h3]; simp
    have hdq : (Space.mk .D k n).degreeQ = if k = 0 then 2 * (n : Int) else n + k := by
      unfold Space.degreeQ
      by_cases h : k = 0
      · simp [h]
      · simp [h]
    rw [hdq]
    rcases hcase with ⟨rfl, h⟩ | ⟨⟨h0, rfl⟩, h⟩ | ⟨rfl, h⟩
    · rw [cfD_sum hk hp hU hW h]; push_cast; ring
    · rw [if_neg (by omega)]
      have := (q1D_sum hk hp hU hW h).2
      rw [Nat.cast_one, one_mul]; omega
    · have := (q2D_sum hk hp hU hW h).2
      unfold qexp
      by_cases h0 : k = 0
      · rw [if_pos h0, if_pos h0, Nat.cast_one, one_mul]; omega
      · rw [if_neg h0, if_neg h0, Nat.cast_two]; omega
  · rw [tDD_ne _ _ hk p hl]; exact HomX.zero _

theorem intD {n k : Nat} (hk : k ≤ n + 1) {p : Int} (hp : k = 0 → p ≠ 0) (l : List Int) : IntX (tDD 0 0 n k p l) := by
  by_cases hl : clsD n k l
  · obtain ⟨U, hU, rfl⟩ := (WdD_cls hk l).1 hl
    intro mu d
    by_cases hmu : mu ∈ (tDD 0 0 n k p (labD U)).support
    · obtain ⟨W, hW, rfl⟩ := (WdD_cls hk mu).1 (tDD_closed 0 0 hk p _ mu hmu)
      rw [tDD_apply _ _ _ hU hW, MDc_eq p hU hW, Polynomial.coeff_C]
      split
      · exact cfD_int hk hp hU hW
      · exact ⟨0, by simp⟩
    · rw [Finsupp.notMem_support_iff.1 hmu]; exact ⟨0, by simp⟩
  · rw [tDD_ne 0 0 hk p hl]; exact IntX.zero

theorem intQD {n k : Nat} (hk : k ≤ n + 1) (hk1 : k ≠ 1) {p : Int} (hp : k = 0 → p ≠ 0) (l : List Int) :
    IntX (tDD (hQ k) (hQ' k) n k p l) := by
  by_cases hl : clsD n k l
  · obtain ⟨U, hU, rfl⟩ := (WdD_cls hk l).1 hl
    intro mu d
    by_cases hmu : mu ∈ (tDD (hQ k) (hQ' k) n k p (labD U)).support
    · obtain ⟨W, hW, rfl⟩ := (WdD_cls hk mu).1 (tDD_closed _ _ hk p _ mu hmu)
      rw [tDD_apply _ _ _ hU hW, MDq_coeff p hk1 hU hW]
      obtain ⟨a, ha⟩ := cfD_int hk hp hU hW
      obtain ⟨b, hb⟩ := q1D_int hk hp hU hW
      obtain ⟨c, hc⟩ := q2D_int hk hp hU hW
      rw [ha, hb, hc]
      refine ⟨(if d = 0 then a else 0) + (if 0 < k ∧ d = 1 then b else 0) + (if d = qexp k then c else 0), ?_⟩
      push_cast
      rfl
    · rw [Finsupp.notMem_support_iff.1 hmu]; exact ⟨0, by simp⟩
  · rw [tDD_ne _ _ hk p hl]; exact IntX.zero

theorem q0_QD {n k : Nat} (hk : k ≤ n + 1) (hk1 : k ≠ 1) (p : Int) (l : List Int) :
    q0 (tDD (hQ k) (hQ' k) n k p l) = tDD 0 0 n k p l := by
  by_cases hl : clsD n k l
  · obtain ⟨U, hU, rfl⟩ := (WdD_cls hk l).1 hl
    rw [tDD_lab _ _ _ hU, tDD_lab _ _ _ hU, map_sum]
    apply Finset.sum_congr rfl
    intro W hW
    rw [q0_single, MDq_coeff p hk1 hU hW, MDc_eq p hU hW]
    have : (0 : Nat) ≠ qexp k := by unfold qexp; split <;> simp
    rw [if_pos rfl, if_neg (by omega), if_neg this, add_zero, add_zero]
  · rw [tDD_ne _ _ hk p hl, tDD_ne _ _ hk p hl, map_zero]

/-! ### The unit -/

theorem num2spec_natAbs {p : Int} (h : p ≠ 0) : (num2spec p).sum = p.natAbs ∧ part (num2spec p) 0 = p.natAbs := by
  have h1 : ∀ x : Int, [x].sum = x ∧ part [x] 0 = x := fun x => ⟨by simp, rfl⟩
  have h2 : ∀ x : Int, [x, 0].sum = x ∧ part [x, 0] 0 = x := fun x => ⟨by simp, rfl⟩
  unfold num2spec
  split
  · rw [(h1 p).1, (h1 p).2]; omega
  · rw [(h2 (-p)).1, (h2 (-p)).2]; omega

theorem hdK_num2spec {n k : Nat} {p : Int} (h : spcD n k p) : hdK k (num2spec p) = p ∧ tlK k (num2spec p) = [] := by
  rcases h with ⟨h1, h2⟩ | ⟨h1, rfl⟩
  · rw [num2spec_pos h1]
    constructor
    · unfold hdK
      rw [if_neg (by simp [last']; omega)]; rfl
    · unfold tlK
      simp
  · unfold num2spec
    rw [if_neg (by omega), neg_neg]
    constructor
    · unfold hdK
      rw [if_pos (by simp [at', last'])]
    · unfold tlK
      rw [if_pos (by simp [at', last']; omega)]; rfl

theorem spec_D {n k : Nat} (p : Int) (h : spcD n k p) : (Space.mk .D k n).spec2numSym (.S (num2spec p)) = .ok p := by
  rcases h with ⟨h1, h2⟩ | ⟨h1, rfl⟩
  · rw [num2spec_pos h1]
    simp [Space.spec2numSym, Space.spec2num, at']
  · unfold num2spec
    rw [if_neg (by omega), neg_neg]
    simp [Space.spec2numSym, Space.spec2num, at']

theorem unitD {n k : Nat} (hk : k ≤ n + 1) {p : Int} (h : spcD n k p) (hc : clsD n k (num2spec p)) :
    tDD 0 0 n k p [] = Finsupp.single (num2spec p) 1 := by
  have hp := spcD_nz p h
  obtain ⟨s1, s2⟩ := num2spec_natAbs hp
  have hne : num2spec p ≠ [] := by unfold num2spec; split <;> simp
  obtain ⟨_, _, _, _, h5⟩ := stepDD (h := 0) (h' := 0) hk (Or.inl rfl) hc hne
  rw [(hdK_num2spec h).1, (hdK_num2spec h).2] at h5
  rw [← sub_eq_zero, ← Finsupp.support_eq_empty, Finset.eq_empty_iff_forall_notMem]
  intro mu hmu
  obtain ⟨h6, h7⟩ := h5 mu hmu
  have hsum : mu.sum = p.natAbs := by
    classical
    rcases Finset.mem_union.1 (Finsupp.support_sub hmu) with h | h
    · obtain ⟨d, hd⟩ : ∃ d, ((tDD 0 0 n k p []) mu).coeff d ≠ 0 := by
        by_contra hcon
        push Not at hcon
        rw [Finsupp.mem_support_iff] at h
        exact h (Polynomial.ext (by simpa using hcon))
      have := homD hk 0 (fun _ => hp) [] mu d hd
      simpa using this
    · rw [Finset.mem_singleton.1 (Finsupp.support_single_subset h), s1]
  unfold measBC at h7
  rw [hsum, s1, s2] at h7
  have h8 : part mu 0 ≤ mu.sum := by
    have hpt := (clsD_typed hk h6).2.isPart
    cases mu with
    | nil => simp [part]
    | cons x mu =>
      have : 0 ≤ mu.sum := isPartition_sum_nonneg ⟨hpt.1.tail, fun z hz => hpt.2 z (by simp [hz])⟩
      simp [part]; omega
  omega

theorem opG_b {R : Type*} [CommRing R] (h h' x : R) (u : List L3) (i : L3) (W : WordD) :
    opG h h' x (.b :: u, i) W = opG 0 0 x (.b :: u, i) W := by
  rcases W with ⟨_ | ⟨q, w⟩, j⟩
  · simp [opG, opGE, opGO, swD]
  · cases q <;> simp [opG, opGE, opGO, swD, kerE, kerO]

theorem opS_b {R : Type*} [CommRing R] (h : R) (u : List L3) (i : L3) (W : WordD) :
    opS h (.b :: u, i) W = opS 0 (.b :: u, i) W := by
  rcases W with ⟨_ | ⟨q, w⟩, j⟩
  · simp [opS, opSE, opSO, swD]
  · cases q <;> simp [opS, opSE, opSO, swD, kerSE, kerSO]

theorem unitQD {n k : Nat} (hk : k ≤ n) (hn : 0 < n) (h h' : Polynomial ℚ) (p : Int) : tDD h h' n k p [] = tDD 0 0 n k p [] := by
  obtain ⟨U, hU, he⟩ := (WdD_cls (by omega) []).1 (clsD_nil (n := n) (k := k) (by omega))
  rw [← he, tDD_lab _ _ _ hU, tDD_lab _ _ _ hU]
  apply Finset.sum_congr rfl
  intro W hW
  have key : MDg h h' k p U W = MDg 0 0 k p U W := by
    rcases U with ⟨u, i⟩
    rw [mem_WdD] at hU
    cases u with
    | nil => simp at hU; omega
    | cons q u =>
      cases q
      · exfalso
        have h1 := shD_length (u, i)
        have h2 := rows_add_colsD (u, i)
        rw [colsD_o] at hU
        simp only [List.length_cons] at hU h2
        unfold labD at he
        rw [clD_o] at he
        have h3 := congrArg List.length he
        simp at h3
        rw [h3.1] at h1
        simp at h1
        omega
      · rw [labD_a] at he; simp at he
      · unfold MDg
        rw [opG_b, opS_b]
        simp
  rw [key]

/-! ### The rings -/

/-- the classical ring of `OG(n+1-k, 2n+2)` -/
noncomputable def ringD (n k : Nat) (hk : k ≤ n + 1) :
    RingOn ⟨.D, k, n⟩ (Space.pieriFn ⟨.D, k, n⟩) (spcD n k) (clsD n k) (boundD n k) where
  Y := sysD n k hk
  fuel _ hl := measBC_lt_boundD hk hl
  spec p h := spec_D p h
  nil := clsD_nil hk
  unit _ h hc := unitD hk h hc

/-- the quantum ring of `OG(n+1-k, 2n+2)` -/
noncomputable def ringQD (ord : List Int → List Int) (n k : Nat) (hk : k ≤ n) (hk1 : k ≠ 1) :
    RingOn ⟨.D, k, n⟩ (Space.qpieriFn ord ⟨.D, k, n⟩) (spcD n k) (clsD n k) (boundD n k) where
  Y := sysQD ord n k hk hk1
  fuel _ hl := measBC_lt_boundD (by omega) hl
  spec p h := spec_D p h
  nil := clsD_nil (by omega)
  unit p h hc := (unitQD hk (spcD_pos hk h) _ _ p).trans (unitD (by omega) h hc)

theorem homT_D {t : Int → List Int → LMod} {n k : Nat} {N : Int} (h : ∀ p, spcD n k p → ∀ l, HomX N (p.natAbs + l.sum) (t p l))
    (p : Int) (hp : spcD n k p) : HomT N (num2spec p).sum (lin (t p)) := by
  apply homT_of_basis
  intro l
  rw [lin_single_one, (num2spec_natAbs (spcD_nz p hp)).1]
  exact h p hp l

end Verif
