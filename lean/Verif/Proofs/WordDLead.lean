import Verif.Proofs.WordDTerm
import Verif.Proofs.RingBC
/-!
# Splitting off the first row in type D, and the ring systems of type D
-/

namespace Verif
open Spec

/-- the special classes of type D, by number -/
def spcD (n k : Nat) (p : Int) : Prop := (1 ≤ p ∧ p ≤ (n + k : Nat)) ∨ (0 < k ∧ p = -k)

theorem spcD_nz {n k : Nat} (p : Int) (h : spcD n k p) : p ≠ 0 := by
  rcases h with h | h <;> omega

/-- `l` is one of the classes of the shape `mu` -/
def Typed (k : Nat) (mu l : List Int) : Prop := l = mu ∨ ((k : Int) ∈ mu ∧ l = mu ++ [0])

theorem Typed.part {k : Nat} {mu l : List Int} (h : Typed k mu l) : part l = part mu := by
  rcases h with rfl | ⟨_, rfl⟩
  · rfl
  · exact part_append_zero' mu

theorem Typed.colHeight {k : Nat} {mu l : List Int} (h : Typed k mu l) : colHeight l = colHeight mu := by
  rcases h with rfl | ⟨_, rfl⟩
  · rfl
  · exact colHeight_append_zero mu

theorem Typed.sum {k : Nat} {mu l : List Int} (h : Typed k mu l) : l.sum = mu.sum := by
  rcases h with rfl | ⟨_, rfl⟩ <;> simp

theorem Typed.eq {k : Nat} {mu mu' l : List Int} (h : Typed k mu l) (h' : Typed k mu' l) (hr : ReducedPart mu) (hr' : ReducedPart mu') :
    mu = mu' := by
  rcases h with rfl | ⟨_, rfl⟩
  · rcases h' with rfl | ⟨_, rfl⟩
    · rfl
    · have := hr.2 0 (by simp); omega
  · rcases h' with h' | ⟨_, h'⟩
    · have := hr'.2 0 (h' ▸ by simp); omega
    · exact List.append_inj_left' h' rfl

/-- Splitting off the first row. -/
theorem giam_split {n k : Nat} {l : List Int} (h : clsD n k l) (h0 : l ≠ []) :
    ∃ (P : Nat) (mu0 : List Int), ReducedPart ((P : Int) :: mu0) ∧ InBox k n 1 ((P : Int) :: mu0) ∧ Typed k ((P : Int) :: mu0) l ∧
      ¬ (last' l = 0 ∧ l.length = 1) ∧ spcD n k (hdK k l) ∧ (hdK k l).natAbs = P ∧ Typed k mu0 (tlK k l) ∧
      clsType k (tlK k l) + clsType k l ≠ 3 ∧ (P = k → (Odd (max (clsType k (tlK k l)) (clsType k l)) ↔ 0 ≤ hdK k l)) ∧
      ∀ y, Typed k ((P : Int) :: mu0) y → clsType k (tlK k l) + clsType k y ≠ 3 →
        (P = k → (Odd (max (clsType k (tlK k l)) (clsType k y)) ↔ 0 ≤ hdK k l)) → y = l := by
  obtain ⟨mu, h1, h2, h3⟩ := h
  cases mu with
  | nil =>
    rcases h3 with rfl | ⟨h3, _⟩
    · exact absurd rfl h0
    · simp at h3
  | cons P mu0 =>
    have hP := h1.2 P (by simp)
    obtain ⟨P, rfl⟩ : ∃ P' : Nat, P = P' := ⟨P.toNat, by omega⟩
    have hcol : (P : Int) ≤ n + k := h2.cols
    have hz : (0 : Int) ∉ (P : Int) :: mu0 := fun h => by have := h1.2 0 h; omega
    have hz0 : (0 : Int) ∉ mu0 := fun h => hz (by simp [h])
    have hge : ∀ x ∈ mu0, x ≤ (P : Int) := (List.pairwise_cons.1 h1.1).1
    have hp0 : ∀ x ∈ mu0, x ≤ part mu0 0 := by
      cases mu0 with
      | nil => simp
      | cons z mu0 =>
        intro x hx
        rcases List.mem_cons.1 hx with rfl | hx
        · exact le_refl _
        · exact (List.pairwise_cons.1 (List.pairwise_cons.1 h1.1).2).1 x hx
    have hp1 : part mu0 0 = 0 ∨ part mu0 0 ∈ mu0 := by
      cases mu0 with
      | nil => left; rfl
      | cons z mu0 => right; show z ∈ _; simp
    refine ⟨P, mu0, h1, h2, h3, ?_⟩
    rcases h3 with rfl | ⟨hk, rfl⟩
    · have hl : last' ((P : Int) :: mu0) ≠ 0 := last_ne_zero h1 (by simp)
      have e1 : hdK k ((P : Int) :: mu0) = P := by unfold hdK; rw [if_neg (by simp [hl])]; rfl
      have e2 : tlK k ((P : Int) :: mu0) = mu0 := by unfold tlK; rw [if_neg (by simp [hl])]; rfl
      rw [e1, e2]
      have t1 : clsType k ((P : Int) :: mu0) = if (k : Int) ∈ (P : Int) :: mu0 then 1 else 0 := by
        unfold clsType; rw [if_neg hz]
      have t2 : clsType k mu0 = if (k : Int) ∈ mu0 then 1 else 0 := by
        unfold clsType; rw [if_neg hz0]
      refine ⟨by simp [hl], Or.inl ⟨by omega, by push_cast; omega⟩, rfl, Or.inl rfl, ?_, ?_, ?_⟩
      · rw [t1, t2]; split <;> split <;> omega
      · intro hPk
        rw [t1, t2, if_pos (show (k : Int) ∈ (P : Int) :: mu0 by rw [hPk]; simp)]
        constructor
        · intro _; omega
        · intro _; split <;> simp
      · intro y hy h5 h6
        rcases hy with rfl | ⟨hk, rfl⟩
        · rfl
        · exfalso
          have t3 : clsType k ((P : Int) :: mu0 ++ [0]) = 2 := by
            unfold clsType; rw [if_pos (by simp at hk ⊢; tauto), if_pos (by simp)]
          rw [t3, t2] at h5 h6
          by_cases h7 : (k : Int) ∈ mu0
          · rw [if_pos h7] at h5; omega
          · have : P = k := by rcases List.mem_cons.1 hk with h | h <;> [omega; exact absurd h h7]
            rw [if_neg h7] at h6
            have := (h6 this).2 (by omega)
            simp at this
            exact absurd this (by decide)
    · have hk0 : 0 < k := by have := h1.2 k hk; omega
      have hl : last' ((P : Int) :: mu0 ++ [0]) = 0 := by
        unfold last'; rw [List.getLastD_eq_getLast?, List.getLast?_append]; simp
      have t1 : clsType k ((P : Int) :: mu0 ++ [0]) = 2 := by
        unfold clsType; rw [if_pos (by simp at hk ⊢; tauto), if_pos (by simp)]
      have t2 : clsType k mu0 = if (k : Int) ∈ mu0 then 1 else 0 := by
        unfold clsType; rw [if_neg hz0]
      have t3 : clsType k ((P : Int) :: mu0) = 1 := by
        unfold clsType; rw [if_pos hk, if_neg hz]
      have t4 : (k : Int) ∈ mu0 → clsType k (mu0 ++ [0]) = 2 := by
        intro h; unfold clsType; rw [if_pos (by simp [h]), if_pos (by simp)]
      have a0 : at' ((P : Int) :: mu0 ++ [0]) 0 = P := rfl
      have a1 : at' ((P : Int) :: mu0 ++ [0]) 1 = part mu0 0 := by
        rw [at'_eq_part, part_append_zero]; rfl
      have hlen : ¬ (last' ((P : Int) :: mu0 ++ [0]) = 0 ∧ ((P : Int) :: mu0 ++ [0]).length = 1) := by simp
      have hPk : (k : Int) ≤ P := by
        rcases List.mem_cons.1 hk with h | h
        · omega
        · exact hge _ h
      by_cases hlt : part mu0 0 < k
      · have hkm : (k : Int) ∉ mu0 := fun h => by have := hp0 _ h; omega
        have hPk' : P = k := by rcases List.mem_cons.1 hk with h | h <;> [omega; exact absurd h hkm]
        have e1 : hdK k ((P : Int) :: mu0 ++ [0]) = -k := by unfold hdK; rw [if_pos ⟨by rw [a0, hPk'], hl⟩]
        have e2 : tlK k ((P : Int) :: mu0 ++ [0]) = mu0 := by
          unfold tlK; rw [if_pos ⟨hl, by rw [a1]; exact hlt⟩]; simp
        rw [e1, e2, t1, t2, if_neg hkm]
        refine ⟨hlen, Or.inr ⟨hk0, rfl⟩, by omega, Or.inl rfl, by omega, ?_, ?_⟩
        · intro _
          constructor
          · intro h; exact absurd h (by decide)
          · intro h; omega
        · intro y hy h5 h6
          rcases hy with rfl | ⟨hk, rfl⟩
          · exfalso
            rw [t3] at h6
            have := (h6 hPk').1 (by decide)
            omega
          · rfl
      · have hkm : (k : Int) ∈ mu0 := by
          have hkp : part mu0 0 ∈ mu0 := by rcases hp1 with h | h; exacts [by omega, h]
          rcases List.mem_cons.1 hk with h | h
          · have := hge _ hkp
            rw [show (k : Int) = part mu0 0 by omega]; exact hkp
          · exact h
        have e2 : tlK k ((P : Int) :: mu0 ++ [0]) = mu0 ++ [0] := by
          unfold tlK; rw [if_neg (by rw [a1]; intro h; exact hlt h.2)]; rfl
        have e1 : hdK k ((P : Int) :: mu0 ++ [0]) = if P = k then -(k : Int) else P := by
          unfold hdK
          rw [a0]
          by_cases hPk' : P = k
          · rw [if_pos ⟨by rw [hPk'], hl⟩, if_pos hPk']
          · rw [if_neg (fun h => hPk' (by have := h.1; omega)), if_neg hPk']
        rw [e2, t1, t4 hkm, e1]
        refine ⟨hlen, ?_, ?_, Or.inr ⟨hkm, rfl⟩, by omega, ?_, ?_⟩
        · split
          · exact Or.inr ⟨hk0, rfl⟩
          · exact Or.inl ⟨by omega, by push_cast; omega⟩
        · split <;> omega
        · intro h
          rw [if_pos h]
          constructor
          · intro h; exact absurd h (by decide)
          · intro h; omega
        · intro y hy h5 h6
          rcases hy with rfl | ⟨hk, rfl⟩
          · rw [t3] at h5; omega
          · rfl

theorem notLonger_lead {k P : Nat} (h : k ≤ P) (l : List Int) : notLonger k l ((P : Int) :: l) = 0 := by
  unfold notLonger
  rw [List.length_eq_zero_iff, List.filter_eq_nil_iff]
  intro c hc
  rw [List.mem_range] at hc
  have : colHeight ((P : Int) :: l) c = colHeight l c + 1 := by
    unfold colHeight
    rw [List.countP_cons, if_pos (by simp; omega)]
  rw [this]
  simp

/-- the coefficients of the classes of the shape with one more row -/
theorem coefD_lead {n k P : Nat} {p : Int} (hp : p.natAbs = P) (hk : k ≤ n + 1) {mu0 tl y : List Int} (hb0 : InBox k n 1 mu0)
    (hb : InBox k n 1 ((P : Int) :: mu0)) (ht : Typed k mu0 tl) (hy : Typed k ((P : Int) :: mu0) y) (c : ℚ) :
    CoefD k p tl y c ↔ c = 1 ∧ (P = k → (Odd (max (clsType k tl) (clsType k y)) ↔ 0 ≤ p)) := by
  have ha : PieriArrow k 1 mu0 ((P : Int) :: mu0) := arrow_cons hb.isPart
  have hn : numComps k 1 tl y = if k < P then 1 else 0 := by
    rw [numComps_congr ht.part hy.part ht.colHeight hy.colHeight,
      ← (countComps_numComps hb0 hb (Or.inr rfl) (by omega) (by omega) ((shapeRel_iff hb0 hb (Or.inr rfl) (by omega) (by omega)).2 ha)).1,
      countComps_cons hb0 hb (Or.inr rfl) (by omega) (by omega)]
    have : ((k : Int) < (P : Int)) ↔ k < P := by omega
    simp [this]
  have hl : k ≤ P → notLonger k tl y = 0 := by
    intro h
    rw [← notLonger_lead h mu0]
    unfold notLonger
    rw [ht.colHeight, hy.colHeight]
  constructor
  · intro h
    rcases Nat.lt_trichotomy P k with h1 | h1 | h1
    · refine ⟨?_, by omega⟩
      rw [h.small (by omega), hn, if_neg (by omega), pow_zero]
    · obtain ⟨h2, h3⟩ := h.tie (by omega) (by rw [hn, if_neg (by omega)])
      rw [hl (by omega), zero_add] at h3
      exact ⟨h2, fun _ => h3⟩
    · refine ⟨?_, by omega⟩
      rw [(h.large (by omega)).2, hn, if_pos h1]; norm_num
  · rintro ⟨rfl, h⟩
    refine ⟨?_, ?_, ?_, ?_⟩
    · intro h1; rw [hn, if_neg (by omega), pow_zero]
    · intro h1; rw [hn, if_pos (by omega)]; norm_num
    · intro h1; rw [hn, if_neg (by omega)]; omega
    · intro h1 _
      rw [hl (by omega), zero_add]
      exact ⟨rfl, h (by omega)⟩

theorem inBox_tail' {n k : Nat} {P : Int} {mu0 : List Int} (hr : ReducedPart (P :: mu0)) (hb : InBox k n 1 (P :: mu0)) :
    ReducedPart mu0 ∧ InBox k n 1 mu0 :=
  ⟨⟨hr.1.tail, fun z hz => hr.2 z (by simp [hz])⟩, InBox.tail (by omega) hb⟩

/-! ### Degrees of the quantum terms -/

theorem cfD_sum {n k : Nat} (hk : k ≤ n + 1) {p : Int} (hp : k = 0 → p ≠ 0) {U W : WordD} (hU : U ∈ WdD n k) (hW : W ∈ WdD n k)
    (h : cfD k p U W ≠ 0) : (labD W).sum = (labD U).sum + p.natAbs := (cfD_ne hk hp hU hW h).2.1

theorem q1D_sum {n k : Nat} (hk : k ≤ n + 1) {p : Int} (hp : k = 0 → p ≠ 0) {U W : WordD} (hU : U ∈ WdD n k) (hW : W ∈ WdD n k)
    (h : q1D k p U W ≠ 0) : 0 < k ∧ (labD W).sum + (n + k) = (labD U).sum + p.natAbs := by
  unfold q1D at h
  rcases ha : aOf W.1 with _ | w'
  · rw [ha] at h; exact absurd rfl h
  · rw [ha] at h
    have hW' := mem_WdD.1 hW
    have hk0 : k ≠ 0 := by
      have := (aOf_length ha).2
      have h1 := hW'.2.1
      have h2 := colsW_add W.2.k0 W.1
      unfold colsD at h1
      omega
    have hU1 : (.b :: U.1, U.2) ∈ WdD (n + 1) k := by
      rw [mem_WdD] at hU ⊢
      exact ⟨by simp [hU.1], hU.2.1, hU.2.2⟩
    have h3 := cfD_sum (n := n + 1) (by omega) hp hU1 (aOf_mem hk0 hW ha _ (L3.k0_sw _)) h
    obtain ⟨t, h4, h5⟩ := aOf_labD W.2 ha
    have e1 : (labD (.o :: w', W.2.sw)).sum = (clD (.o :: w', W.2)).sum := by
      rw [labD_sum, show shD (.o :: w', W.2.sw) = shD (.o :: w', W.2) from shD_sw (.o :: w', W.2)]
      exact (partClip_sum _).symm
    have e2 : (labD W).sum = (clD (W.1, W.2)).sum := by
      rw [labD_sum]; exact (partClip_sum _).symm
    rw [e1, h5, labD_b] at h3
    simp only [List.sum_cons, List.sum_append, List.sum_replicate, nsmul_eq_mul, mul_one] at h3
    have := hW'.1
    have h7 : colsD (W.1, W.2) = k := hW'.2.1
    rw [h7] at h3
    have h8 : (labD (U.1, U.2)).sum = (labD U).sum := rfl
    omega

theorem q2D_sum {n k : Nat} (hk : k ≤ n + 1) {p : Int} (hp : k = 0 → p ≠ 0) {U W : WordD} (hU : U ∈ WdD n k) (hW : W ∈ WdD n k)
    (h : q2D k p U W ≠ 0) : 0 < n ∧ (labD W).sum + 2 * (n + k) = (labD U).sum + p.natAbs := by
  rcases U with ⟨u, i⟩
  rcases W with ⟨w, j⟩
  unfold q2D at h
  split at h
  · rename_i u' w' e1 e2
    simp only at e1 e2
    subst e1; subst e2
    have hU1 : (.b :: u', i) ∈ WdD n k := by rw [mem_WdD] at hU ⊢; exact hU
    have hW1 : (.a :: w', j) ∈ WdD n k := by rw [mem_WdD] at hW ⊢; exact hW
    have h3 := cfD_sum hk hp hU1 hW1 h
    rw [labD_a, labD_b, List.sum_cons] at h3
    rw [labD_a, labD_b, List.sum_cons]
    rw [mem_WdD, colsD_a] at hU
    rw [mem_WdD, colsD_b] at hW
    simp only [List.length_cons] at hU hW
    omega
  · exact absurd rfl h

/-! ### The systems -/

/-- the Pieri operators of type D; `h` and `h'` are the weights of the two kinds of quantum terms -/
noncomputable def tDD (h h' : Polynomial ℚ) (n k : Nat) (p : Int) : List Int → LMod :=
  tM (WdD n k) labD (fun _ => MDg h h' k p) 0

theorem tDD_apply (h h' : Polynomial ℚ) {n k : Nat} (p : Int) {U W : WordD} (hU : U ∈ WdD n k) (hW : W ∈ WdD n k) :
    tDD h h' n k p (labD U) (labD W) = MDg h h' k p U W := tM_apply _ WdD_inj 0 hU hW

theorem tDD_lab (h h' : Polynomial ℚ) {n k : Nat} (p : Int) {U : WordD} (hU : U ∈ WdD n k) :
    tDD h h' n k p (labD U) = ∑ W ∈ WdD n k, Finsupp.single (labD W) (MDg h h' k p U W) := tM_lab _ WdD_inj 0 hU

theorem tDD_closed (h h' : Polynomial ℚ) {n k : Nat} (hk : k ≤ n + 1) (p : Int) (l : List Int) :
    ∀ mu ∈ (tDD h h' n k p l).support, clsD n k mu := by
  intro mu hmu
  exact (WdD_cls hk mu).2 (tM_support _ 0 l mu hmu)

theorem tDD_ne (h h' : Polynomial ℚ) {n k : Nat} (hk : k ≤ n + 1) (p : Int) {l : List Int} (hl : ¬ clsD n k l) : tDD h h' n k p l = 0 :=
  tM_ne _ 0 (fun u hu e => hl ((WdD_cls hk l).2 ⟨u, hu, e⟩))

theorem tDD_comm {h h' : Polynomial ℚ} {n k : Nat} (hk : k = 0 → h = 0) (hh : k ≠ 0 → h' = h ^ 2) {a b : Int}
    (ha : k = 0 → a ≠ 0) (hb : k = 0 → b ≠ 0) (l : List Int) :
    lin (tDD h h' n k a) (tDD h h' n k b l) = lin (tDD h h' n k b) (tDD h h' n k a l) := by
  have := tM_comm (W := WdD n k) (lab := labD) (fun i : Nat => if i = 0 then MDg h h' k a else MDg h h' k b) WdD_inj (a := 0) (b := 1)
    (by
      intro U hU V hV
      simp only [if_true, one_ne_zero, if_false]
      exact MDg_comm hk hh ha hb U hU V hV) l
  have e : ∀ (i : Nat) (c : Int), (if i = 0 then MDg h h' k a else MDg h h' k b) = MDg h h' k c →
      tM (WdD n k) labD (fun i : Nat => if i = 0 then MDg h h' k a else MDg h h' k b) i = tDD h h' n k c := by
    intro i c he
    funext l
    unfold tDD tM
    simp only [he]
  rwa [e 0 a (if_pos rfl), e 1 b (if_neg one_ne_zero)] at this

theorem stepDD {h h' : Polynomial ℚ} {n k : Nat} (hk : k ≤ n + 1) (hh : h = 0 ∨ k ≠ 1) {l : List Int} (hl : clsD n k l) (h0 : l ≠ []) :
    ¬ (last' l = 0 ∧ l.length = 1) ∧ spcD n k (hdK k l) ∧ clsD n k (tlK k l) ∧ measBC n k (tlK k l) < measBC n k l ∧
    ∀ mu ∈ (tDD h h' n k (hdK k l) (tlK k l) - Finsupp.single l 1).support, clsD n k mu ∧ measBC n k mu < measBC n k l := by
  obtain ⟨P, mu0, r1, r2, r3, r4, r5, r6, r7, r8, r9, r10⟩ := giam_split hl h0
  obtain ⟨s1, s2⟩ := inBox_tail' r1 r2
  have hP := r1.2 P (by simp)
  have hPc : (P : Int) ≤ n + k := r2.cols
  have htl : clsD n k (tlK k l) := ⟨mu0, s1, s2, r7⟩
  have hs0 := isPartition_sum_nonneg s1.isPartition
  have hsl : l.sum = P + mu0.sum := by rw [r3.sum, List.sum_cons]
  have hst := r7.sum
  have hp0 : k = 0 → hdK k l ≠ 0 := fun _ => spcD_nz _ r5
  refine ⟨r4, r5, htl, measBC_lt_of_sum (by omega) (by omega), ?_⟩
  intro mu hmu
  generalize hdK k l = p at *
  generalize tlK k l = tl at *
  obtain ⟨U, hU, rfl⟩ := (WdD_cls hk tl).1 htl
  obtain ⟨V, hV, rfl⟩ := (WdD_cls hk l).1 hl
  rw [Finsupp.mem_support_iff, Finsupp.sub_apply] at hmu
  have hcoef : ∀ y, Typed k ((P : Int) :: mu0) y → ∀ c, CoefD k p (labD U) y c ↔ _ := fun y hy c => coefD_lead r6 hk s2 r2 r7 hy c
  by_cases hne : mu = labD V
  · exfalso
    apply hmu
    have hlead : TermD k n p (labD U) (labD V) 1 := by
      refine ⟨_, r1, r2, by rw [List.sum_cons]; omega, ?_, r3, r8, (hcoef _ r3 1).2 ⟨rfl, r9⟩⟩
      exact PieriArrow.congr r7.part.symm rfl r7.colHeight.symm rfl (arrow_cons r2.isPart)
    have hc := ((termD_word_iff hk hp0 hU hV 1).1 hlead).2
    have e1 : q1D k p U V = 0 := by
      by_contra h2
      have := (q1D_sum hk hp0 hU hV h2).2
      omega
    have e2 : q2D k p U V = 0 := by
      by_contra h2
      have := (q2D_sum hk hp0 hU hV h2).2
      omega
    rw [hne, tDD_apply _ _ _ hU hV, Finsupp.single_eq_same, MDg_eq h h' p hU hV hh, e1, e2, ← hc]
    simp
  · rw [Finsupp.single_eq_of_ne hne, sub_zero] at hmu
    obtain ⟨W, hW, rfl⟩ := (WdD_cls hk mu).1 (tDD_closed h h' hk p _ mu (Finsupp.mem_support_iff.2 hmu))
    rw [tDD_apply _ _ _ hU hW, MDg_eq h h' p hU hW hh] at hmu
    have hcW := clsD_labD hW
    refine ⟨hcW, ?_⟩
    have hsW : 0 ≤ (labD W).sum := isPartition_sum_nonneg (isPartition_labD W)
    by_cases hcf : cfD k p U W = 0
    · apply measBC_lt_of_sum _ hsW
      by_cases e1 : q1D k p U W = 0
      · have e2 : q2D k p U W ≠ 0 := by
          intro e2
          rw [hcf, e1, e2] at hmu
          simp at hmu
        have := (q2D_sum hk hp0 hU hW e2).2
        omega
      · have := (q1D_sum hk hp0 hU hW e1).2
        omega
    · obtain ⟨nu, t1, t2, t3, t4, t5, t6, t7⟩ := (termD_word_iff hk hp0 hU hW _).2 ⟨hcf, rfl⟩
      have t4' : PieriArrow k 1 mu0 nu := PieriArrow.congr r7.part rfl r7.colHeight rfl t4
      rcases arrow_first s1 t1 t4' (p := P) (by omega) (by omega) with h2 | h2
      · exfalso
        subst h2
        exact hne (r10 _ t5 t6 ((hcoef _ t5 _).1 t7).2)
      · have t5' : Typed k nu (labD W) := t5
        apply measBC_lt_of_first
        · rw [t5'.sum]; omega
        · rw [t5'.part, r3.part]; exact h2
        · rw [t5'.part]; exact t2.cols
        · rw [r3.part]; show (0 : Int) ≤ P; omega

theorem degDD {n k : Nat} {l : List Int} (hl : clsD n k l) (h0 : l ≠ []) : (num2spec (hdK k l)).sum + (tlK k l).sum = l.sum := by
  obtain ⟨P, mu0, r1, r2, r3, r4, r5, r6, r7, _⟩ := giam_split hl h0
  rw [r3.sum, r7.sum, List.sum_cons]
  have : (num2spec (hdK k l)).sum = P := by
    unfold num2spec
    split <;> simp <;> omega
  rw [this]

theorem clsD_typed {n k : Nat} (hk : k ≤ n + 1) {l : List Int} (h : clsD n k l) :
    TypedClass k (n + 1 - k) (n + k) l ∧ InBox k n 1 l := by
  obtain ⟨U, hU, rfl⟩ := (WdD_cls hk l).1 h
  obtain ⟨mu, h1, h2, h3⟩ := h
  have hb := inBox_labD U
  rw [mem_WdD] at hU
  rw [hU.1, hU.2.1] at hb
  exact ⟨(typed_of_cls (n := n) (m := n + 1 - k) (by omega) rfl ⟨mu, h1, h2, rfl, h3⟩).1, hb⟩

theorem retDD {n k : Nat} (hk : k ≤ n + 1) {p : Int} (hp : k = 0 → p ≠ 0) {l : List Int} (hl : clsD n k l) :
    Returns (pieriD p l k n) (ev (tDD 0 0 n k p l)) := by
  obtain ⟨ht, hb⟩ := clsD_typed hk hl
  obtain ⟨U, hU, rfl⟩ := (WdD_cls hk l).1 hl
  obtain ⟨e, h1, h2⟩ := pieriD_ret p hb (by omega) (by omega) ht
  refine ⟨e, h1, h2.1, ?_⟩
  unfold tDD
  rw [ev_tM _ WdD_inj 0 hU]
  have hM : ∀ W ∈ WdD n k, MDg 0 0 k p U W = Polynomial.C (cfD k p U W) := by
    intro W hW
    rw [MDg_eq 0 0 p hU hW (Or.inl rfl)]; simp
  apply den_isTerms h2 WdD_inj
  · rintro qs x c ⟨rfl, h⟩
    obtain ⟨W, hW, rfl⟩ := (WdD_cls hk x).1 h.cls
    refine ⟨0, rfl, W, hW, rfl, ?_⟩
    rw [hM W hW, Polynomial.coeff_C_zero]
    exact ((termD_word_iff hk hp hU hW c).1 h).2.symm
  · intro W hW d hd
    rw [hM W hW] at hd ⊢
    rw [Polynomial.coeff_C] at hd ⊢
    split at hd
    · rename_i hd0
      subst hd0
      rw [if_pos rfl]
      exact ⟨rfl, (termD_word_iff hk hp hU hW _).2 ⟨hd, rfl⟩⟩
    · exact absurd rfl hd

/-- the weight of the first kind of quantum terms -/
noncomputable def hQ (k : Nat) : Polynomial ℚ := if k = 0 then 0 else Polynomial.X

/-- the weight of the second kind of quantum terms -/
noncomputable def hQ' (k : Nat) : Polynomial ℚ := if k = 0 then Polynomial.X else Polynomial.X ^ 2

open Polynomial in
theorem MDq_coeff (p : Int) {n k : Nat} (hk1 : k ≠ 1) {U W : WordD} (hU : U ∈ WdD n k) (hW : W ∈ WdD n k) (d : Nat) :
    (MDg (hQ k) (hQ' k) k p U W).coeff d = (if d = 0 then cfD k p U W else 0) +
      (if 0 < k ∧ d = 1 then q1D k p U W else 0) + (if d = qexp k then q2D k p U W else 0) := by
  rw [MDg_eq _ _ p hU hW (Or.inr hk1), coeff_add, coeff_add, coeff_C, coeff_mul_C, coeff_mul_C]
  unfold hQ hQ' qexp
  by_cases hk : k = 0
  · simp only [hk, if_true, coeff_zero, coeff_X, lt_irrefl, false_and, if_false, zero_mul, eq_comm (a := 1), ite_mul, one_mul]
  · simp only [hk, if_false, coeff_X, coeff_X_pow, Nat.pos_of_ne_zero hk, true_and, eq_comm (a := 1), ite_mul, one_mul, zero_mul]

theorem retQD (ord : List Int → List Int) {n k : Nat} (hk : k ≤ n) (hn : 0 < n) (hk1 : k ≠ 1) {p : Int} (hp : k = 0 → p ≠ 0) {l : List Int}
    (hl : clsD n k l) : Returns (qpieriD ord p l k n) (ev (tDD (hQ k) (hQ' k) n k p l)) := by
  have hkn : k ≤ n + 1 := by omega
  obtain ⟨ht, hb⟩ := clsD_typed hkn hl
  obtain ⟨U, hU, rfl⟩ := (WdD_cls hkn l).1 hl
  obtain ⟨e, h1, h2⟩ := qpieriD_ret ord p hk1 hb (by omega) (by omega) (Or.inr (by omega)) ht
  refine ⟨e, h1, h2.1, ?_⟩
  unfold tDD
  rw [ev_tM _ WdD_inj 0 hU]
  have hq : (if k = 0 then [Sym.q] else [Sym.q, Sym.q]) = List.replicate (qexp k) Sym.q := by
    unfold qexp; split <;> rfl
  have hq0 : qexp k ≠ 0 := by unfold qexp; split <;> simp
  have hq1 : ¬ (0 < k ∧ qexp k = 1) := by
    unfold qexp
    rintro ⟨h1, h2⟩
    rw [if_neg (by omega)] at h2
    omega
  apply den_isTerms h2 WdD_inj
  · rintro qs x c (⟨rfl, h⟩ | ⟨h0, rfl, nu, h3, h4⟩ | ⟨rfl, h3, h4⟩)
    · obtain ⟨W, hW, rfl⟩ := (WdD_cls hkn x).1 h.cls
      refine ⟨0, rfl, W, hW, rfl, ?_⟩
      rw [MDq_coeff p hk1 hU hW, if_pos rfl, if_neg (by omega), if_neg (by omega), ((termD_word_iff hkn hp hU hW c).1 h).2]
      ring
    · have hx : clsD n k x := tildeD_cls (by omega) hkn (TermD.cls (n := n + 1) (by push_cast; exact h3)) h4
      obtain ⟨W, hW, rfl⟩ := (WdD_cls hkn x).1 hx
      refine ⟨1, rfl, W, hW, rfl, ?_⟩
      have := (q1D_ne (by omega) hkn (p := p) hU hW c).2 ⟨nu, h3, h4⟩
      rw [MDq_coeff p hk1 hU hW, if_neg (by omega), if_pos ⟨h0, rfl⟩, if_neg (fun h => hq1 ⟨h0, h.symm⟩), this.2]
      ring
    · have hx : clsD n k x := by
        obtain ⟨mu, m1, m2, m3⟩ := h4.cls
        cases mu with
        | nil => rcases m3 with m3 | ⟨m3, _⟩ <;> simp at m3
        | cons z mu =>
          obtain ⟨s1, s2⟩ := inBox_tail' m1 m2
          rcases m3 with m3 | ⟨m3, m4⟩
          · exact ⟨mu, s1, s2, Or.inl (List.cons.inj m3).2⟩
          · have m5 := List.cons.inj m4
            refine ⟨mu, s1, s2, Or.inr ⟨?_, m5.2⟩⟩
            rcases List.mem_cons.1 m3 with m6 | m6
            · omega
            · exact m6
      obtain ⟨W, hW, rfl⟩ := (WdD_cls hkn x).1 hx
      refine ⟨qexp k, hq, W, hW, rfl, ?_⟩
      have := (q2D_ne hn hp hU hW c).2 ⟨h3, h4⟩
      rw [MDq_coeff p hk1 hU hW, if_neg hq0, if_neg hq1, if_pos rfl, this.2]
      ring
  · intro W hW d hd
    rw [MDq_coeff p hk1 hU hW] at hd ⊢
    by_cases hd0 : d = 0
    · subst hd0
      rw [if_pos rfl, if_neg (by omega), if_neg (by omega), add_zero, add_zero] at hd ⊢
      exact Or.inl ⟨rfl, (termD_word_iff hkn hp hU hW _).2 ⟨hd, rfl⟩⟩
    · rw [if_neg hd0, zero_add] at hd ⊢
      by_cases hd1 : 0 < k ∧ d = 1
      · obtain ⟨h0, rfl⟩ := hd1
        rw [if_pos ⟨h0, rfl⟩, if_neg (fun h => hq1 ⟨h0, h.symm⟩), add_zero] at hd ⊢
        exact Or.inr (Or.inl ⟨h0, rfl, (q1D_ne (by omega) hkn hU hW _).1 ⟨hd, rfl⟩⟩)
      · rw [if_neg hd1, zero_add] at hd ⊢
        split at hd
        · rename_i h5
          subst h5
          rw [if_pos rfl]
          exact Or.inr (Or.inr ⟨hq.symm, (q2D_ne hn hp hU hW _).1 ⟨hd, rfl⟩⟩)
        · exact absurd rfl hd

end Verif
