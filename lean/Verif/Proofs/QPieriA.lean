import Verif.Proofs.PieriA2
/-! # Value of `qpieriA`: Bertram's rule -/

namespace Verif
open Spec MvPolynomial

theorem sum_le_of_part {l : List Int} {m : Nat} {k : Int} (h : l.length ≤ m) (hk : 0 ≤ k)
    (hx : ∀ x ∈ l, x ≤ k) : l.sum ≤ m * k := by
  have h1 : l.sum ≤ l.length * k := by
    induction l with
    | nil => simp
    | cons x l ih =>
      have := ih (by simp at h; omega) (fun y hy => hx y (by simp [hy]))
      have hx' := hx x (by simp)
      simp only [List.sum_cons, List.length_cons]
      push_cast
      linarith
  have h2 : (l.length : Int) * k ≤ m * k := mul_le_mul_of_nonneg_right (by exact_mod_cast h) hk
  omega

theorem part_lab {lam : List Int} (hd : lam.Pairwise (· ≥ ·)) (hpos : ∀ x ∈ lam, 1 ≤ x) (i : Nat)
    (hi : i < lam.length) :
    part ((lam.filter (fun x => decide (x > 1))).map (fun x => x - 1)) i = part lam i - 1 := by
  induction lam generalizing i with
  | nil => simp at hi
  | cons x lam ih =>
    obtain ⟨h1, h2⟩ := List.pairwise_cons.1 hd
    by_cases hx : x > 1
    · rw [List.filter_cons_of_pos (by simpa using hx), List.map_cons]
      cases i with
      | zero => rfl
      | succ i =>
        rw [part_cons_succ, part_cons_succ]
        exact ih h2 (fun y hy => hpos y (by simp [hy])) i (by simpa using hi)
    · have hall : ∀ y ∈ x :: lam, y = 1 := by
        intro y hy
        have := hpos y hy
        rcases List.mem_cons.1 hy with rfl | hy
        · omega
        · have := h1 y hy; omega
      have : (x :: lam).filter (fun x => decide (x > 1)) = [] := by
        rw [List.filter_eq_nil_iff]
        intro y hy
        have := hall y hy
        simp; omega
      rw [this]
      rw [part_of_lt hi, hall _ (List.getElem_mem hi)]
      simp

theorem lab_length_le (lam : List Int) :
    ((lam.filter (fun x => decide (x > 1))).map (fun x => x - 1)).length ≤ lam.length := by
  rw [List.length_map]; exact List.length_filter_le _ _

/-- the shape used by the quantum term, padded -/
theorem pad_lab {m : Nat} {lam : List Int} (hd : lam.Pairwise (· ≥ ·)) (hpos : ∀ x ∈ lam, 1 ≤ x)
    (hlen : lam.length = m) :
    pad (m + 1) ((lam.filter (fun x => decide (x > 1))).map (fun x => x - 1)) =
      lam.map (fun x => x - 1) ++ [0] := by
  have hl := lab_length_le lam
  apply ext_part
  · rw [pad_length (by omega)]; simp [hlen]
  · intro i hi
    rw [pad_length (by omega)] at hi
    rw [part_pad]
    have e : part (lam.map (fun x => x - 1) ++ [0]) i = part (lam.map (fun x => x - 1)) i :=
      part_append_zeros _ 1 i
    rw [e]
    by_cases h : i < m
    · rw [part_lab hd hpos i (by omega), part_of_lt (l := lam.map _) (by simpa [hlen] using h),
        part_of_lt (l := lam) (by omega)]
      simp
    · rw [part_of_ge (by omega), part_of_ge (by simp; omega)]

/-- the substitution done by `part_star` -/
noncomputable def starVal (c : Int) (l : List Int) : P :=
  if l.length = 0 ∨ at' l 0 ≠ c then 0 else X (.S l.tail)

theorem partStar_returns (c : Int) (l : List Int) :
    Returns ((Except.ok (partStar l c) : Except PyErr Poly)) (starVal c l) := by
  refine ⟨_, rfl, ?_, ?_⟩
  · unfold partStar; split
    · exact wf_nil
    · exact wf_sym _
  · unfold partStar starVal; split <;> simp

theorem subst_clsSum (σ : List Int → P) (L : List (List Int)) :
    subst σ (clsSum L) = (L.map σ).sum := by
  induction L with
  | nil => simp
  | cons l L ih => rw [clsSum_cons, map_add, ih, subst_S]; simp

theorem starVal_clip {c : Int} (hc : c ≠ 0) (x : Int) (t : List Int) :
    starVal c (partClip (x :: t)) = if x = c then X (.S (partClip t)) else 0 := by
  unfold starVal
  rw [partClip_cons]
  by_cases hx : x = c
  · rw [if_pos hx]
    have : ¬ (partClip t = [] ∧ x = 0) := by omega
    rw [if_neg this, if_neg]
    · rfl
    · simp [at', hx]
  · rw [if_neg hx, if_pos]
    split
    · left; rfl
    · right
      exact hx

theorem sum_star {c : Int} (hc : c ≠ 0) (L : List (List Int)) (hL : ∀ l ∈ L, l ≠ []) :
    ((L.map partClip).map (starVal c)).sum =
      clsSum ((L.filter (fun l => decide (at' l 0 = c))).map (fun l => partClip l.tail)) := by
  induction L with
  | nil => simp
  | cons l L ih =>
    obtain ⟨x, t, rfl⟩ := List.exists_cons_of_ne_nil (hL l (by simp))
    have := ih (fun l hl => hL l (by simp [hl]))
    simp only [List.map_cons, List.sum_cons, this, starVal_clip hc]
    by_cases hx : x = c
    · rw [if_pos hx, List.filter_cons_of_pos (by simpa [at'] using hx)]
      simp
    · rw [if_neg hx, List.filter_cons_of_neg (by simpa [at'] using hx), zero_add]

theorem apply_spec' {f : List Int → Except PyErr Poly} {σ : List Int → P} (p : Poly)
    (h : ∀ l, Returns (f l) (σ l)) : Returns (Poly.apply f p) (subst σ (den p)) :=
  apply_spec p (fun _ _ l _ => h l)

/-- members of the quantum part, in terms of the padded strips -/
theorem mem_quantum {m : Nat} {k : Int} {lam : List Int} (hm : 1 ≤ m) (hk : 2 ≤ k)
    (hl : IsPartition lam) (hlen : lam.length = m) (hle : ∀ x ∈ lam, x ≤ k) (hpos : ∀ x ∈ lam, 1 ≤ x)
    (p : Nat) (nu : List Int) :
    nu ∈ ((strips (k - 1) p (lam.map (fun x => x - 1) ++ [0])).filter
        (fun l => decide (at' l 0 = k - 1))).map (fun l => partClip l.tail) ↔
      Bertram m lam nu ∧ nu.sum + m + k = lam.sum + (p + 1) := by
  have hb : Box (m + 1) (k - 1) (lam.map (fun x => x - 1) ++ [0]) := by
    refine ⟨by simp [hlen], ?_, ?_⟩
    · constructor
      · rw [List.pairwise_append]
        refine ⟨?_, by simp, ?_⟩
        · rw [List.pairwise_map]; exact hl.1.imp (fun h => by omega)
        · intro a ha b hb
          simp at hb ha
          obtain ⟨x, hx, rfl⟩ := ha
          have := hpos x hx; omega
      · intro x hx
        simp at hx
        rcases hx with ⟨y, hy, rfl⟩ | rfl
        · have := hpos y hy; omega
        · omega
    · intro x hx
      simp at hx
      rcases hx with ⟨y, hy, rfl⟩ | rfl
      · have := hle y hy; omega
      · omega
  have hne : lam.map (fun x => x - 1) ++ [0] ≠ [] := by simp
  have hpm : ∀ i < m, part (lam.map (fun x => x - 1) ++ [0]) i = part lam i - 1 := by
    intro i hi
    rw [show part (lam.map (fun x => x - 1) ++ [0]) i = part (lam.map (fun x => x - 1)) i from
      part_append_zeros _ 1 i, part_of_lt (by simpa [hlen] using hi), part_of_lt (by omega)]
    simp
  have hpm' : part (lam.map (fun x => x - 1) ++ [0]) m = 0 := by
    rw [show part (lam.map (fun x => x - 1) ++ [0]) m = part (lam.map (fun x => x - 1)) m from
      part_append_zeros _ 1 m]
    exact part_of_ge (by simp [hlen])
  have hsum : (lam.map (fun x => x - 1) ++ [0]).sum = lam.sum - m := by
    have : ∀ l : List Int, (l.map (fun x => x - 1)).sum = l.sum - l.length := by
      intro l
      induction l with
      | nil => simp
      | cons x l ih => simp [ih]; omega
    rw [List.sum_append, this]; simp [hlen]
  have hl1 : (lam.map (fun x => x - 1) ++ [0]).length = m + 1 := by simp [hlen]
  rw [List.mem_map]
  constructor
  · rintro ⟨w, hw, rfl⟩
    rw [List.mem_filter] at hw
    obtain ⟨hw, hw0⟩ := hw
    have hbw := strips_box (by omega) hb hw
    rw [mem_strips hne hb.part.1 hb.le, hl1, hsum] at hw
    obtain ⟨h1, h2, h3, h4, h5⟩ := hw
    cases w with
    | nil => simp at h1
    | cons x t =>
      have hx : x = k - 1 := by simpa [at'] using hw0
      have ht : IsPartition t := by
        have := hbw.part
        exact ⟨(List.pairwise_cons.1 this.1).2, fun y hy => this.2 y (by simp [hy])⟩
      have htl : t.length = m := by simpa using h1
      refine ⟨⟨ht.partClip, by have := partClip_length_le t; simp; omega, ?_⟩, ?_⟩
      · intro i hi
        have a1 := h3 i (by omega)
        rw [hpm i hi] at a1
        simp only [part_cons_succ] at a1
        refine ⟨by simpa [part_partClip] using a1, ?_⟩
        intro hi1
        have a2 := h2 (i + 1) (by omega)
        rw [hpm _ hi1] at a2
        simpa [part_partClip] using a2
      · simp only [List.tail_cons, partClip_sum]
        simp only [List.sum_cons] at h5
        omega
  · rintro ⟨⟨h1, h2, h3⟩, h4⟩
    have hnu : part nu 0 ≤ k - 1 := by
      have := (h3 0 (by omega)).1
      have := hle (part lam 0) (by rw [part_of_lt (by omega)]; exact List.getElem_mem _)
      omega
    refine ⟨(k - 1) :: pad m nu, ?_, ?_⟩
    · rw [List.mem_filter]
      refine ⟨?_, by simp [at']⟩
      rw [mem_strips hne hb.part.1 hb.le, hl1, hsum]
      refine ⟨by simp [pad_length h2], ?_, ?_, le_refl _, ?_⟩
      · intro i hi
        cases i with
        | zero =>
          rw [hpm 0 (by omega), part_cons_zero]
          have := hle (part lam 0) (by rw [part_of_lt (by omega)]; exact List.getElem_mem _)
          omega
        | succ i =>
          rw [part_cons_succ, part_pad]
          by_cases hi' : i + 1 < m
          · rw [hpm _ hi']
            exact (h3 i (by omega)).2 hi'
          · have : i + 1 = m := by omega
            rw [this, hpm']
            exact h1.isPartition.part_nonneg i
      · intro i hi
        rw [part_cons_succ, part_pad, hpm i (by omega)]
        exact (h3 i (by omega)).1
      · simp only [List.sum_cons, pad_sum]; omega
    · simp only [List.tail_cons]
      rw [partClip_pad, partClip_of_noTrailing h1.noTrailing]

theorem quantum_nodup {m : Nat} {c : Int} {p : Nat} {w : List Int} (hw : w.length = m + 1)
    (hd : w.Pairwise (· ≥ ·)) (hc : ∀ x ∈ w, x ≤ c) :
    (((strips c p w).filter (fun l => decide (at' l 0 = c))).map (fun l => partClip l.tail)).Nodup := by
  have hne : w ≠ [] := by rintro rfl; simp at hw
  rw [List.nodup_map_iff_inj_on ((strips_nodup c p w).filter _)]
  intro x hx y hy h
  rw [List.mem_filter, mem_strips hne hd hc] at hx hy
  obtain ⟨⟨hx1, _⟩, hx0⟩ := hx
  obtain ⟨⟨hy1, _⟩, hy0⟩ := hy
  cases x with
  | nil => simp at hx1; omega
  | cons a x => cases y with
    | nil => simp at hy1; omega
    | cons b y =>
      simp [at'] at hx0 hy0
      simp only [List.tail_cons] at h
      have h1 : x.length = m := by simp at hx1; omega
      have h2 : y.length = m := by simp at hy1; omega
      rw [hx0, hy0, ← pad_partClip h1, ← pad_partClip h2, h]

/-- `qpieriA` on a class of `Gr(m, m + k)`, `k ≥ 1`. -/
theorem qpieriA_value {m : Nat} {k n : Int} {lam : List Int} (hm : 1 ≤ m) (hk : 1 ≤ k) (hn : n = m + k)
    (hl : IsPartition lam) (hr : InRect lam m k) (p : Nat) (hp : 1 ≤ p) (hpk : (p : Int) ≤ k) :
    ∃ N : List (List Int), N.Nodup ∧
      (∀ nu, nu ∈ N ↔ Bertram m lam nu ∧ nu.sum + n = lam.sum + p) ∧
      Returns (qpieriA p lam k n)
        (clsSum ((strips k p (pad m lam)).map partClip) + X .q * clsSum N) := by
  obtain ⟨w, hw, hw', hw''⟩ := pieriA_value hm (by omega) hn hl hr p
  have hnk : n - k = m := by omega
  by_cases hfull : lam.length = m ∧ 0 < part lam (m - 1)
  · obtain ⟨hlen, hlast⟩ := hfull
    have hpos : ∀ x ∈ lam, 1 ≤ x := by
      rw [forall_mem_iff_part]
      intro j hj
      have := hl.part_anti (show j ≤ m - 1 by omega)
      omega
    have hcond : (lam.length : Int) = n - k ∧ at' lam (lam.length - 1) > 0 := by
      refine ⟨by omega, ?_⟩
      rw [hlen]; exact hlast
    by_cases hk1 : k = 1
    · subst hk1
      have hp1 : p = 1 := by omega
      subst hp1
      have hall : ∀ x ∈ lam, x = 1 := fun x hx => by
        have := hpos x hx; have := hr.2 x hx; omega
      have hsum : lam.sum = m := by
        have : ∀ l : List Int, (∀ x ∈ l, x = 1) → l.sum = l.length := by
          intro l hl
          induction l with
          | nil => simp
          | cons x l ih =>
            have := ih (fun y hy => hl y (by simp [hy]))
            have := hl x (by simp)
            simp; omega
        rw [this lam hall, hlen]
      have hC : (strips 1 1 (pad m lam)).map partClip = [] := by
        apply List.eq_nil_iff_forall_not_mem.2
        intro mu hmu
        rw [mem_clip_strips hm (by omega) hl hr] at hmu
        have := sum_le_of_part hmu.2.1.1 (by omega : (0 : Int) ≤ 1) hmu.2.1.2
        have := hmu.2.2.2
        push_cast at this
        omega
      refine ⟨[[]], by simp, ?_, ?_⟩
      · intro nu
        rw [List.mem_singleton]
        constructor
        · rintro rfl
          refine ⟨⟨by simp [ReducedPart], by simp, ?_⟩, by simp; omega⟩
          intro i hi
          have h1 : ∀ j < m, part lam j = 1 := by
            intro j hj
            rw [part_of_lt (by omega)]; exact hall _ (List.getElem_mem _)
          refine ⟨by rw [h1 i hi]; simp, fun h => by rw [h1 _ h]; simp⟩
        · rintro ⟨⟨h1, h2, h3⟩, h4⟩
          have : nu.sum = 0 := by push_cast at h4; omega
          cases nu with
          | nil => rfl
          | cons x t =>
            have hx := h1.2 x (by simp)
            have ht : 0 ≤ t.sum := List.sum_nonneg (fun y hy => le_of_lt (h1.2 y (by simp [hy])))
            simp at this; omega
      · refine ⟨Poly.mul (Poly.sym .q) (Poly.sym (.S [])), ?_, wf_mul (wf_sym _), ?_⟩
        · unfold qpieriA
          simp only [hw]
          show (if _ then _ else _) = _
          rw [if_neg (by omega), if_pos hcond, if_pos trivial]
        · rw [den_mul, hC]; simp
    · have hk2 : 2 ≤ k := by omega
      have hlabp : IsPartition ((lam.filter (fun x => decide (x > 1))).map (fun x => x - 1)) := by
        constructor
        · rw [List.pairwise_map]
          exact (hl.1.filter _).imp (fun h => by omega)
        · intro x hx
          simp at hx
          obtain ⟨y, hy, rfl⟩ := hx
          omega
      have hlabr : InRect ((lam.filter (fun x => decide (x > 1))).map (fun x => x - 1)) (m + 1) (k - 1) := by
        refine ⟨by have := lab_length_le lam; omega, ?_⟩
        intro x hx
        simp at hx
        obtain ⟨y, hy, rfl⟩ := hx
        have := hr.2 y hy.1
        omega
      obtain ⟨v, hv, hv', hv''⟩ := pieriA_value (m := m + 1) (k := k - 1) (n := n) (by omega) (by omega)
        (by push_cast; omega) hlabp hlabr (p - 1)
      rw [pad_lab hl.1 hpos hlen] at hv''
      obtain ⟨z, hz, hz', hz''⟩ := apply_spec' v (partStar_returns (k - 1))
      have hb : (lam.map (fun x => x - 1) ++ [0]).Pairwise (· ≥ ·) ∧
          (∀ x ∈ lam.map (fun x => x - 1) ++ [0], x ≤ k - 1) := by
        have := Box.pad (by omega) hlabp hlabr
        rw [pad_lab hl.1 hpos hlen] at this
        exact ⟨this.part.1, this.le⟩
      refine ⟨_, quantum_nodup (m := m) (p := p - 1) (by simp [hlen]) hb.1 hb.2,
        fun nu => ?_, ?_⟩
      · rw [mem_quantum hm hk2 hl hlen hr.2 hpos]
        constructor
        · rintro ⟨h1, h2⟩; exact ⟨h1, by omega⟩
        · rintro ⟨h1, h2⟩; exact ⟨h1, by omega⟩
      · refine ⟨Poly.add w (Poly.mul (Poly.sym .q) z), ?_, wf_add hw'.sorted (wf_mul hz'), ?_⟩
        · unfold qpieriA
          simp only [hw]
          show (if _ then _ else _) = _
          rw [if_neg (by omega), if_pos hcond, if_neg hk1]
          rw [show (p : Int) - 1 = ((p - 1 : Nat) : Int) by omega, hv]
          show (Poly.apply _ v >>= _) = _
          rw [hz]
          rfl
        · rw [den_add, den_mul, hw'', hz'', hv'', subst_clsSum, sum_star (by omega), den_sym]
          intro l hl' h
          have := ((mem_strips (by simp) hb.1 hb.2 _ _).1 hl').1
          rw [h] at this; simp at this
  · refine ⟨[], by simp, ?_, ?_⟩
    · intro nu
      simp only [List.not_mem_nil, false_iff]
      rintro ⟨⟨h1, h2, h3⟩, _⟩
      have h4 := (h3 (m - 1) (by omega)).1
      have h5 := h1.isPartition.part_nonneg (m - 1)
      apply hfull
      refine ⟨?_, by omega⟩
      by_contra hne
      rw [part_of_ge (l := lam) (by have := hr.1; omega)] at h4
      omega
    · refine ⟨w, ?_, hw', by rw [hw'']; simp⟩
      unfold qpieriA
      simp only [hw]
      show (if _ then _ else _) = _
      rw [if_neg (by omega), if_neg]
      rintro ⟨h1, h2⟩
      apply hfull
      have : lam.length = m := by omega
      refine ⟨this, ?_⟩
      rw [this] at h2; exact h2

end Verif
