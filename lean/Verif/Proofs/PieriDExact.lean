import Verif.Proofs.PieriD
import Verif.Proofs.Components
/-!
# The coefficients of the Pieri rule of type D
-/

namespace Verif
open Spec

/-- columns among the first `k` that get longer, with at most `i` boxes -/
def longer (k : Nat) (lam mu : List Int) (i : Nat) : Nat :=
  ((List.range k).filter (fun c => decide (col lam c < col mu c ∧ col mu c ≤ i))).length

theorem length_filter_or {α : Type} (l : List α) (p q r : α → Bool) (h : ∀ x ∈ l, p x = (q x || r x))
    (hd : ∀ x ∈ l, ¬ (q x = true ∧ r x = true)) :
    (l.filter p).length = (l.filter q).length + (l.filter r).length := by
  induction l with
  | nil => rfl
  | cons a l ih =>
    have ih := ih (fun x hx => h x (by simp [hx])) (fun x hx => hd x (by simp [hx]))
    have h1 := h a (by simp)
    have h2 := hd a (by simp)
    simp only [List.filter_cons, h1]
    cases hq : q a <;> cases hr : r a <;> simp_all <;> omega

theorem length_filter_range (k : Nat) (a b : Int) (ha : 0 ≤ a) (hb : b ≤ k) :
    (((List.range k).filter (fun c : Nat => decide (a ≤ (c : Int) ∧ (c : Int) < b))).length : Int) = max 0 (b - a) := by
  have : ((List.range k).filter (fun c : Nat => decide (a ≤ (c : Int) ∧ (c : Int) < b))).length =
      (Finset.Ico a.toNat b.toNat).card := by
    rw [← List.toFinset_card_of_nodup (List.Nodup.filter _ List.nodup_range)]
    congr 1
    ext c
    simp
    omega
  rw [this, Nat.card_Ico]
  omega

theorem tieLoop_eq {k : Nat} {lam mu : List Int} (hl : IsPartition lam) (hm : IsPartition mu)
    (hst : Strips k lam mu) (i : Nat) (h : Int) :
    tieLoop lam mu k i h (at' mu i) = h - longer k lam mu i := by
  induction i generalizing h with
  | zero =>
    have : longer k lam mu 0 = 0 := by
      unfold longer
      rw [List.length_eq_zero_iff, List.filter_eq_nil_iff]
      intro c _ hc
      simp only [decide_eq_true_eq] at hc
      omega
    rw [tieLoop, this]; simp
  | succ i ih =>
    rw [tieLoop]
    rw [ih]
    have key : longer k lam mu (i + 1) = longer k lam mu i + ((List.range k).filter (fun c : Nat =>
        decide (at' lam i ≤ (c : Int) ∧ (c : Int) < min (at' mu i) k))).length := by
      unfold longer
      apply length_filter_or
      · intro c hc
        rw [List.mem_range] at hc
        rw [← Bool.decide_or, decide_eq_decide]
        have g1 := col_le_iff hm c i
        have g2 := col_le_iff hm c (i + 1)
        have g3 := col_le_iff hl c i
        have g4 := hst i
        rw [at'_eq_part, at'_eq_part]
        have g5 : col lam c < col mu c ∧ col mu c ≤ i + 1 ↔
          (col lam c < col mu c ∧ col mu c ≤ i) ∨ (col lam c ≤ i ∧ ¬ col mu c ≤ i ∧ col mu c ≤ i + 1) := by omega
        rw [g5, g1, g2, g3]
        constructor
        · rintro (h | h)
          · exact Or.inl h
          · right; omega
        · rintro (h | h)
          · exact Or.inl h
          · right; omega
      · intro c hc
        simp only [decide_eq_true_eq]
        rintro ⟨⟨h1, h2⟩, h3, h4⟩
        rw [col_le_iff hm] at h2
        rw [at'_eq_part] at h4
        omega
    have h0 : 0 ≤ at' lam i := by rw [at'_eq_part]; exact hl.part_nonneg i
    have hcnt := length_filter_range k (at' lam i) (min (at' mu i) k) h0 (by omega)
    have hle : at' mu (i + 1) ≤ at' lam i := by rw [at'_eq_part, at'_eq_part]; exact (hst i).1
    rw [key]
    push_cast
    rw [hcnt]
    split <;> omega

theorem col_le_length (l : List Int) (c : Nat) : col l c ≤ l.length := List.countP_le_length

theorem tieLoop_notLonger {k : Nat} {lam mu : List Int} (hl : IsPartition lam) (hm : IsPartition mu)
    (hst : Strips k lam mu) (h : Int) :
    tieLoop lam mu k mu.length (k + h) 0 = h + notLonger k lam mu := by
  have h1 := tieLoop_eq hl hm hst mu.length (k + h)
  rw [show at' mu mu.length = 0 by rw [at'_eq_part, part_of_ge (le_refl _)]] at h1
  rw [h1]
  have h2 : (List.range k).length = longer k lam mu mu.length + notLonger k lam mu := by
    have := length_filter_or (List.range k) (fun _ => true)
      (fun c => decide (col lam c < col mu c ∧ col mu c ≤ mu.length))
      (fun c => decide (colHeight mu c ≤ colHeight lam c)) (by
        intro c _
        have := col_le_length mu c
        have e1 := colHeight_eq mu c
        have e2 := colHeight_eq lam c
        simp
        omega) (by
        intro c _
        have e1 := colHeight_eq mu c
        have e2 := colHeight_eq lam c
        simp
        omega)
    rw [List.filter_eq_self.2 (by simp)] at this
    exact this
  rw [List.length_range] at h2
  omega

theorem typeOf_clsType {k : Nat} {m : Nat} {c : Int} {x : List Int} (h : TypedClass k m c x) :
    typeOf x k = clsType k x := by
  obtain ⟨mu, h1, h2, h3, h4⟩ := h
  have h0 : (0 : Int) ∉ mu := fun h => by have := h1.2 0 h; omega
  unfold typeOf clsType
  by_cases hk : (k : Int) ∈ x
  · rw [if_neg (by simpa using hk), if_pos hk]
    rcases h4 with rfl | ⟨_, rfl⟩
    · rw [if_neg h0, if_neg]
      · rfl
      · intro hl
        apply h0
        have hne : x ≠ [] := List.ne_nil_of_mem hk
        unfold last' at hl
        have := List.getLast_mem hne
        rw [List.getLastD_eq_getLast?, List.getLast?_eq_getLast_of_ne_nil hne] at hl
        simp at hl
        rwa [hl] at this
    · have hl : last' (mu ++ [0]) = 0 := by simp [last', List.getLastD_eq_getLast?]
      rw [if_pos hl, if_pos (by simp)]
      rfl
  · rw [if_pos (by simpa using hk), if_neg hk]
    rfl

theorem part_append_zero' (l : List Int) : part (l ++ [0]) = part l := funext (part_append_zero l)

theorem colHeight_append_zero (l : List Int) : colHeight (l ++ [0]) = colHeight l := by
  funext c
  unfold colHeight
  rw [List.countP_append]
  simp

theorem leftover_append_zero (k : Nat) (d : Int) (lam mu : List Int) :
    Leftover k d lam (mu ++ [0]) = Leftover k d lam mu := by
  unfold Leftover Mentioned Added InShape
  rw [part_append_zero', colHeight_append_zero]

theorem numComps_append_zero (k : Nat) (d : Int) (lam mu : List Int) :
    numComps k d lam (mu ++ [0]) = numComps k d lam mu := by
  unfold numComps
  rw [leftover_append_zero]

theorem pieriArrow_append_zero (k : Nat) (d : Int) (lam mu : List Int) :
    PieriArrow k d lam (mu ++ [0]) ↔ PieriArrow k d lam mu := by
  constructor
  · rintro ⟨a, b, c⟩
    unfold HorizontalStrip at a
    unfold Added InShape at b c
    rw [part_append_zero'] at a b c
    rw [colHeight_append_zero] at b c
    exact ⟨a, b, c⟩
  · rintro ⟨a, b, c⟩
    constructor
    · unfold HorizontalStrip
      rw [part_append_zero']
      exact a
    · unfold Added InShape
      rw [part_append_zero', colHeight_append_zero]
      exact b
    · unfold Added InShape
      rw [part_append_zero', colHeight_append_zero]
      exact c

theorem notLonger_append_zero (k : Nat) (lam mu : List Int) :
    notLonger k lam (mu ++ [0]) = notLonger k lam mu := by
  unfold notLonger
  rw [colHeight_append_zero]

theorem mem_sym {l : List Int} {t : Mono × ℚ} : t ∈ Poly.sym (.S l) ↔ t = ([.S l], 1) := by
  unfold Poly.sym; simp

theorem mem_scale {c : ℚ} (hc : c ≠ 0) {p : Poly} {t : Mono × ℚ} :
    t ∈ Poly.scale c p ↔ ∃ u ∈ p, t = (u.1, c * u.2) := by
  unfold Poly.scale
  rw [if_neg hc, List.mem_map]
  constructor
  · rintro ⟨u, h1, h2⟩; exact ⟨u, h1, h2.symm⟩
  · rintro ⟨u, h1, h2⟩; exact ⟨u, h1, h2.symm⟩

theorem pick_iff {a b : List Int} {t : Mono × ℚ} {P Q R : Prop} [Decidable P] (h1 : P ↔ Q) (h2 : ¬ P ↔ R) :
    (t ∈ if P then Poly.sym (.S a) else Poly.sym (.S b)) ↔ Q ∧ t = ([.S a], 1) ∨ R ∧ t = ([.S b], 1) := by
  rw [← h1, ← h2]
  by_cases h : P
  · simp [h, mem_sym]
  · simp [h, mem_sym]

/-- the terms of `_dcoef` -/
theorem dcoef_mem {p n : Int} {k : Nat} {lam mu : List Int} (h : InBox k n 1 lam) (hm : InBox k n 1 mu)
    (hn : 0 ≤ n) (hr : 0 ≤ n + 1 - k) (hs : ShapeRel k 1 lam mu) (hsum : mu.sum = lam.sum + p.natAbs)
    (hred : ReducedPart mu) {m : Nat} {c : Int} (ht : TypedClass k m c lam) (t : Mono × ℚ) :
    t ∈ dcoef p lam mu (typeOf lam k) k ↔ ∃ y, (y = mu ∨ ((k : Int) ∈ mu ∧ y = mu ++ [0])) ∧
      clsType k lam + clsType k y ≠ 3 ∧ ∃ c, CoefD k p lam y c ∧ t = ([.S y], c) := by
  have hst : Strips k lam mu := (strips_iff_cols h.isPart hm.isPart).2 ⟨hs.geL, hs.geNext, hs.le, hs.ge, hs.leS⟩
  have hN := (countComps_numComps h hm (Or.inr rfl) hn hr hs).1
  have hpos : k < p.natAbs → 1 ≤ countComps lam mu false k 1 := by
    intro hp
    obtain ⟨e, he⟩ := free_exists h hm hs (by omega)
    exact countComps_pos h hm (Or.inr rfl) hn hr hs false he (by simp)
  have h0 : (0 : Int) ∉ mu := fun h => by have := hred.2 0 h; omega
  have ty1 : clsType k mu = if (k : Int) ∈ mu then 1 else 0 := by
    unfold clsType; rw [if_neg h0]
  have ty2 : (k : Int) ∈ mu → clsType k (mu ++ [0]) = 2 := by
    intro hk
    unfold clsType
    rw [if_pos (by simp [hk]), if_pos (by simp)]
  have tyl : clsType k lam = 0 ∨ clsType k lam = 1 ∨ clsType k lam = 2 := by
    unfold clsType; split
    · split <;> simp
    · simp
  have e2 : Poly.add (Poly.sym (.S mu)) (Poly.sym (.S (mu ++ [0]))) =
      [([.S (mu ++ [0])], 1), ([.S mu], 1)] := by
    unfold Poly.add Poly.sym
    simp [Poly.addTerm]
  rw [typeOf_clsType ht]
  -- the coefficient
  have hA : ∀ y, (y = mu ∨ y = mu ++ [0]) → ∀ c, CoefD k p lam y c ↔
      (if (0 : Int) ≤ (countComps lam mu false k 1 : Int) - (if (p.natAbs : Int) < k then (0 : Int) else 1) then
        c = pow2 ((countComps lam mu false k 1 : Int) - (if (p.natAbs : Int) < k then (0 : Int) else 1))
      else c = 1 ∧ (Odd (notLonger k lam mu + max (clsType k lam) (clsType k y)) ↔ 0 ≤ p)) := by
    intro y hy c
    have hNy : numComps k 1 lam y = countComps lam mu false k 1 := by
      rcases hy with rfl | rfl
      · exact hN.symm
      · rw [numComps_append_zero]; exact hN.symm
    have hLy : notLonger k lam y = notLonger k lam mu := by
      rcases hy with rfl | rfl
      · rfl
      · exact notLonger_append_zero _ _ _
    have hpw : ∀ e : Int, 0 ≤ e → pow2 e = 2 ^ e.toNat := fun e he => by unfold pow2; rw [if_pos he]
    generalize countComps lam mu false k 1 = N at *
    constructor
    · rintro ⟨a1, a2, a3, a4⟩
      rw [hNy] at a1 a2 a3 a4
      rw [hLy] at a4
      rcases Nat.lt_trichotomy p.natAbs k with hlt | heq | hlt
      · rw [if_pos (show (p.natAbs : Int) < k by omega), if_pos (by omega), hpw _ (by omega), a1 hlt]
        congr 1
      · rw [if_neg (show ¬ (p.natAbs : Int) < k by omega)]
        by_cases hz : N = 0
        · rw [if_neg (by omega)]; exact a4 heq hz
        · rw [if_pos (by omega), hpw _ (by omega), a3 heq (by omega)]
          congr 1; omega
      · have := a2 hlt
        rw [if_neg (show ¬ (p.natAbs : Int) < k by omega), if_pos (by omega), hpw _ (by omega), this.2]
        congr 1; omega
    · intro hc
      rcases Nat.lt_trichotomy p.natAbs k with hlt | heq | hlt
      · rw [if_pos (show (p.natAbs : Int) < k by omega), if_pos (by omega), hpw _ (by omega)] at hc
        refine ⟨fun _ => ?_, by omega, by omega, by omega⟩
        rw [hc, hNy]; congr 1
      · rw [if_neg (show ¬ (p.natAbs : Int) < k by omega)] at hc
        refine ⟨by omega, by omega, fun _ h1 => ?_, fun _ h1 => ?_⟩
        · rw [hNy] at h1 ⊢
          rw [if_pos (by omega), hpw _ (by omega)] at hc
          rw [hc]; congr 1; omega
        · rw [hNy] at h1
          rw [if_neg (by omega)] at hc
          rw [hLy]; exact hc
      · have := hpos hlt
        rw [if_neg (show ¬ (p.natAbs : Int) < k by omega), if_pos (by omega), hpw _ (by omega)] at hc
        refine ⟨by omega, fun _ => ?_, by omega, by omega⟩
        rw [hNy, hc]
        exact ⟨this, by congr 1; omega⟩
  have hB : (∃ y, (y = mu ∨ ((k : Int) ∈ mu ∧ y = mu ++ [0])) ∧ clsType k lam + clsType k y ≠ 3 ∧
      ∃ c, CoefD k p lam y c ∧ t = ([.S y], c)) ↔
      (clsType k lam + clsType k mu ≠ 3 ∧ ∃ c, CoefD k p lam mu c ∧ t = ([.S mu], c)) ∨
      ((k : Int) ∈ mu ∧ clsType k lam + 2 ≠ 3 ∧ ∃ c, CoefD k p lam (mu ++ [0]) c ∧ t = ([.S (mu ++ [0])], c)) := by
    constructor
    · rintro ⟨y, rfl | ⟨hk, rfl⟩, h1, h2⟩
      · exact Or.inl ⟨h1, h2⟩
      · rw [ty2 hk] at h1; exact Or.inr ⟨hk, h1, h2⟩
    · rintro (⟨h1, h2⟩ | ⟨hk, h1, h2⟩)
      · exact ⟨mu, Or.inl rfl, h1, h2⟩
      · exact ⟨mu ++ [0], Or.inr ⟨hk, rfl⟩, by rw [ty2 hk]; exact h1, h2⟩
  rw [hB]
  simp only [hA mu (Or.inl rfl), hA (mu ++ [0]) (Or.inr rfl)]
  have htie := tieLoop_notLonger h.isPart hm.isPart hst
    ((clsType k lam : Int) + (if p < 0 then 1 else 0))
  rw [← add_assoc] at htie
  unfold dcoef
  dsimp only
  rw [htie]
  generalize (countComps lam mu false k 1 : Int) - (if (p.natAbs : Int) < k then (0 : Int) else 1) = cc
  generalize notLonger k lam mu = g
  by_cases hcc : 0 ≤ cc
  · simp only [if_pos hcc]
    have hne : pow2 cc ≠ 0 := pow2_ne _
    generalize pow2 cc = x at *
    simp only [exists_eq_left]
    rw [mem_scale hne, ty1]
    by_cases hk : (k : Int) ∈ mu
    · simp only [hk, not_true_eq_false, false_or, if_true, true_and]
      rcases tyl with e | e | e <;> rw [e] <;> simp [mem_sym, e2]
      exact or_comm
    · simp only [hk, not_false_eq_true, true_or, if_true, if_false, false_and, or_false]
      rcases tyl with e | e | e <;> rw [e] <;> simp [mem_sym]
  · simp only [if_neg hcc]
    have hp0 : 0 ≤ p ↔ ¬ p < 0 := by omega
    simp only [Nat.odd_iff, hp0]
    rw [ty1]
    have hg : (g : Int) % 2 = 0 ∨ (g : Int) % 2 = 1 := by omega
    by_cases hk : (k : Int) ∈ mu
    · rw [ty2 hk]
      simp only [hk, if_true, true_and, and_true, and_assoc, exists_eq_left]
      rcases tyl with e | e | e <;> rw [e] <;> by_cases hp : p < 0 <;> rcases hg with hg | hg <;>
        simp [hp, mem_sym] <;> first | omega | exact pick_iff (by omega) (by omega)
    · simp only [hk, if_false, false_and, and_false, and_assoc, exists_eq_left, or_false]
      rcases tyl with e | e | e <;> rw [e] <;> by_cases hp : p < 0 <;> rcases hg with hg | hg <;>
        simp [hp, mem_sym] <;> omega

end Verif
