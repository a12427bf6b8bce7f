import Verif.Proofs.PieriTop
/-!
# The loops of `pieri_set` in closed form

`Bp bot r = bot[r] + r`, `tt top k d i = top[i] + k - (i+1) - d`; `bI` is the row where the diagonal of column `i`
leaves the bottom partition.
-/

namespace Verif
open Spec

/-- shifted bottom part -/
def Bp (bot : List Int) (r : Nat) : Int := at' bot r + r

/-- diagonal of the bottom box of column `i` -/
def tt (top : List Int) (k : Nat) (d : Int) (i : Nat) : Int := at' top i + k - (i + 1) - d

/-- the pair of a k-strict partition in `rows × (n+k)`, as `pieri_set` splits it -/
structure PD (k L : Nat) (rows n d : Int) (top bot : List Int) : Prop where
  topLen : top.length = k
  botLen : bot.length = L + 1
  topAnti : ∀ i j, i ≤ j → j < k → at' top j ≤ at' top i
  topGe : ∀ i < k, (L : Int) ≤ at' top i
  topLe : ∀ i < k, at' top i ≤ rows
  botStrict : ∀ r < L, at' bot (r + 1) < at' bot r
  botLast : at' bot L = 0
  botLe : at' bot 0 ≤ n
  hrows : rows = n + d - k
  hd : d = 0 ∨ d = 1
  hn : 0 ≤ n
  hL : (L : Int) ≤ rows

theorem PD.Bp_anti {k L : Nat} {rows n d : Int} {top bot : List Int} (h : PD k L rows n d top bot)
    {r s : Nat} (hrs : r ≤ s) (hs : s ≤ L) : Bp bot s ≤ Bp bot r := by
  induction s with
  | zero => have : r = 0 := by omega
            subst this; exact le_refl _
  | succ s ih =>
    rcases Nat.lt_or_ge r (s + 1) with hlt | hge
    · have h1 := ih (by omega) (by omega)
      have h2 := h.botStrict s (by omega)
      unfold Bp at *
      push_cast
      omega
    · have : r = s + 1 := by omega
      subst this; exact le_refl _

theorem PD.bot_nonneg {k L : Nat} {rows n d : Int} {top bot : List Int} (h : PD k L rows n d top bot)
    (r : Nat) : 0 ≤ at' bot r := by
  rcases Nat.lt_or_ge L r with h1 | h1
  · unfold at'
    rw [List.getD_eq_default _ _ (by rw [h.botLen]; omega)]
  · have := h.Bp_anti (r := r) (s := L) h1 (le_refl _)
    unfold Bp at this
    rw [h.botLast] at this
    omega

theorem PD.bot_pos {k L : Nat} {rows n d : Int} {top bot : List Int} (h : PD k L rows n d top bot)
    {r : Nat} (hr : r < L) : 0 < at' bot r := by
  have := h.botStrict r hr
  have := h.bot_nonneg (r + 1)
  omega

theorem PD.bot_zero {k L : Nat} {rows n d : Int} {top bot : List Int} (h : PD k L rows n d top bot)
    {r : Nat} (hr : L ≤ r) : at' bot r = 0 := by
  rcases Nat.eq_or_lt_of_le hr with h1 | h1
  · rw [← h1]; exact h.botLast
  · unfold at'
    rw [List.getD_eq_default _ _ (by rw [h.botLen]; omega)]

theorem tt_anti {k L : Nat} {rows n d : Int} {top bot : List Int} (h : PD k L rows n d top bot)
    {i j : Nat} (hij : i < j) (hj : j < k) : tt top k d j < tt top k d i := by
  have := h.topAnti i j (by omega) hj
  unfold tt
  omega

/-! ### The row index -/

/-- `s` is the first row (at most `L`) whose shifted bottom part is at most `t` -/
def IsB (bot : List Int) (L : Nat) (t : Int) (s : Nat) : Prop :=
  s ≤ L ∧ (∀ r < s, t < Bp bot r) ∧ (s < L → Bp bot s ≤ t)

theorem IsB.unique {bot : List Int} {L : Nat} {t : Int} {s s' : Nat} (h : IsB bot L t s) (h' : IsB bot L t s') :
    s = s' := by
  rcases Nat.lt_trichotomy s s' with hlt | heq | hlt
  · have h1 := h'.2.1 s hlt
    have h2 := h.2.2 (by have := h'.1; omega)
    omega
  · exact heq
  · have h1 := h.2.1 s' hlt
    have h2 := h'.2.2 (by have := h.1; omega)
    omega

theorem shiftRow_isB (bot : List Int) (L : Nat) (t : Int) (c b : Nat) (hb : b + c = L)
    (h : ∀ r < b, t < Bp bot r) : IsB bot L t (shiftRow bot t c b) := by
  induction c generalizing b with
  | zero => exact ⟨by simp [shiftRow]; omega, h, fun h1 => by simp [shiftRow] at h1; omega⟩
  | succ c ih =>
    rw [shiftRow]
    by_cases hgt : at' bot b + b > t
    · rw [if_pos hgt]
      apply ih (b + 1) (by omega)
      intro r hr
      rcases Nat.lt_or_ge r b with h1 | h1
      · exact h r h1
      · have : r = b := by omega
        subst this; exact hgt
    · rw [if_neg hgt]
      exact ⟨by omega, h, fun _ => by unfold Bp; omega⟩

/-- the row index of a diagonal -/
def bI (bot : List Int) (L : Nat) (t : Int) : Nat := shiftRow bot t L 0

theorem isB_bI (bot : List Int) (L : Nat) (t : Int) : IsB bot L t (bI bot L t) :=
  shiftRow_isB bot L t L 0 (by omega) (by omega)

theorem shiftRow_eq {bot : List Int} {L : Nat} {t : Int} {b : Nat} (hb : b ≤ L) (h : ∀ r < b, t < Bp bot r) :
    shiftRow bot t (L - b) b = bI bot L t :=
  (shiftRow_isB bot L t (L - b) b (by omega) h).unique (isB_bI bot L t)

theorem bI_mono {bot : List Int} {L : Nat} {t t' : Int} (h : t' ≤ t) : bI bot L t ≤ bI bot L t' := by
  by_contra hc
  have h1 := (isB_bI bot L t).2.1 (bI bot L t') (by omega)
  have h2 := (isB_bI bot L t').2.2 (by have := (isB_bI bot L t).1; omega)
  omega

theorem at'_set (l : List Int) (i j : Nat) (v : Int) :
    at' (l.set i v) j = if j = i ∧ i < l.length then v else at' l j := by
  unfold at'
  rw [List.getD_eq_getElem?_getD, List.getD_eq_getElem?_getD, List.getElem?_set]
  by_cases h : i = j
  · subst h
    by_cases h1 : i < l.length
    · simp [h1]
    · simp [h1, List.getElem?_eq_none (Nat.le_of_not_lt h1)]
  · rw [if_neg h, if_neg (by omega)]

/-! ### `inner` -/

/-- the refined lower bound for column `i` -/
def vI (top bot : List Int) (L k : Nat) (d : Int) (i : Nat) : Int :=
  if tt top k d i + 1 - bI bot L (tt top k d i) ≤ 0 then at' top i
  else Bp bot (bI bot L (tt top k d i)) + (i + 1) - k + d

theorem innerLoop_length (top bot : List Int) (L k : Nat) (d : Int) (c i b : Nat) (inner : List Int) :
    (innerLoop top bot L k d c i b inner).length = inner.length := by
  induction c generalizing i b inner with
  | zero => rfl
  | succ c ih => rw [innerLoop, ih]; simp

theorem at'_innerLoop {k L : Nat} {rows n d : Int} {top bot : List Int} (h : PD k L rows n d top bot)
    (c i b : Nat) (inner : List Int) (hi : i + c = k) (hl : inner.length = k) (hb : b ≤ L)
    (hbt : ∀ j, i ≤ j → j < k → ∀ r < b, tt top k d j < Bp bot r) (j : Nat) :
    at' (innerLoop top bot L k d c i b inner) j =
      if i ≤ j ∧ j < k then max (vI top bot L k d j) (at' inner j) else at' inner j := by
  induction c generalizing i b inner with
  | zero => rw [innerLoop, if_neg (by omega)]
  | succ c ih =>
    have hs : shiftRow bot (tt top k d i) (L - b) b = bI bot L (tt top k d i) :=
      shiftRow_eq hb (hbt i (le_refl _) (by omega))
    have hstep : innerLoop top bot L k d (c + 1) i b inner =
        innerLoop top bot L k d c (i + 1) (bI bot L (tt top k d i))
          (inner.set i (max (vI top bot L k d i) (at' inner i))) := by
      rw [← hs, innerLoop]
      unfold vI
      rw [← hs]
      congr 2
      show (if tt top k d i + 2 - (_ + 1) ≤ 0 then _ else _) = max (if _ then _ else _) _
      by_cases hc : tt top k d i + 1 - (shiftRow bot (tt top k d i) (L - b) b : Int) ≤ 0
      · rw [if_pos hc, if_pos (by unfold tt at hc; unfold tt; omega)]
      · rw [if_neg hc, if_neg (by unfold tt at hc; unfold tt; omega)]
        rfl
    have hB := isB_bI bot L (tt top k d i)
    rw [hstep, ih (i + 1) _ _ (by omega) (by simpa using hl) hB.1
      (fun j hj hjk r hr => lt_trans (tt_anti h (by omega) hjk) (hB.2.1 r hr)), at'_set]
    by_cases hji : j = i
    · subst hji
      rw [if_neg (by omega), if_pos ⟨rfl, by omega⟩, if_pos ⟨le_refl _, by omega⟩]
    · rw [if_neg (c := j = i ∧ i < inner.length) (by omega)]
      by_cases hj : i ≤ j ∧ j < k
      · rw [if_pos hj, if_pos (by omega)]
      · rw [if_neg hj, if_neg (by omega)]

/-! ### The bounds of the bottom partition -/

theorem outLoop_length (bot : List Int) (t u : Int) (c b1 : Nat) (out : List Int) :
    (outLoop bot t u c b1 out).length = out.length := by
  induction c generalizing b1 out with
  | zero => rfl
  | succ c ih =>
    rw [outLoop]
    split
    · rw [ih]; simp
    · rfl

theorem at'_outLoop (bot : List Int) (t u : Int) (c b1 : Nat) (out : List Int) (hc : out.length ≤ b1 + c)
    (h : ∀ r, b1 ≤ r → r + 1 < out.length → Bp bot r ≤ t) (j : Nat) :
    at' (outLoop bot t u c b1 out) j =
      if b1 < j ∧ j < out.length then min (at' out j) (u - j) else at' out j := by
  induction c generalizing b1 out with
  | zero => rw [outLoop, if_neg (by omega)]
  | succ c ih =>
    rw [outLoop]
    by_cases hlt : b1 + 1 < out.length
    · rw [if_pos ⟨hlt, h b1 (le_refl _) hlt⟩]
      rw [ih (b1 + 1) _ (by simp; omega) (fun r h1 h2 => h r (by omega) (by simpa using h2)), at'_set,
        List.length_set]
      by_cases hj : j = b1 + 1
      · subst hj
        rw [if_neg (by omega), if_pos ⟨rfl, hlt⟩, if_pos ⟨by omega, hlt⟩]
        push_cast; rfl
      · rw [if_neg (c := j = b1 + 1 ∧ b1 + 1 < out.length) (by omega)]
        by_cases hj2 : b1 < j ∧ j < out.length
        · rw [if_pos hj2, if_pos (by omega)]
        · rw [if_neg hj2, if_neg (by omega)]
    · rw [if_neg (by omega), if_neg (by omega)]

/-- what `botLoop` computes from column `i` on -/
structure BotRes (top top1 bot : List Int) (L k : Nat) (d : Int) (i : Nat) (inb out inb' out' : List Int) : Prop where
  inLen : inb'.length = inb.length
  outLen : out'.length = out.length
  inLe : ∀ r < inb.length, ∀ x, at' inb' r ≤ x ↔ at' inb r ≤ x ∧ ∀ j, i ≤ j → j < k → at' top1 j < at' top j →
    bI bot L (tt top k d j) = r → tt top k d j - r + 1 ≤ x
  outLe : ∀ r < out.length, ∀ x, x ≤ at' out' r ↔ x ≤ at' out r ∧ ∀ j, i ≤ j → j < k →
    bI bot L (tt top k d j) < r → x ≤ tt top1 k d j - r

theorem botLoop_spec {k L : Nat} {rows n d : Int} {top bot : List Int} (h : PD k L rows n d top bot)
    (top1 : List Int) (c i b : Nat) (inb out : List Int) (hi : i + c = k) (hb : b ≤ L)
    (hout : out.length ≤ L + 1)
    (hbt : ∀ j, i ≤ j → j < k → ∀ r < b, tt top k d j < Bp bot r) :
    (botLoop top top1 bot L k d c i b inb out = none ∧
      ∃ j, i ≤ j ∧ j < k ∧ at' top1 j < at' top j ∧ inb.length ≤ bI bot L (tt top k d j)) ∨
    (∃ inb' out', botLoop top top1 bot L k d c i b inb out = some (inb', out') ∧
      (∀ j, i ≤ j → j < k → at' top1 j < at' top j → bI bot L (tt top k d j) < inb.length) ∧
      BotRes top top1 bot L k d i inb out inb' out') := by
  induction c generalizing i b inb out with
  | zero =>
    right
    refine ⟨inb, out, rfl, fun j h1 h2 => by omega, rfl, rfl, fun r _ x => ?_, fun r _ x => ?_⟩
    · exact ⟨fun hx => ⟨hx, fun j h1 h2 => by omega⟩, fun hx => hx.1⟩
    · exact ⟨fun hx => ⟨hx, fun j h1 h2 => by omega⟩, fun hx => hx.1⟩
  | succ c ih =>
    have hs : shiftRow bot (tt top k d i) (L - b) b = bI bot L (tt top k d i) :=
      shiftRow_eq hb (hbt i (le_refl _) (by omega))
    have hB := isB_bI bot L (tt top k d i)
    generalize hbi : bI bot L (tt top k d i) = bi at *
    have hout' := at'_outLoop bot (tt top k d i) (tt top1 k d i) out.length bi out (by omega)
      (fun r h1 h2 => le_trans (h.Bp_anti h1 (by omega)) (hB.2.2 (by omega)))
    have hlen' := outLoop_length bot (tt top k d i) (tt top1 k d i) out.length bi out
    have hnext : ∀ j, i + 1 ≤ j → j < k → ∀ r < bi, tt top k d j < Bp bot r :=
      fun j hj hjk r hr => lt_trans (tt_anti h (by omega) hjk) (hB.2.1 r hr)
    have houtStep : ∀ r < out.length, ∀ x, x ≤ at' (outLoop bot (tt top k d i) (tt top1 k d i) out.length bi out) r ↔
        x ≤ at' out r ∧ (bi < r → x ≤ tt top1 k d i - r) := by
      intro r hr x
      rw [hout' r]
      by_cases hbr : bi < r
      · rw [if_pos ⟨hbr, hr⟩]
        constructor
        · intro hx; exact ⟨by omega, fun _ => by omega⟩
        · intro hx; have := hx.2 hbr; omega
      · rw [if_neg (by omega)]
        exact ⟨fun hx => ⟨hx, fun h => absurd h hbr⟩, fun hx => hx.1⟩
    by_cases hlt : at' top1 i < at' top i
    · by_cases hbl : bi + 1 > inb.length
      · left
        refine ⟨?_, i, le_refl _, by omega, hlt, by omega⟩
        rw [botLoop]
        simp only []
        rw [if_pos hlt]
        rw [show at' top i + (k : Int) - (i + 1) - d = tt top k d i from rfl, hs, if_pos hbl]
      · have hstep : botLoop top top1 bot L k d (c + 1) i b inb out =
            botLoop top top1 bot L k d c (i + 1) bi
              (inb.set bi (max (at' inb bi) (tt top k d i - (bi + 1) + 2)))
              (outLoop bot (tt top k d i) (tt top1 k d i) out.length bi out) := by
          rw [botLoop]
          simp only []
          rw [if_pos hlt]
          rw [show at' top i + (k : Int) - (i + 1) - d = tt top k d i from rfl, hs, if_neg hbl]
          rfl
        rw [hstep]
        rcases ih (i + 1) bi (inb.set bi (max (at' inb bi) (tt top k d i - (bi + 1) + 2)))
          (outLoop bot (tt top k d i) (tt top1 k d i) out.length bi out) (by omega) hB.1
          (by omega) hnext with ⟨h1, j, h2, h3, h4, h5⟩ | ⟨inb', out', h1, h2, h3⟩
        · exact Or.inl ⟨h1, j, by omega, h3, h4, by simpa using h5⟩
        · right
          refine ⟨inb', out', h1, ?_, ?_, ?_, ?_, ?_⟩
          · intro j hj hjk hr
            rcases Nat.eq_or_lt_of_le hj with he | he
            · subst he; rw [hbi]; omega
            · simpa using h2 j he hjk hr
          · rw [h3.inLen]; simp
          · rw [h3.outLen, hlen']
          · intro r hr x
            rw [h3.inLe r (by simpa using hr) x, at'_set]
            constructor
            · rintro ⟨g1, g2⟩
              have g1' : at' inb r ≤ x ∧ (bi = r → tt top k d i - r + 1 ≤ x) := by
                by_cases hbr : r = bi
                · subst hbr
                  rw [if_pos ⟨rfl, hr⟩] at g1
                  exact ⟨by omega, fun _ => by omega⟩
                · rw [if_neg (by omega)] at g1
                  exact ⟨g1, fun h => absurd h.symm hbr⟩
              refine ⟨g1'.1, fun j hj hjk hrm hbj => ?_⟩
              rcases Nat.eq_or_lt_of_le hj with he | he
              · subst he; exact g1'.2 (by rw [← hbi]; exact hbj)
              · exact g2 j he hjk hrm hbj
            · rintro ⟨g1, g2⟩
              refine ⟨?_, fun j hj => g2 j (by omega)⟩
              by_cases hbr : r = bi
              · subst hbr
                rw [if_pos ⟨rfl, hr⟩]
                have := g2 i (le_refl _) (by omega) hlt hbi
                omega
              · rw [if_neg (by omega)]; exact g1
          · intro r hr x
            rw [h3.outLe r (by omega) x, houtStep r hr x]
            constructor
            · rintro ⟨⟨g1, g2⟩, g3⟩
              refine ⟨g1, fun j hj hjk hbj => ?_⟩
              rcases Nat.eq_or_lt_of_le hj with he | he
              · subst he; rw [hbi] at hbj; exact g2 hbj
              · exact g3 j he hjk hbj
            · rintro ⟨g1, g2⟩
              exact ⟨⟨g1, fun hb => g2 i (le_refl _) (by omega) (by rw [hbi]; exact hb)⟩,
                fun j hj => g2 j (by omega)⟩
    · have hstep : botLoop top top1 bot L k d (c + 1) i b inb out =
          botLoop top top1 bot L k d c (i + 1) bi inb
            (outLoop bot (tt top k d i) (tt top1 k d i) out.length bi out) := by
        rw [botLoop]
        simp only []
        rw [if_neg hlt]
        rw [show at' top i + (k : Int) - (i + 1) - d = tt top k d i from rfl, hs]
        rfl
      rw [hstep]
      rcases ih (i + 1) bi inb (outLoop bot (tt top k d i) (tt top1 k d i) out.length bi out) (by omega) hB.1
        (by omega) hnext with ⟨h1, j, h2, h3, h4, h5⟩ | ⟨inb', out', h1, h2, h3⟩
      · exact Or.inl ⟨h1, j, by omega, h3, h4, h5⟩
      · right
        refine ⟨inb', out', h1, ?_, h3.inLen, ?_, ?_, ?_⟩
        · intro j hj hjk hr
          rcases Nat.eq_or_lt_of_le hj with he | he
          · subst he; omega
          · exact h2 j he hjk hr
        · rw [h3.outLen, hlen']
        · intro r hr x
          rw [h3.inLe r hr x]
          constructor
          · rintro ⟨g1, g2⟩
            refine ⟨g1, fun j hj hjk hrm hbj => ?_⟩
            rcases Nat.eq_or_lt_of_le hj with he | he
            · subst he; omega
            · exact g2 j he hjk hrm hbj
          · rintro ⟨g1, g2⟩
            exact ⟨g1, fun j hj => g2 j (by omega)⟩
        · intro r hr x
          rw [h3.outLe r (by omega) x, houtStep r hr x]
          constructor
          · rintro ⟨⟨g1, g2⟩, g3⟩
            refine ⟨g1, fun j hj hjk hbj => ?_⟩
            rcases Nat.eq_or_lt_of_le hj with he | he
            · subst he; rw [hbi] at hbj; exact g2 hbj
            · exact g3 j he hjk hbj
          · rintro ⟨g1, g2⟩
            exact ⟨⟨g1, fun hb => g2 i (le_refl _) (by omega) (by rw [hbi]; exact hb)⟩,
              fun j hj => g2 j (by omega)⟩

end Verif
