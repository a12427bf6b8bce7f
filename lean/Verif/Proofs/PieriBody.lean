import Verif.Proofs.PieriPair
/-!
# The shapes `pieri_set` adds for one top partition
-/

namespace Verif
open Spec

theorem at'_cons_zero (x : Int) (l : List Int) : at' (x :: l) 0 = x := rfl
theorem at'_cons_succ (x : Int) (l : List Int) (i : Nat) : at' (x :: l) (i + 1) = at' l i := by simp [at']
theorem at'_of_ge {l : List Int} {i : Nat} (h : l.length ≤ i) : at' l i = 0 :=
  List.getD_eq_default _ _ h
theorem at'_append_lt {l m : List Int} {i : Nat} (h : i < l.length) : at' (l ++ m) i = at' l i := by
  unfold at'; rw [List.getD_append _ _ _ _ h]
theorem at'_append_ge {l m : List Int} {i : Nat} (h : l.length ≤ i) : at' (l ++ m) i = at' m (i - l.length) := by
  unfold at'; rw [List.getD_append_right _ _ _ _ h]
theorem at'_take {l : List Int} {m i : Nat} (h : i < m) : at' (l.take m) i = at' l i := by
  unfold at'
  rw [List.getD_eq_getElem?_getD, List.getD_eq_getElem?_getD, List.getElem?_take, if_pos h]
theorem at'_map_range (f : Nat → Int) {m i : Nat} (h : i < m) : at' ((List.range m).map f) i = f i := by
  unfold at'
  rw [List.getD_eq_getElem?_getD]
  simp [h]
theorem ext_at' {l m : List Int} (hl : l.length = m.length) (h : ∀ i < l.length, at' l i = at' m i) : l = m := by
  apply List.ext_getElem hl
  intro i h1 h2
  have := h i h1
  unfold at' at this
  rwa [List.getD_eq_getElem _ _ h1, List.getD_eq_getElem _ _ h2] at this

theorem validT_zip {c : Int} {a b : List Int} (hl : a.length = b.length) (h0 : 0 < a.length → at' a 0 ≤ c)
    (hab : ∀ r < a.length, at' a r ≤ at' b r) (hs : ∀ r, r + 1 < a.length → at' a (r + 1) < at' a r) :
    ValidT c (List.zip a b) := by
  induction a generalizing b c with
  | nil => simp [ValidT]
  | cons x a ih =>
    cases b with
    | nil => simp at hl
    | cons y b =>
      refine ⟨h0 (by simp), hab 0 (by simp), ih (by simpa using hl) ?_ ?_ ?_⟩
      · intro h
        have := hs 0 (by simpa using h)
        rw [at'_cons_succ, at'_cons_zero] at this
        omega
      · intro r hr
        have := hab (r + 1) (by simpa using hr)
        simpa only [at'_cons_succ] using this
      · intro r hr
        have := hs (r + 1) (by simpa using hr)
        simpa only [at'_cons_succ] using this

theorem btwT_zip {c : Int} {a b : List Int} (hl : a.length = b.length) (l : List Int) :
    BtwT c (List.zip a b) l ↔ l.length = a.length ∧ (∀ r < l.length, at' a r ≤ at' l r ∧ at' l r ≤ at' b r) ∧
      (∀ r, r + 1 < l.length → at' l (r + 1) < at' l r) ∧ (0 < l.length → at' l 0 ≤ c) := by
  induction a generalizing b c l with
  | nil =>
    cases l with
    | nil => simp [BtwT]
    | cons => simp [BtwT]
  | cons x a ih =>
    cases b with
    | nil => simp at hl
    | cons y b =>
      cases l with
      | nil => simp [BtwT]
      | cons z l =>
        simp only [List.zip_cons_cons, BtwT]
        rw [ih (by simpa using hl)]
        constructor
        · rintro ⟨⟨h1, h2, h3⟩, h4, h5, h6, h7⟩
          refine ⟨by simp [h4], ?_, ?_, ?_⟩
          · intro r hr
            cases r with
            | zero => exact ⟨h1, h2⟩
            | succ r => simpa only [at'_cons_succ] using h5 r (by simpa using hr)
          · intro r hr
            cases r with
            | zero =>
              have := h7 (by simpa using hr)
              rw [at'_cons_succ, at'_cons_zero]; omega
            | succ r => simpa only [at'_cons_succ] using h6 r (by simpa using hr)
          · intro _; exact h3
        · rintro ⟨h1, h2, h3, h4⟩
          have g := h2 0 (by simp)
          simp only [at'_cons_zero] at g
          refine ⟨⟨g.1, g.2, h4 (by simp)⟩, by simpa using h1, ?_, ?_, ?_⟩
          · intro r hr
            simpa only [at'_cons_succ] using h2 (r + 1) (by simpa using hr)
          · intro r hr
            simpa only [at'_cons_succ] using h3 (r + 1) (by simpa using hr)
          · intro hr
            have := h3 0 (by simpa using hr)
            rw [at'_cons_succ, at'_cons_zero] at this; omega

theorem sum_le_of_at' {a b : List Int} (hl : a.length = b.length) (h : ∀ r < a.length, at' a r ≤ at' b r) :
    a.sum ≤ b.sum := by
  induction a generalizing b with
  | nil => cases b with
    | nil => simp
    | cons => simp at hl
  | cons x a ih =>
    cases b with
    | nil => simp at hl
    | cons y b =>
      have h0 := h 0 (by simp)
      simp only [at'_cons_zero] at h0
      have := ih (b := b) (by simpa using hl) (fun r hr => by
        have := h (r + 1) (by simpa using hr)
        simpa only [at'_cons_succ] using this)
      simp only [List.sum_cons]
      omega

/-- The value of one round of the gluing loop. -/
def glue (k : Nat) (top1c bot1 : List Int) : List Int :=
  if k = 0 then partClip bot1
  else (List.range (min top1c.length bot1.length)).map (fun i => at' top1c i + at' bot1 i) ++
    top1c.drop (min top1c.length bot1.length)

theorem botIter_runs {k : Nat} {top1c inb out : List Int} {step : List Int → Option (List Int)} {mu : List Int}
    {L : List (List Int)} (r : Runs step mu L) (h : ∀ u ∈ L, pieriItr u inb out = step u)
    (fuel : Nat) (hf : L.length < fuel) (res : List (List Int)) :
    botIter k top1c inb out fuel (some mu) res = .ok (res ++ L.map (glue k top1c)) := by
  induction r generalizing fuel res with
  | @last x hx =>
    obtain ⟨f, rfl⟩ : ∃ f, fuel = f + 2 := ⟨fuel - 2, by simp at hf; omega⟩
    have h1 := h x (by simp)
    simp only [botIter, h1, hx]
    rfl
  | @cons x y L hx r ih =>
    obtain ⟨f, rfl⟩ : ∃ f, fuel = f + 1 := ⟨fuel - 1, by simp at hf; omega⟩
    have h1 := h x (by simp)
    simp only [botIter, h1, hx]
    rw [ih (fun u hu => h u (by simp [hu])) f (by simp at hf; omega)]
    simp [glue]

/-- Everything the bottom loop visits, for valid bounds. -/
theorem botIter_value {k : Nat} {top1c a b : List Int} {c : Int} (hl : a.length = b.length)
    (hv : ValidT c (List.zip a b)) (hc : 0 < b.length → at' b 0 ≤ c) (p : Int) (hp : 0 ≤ p)
    (h0 : a.length = 0 → p = 0) :
    ∃ Ls, botIter k top1c a b (pieriFuelA a b) (pieriFill a a b 0 p) [] = .ok Ls ∧
      ∀ x, x ∈ Ls ↔ ∃ bot1, BtwT c (List.zip a b) bot1 ∧ bot1.sum = a.sum + p ∧ x = glue k top1c bot1 := by
  have e1 : (List.zip a b).map Prod.fst = a := List.map_fst_zip (by omega)
  have e2 : (List.zip a b).map Prod.snd = b := List.map_snd_zip (by omega)
  have hexc : ∀ l, exc (List.zip a b) l = p ↔ l.sum = a.sum + p := by
    intro l; unfold exc; rw [e1]; omega
  rcases Nat.eq_zero_or_pos a.length with hz | hpos
  · have ha : a = [] := List.eq_nil_of_length_eq_zero hz
    have hb : b = [] := List.eq_nil_of_length_eq_zero (by omega)
    subst ha hb
    refine ⟨[glue k top1c []], ?_, ?_⟩
    · rw [show pieriFill [] [] [] 0 p = some [] by simp [pieriFill]]
      have := botIter_runs (k := k) (top1c := top1c) (inb := []) (out := []) (step := fun _ => none) (mu := [])
        (L := [[]]) (Runs.last rfl) (by intro u hu; simp at hu; subst hu; simp [pieriItr]) (pieriFuelA [] [])
        (by simp [pieriFuelA]) []
      rw [this]; rfl
    · intro x
      simp only [List.mem_singleton]
      constructor
      · rintro rfl; exact ⟨[], by simp [BtwT], by simp [h0 rfl], rfl⟩
      · rintro ⟨bot1, hb1, _, rfl⟩
        cases bot1 with
        | nil => rfl
        | cons => simp [BtwT] at hb1
  · have hne : List.zip a b ≠ [] := by
      intro h
      have := congrArg List.length h
      rw [List.length_zip, List.length_nil] at this
      omega
    have hk : ∀ ab ∈ (List.zip a b).head?, ab.2 ≤ c := by
      intro ab hab
      cases a with
      | nil => simp at hpos
      | cons x a => cases b with
        | nil => simp at hl
        | cons y b =>
          simp at hab
          subst hab
          exact hc (by simp)
    have hfill := pieriFill_zero (List.zip a b) a hne c hk (by simp [hl]) hv p hp
    rw [e1, e2] at hfill
    rw [hfill]
    obtain ⟨q, rfl⟩ := Int.eq_ofNat_of_zero_le hp
    by_cases hcap : (q : Int) ≤ capT c (List.zip a b)
    · rw [if_pos hcap]
      refine ⟨(enumT c (List.zip a b) q).map (glue k top1c), ?_, ?_⟩
      · have hlen := enumT_length_le hv q
        have := botIter_runs (k := k) (top1c := top1c) (stepT_runs hv q hcap) (inb := a) (out := b) (fun u hu => by
          have := pieriItr_eq c (List.zip a b) u hne hv ((mem_enumT hv q u).1 hu).1.toBtw
          rwa [e1, e2] at this) (pieriFuelA a b) (by unfold pieriFuelA; omega) []
        rw [this]; simp
      · intro x
        rw [List.mem_map]
        constructor
        · rintro ⟨l, hl1, rfl⟩
          rw [mem_enumT hv] at hl1
          exact ⟨l, hl1.1, (hexc l).1 hl1.2, rfl⟩
        · rintro ⟨l, h1, h2, rfl⟩
          exact ⟨l, (mem_enumT hv q l).2 ⟨h1, (hexc l).2 h2⟩, rfl⟩
    · rw [if_neg hcap]
      refine ⟨[], by simp [pieriFuelA, botIter], ?_⟩
      intro x
      simp only [List.not_mem_nil, false_iff]
      rintro ⟨l, h1, h2, rfl⟩
      have := exc_leT h1
      rw [(hexc l).2 h2] at this
      omega

/-- Conditions on the new top partition. -/
structure TopOK (top bot : List Int) (L k : Nat) (rows d : Int) (top1 : List Int) : Prop where
  len : top1.length = k
  anti : ∀ i, i + 1 < k → at' top1 (i + 1) ≤ at' top1 i
  geL : ∀ i < k, (L : Int) ≤ at' top1 i
  geNext : ∀ i, i + 1 < k → at' top (i + 1) ≤ at' top1 i
  geV : ∀ i < k, vI top bot L k d i ≤ at' top1 i
  le : ∀ i < k, at' top1 i ≤ at' top i + 1
  leRows : ∀ i < k, at' top1 i ≤ rows

/-- number of rows of the new bottom partition -/
def botRows (L k : Nat) (rows : Int) (top1 : List Int) : Nat :=
  if (L : Int) < (if k = 0 then rows else at' top1 (k - 1)) then L + 1 else L

/-- Conditions on the new bottom partition. -/
structure BotOK (top bot : List Int) (L k : Nat) (rows n d : Int) (top1 bot1 : List Int) : Prop where
  len : bot1.length = botRows L k rows top1
  strict : ∀ r, r + 1 < bot1.length → at' bot1 (r + 1) < at' bot1 r
  ge : ∀ r < bot1.length, at' bot r ≤ at' bot1 r
  le0 : 0 < bot1.length → at' bot1 0 ≤ n
  leS : ∀ r, r + 1 < bot1.length → at' bot1 (r + 1) ≤ at' bot r
  rem : ∀ j < k, at' top1 j < at' top j → bI bot L (tt top k d j) < bot1.length ∧
    tt top k d j - bI bot L (tt top k d j) + 1 ≤ at' bot1 (bI bot L (tt top k d j))
  out : ∀ r < bot1.length, ∀ j < k, bI bot L (tt top k d j) < r → at' bot1 r ≤ tt top1 k d j - r

theorem sum_take_bot {k L : Nat} {rows n d : Int} {top bot : List Int} (h : PD k L rows n d top bot)
    {m : Nat} (hm : m = L ∨ m = L + 1) : (bot.take m).sum = bot.sum := by
  rcases hm with rfl | rfl
  · conv_rhs => rw [← List.take_append_drop m bot]
    rw [List.sum_append]
    have h1 : (bot.drop m).length = 1 := by rw [List.length_drop, h.botLen]; omega
    obtain ⟨x, hx⟩ := List.length_eq_one_iff.1 h1
    have h2 := h.botLast
    have : at' bot m = x := by
      conv_lhs => rw [← List.take_append_drop m bot, hx]
      rw [at'_append_ge (by simp)]
      simp [h.botLen, at']
    rw [hx]; simp; omega
  · rw [List.take_of_length_le (by rw [h.botLen])]

theorem pieriBody_spec {k L : Nat} {rows n d : Int} {top bot : List Int} (h : PD k L rows n d top bot)
    {top1 : List Int} (h1 : TopOK top bot L k rows d top1) (p : Int) :
    ∃ Ls, pieriBody p top bot L k rows (n + k) d top1 = .ok Ls ∧
      ∀ x, x ∈ Ls ↔ ∃ bot1, BotOK top bot L k rows n d top1 bot1 ∧
        bot1.sum + top1.sum = p + top.sum + bot.sum ∧ x = glue k (partConj top1) bot1 := by
  have hm : botRows L k rows top1 = L ∨ botRows L k rows top1 = L + 1 := by
    unfold botRows
    by_cases hc : (L : Int) < (if k = 0 then rows else at' top1 (k - 1))
    · rw [if_pos hc]; right; rfl
    · rw [if_neg hc]; left; rfl
  generalize hmdef : botRows L k rows top1 = m at hm
  -- the initial bounds
  have hin : bot.take L ++ (if (L : Int) < (if k = 0 then rows else at' top1 (k - 1)) then [0] else []) =
      bot.take m := by
    rw [← hmdef]; unfold botRows
    by_cases hc : (L : Int) < (if k = 0 then rows else at' top1 (k - 1))
    · rw [if_pos hc, if_pos hc]
      rw [List.take_succ_eq_append_getElem (by rw [h.botLen]; omega)]
      have h2 := h.botLast
      unfold at' at h2
      rw [List.getD_eq_getElem _ _ (by rw [h.botLen]; omega)] at h2
      rw [h2]
    · rw [if_neg hc, if_neg hc]; simp
  have hinLen : (bot.take m).length = m := by rw [List.length_take, h.botLen]; omega
  obtain ⟨o0, ho0, hoLen, ho1, ho2⟩ : ∃ o0, (if L = 0 then
      (if (if k = 0 then rows else at' top1 (k - 1)) > 0 then [n + k - k] else [])
      else (n + k - k) :: (bot.take (L - 1) ++
        (if (L : Int) < (if k = 0 then rows else at' top1 (k - 1)) then [at' bot (L - 1)] else []))) = o0 ∧
      o0.length = m ∧ (0 < m → at' o0 0 = n) ∧ (∀ r, r + 1 < m → at' o0 (r + 1) = at' bot r) := by
    refine ⟨_, rfl, ?_⟩
    rw [← hmdef]; unfold botRows
    by_cases hL : L = 0
    · subst hL
      rw [if_pos rfl]
      by_cases hc : (if k = 0 then rows else at' top1 (k - 1)) > 0
      · rw [if_pos hc, if_pos (by simpa using hc)]
        exact ⟨rfl, fun _ => by simp [at'], fun r hr => by omega⟩
      · rw [if_neg hc, if_neg (by simpa using hc)]
        exact ⟨rfl, fun h => absurd h (by omega), fun r hr => by omega⟩
    · rw [if_neg hL]
      have hlt : (bot.take (L - 1)).length = L - 1 := by rw [List.length_take, h.botLen]; omega
      by_cases hc : (L : Int) < (if k = 0 then rows else at' top1 (k - 1))
      · rw [if_pos hc, if_pos hc]
        refine ⟨by simp [h.botLen]; omega, fun _ => by rw [at'_cons_zero]; omega, fun r hr => ?_⟩
        rw [at'_cons_succ]
        rcases Nat.lt_or_ge r (L - 1) with h2 | h2
        · rw [at'_append_lt (by omega), at'_take h2]
        · have : r = L - 1 := by omega
          rw [at'_append_ge (by omega), hlt, this]; simp [at']
      · rw [if_neg hc, if_neg hc]
        refine ⟨by simp [h.botLen]; omega, fun _ => by rw [at'_cons_zero]; omega, fun r hr => ?_⟩
        rw [at'_cons_succ, List.append_nil, at'_take (by omega)]
  have hbotsum := sum_take_bot h hm
  -- sums of admissible bottoms
  have hsumge : ∀ bot1, BotOK top bot L k rows n d top1 bot1 → bot.sum ≤ bot1.sum := by
    intro bot1 hb
    rw [← hbotsum]
    have hl : bot1.length = m := by rw [hb.len, hmdef]
    apply sum_le_of_at' (by omega)
    intro r hr
    rw [at'_take (by omega)]
    exact hb.ge r (by omega)
  unfold pieriBody
  simp only []
  by_cases hp1 : p + top.sum - top1.sum < 0
  · rw [if_pos hp1]
    refine ⟨[], rfl, fun x => ?_⟩
    simp only [List.not_mem_nil, false_iff]
    rintro ⟨bot1, hb, hs, _⟩
    have := hsumge bot1 hb
    omega
  rw [if_neg hp1, hin, ho0]
  rcases botLoop_spec h top1 k 0 0 (bot.take m) o0 (by omega) (by omega) (by omega)
    (fun _ _ _ r hr => absurd hr (by omega)) with ⟨e, j, _, hj, hrem, hbj⟩ | ⟨inb, out, e, hrem, hres⟩
  · rw [e]
    refine ⟨[], rfl, fun x => ?_⟩
    simp only [List.not_mem_nil, false_iff]
    rintro ⟨bot1, hb, hs, _⟩
    have := (hb.rem j hj hrem).1
    rw [hb.len, hmdef] at this
    omega
  · rw [e]
    simp only []
    have hil : inb.length = m := by rw [hres.inLen, hinLen]
    have hol : out.length = m := by rw [hres.outLen, hoLen]
    -- admissible bottoms are the lists between the bounds
    have hiff : ∀ bot1, BotOK top bot L k rows n d top1 bot1 ↔ BtwT n (List.zip inb out) bot1 := by
      intro bot1
      rw [btwT_zip (by omega)]
      constructor
      · intro hb
        have hl : bot1.length = m := by rw [hb.len, hmdef]
        refine ⟨by omega, fun r hr => ⟨?_, ?_⟩, hb.strict, hb.le0⟩
        · rw [hres.inLe r (by omega)]
          refine ⟨by rw [at'_take (by omega)]; exact hb.ge r hr, fun j _ hjk hrm hbj => ?_⟩
          have := (hb.rem j hjk hrm).2
          rw [hbj] at this; exact this
        · rw [hres.outLe r (by omega)]
          refine ⟨?_, fun j _ hjk hbj => hb.out r hr j hjk hbj⟩
          cases r with
          | zero => rw [ho1 (by omega)]; exact hb.le0 hr
          | succ r => rw [ho2 r (by omega)]; exact hb.leS r hr
      · rintro ⟨hl, hbt, hst, h0⟩
        have hin' : ∀ r < bot1.length, _ := fun r hr => (hres.inLe r (by omega) _).1 (hbt r hr).1
        have hout' : ∀ r < bot1.length, _ := fun r hr => (hres.outLe r (by omega) _).1 (hbt r hr).2
        refine ⟨by rw [hmdef]; omega, hst, fun r hr => ?_, h0, fun r hr => ?_, fun j hj hrm => ?_,
          fun r hr j hjk hbj => (hout' r hr).2 j (Nat.zero_le _) hjk hbj⟩
        · have := (hin' r hr).1; rwa [at'_take (by omega)] at this
        · have := (hout' (r + 1) hr).1; rwa [ho2 r (by omega)] at this
        · have hlt := hrem j (Nat.zero_le _) hj hrm
          rw [hinLen] at hlt
          have hr : bI bot L (tt top k d j) < bot1.length := by omega
          refine ⟨hr, ?_⟩
          exact (hin' _ hr).2 j (Nat.zero_le _) hj hrm rfl
    -- the bounds are valid
    have hvalid : ValidT n (List.zip inb out) := by
      have hBnn := h.bot_nonneg
      -- bounds for single rows
      have bnd0 : ∀ j < k, at' top1 j < at' top j → tt top k d j + 1 ≤ n := by
        intro j hj _
        have g1 := h.topLe j hj
        have g2 := h.hrows
        unfold tt; omega
      have hb0 : at' bot 0 ≤ n := h.botLe
      apply validT_zip (by omega)
      · intro hpos
        rw [hres.inLe 0 (by omega)]
        refine ⟨by rw [at'_take (by omega)]; exact hb0, fun j _ hj hrm _ => ?_⟩
        have := bnd0 j hj hrm
        simp; omega
      · intro r hr
        rw [hres.outLe r (by omega)]
        constructor
        · rw [hres.inLe r (by omega), at'_take (by omega)]
          cases r with
          | zero =>
            rw [ho1 (by omega)]
            refine ⟨hb0, fun j _ hj hrm _ => ?_⟩
            have := bnd0 j hj hrm
            simp; omega
          | succ r =>
            rw [ho2 r (by omega)]
            refine ⟨le_of_lt (h.botStrict r (by omega)), fun j _ hj hrm hbj => ?_⟩
            have := (isB_bI bot L (tt top k d j)).2.1 r (by omega)
            unfold Bp at this
            push_cast; omega
        · intro j' _ hj' hbj'
          rw [hres.inLe r (by omega), at'_take (by omega)]
          have hB' := isB_bI bot L (tt top k d j')
          generalize hs' : bI bot L (tt top k d j') = s' at *
          have hmono := h.Bp_anti (r := s') (s := r) (by omega) (by omega)
          have hle := hB'.2.2 (by omega)
          constructor
          · have hV := h1.geV j' hj'
            unfold vI at hV
            rw [hs'] at hV
            by_cases hc : tt top k d j' + 1 - (s' : Int) ≤ 0
            · rw [if_pos hc] at hV
              unfold Bp tt at *; omega
            · rw [if_neg hc] at hV
              unfold Bp tt at *; omega
          · intro j _ hj hrm hbj
            have hlt : j' < j := by
              by_contra hcon
              have : bI bot L (tt top k d j) ≤ bI bot L (tt top k d j') := by
                apply bI_mono
                rcases Nat.eq_or_lt_of_le (Nat.le_of_not_lt hcon) with he | he
                · rw [he]
                · exact le_of_lt (tt_anti h he hj')
              omega
            have g1 := h1.geNext j' (by omega)
            have g2 := h.topAnti (j' + 1) j (by omega) hj
            unfold tt; omega
      · intro r hr
        have hpos : at' inb (r + 1) ≤ at' inb r - 1 := by
          rw [hres.inLe (r + 1) (by omega), at'_take (by omega)]
          have hge := (hres.inLe r (by omega) (at' inb r)).1 (le_refl _)
          rw [at'_take (by omega)] at hge
          constructor
          · have := h.botStrict r (by omega)
            have := hge.1
            omega
          · intro j _ hj hrm hbj
            have := (isB_bI bot L (tt top k d j)).2.1 r (by omega)
            have := hge.1
            unfold Bp at *
            push_cast; omega
        omega
    -- sums
    have hsums : ∀ l, BtwT n (List.zip inb out) l → inb.sum ≤ l.sum ∧ l.sum ≤ out.sum := by
      intro l hl
      rw [btwT_zip (by omega)] at hl
      exact ⟨sum_le_of_at' (by omega) (fun r hr => (hl.2.1 r (by omega)).1),
        sum_le_of_at' (by omega) (fun r hr => (hl.2.1 r (by omega)).2)⟩
    by_cases hc1 : out.sum - bot.sum < p + top.sum - top1.sum
    · rw [if_pos hc1]
      refine ⟨[], rfl, fun x => ?_⟩
      simp only [List.not_mem_nil, false_iff]
      rintro ⟨bot1, hb, hs, _⟩
      have := (hsums bot1 ((hiff bot1).1 hb)).2
      omega
    rw [if_neg hc1]
    by_cases hc2 : p + top.sum - top1.sum - inb.sum + bot.sum < 0
    · rw [if_pos hc2]
      refine ⟨[], rfl, fun x => ?_⟩
      simp only [List.not_mem_nil, false_iff]
      rintro ⟨bot1, hb, hs, _⟩
      have := (hsums bot1 ((hiff bot1).1 hb)).1
      omega
    rw [if_neg hc2]
    obtain ⟨Ls, hLs, hmem⟩ := botIter_value (k := k) (top1c := partConj top1) (a := inb) (b := out) (c := n)
      (by omega) hvalid (fun hpos => by
        have := (hres.outLe 0 (by omega) (at' out 0)).1 (le_refl _)
        rw [ho1 (by omega)] at this; exact this.1)
      (p + top.sum - top1.sum - inb.sum + bot.sum) (by omega) (fun hz => by
        have h2 : inb = [] := List.eq_nil_of_length_eq_zero hz
        have h3 : out = [] := List.eq_nil_of_length_eq_zero (by omega)
        rw [h3] at hc1
        rw [h2] at hc2 ⊢
        simp at hc1 hc2 ⊢
        have : m = 0 := by omega
        rw [this] at hbotsum
        simp at hbotsum
        omega)
    refine ⟨Ls, hLs, fun x => ?_⟩
    rw [hmem]
    constructor
    · rintro ⟨bot1, hb, hs, rfl⟩
      exact ⟨bot1, (hiff bot1).2 hb, by omega, rfl⟩
    · rintro ⟨bot1, hb, hs, rfl⟩
      exact ⟨bot1, (hiff bot1).1 hb, by omega, rfl⟩

end Verif
