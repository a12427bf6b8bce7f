import Verif.Proofs.PieriBody
/-!
# Membership in `pieri_set`, at the level of partition pairs
-/

namespace Verif
open Spec

theorem validD_zip {c : Int} {a b : List Int} (hl : a.length = b.length) (h0 : 0 < a.length → at' a 0 ≤ c)
    (hab : ∀ r < a.length, at' a r ≤ at' b r) (hs : ∀ r, r + 1 < a.length → at' a (r + 1) ≤ at' a r) :
    ValidD c (List.zip a b) := by
  induction a generalizing b c with
  | nil => simp [ValidD]
  | cons x a ih =>
    cases b with
    | nil => simp at hl
    | cons y b =>
      refine ⟨h0 (by simp), hab 0 (by simp), ih (by simpa using hl) ?_ ?_ ?_⟩
      · intro h
        have := hs 0 (by simpa using h)
        rw [at'_cons_succ, at'_cons_zero] at this
        omega
      · intro r hr
        have := hab (r + 1) (by simpa using hr)
        simpa only [at'_cons_succ] using this
      · intro r hr
        have := hs (r + 1) (by simpa using hr)
        simpa only [at'_cons_succ] using this

theorem btwD_zip {c : Int} {a b : List Int} (hl : a.length = b.length) (l : List Int) :
    BtwD c (List.zip a b) l ↔ l.length = a.length ∧ (∀ r < l.length, at' a r ≤ at' l r ∧ at' l r ≤ at' b r) ∧
      (∀ r, r + 1 < l.length → at' l (r + 1) ≤ at' l r) ∧ (0 < l.length → at' l 0 ≤ c) := by
  induction a generalizing b c l with
  | nil =>
    cases l with
    | nil => simp [BtwD]
    | cons => simp [BtwD]
  | cons x a ih =>
    cases b with
    | nil => simp at hl
    | cons y b =>
      cases l with
      | nil => simp [BtwD]
      | cons z l =>
        simp only [List.zip_cons_cons, BtwD]
        rw [ih (by simpa using hl)]
        constructor
        · rintro ⟨⟨h1, h2, h3⟩, h4, h5, h6, h7⟩
          refine ⟨by simp [h4], ?_, ?_, ?_⟩
          · intro r hr
            cases r with
            | zero => exact ⟨h1, h2⟩
            | succ r => simpa only [at'_cons_succ] using h5 r (by simpa using hr)
          · intro r hr
            cases r with
            | zero =>
              have := h7 (by simpa using hr)
              rw [at'_cons_succ, at'_cons_zero]; omega
            | succ r => simpa only [at'_cons_succ] using h6 r (by simpa using hr)
          · intro _; exact h3
        · rintro ⟨h1, h2, h3, h4⟩
          have g := h2 0 (by simp)
          simp only [at'_cons_zero] at g
          refine ⟨⟨g.1, g.2, h4 (by simp)⟩, by simpa using h1, ?_, ?_, ?_⟩
          · intro r hr
            simpa only [at'_cons_succ] using h2 (r + 1) (by simpa using hr)
          · intro r hr
            simpa only [at'_cons_succ] using h3 (r + 1) (by simpa using hr)
          · intro hr
            have := h3 0 (by simpa using hr)
            rw [at'_cons_succ, at'_cons_zero] at this; omega

theorem decD_zip {a b : List Int} (hl : a.length = b.length)
    (hs : ∀ r s, r ≤ s → s < b.length → at' b s ≤ at' b r) : DecD (List.zip a b) := by
  induction a generalizing b with
  | nil => simp [DecD]
  | cons x a ih =>
    cases b with
    | nil => simp at hl
    | cons y b =>
      refine ⟨?_, ih (by simpa using hl) (fun r s h1 h2 => ?_)⟩
      · intro cd hcd
        have h2 := (List.of_mem_zip (a := cd.1) (b := cd.2) hcd).2
        obtain ⟨s, hs1, hs2⟩ := List.mem_iff_getElem.1 h2
        have := hs 0 (s + 1) (by omega) (by simpa using hs1)
        rw [at'_cons_succ, at'_cons_zero] at this
        unfold at' at this
        rw [List.getD_eq_getElem _ _ hs1, hs2] at this
        exact this
      · have := hs (r + 1) (s + 1) (by omega) (by simpa using h2)
        simpa only [at'_cons_succ] using this

theorem topIter_runs {body : List Int → Except PyErr (List (List Int))} {inner outer : List Int}
    {step : List Int → Option (List Int)} {P : List Int → List Int → Prop} {mu : List Int} {L : List (List Int)}
    (r : Runs step mu L) (h : ∀ u ∈ L, partItrBetween u inner outer = step u)
    (hb : ∀ u ∈ L, ∃ Ls, body u = .ok Ls ∧ ∀ x, x ∈ Ls ↔ P u x)
    (fuel : Nat) (hf : L.length < fuel) (res : List (List Int)) :
    ∃ R, topIter body inner outer fuel (some mu) res = .ok R ∧ ∀ x, x ∈ R ↔ x ∈ res ∨ ∃ u ∈ L, P u x := by
  induction r generalizing fuel res with
  | @last x hx =>
    obtain ⟨f, rfl⟩ : ∃ f, fuel = f + 2 := ⟨fuel - 2, by simp at hf; omega⟩
    have h1 := h x (by simp)
    obtain ⟨Ls, hLs, hmem⟩ := hb x (by simp)
    refine ⟨res ++ Ls, ?_, fun y => ?_⟩
    · simp only [topIter, h1, hx, hLs]; rfl
    · simp [hmem]
  | @cons x y L hx r ih =>
    obtain ⟨f, rfl⟩ : ∃ f, fuel = f + 1 := ⟨fuel - 1, by simp at hf; omega⟩
    have h1 := h x (by simp)
    obtain ⟨Ls, hLs, hmem⟩ := hb x (by simp)
    obtain ⟨R, hR, hR2⟩ := ih (fun u hu => h u (by simp [hu])) (fun u hu => hb u (by simp [hu])) f
      (by simp at hf; omega) (res ++ Ls)
    refine ⟨R, ?_, fun z => ?_⟩
    · simp only [topIter, h1, hx, hLs]; exact hR
    · rw [hR2]; simp [hmem, or_assoc]

theorem vI_le {k L : Nat} {rows n d : Int} {top bot : List Int} (h : PD k L rows n d top bot) (i : Nat) :
    vI top bot L k d i ≤ at' top i := by
  unfold vI
  have hB := isB_bI bot L (tt top k d i)
  generalize bI bot L (tt top k d i) = b at *
  by_cases hc : tt top k d i + 1 - (b : Int) ≤ 0
  · rw [if_pos hc]
  · rw [if_neg hc]
    rcases Nat.lt_or_ge b L with h1 | h1
    · have := hB.2.2 h1
      unfold tt at this; omega
    · have : b = L := by have := hB.1; omega
      subst this
      unfold Bp tt at *
      rw [h.botLast]; omega

theorem topInner_at {k L : Nat} {rows n d : Int} {top bot : List Int} (h : PD k L rows n d top bot) :
    (topInner top bot L k d).length = k ∧ ∀ i < k, at' (topInner top bot L k d) i =
      max (vI top bot L k d i) (if i + 1 < k then max (L : Int) (at' top (i + 1)) else L) := by
  unfold topInner
  simp only []
  rcases Nat.eq_zero_or_pos k with hk | hk
  · subst hk
    simp [innerLoop]
  · rw [if_neg (by omega)]
    have hlen : ((List.range (top.length - 1)).map (fun j => max (L : Int) (at' top (j + 1))) ++ [(L : Int)]).length = k := by
      simp [h.topLen]; omega
    refine ⟨by rw [innerLoop_length, hlen], fun i hi => ?_⟩
    rw [at'_innerLoop h k 0 0 _ (by omega) hlen (by omega) (fun _ _ _ r hr => absurd hr (by omega)),
      if_pos ⟨by omega, hi⟩]
    congr 1
    by_cases hik : i + 1 < k
    · rw [if_pos hik, at'_append_lt (by simp [h.topLen]; omega), at'_map_range _ (by rw [h.topLen]; omega)]
    · rw [if_neg hik, at'_append_ge (by simp [h.topLen]; omega)]
      have : i = k - 1 := by omega
      simp [h.topLen, this, at']

/-- what `pieri_set` contains, for the pair `top, bot` -/
def PairMem (p : Int) (top bot : List Int) (L k : Nat) (rows n d : Int) (x : List Int) : Prop :=
  ∃ top1 bot1, TopOK top bot L k rows d top1 ∧ BotOK top bot L k rows n d top1 bot1 ∧
    bot1.sum + top1.sum = p + top.sum + bot.sum ∧ x = glue k (partConj top1) bot1

theorem topIter_spec {k L : Nat} {rows n d : Int} {top bot : List Int} (h : PD k L rows n d top bot) (p : Int) :
    ∃ R, topIter (pieriBody p top bot L k rows (n + k) d) (topInner top bot L k d) (topOuter top k rows)
      (pieriFuelA (topInner top bot L k d) (topOuter top k rows)) (some (topOuter top k rows)) [] = .ok R ∧
      ∀ x, x ∈ R ↔ PairMem p top bot L k rows n d x := by
  obtain ⟨hil, hia⟩ := topInner_at h
  have hol : (topOuter top k rows).length = k := by simp [topOuter]
  have hoa : ∀ i < k, at' (topOuter top k rows) i = min rows (at' top i + 1) := by
    intro i hi; unfold topOuter; rw [at'_map_range _ hi]
  generalize topInner top bot L k d = inner at *
  generalize topOuter top k rows = outer at *
  have e1 : (List.zip inner outer).map Prod.fst = inner := List.map_fst_zip (by omega)
  have e2 : (List.zip inner outer).map Prod.snd = outer := List.map_snd_zip (by omega)
  have hile : ∀ i < k, at' inner i ≤ at' top i := by
    intro i hi
    rw [hia i hi]
    have h1 := vI_le h i
    have h2 := h.topGe i hi
    by_cases hik : i + 1 < k
    · rw [if_pos hik]
      have := h.topAnti i (i + 1) (by omega) hik
      omega
    · rw [if_neg hik]; omega
  have hv : ValidD rows (List.zip inner outer) := by
    apply validD_zip (by omega)
    · intro h0
      have := hile 0 (by omega)
      have := h.topLe 0 (by omega)
      omega
    · intro i hi
      have := hile i (by omega)
      have := h.topLe i (by omega)
      rw [hoa i (by omega)]
      omega
    · intro i hi
      have := hile (i + 1) (by omega)
      rw [hia i (by omega), if_pos (by omega)]
      omega
  have hd : DecD (List.zip inner outer) := by
    apply decD_zip (by omega)
    intro r s hrs hs
    rw [hoa r (by omega), hoa s (by omega)]
    have := h.topAnti r s hrs (by omega)
    omega
  have hst : topD rows (List.zip inner outer) = outer := by
    rw [topD_eq_map hd]
    conv_rhs => rw [← e2]
    apply List.map_congr_left
    intro ab hab
    have h2 : ab.2 ∈ outer := by rw [← e2]; exact List.mem_map_of_mem hab
    obtain ⟨s, hs1, hs2⟩ := List.mem_iff_getElem.1 h2
    have := hoa s (by omega)
    unfold at' at this
    rw [List.getD_eq_getElem _ _ hs1, hs2] at this
    omega
  have hiff : ∀ u, BtwD rows (List.zip inner outer) u ↔ TopOK top bot L k rows d u := by
    intro u
    rw [btwD_zip (by omega)]
    constructor
    · rintro ⟨h1, h2, h3, h4⟩
      have h2' : ∀ i < k, at' inner i ≤ at' u i ∧ at' u i ≤ at' outer i := fun i hi => h2 i (by omega)
      refine ⟨by omega, fun i hi => h3 i (by omega), fun i hi => ?_, fun i hi => ?_, fun i hi => ?_, fun i hi => ?_,
        fun i hi => ?_⟩
      · have := (h2' i hi).1
        rw [hia i hi] at this
        split at this <;> omega
      · have := (h2' i (by omega)).1
        rw [hia i (by omega), if_pos hi] at this
        omega
      · have := (h2' i hi).1
        rw [hia i hi] at this
        omega
      · have := (h2' i hi).2
        rw [hoa i hi] at this
        omega
      · have := (h2' i hi).2
        rw [hoa i hi] at this
        omega
    · intro g
      refine ⟨by rw [g.len, hil], fun i hi => ?_, fun i hi => g.anti i (by rw [← g.len]; exact hi),
        fun hi => g.leRows 0 (by rw [← g.len]; exact hi)⟩
      rw [g.len] at hi
      rw [hia i hi, hoa i hi]
      have g1 := g.geV i hi
      have g2 := g.geL i hi
      have g3 := g.le i hi
      have g4 := g.leRows i hi
      by_cases hik : i + 1 < k
      · rw [if_pos hik]
        have := g.geNext i hik
        omega
      · rw [if_neg hik]; omega
  have hr := stepD_runs hv
  rw [hst] at hr
  obtain ⟨R, hR, hR2⟩ := topIter_runs (inner := inner) (outer := outer)
    (body := pieriBody p top bot L k rows (n + k) d)
    (P := fun top1 x => ∃ bot1, BotOK top bot L k rows n d top1 bot1 ∧
        bot1.sum + top1.sum = p + top.sum + bot.sum ∧ x = glue k (partConj top1) bot1) hr
    (fun u hu => by
      have := partItrBetween_eq hd ((mem_enumD hv u).1 hu)
      rwa [e1, e2] at this)
    (fun u hu => pieriBody_spec h ((hiff u).1 ((mem_enumD hv u).1 hu)) p)
    (pieriFuelA inner outer) (by
      have := enumD_length_le hv
      unfold pieriFuelA
      omega) []
  refine ⟨R, hR, fun x => ?_⟩
  rw [hR2]
  unfold PairMem
  constructor
  · rintro (h0 | ⟨u, hu, bot1, g1, g2, g3⟩)
    · simp at h0
    · exact ⟨u, bot1, (hiff u).1 ((mem_enumD hv u).1 hu), g1, g2, g3⟩
  · rintro ⟨u, bot1, g0, g1, g2, g3⟩
    exact Or.inr ⟨u, (mem_enumD hv u).2 ((hiff u).2 g0), bot1, g1, g2, g3⟩

/-- `pieri_set` for a split class. -/
theorem pieriSet_pair (p : Int) (lam : List Int) (k : Nat) (n d : Int) (L : Nat)
    (hL : L = (splitBot lam k).length - 1)
    (h : PD k L (n + d - k) n d (splitTop lam k) (splitBot lam k)) :
    ∃ R, pieriSet p lam k n d = .ok R ∧ R.Nodup ∧
      ∀ x, x ∈ R ↔ PairMem p (splitTop lam k) (splitBot lam k) L k (n + d - k) n d x := by
  obtain ⟨R, hR, hR2⟩ := topIter_spec h p
  refine ⟨R.dedup.insertionSort (fun a b => listLt a b = false), ?_, ?_, fun x => ?_⟩
  · unfold pieriSet
    simp only []
    rw [← hL, hR]
    rfl
  · exact (List.perm_insertionSort _ _).nodup_iff.2 (List.nodup_dedup _)
  · rw [(List.perm_insertionSort _ _).mem_iff, List.mem_dedup, hR2]

end Verif
