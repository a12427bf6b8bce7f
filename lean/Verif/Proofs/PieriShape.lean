import Verif.Proofs.PieriSet
import Verif.Props.Maps
/-!
# Membership in `pieri_set`, at the level of shapes
-/

namespace Verif
open Spec

/-- height of column `j` (from 0) -/
def col (l : List Int) (j : Nat) : Nat := l.countP (fun x => decide ((j : Int) + 1 ≤ x))

theorem lt_col {l : List Int} (h : IsPartition l) (j r : Nat) : r < col l j ↔ (j : Int) + 1 ≤ part l r :=
  lt_countP_iff h _ (by omega) r

theorem col_le_iff {l : List Int} (h : IsPartition l) (j r : Nat) : col l j ≤ r ↔ part l r ≤ j := by
  have := lt_col h j r
  omega

theorem col_anti {l : List Int} (h : IsPartition l) {i j : Nat} (hij : i ≤ j) : col l j ≤ col l i := by
  rw [col_le_iff h]
  have := (col_le_iff h i (col l i)).1 (le_refl _)
  omega

theorem part_pos_iff {l : List Int} (h : IsPartition l) (r : Nat) : part l r = 0 ↔ ¬ 0 < part l r := by
  have := h.part_nonneg r
  omega

/-- excess of row `r` over `k` -/
def ex (l : List Int) (k r : Nat) : Int := max 0 (part l r - k)

theorem ex_nonneg (l : List Int) (k r : Nat) : 0 ≤ ex l k r := by unfold ex; omega

theorem kstrict_part {k : Int} {l : List Int} (hk : 0 ≤ k) (hp : IsPartition l) :
    KStrict k l ↔ ∀ i, k < part l i → part l (i + 1) < part l i := by
  constructor
  · intro h i hi
    by_cases h1 : i + 1 < l.length
    · unfold KStrict at h
      rw [List.pairwise_iff_getElem] at h
      have := h i (i + 1) (by omega) h1 (by omega)
      rw [part_of_lt h1, part_of_lt (show i < l.length by omega)]
      rw [part_of_lt (show i < l.length by omega)] at hi
      exact this hi
    · rw [part_of_ge (show l.length ≤ i + 1 by omega)]; omega
  · intro h
    unfold KStrict
    rw [List.pairwise_iff_getElem]
    intro i j hi hj hij hk'
    have h1 := h i (by rw [part_of_lt hi]; exact hk')
    have h2 := hp.part_anti (show i + 1 ≤ j by omega)
    rw [part_of_lt hi] at h1
    rw [part_of_lt hj] at h2
    omega

theorem splitTop_spec {lam : List Int} (h : IsPartition lam) (k : Nat) :
    (splitTop lam k).length = k ∧ ∀ j < k, at' (splitTop lam k) j = col lam j := by
  have hm := isPartition_map_min h (k := (k : Int)) (by omega)
  have hlen : (partConj (lam.map (fun x => min x (k : Int)))).length ≤ k := by
    rw [partConj_length hm, part_map (fun x => min x (k : Int)) (by simp)]
    omega
  unfold splitTop
  simp only []
  constructor
  · unfold rep; rw [List.length_append, List.length_replicate]; omega
  · intro j hj
    unfold rep
    rw [at'_eq_part, part_append_zeros, partConj_isConjugate hm, List.countP_map]
    unfold col
    congr 2
    funext x
    simp only [Function.comp_apply, decide_eq_decide]
    omega

theorem splitBot_spec {lam : List Int} (h : IsPartition lam) (k : Nat) :
    (splitBot lam k).length = col lam k + 1 ∧ ∀ r, at' (splitBot lam k) r = ex lam k r := by
  have e : (fun x : Int => max 0 (x - k)) = (fun x : Int => max (x - k) 0) := by funext x; exact max_comm _ _
  have hm := isPartition_map_max h (k := (k : Int))
  rw [← e] at hm
  unfold splitBot
  constructor
  · rw [List.length_append, List.length_singleton]
    congr 1
    have hr := hm.partClip
    have h1 : (partClip (lam.map fun x => max 0 (x - (k : Int)))).countP (fun x => decide ((1 : Int) ≤ x)) =
        (partClip (lam.map fun x => max 0 (x - (k : Int)))).length := by
      rw [List.countP_eq_length]
      intro x hx
      have := hr.2 x hx
      simp only [decide_eq_true_eq]; omega
    rw [← h1, countP_partClip _ _ (by omega), List.countP_map]
    unfold col
    congr 1
    funext x
    simp only [Function.comp_apply, decide_eq_decide]
    omega
  · intro r
    rw [at'_eq_part, part_append_zero, part_partClip, part_map (fun x => max 0 (x - (k : Int))) (by simp)]
    rfl

theorem sum_min_max (lam : List Int) (k : Int) (h : ∀ x ∈ lam, 0 ≤ x) :
    (lam.map (fun x => min x k)).sum + (lam.map (fun x => max 0 (x - k))).sum = lam.sum := by
  induction lam with
  | nil => rfl
  | cons x l ih =>
    have := ih (fun y hy => h y (by simp [hy]))
    simp only [List.map_cons, List.sum_cons]
    omega

theorem split_sum {lam : List Int} (h : IsPartition lam) (k : Nat) :
    (splitTop lam k).sum + (splitBot lam k).sum = lam.sum := by
  have hm := isPartition_map_min h (k := (k : Int)) (by omega)
  unfold splitTop splitBot rep
  simp only [List.sum_append, List.sum_replicate, partClip_sum, partConj_sum hm]
  rw [← sum_min_max lam k h.2]
  simp

/-- a k-strict partition with at most `rows` rows and `n+k` columns (trailing zeros allowed) -/
structure InBox (k : Nat) (n d : Int) (lam : List Int) : Prop where
  isPart : IsPartition lam
  kstrict : KStrict k lam
  rows : ∀ r : Nat, n + d - k ≤ r → part lam r = 0
  cols : part lam 0 ≤ n + k

theorem InBox.pd {k : Nat} {n d : Int} {lam : List Int} (h : InBox k n d lam) (hd : d = 0 ∨ d = 1) (hn : 0 ≤ n)
    (hr : 0 ≤ n + d - k) : PD k (col lam k) (n + d - k) n d (splitTop lam k) (splitBot lam k) := by
  obtain ⟨t1, t2⟩ := splitTop_spec h.isPart k
  obtain ⟨b1, b2⟩ := splitBot_spec h.isPart k
  have hcolrows : ∀ j, (col lam j : Int) ≤ n + d - k := by
    intro j
    have := (col_le_iff h.isPart j (n + d - k).toNat).2 (by rw [h.rows _ (by omega)]; omega)
    omega
  refine ⟨t1, b1, fun i j hij hj => ?_, fun i hi => ?_, fun i hi => ?_, fun r hr' => ?_, ?_, ?_, rfl, hd, hn, hcolrows k⟩
  · rw [t2 i (by omega), t2 j hj]
    exact_mod_cast col_anti h.isPart hij
  · rw [t2 i hi]
    exact_mod_cast col_anti h.isPart (le_of_lt hi)
  · rw [t2 i hi]; exact hcolrows i
  · rw [b2, b2]
    have h1 := (lt_col h.isPart k r).1 hr'
    have h2 := (kstrict_part (by omega) h.isPart).1 h.kstrict r (by omega)
    unfold ex; omega
  · rw [b2]
    have := (col_le_iff h.isPart k (col lam k)).1 (le_refl _)
    unfold ex; omega
  · rw [b2]
    have := h.cols
    unfold ex; omega

/-- the conditions on the new shape, in terms of column heights and excesses -/
structure ShapeRel (k : Nat) (d : Int) (lam mu : List Int) : Prop where
  geL : ∀ j < k, col lam k ≤ col mu j
  geNext : ∀ j, j + 1 < k → col lam (j + 1) ≤ col mu j
  geV : ∀ j < k, vI (splitTop lam k) (splitBot lam k) (col lam k) k d j ≤ col mu j
  le : ∀ j < k, col mu j ≤ col lam j + 1
  ge : ∀ r, ex lam k r ≤ ex mu k r
  leS : ∀ r, ex mu k (r + 1) ≤ ex lam k r
  rem : ∀ j < k, col mu j < col lam j →
    tt (splitTop lam k) k d j - bI (splitBot lam k) (col lam k) (tt (splitTop lam k) k d j) + 1 ≤
      ex mu k (bI (splitBot lam k) (col lam k) (tt (splitTop lam k) k d j))
  out : ∀ j < k, ∀ r, bI (splitBot lam k) (col lam k) (tt (splitTop lam k) k d j) < r → 0 < ex mu k r →
    ex mu k r + r ≤ col mu j + k - (j + 1) - d

theorem part_partConj {top1 : List Int} (h : IsPartition top1) (r : Nat) :
    part (partConj top1) r = (top1.countP (fun x => decide ((r : Int) + 1 ≤ x)) : Nat) := partConj_isConjugate h r

theorem isPartition_of_at' {top1 : List Int} (h : ∀ i, i + 1 < top1.length → at' top1 (i + 1) ≤ at' top1 i)
    (h0 : ∀ i < top1.length, 0 ≤ at' top1 i) : IsPartition top1 := by
  rw [isPartition_iff_part]
  intro i
  by_cases h1 : i + 1 < top1.length
  · exact h i h1
  · rw [part_of_ge (l := top1) (i := i + 1) (by omega)]
    by_cases h2 : i < top1.length
    · exact h0 i h2
    · rw [part_of_ge (by omega)]

theorem part_partConj_le {top1 : List Int} (h : IsPartition top1) (r : Nat) :
    part (partConj top1) r ≤ top1.length := by
  rw [part_partConj h]
  exact_mod_cast List.countP_le_length

theorem lt_part_partConj {top1 : List Int} (h : IsPartition top1) (r j : Nat) :
    (j : Int) + 1 ≤ part (partConj top1) r ↔ (r : Int) + 1 ≤ part top1 j := by
  rw [part_partConj h]
  have := lt_countP_iff h ((r : Int) + 1) (by omega) j
  rw [← this]
  omega

theorem glue_part {k : Nat} {top1 bot1 : List Int} (ht : IsPartition top1) (hk : top1.length = k)
    (hb : 0 < k → (bot1.length : Int) ≤ at' top1 (k - 1)) (r : Nat) :
    part (glue k (partConj top1) bot1) r = part (partConj top1) r + at' bot1 r := by
  unfold glue
  by_cases h0 : k = 0
  · rw [if_pos h0, part_partClip]
    have := part_partConj_le ht r
    have h2 := (partConj_reduced ht).isPartition.part_nonneg r
    rw [at'_eq_part]; omega
  · rw [if_neg h0]
    have hlen : bot1.length ≤ (partConj top1).length := by
      rw [partConj_length ht]
      have h1 := hb (by omega)
      have h2 := ht.part_anti (show 0 ≤ k - 1 by omega)
      rw [at'_eq_part] at h1
      omega
    rw [Nat.min_eq_right hlen]
    rw [← at'_eq_part, ← at'_eq_part]
    by_cases h1 : r < bot1.length
    · rw [at'_append_lt (by simpa using h1), at'_map_range _ h1]
    · rw [at'_append_ge (by simp; omega), List.length_map, List.length_range]
      rw [at'_of_ge (l := bot1) (by omega), add_zero]
      unfold at'
      rw [List.getD_eq_getElem?_getD, List.getD_eq_getElem?_getD, List.getElem?_drop]
      congr 2
      omega

theorem glue_noTrailing {k : Nat} {top1 bot1 : List Int} (ht : IsPartition top1) (hk : top1.length = k)
    (hb : 0 < k → (bot1.length : Int) ≤ at' top1 (k - 1)) (hnn : ∀ r, 0 ≤ at' bot1 r) :
    NoTrailingZero (glue k (partConj top1) bot1) := by
  by_cases h0 : k = 0
  · unfold glue; rw [if_pos h0]; exact partClip_noTrailing _
  · have hlen : bot1.length ≤ (partConj top1).length := by
      rw [partConj_length ht]
      have h1 := hb (by omega)
      have h2 := ht.part_anti (show 0 ≤ k - 1 by omega)
      rw [at'_eq_part] at h1
      omega
    have hg := glue_part ht hk hb
    have hl : (glue k (partConj top1) bot1).length = (partConj top1).length := by
      unfold glue; rw [if_neg h0]; simp
    generalize glue k (partConj top1) bot1 = g at *
    intro hlast
    rw [List.getLast?_eq_getElem?] at hlast
    have hpos : 0 < g.length := by
      rcases Nat.eq_zero_or_pos g.length with h | h
      · rw [List.length_eq_zero_iff.1 h] at hlast; simp at hlast
      · exact h
    rw [List.getElem?_eq_getElem (by omega)] at hlast
    have h1 := hg (g.length - 1)
    rw [part_of_lt (by omega)] at h1
    have h2 : 0 < part (partConj top1) (g.length - 1) := by
      rw [part_of_lt (by omega)]
      exact (partConj_reduced ht).2 _ (List.getElem_mem _)
    have h3 := hnn (g.length - 1)
    have := Option.some.inj hlast
    omega

theorem countP_eq_of_iff {l : List Int} (h : IsPartition l) {t : Int} (ht : 0 < t) {N : Nat}
    (hN : ∀ r : Nat, t ≤ part l r ↔ r < N) : l.countP (fun x => decide (t ≤ x)) = N := by
  apply Nat.le_antisymm
  · by_contra hc
    have := (lt_countP_iff h t ht N).1 (by omega)
    have := (hN N).1 this
    omega
  · by_contra hc
    have h1 := (hN (l.countP (fun x => decide (t ≤ x)))).2 (by omega)
    have := (lt_countP_iff h t ht _).2 h1
    omega

theorem nonneg_at_of_partition {l : List Int} (h : IsPartition l) (i : Nat) : 0 ≤ at' l i := h.part_nonneg i

theorem pairMem_iff {k : Nat} {n d : Int} {lam : List Int} (h : InBox k n d lam) (hd : d = 0 ∨ d = 1) (hn : 0 ≤ n)
    (hr : 0 ≤ n + d - k) (p : Int) (mu : List Int) :
    PairMem p (splitTop lam k) (splitBot lam k) (col lam k) k (n + d - k) n d mu ↔
      ReducedPart mu ∧ InBox k n d mu ∧ mu.sum = lam.sum + p ∧ ShapeRel k d lam mu := by
  have hpd := h.pd hd hn hr
  obtain ⟨t1, t2⟩ := splitTop_spec h.isPart k
  obtain ⟨b1, b2⟩ := splitBot_spec h.isPart k
  have hsum := split_sum h.isPart k
  constructor
  · rintro ⟨top1, bot1, ht, hb, hs, rfl⟩
    -- the two halves of the new shape
    have htp : IsPartition top1 := isPartition_of_at' (by rw [ht.len]; exact ht.anti)
      (by rw [ht.len]; intro i hi; have := ht.geL i hi; omega)
    have hbl : 0 < k → (bot1.length : Int) ≤ at' top1 (k - 1) := by
      intro hk
      rw [hb.len]
      unfold botRows
      rw [if_neg (show ¬ k = 0 by omega)]
      by_cases hc : (col lam k : Int) < at' top1 (k - 1)
      · rw [if_pos hc]; push_cast; omega
      · rw [if_neg hc]; exact ht.geL (k - 1) (by omega)
    have hnn : ∀ r, 0 ≤ at' bot1 r := by
      intro r
      by_cases hlt : r < bot1.length
      · exact le_trans (hpd.bot_nonneg r) (hb.ge r hlt)
      · rw [at'_of_ge (by omega)]
    have hpart := glue_part htp ht.len hbl
    have hnt := glue_noTrailing htp ht.len hbl hnn
    -- rows with positive excess are full on the left
    have hfull : ∀ r, r < bot1.length → part (partConj top1) r = k := by
      intro r hrb
      have h1 := part_partConj_le htp r
      rw [ht.len] at h1
      rcases Nat.eq_zero_or_pos k with h0 | h0
      · have := (partConj_reduced htp).isPartition.part_nonneg r
        omega
      · have h2 := (lt_part_partConj htp r (k - 1)).2 (by
          have := hbl h0
          rw [← at'_eq_part]; omega)
        omega
    have hle : ∀ r, part (partConj top1) r ≤ k := by
      intro r
      have h1 := part_partConj_le htp r
      rw [ht.len] at h1; exact h1
    have hge0 : ∀ r, 0 ≤ part (partConj top1) r := (partConj_reduced htp).isPartition.part_nonneg
    generalize hmu : glue k (partConj top1) bot1 = mu at *
    have hexm : ∀ r, ex mu k r = at' bot1 r := by
      intro r
      unfold ex
      rw [hpart]
      have := hnn r
      by_cases hrb : r < bot1.length
      · rw [hfull r hrb]; omega
      · rw [at'_of_ge (by omega)]
        have := hle r
        omega
    have hstrict' : ∀ r, (k : Int) < part mu r → part mu (r + 1) < part mu r := by
      intro r hkr
      rw [hpart] at hkr
      have hrb : r < bot1.length := by
        by_contra hc
        rw [at'_of_ge (by omega)] at hkr
        have := hle r
        omega
      rw [hpart, hpart, hfull r hrb]
      rw [hfull r hrb] at hkr
      by_cases hrb' : r + 1 < bot1.length
      · have := hb.strict r hrb'
        have := hle (r + 1)
        omega
      · rw [at'_of_ge (i := r + 1) (by omega)]
        have := hle (r + 1)
        omega
    have hmp : IsPartition mu := by
      rw [isPartition_iff_part]
      intro r
      by_cases hkr : (k : Int) < part mu r
      · exact le_of_lt (hstrict' r hkr)
      · rw [hpart, hpart]
        have ha := (partConj_reduced htp).isPartition.part_anti (show r ≤ r + 1 by omega)
        by_cases hrb' : r + 1 < bot1.length
        · rw [hpart, hfull r (by omega)] at hkr
          have := hb.strict r hrb'
          have := hnn r
          have := hnn (r + 1)
          omega
        · rw [at'_of_ge (i := r + 1) (by omega)]
          have := hnn r
          omega
    have hred : ReducedPart mu := by
      have := hmp.partClip
      rwa [partClip_of_noTrailing hnt] at this
    have hcol : ∀ j < k, (col mu j : Int) = at' top1 j := by
      intro j hj
      have hj0 : 0 ≤ at' top1 j := htp.part_nonneg j
      have : col mu j = (at' top1 j).toNat := by
        unfold col
        apply countP_eq_of_iff hmp (by omega)
        intro r
        rw [hpart]
        have h2 : (j : Int) + 1 ≤ part (partConj top1) r ↔ (r : Int) + 1 ≤ at' top1 j := lt_part_partConj htp r j
        rcases Nat.lt_or_ge r bot1.length with hrb | hrb
        · rw [hfull r hrb] at h2
          rw [hfull r hrb]
          have := hnn r
          omega
        · rw [at'_of_ge hrb, add_zero, h2]; omega
      rw [this]; omega
    have hcolI : ∀ j < k, ∀ X : Int, X ≤ at' top1 j → X ≤ col mu j := fun j hj X hX => by rw [hcol j hj]; exact hX
    have hbox : InBox k n d mu := by
      refine ⟨hmp, (kstrict_part (by omega) hmp).2 hstrict', fun r hrr => ?_, ?_⟩
      · rcases Nat.eq_zero_or_pos k with h0 | h0
        · have h1 := hle r
          have h2 := hge0 r
          rw [hpart]
          rw [at'_of_ge ?_]
          · omega
          · rw [hb.len]; unfold botRows
            rw [if_pos h0]
            have := hpd.hL
            by_cases hc : (col lam k : Int) < n + d - k
            · rw [if_pos hc]; omega
            · rw [if_neg hc]; omega
        · have h1 := ht.leRows 0 h0
          rw [← hcol 0 h0] at h1
          have h2 := (col_le_iff hmp 0 r).1 (by omega)
          have h3 := hmp.part_nonneg r
          push_cast at h2
          omega
      · rw [hpart]
        have h1 := hle 0
        by_cases hb0 : 0 < bot1.length
        · have := hb.le0 hb0; omega
        · rw [at'_of_ge (by omega)]; omega
    refine ⟨hred, hbox, ?_, ?_⟩
    · -- sums
      rw [← split_sum hmp k]
      obtain ⟨tm1, tm2⟩ := splitTop_spec hmp k
      obtain ⟨bm1, bm2⟩ := splitBot_spec hmp k
      have e1 : splitTop mu k = top1 := by
        apply ext_at' (by rw [tm1, ht.len])
        intro i hi
        rw [tm1] at hi
        rw [tm2 i hi, hcol i hi]
      have e2 : (splitBot mu k).sum = bot1.sum := by
        have : partClip (splitBot mu k) = partClip bot1 := by
          rw [partClip_eq_iff]
          intro i
          rw [← at'_eq_part, bm2, hexm, at'_eq_part]
        rw [← partClip_sum, this, partClip_sum]
      rw [e1, e2]; omega
    · refine ⟨fun j hj => ?_, fun j hj => ?_, fun j hj => hcolI j hj _ (ht.geV j hj), fun j hj => ?_, fun r => ?_,
        fun r => ?_, fun j hj hlt => ?_, fun j hj r hbr hpos => ?_⟩
      · have := hcol j hj; have := ht.geL j hj; omega
      · have := hcol j (by omega)
        have h2 := ht.geNext j hj
        rw [t2 (j + 1) hj] at h2
        omega
      · have := hcol j hj; have h2 := ht.le j hj
        rw [t2 j hj] at h2; omega
      · rw [hexm, ← b2]
        by_cases hrb : r < bot1.length
        · exact hb.ge r hrb
        · rw [at'_of_ge (l := bot1) (by omega), hpd.bot_zero]
          have := hb.len
          unfold botRows at this
          rcases lt_or_ge (col lam k : Int) (if k = 0 then n + d - k else at' top1 (k - 1)) with hc | hc
          · rw [if_pos hc] at this; omega
          · rw [if_neg (not_lt.2 hc)] at this; omega
      · rw [hexm, ← b2]
        by_cases hrb : r + 1 < bot1.length
        · exact hb.leS r hrb
        · rw [at'_of_ge (l := bot1) (by omega)]
          exact hpd.bot_nonneg r
      · rw [hexm]
        refine (hb.rem j hj ?_).2
        rw [t2 j hj, ← hcol j hj]; exact_mod_cast hlt
      · rw [hexm] at hpos ⊢
        have hrb : r < bot1.length := by
          by_contra hc
          rw [at'_of_ge (by omega)] at hpos; omega
        have := hb.out r hrb j hj hbr
        unfold tt at this
        rw [← hcol j hj] at this
        omega
  · rintro ⟨hred, hbox, hs, hsh⟩
    obtain ⟨tm1, tm2⟩ := splitTop_spec hbox.isPart k
    obtain ⟨bm1, bm2⟩ := splitBot_spec hbox.isPart k
    have hpm := hbox.pd hd hn hr
    have hmrows : botRows (col lam k) k (n + d - k) (splitTop mu k) = col lam k ∨
        botRows (col lam k) k (n + d - k) (splitTop mu k) = col lam k + 1 := by
      unfold botRows
      rcases lt_or_ge (col lam k : Int) (if k = 0 then n + d - k else at' (splitTop mu k) (k - 1)) with hc | hc
      · rw [if_pos hc]; right; rfl
      · rw [if_neg (not_lt.2 hc)]; left; rfl
    have hmz : ∀ r, botRows (col lam k) k (n + d - k) (splitTop mu k) ≤ r → ex mu k r = 0 := by
      intro r hrm
      have hz : ∀ r, col lam k + 1 ≤ r → ex mu k r = 0 := by
        intro r h1
        obtain ⟨s, rfl⟩ : ∃ s, r = s + 1 := ⟨r - 1, by omega⟩
        have g1 := hsh.leS s
        have g2 := ex_nonneg mu k (s + 1)
        have g3 : ex lam k s = 0 := by rw [← b2]; exact hpd.bot_zero (by omega)
        omega
      by_cases hr1 : col lam k + 1 ≤ r
      · exact hz r hr1
      · have hrL : r = col lam k := by omega
        have hge : ¬ (col lam k : Int) < (if k = 0 then n + d - k else at' (splitTop mu k) (k - 1)) := by
          intro hc
          unfold botRows at hrm
          rw [if_pos hc] at hrm
          omega
        rcases Nat.eq_zero_or_pos k with h0 | h0
        · rw [if_pos h0] at hge
          unfold ex
          rw [hbox.rows r (by omega)]; omega
        · rw [if_neg (by omega), tm2 (k - 1) (by omega)] at hge
          have := (col_le_iff hbox.isPart (k - 1) r).1 (by omega)
          unfold ex; omega
    have hmle : ∀ j < k, botRows (col lam k) k (n + d - k) (splitTop mu k) ≤ col mu j := by
      intro j hj
      rcases lt_or_ge (col lam k : Int) (if k = 0 then n + d - k else at' (splitTop mu k) (k - 1)) with hc | hc
      · unfold botRows
        rw [if_pos hc]
        rw [if_neg (by omega), tm2 (k - 1) (by omega)] at hc
        have := col_anti hbox.isPart (show j ≤ k - 1 by omega)
        omega
      · unfold botRows
        rw [if_neg (not_lt.2 hc)]
        exact hsh.geL j hj
    generalize hm : botRows (col lam k) k (n + d - k) (splitTop mu k) = m at *
    refine ⟨splitTop mu k, (List.range m).map (fun r => ex mu k r), ?_, ?_, ?_, ?_⟩
    · refine ⟨tm1, fun i hi => ?_, fun i hi => ?_, fun i hi => ?_, fun i hi => ?_, fun i hi => ?_, fun i hi => ?_⟩
      · rw [tm2 _ hi, tm2 _ (by omega)]
        exact_mod_cast col_anti hbox.isPart (show i ≤ i + 1 by omega)
      · rw [tm2 _ hi]; exact_mod_cast hsh.geL i hi
      · rw [tm2 _ (by omega), t2 _ hi]; exact_mod_cast hsh.geNext i hi
      · rw [tm2 _ hi]; exact hsh.geV i hi
      · rw [tm2 _ hi, t2 _ hi]; exact_mod_cast hsh.le i hi
      · exact hpm.topLe i hi
    · have hlen : ((List.range m).map (fun r => ex mu k r)).length = m := by simp
      refine ⟨by rw [hlen, hm], fun r h1 => ?_, fun r h1 => ?_, fun h1 => ?_, fun r h1 => ?_, fun j hj hlt => ?_,
        fun r h1 j hj hbr => ?_⟩
      · rw [hlen] at h1
        rw [at'_map_range _ h1, at'_map_range _ (by omega)]
        have hrL : r < col lam k := by omega
        have g1 := hsh.ge r
        have g2 := hpd.bot_pos hrL
        rw [b2] at g2
        have g3 := (kstrict_part (by omega) hbox.isPart).1 hbox.kstrict r (by unfold ex at g1 g2; omega)
        unfold ex at *
        omega
      · rw [hlen] at h1
        rw [at'_map_range _ h1, b2]
        exact hsh.ge r
      · rw [hlen] at h1
        rw [at'_map_range _ h1]
        have := hbox.cols
        unfold ex; omega
      · rw [hlen] at h1
        rw [at'_map_range _ h1, b2]
        exact hsh.leS r
      · rw [tm2 j hj, t2 j hj] at hlt
        have g1 := hsh.rem j hj (by exact_mod_cast hlt)
        have g2 := hsh.geV j hj
        have hpos : 0 < tt (splitTop lam k) k d j + 1 -
            bI (splitBot lam k) (col lam k) (tt (splitTop lam k) k d j) := by
          by_contra hc
          unfold vI at g2
          rw [if_pos (by omega), t2 j hj] at g2
          omega
        generalize bI (splitBot lam k) (col lam k) (tt (splitTop lam k) k d j) = b at *
        have hbm : b < m := by
          by_contra hc
          have := hmz b (by omega)
          omega
        rw [hlen, at'_map_range _ hbm]
        exact ⟨hbm, g1⟩
      · rw [hlen] at h1
        rw [at'_map_range _ h1]
        unfold tt
        rw [tm2 j hj]
        by_cases hpos : 0 < ex mu k r
        · have := hsh.out j hj r hbr hpos
          omega
        · have := hmle j hj
          have := ex_nonneg mu k r
          omega
    · have hbs : ((List.range m).map (fun r => ex mu k r)).sum = (splitBot mu k).sum := by
        have : partClip ((List.range m).map (fun r => ex mu k r)) = partClip (splitBot mu k) := by
          rw [partClip_eq_iff]
          intro i
          rw [← at'_eq_part, ← at'_eq_part, bm2]
          by_cases hi : i < m
          · rw [at'_map_range _ hi]
          · rw [at'_of_ge (by simp; omega), hmz i (by omega)]
        rw [← partClip_sum, this, partClip_sum]
      have := split_sum hbox.isPart k
      rw [hbs]; omega
    · have htp : IsPartition (splitTop mu k) := isPartition_of_at' (fun i hi => by
          rw [tm1] at hi
          rw [tm2 _ hi, tm2 _ (by omega)]
          exact_mod_cast col_anti hbox.isPart (show i ≤ i + 1 by omega)) (fun i hi => by
          rw [tm1] at hi
          rw [tm2 _ hi]; omega)
      have hbl : 0 < k → (((List.range m).map (fun r => ex mu k r)).length : Int) ≤ at' (splitTop mu k) (k - 1) := by
        intro hk
        rw [tm2 _ (by omega)]
        simp only [List.length_map, List.length_range]
        exact_mod_cast hmle (k - 1) (by omega)
      have hat : ∀ i, at' ((List.range m).map (fun r => ex mu k r)) i = ex mu k i := by
        intro i
        by_cases hi : i < m
        · rw [at'_map_range _ hi]
        · rw [at'_of_ge (by simp; omega), hmz i (by omega)]
      apply eq_of_part_eq hred.noTrailing
      · apply glue_noTrailing htp tm1 hbl
        intro r
        rw [hat]; exact ex_nonneg mu k r
      · intro r
        rw [glue_part htp tm1 hbl, hat]
        have hpc : part (partConj (splitTop mu k)) r = min (part mu r) k := by
          have h1 := part_partConj_le htp r
          rw [tm1] at h1
          have h0 := (partConj_reduced htp).isPartition.part_nonneg r
          have h2 := hbox.isPart.part_nonneg r
          have h3 : ∀ j < k, (j : Int) + 1 ≤ part (partConj (splitTop mu k)) r ↔ (j : Int) + 1 ≤ part mu r := by
            intro j hj
            rw [lt_part_partConj htp, ← at'_eq_part, tm2 j hj, ← lt_col hbox.isPart]
            omega
          apply le_antisymm
          · by_contra hc
            have := (h3 (min (part mu r) k).toNat (by omega)).1 (by omega)
            omega
          · by_contra hc
            have := (h3 (part (partConj (splitTop mu k)) r).toNat (by omega)).2 (by omega)
            omega
        rw [hpc]
        unfold ex; omega

/-- `pieri_set` for a k-strict shape in the rectangle. -/
theorem pieriSet_shape (p : Int) {k : Nat} {n d : Int} {lam : List Int} (h : InBox k n d lam) (hd : d = 0 ∨ d = 1)
    (hn : 0 ≤ n) (hr : 0 ≤ n + d - k) :
    ∃ R, pieriSet p lam k n d = .ok R ∧ R.Nodup ∧ ∀ mu, mu ∈ R ↔
      ReducedPart mu ∧ InBox k n d mu ∧ mu.sum = lam.sum + p ∧ ShapeRel k d lam mu := by
  have hb := (splitBot_spec h.isPart k).1
  obtain ⟨R, h1, h2, h3⟩ := pieriSet_pair p lam k n d (col lam k) (by omega) (h.pd hd hn hr)
  exact ⟨R, h1, h2, fun mu => by rw [h3, pairMem_iff h hd hn hr]⟩

end Verif
