import Verif.Proofs.PieriShape
import Verif.Spec.PieriBCD
/-!
# The conditions of `pieri_set` are the Pieri relation
-/

namespace Verif
open Spec

theorem colHeight_eq (l : List Int) (c : Nat) : colHeight l c = col l c := rfl

/-- the strip conditions without the intermediate shape -/
def Strips (k : Nat) (lam mu : List Int) : Prop :=
  ∀ r, part mu (r + 1) ≤ part lam r ∧ part lam r ≤ part mu r + 1 ∧ ((k : Int) < part lam r → part lam r ≤ part mu r)

theorem strips_iff {k : Nat} {lam mu : List Int} (hl : IsPartition lam) (hm : IsPartition mu) :
    (∃ nu, IsPartition nu ∧
    (∀ r, part nu r ≤ part lam r ∧ part lam r ≤ part nu r + 1 ∧ (part nu r < part lam r → part lam r ≤ k)) ∧
    HorizontalStrip nu mu) ↔ Strips k lam mu := by
  constructor
  · rintro ⟨nu, hnu, h1, h2⟩ r
    have a := h1 r
    have b := h2 r
    refine ⟨by omega, by omega, fun hk => ?_⟩
    by_contra hc
    have := a.2.2 (by omega)
    omega
  · intro h
    refine ⟨(List.range lam.length).map (fun r => min (part lam r) (part mu r)), ?_, ?_, ?_⟩
    all_goals
      have hp : ∀ r, part ((List.range lam.length).map (fun r => min (part lam r) (part mu r))) r =
          min (part lam r) (part mu r) := by
        intro r
        by_cases hr : r < lam.length
        · rw [← at'_eq_part, at'_map_range _ hr]
        · rw [part_of_ge (by simp; omega), part_of_ge (l := lam) (by omega)]
          have := hm.part_nonneg r
          omega
    · rw [isPartition_iff_part]
      intro r
      rw [hp, hp]
      have := hl.part_anti (show r ≤ r + 1 by omega)
      have := hm.part_anti (show r ≤ r + 1 by omega)
      omega
    · intro r
      rw [hp]
      have := h r
      refine ⟨by omega, by omega, fun hk => ?_⟩
      by_contra hc
      have := this.2.2 (by omega)
      omega
    · intro r
      rw [hp]
      have := h r
      have := hm.part_anti (show r ≤ r + 1 by omega)
      omega

/-- shifted excess -/
def eB (l : List Int) (k r : Nat) : Int := ex l k r + r

/-- the excess conditions -/
theorem Strips.ge {k : Nat} {lam mu : List Int} (h : Strips k lam mu) (r : Nat) : ex lam k r ≤ ex mu k r := by
  have := (h r).2.2
  unfold ex
  by_cases hk : (k : Int) < part lam r
  · have := this hk; omega
  · omega

theorem Strips.leS {k : Nat} {lam mu : List Int} (h : Strips k lam mu) (r : Nat) :
    ex mu k (r + 1) ≤ ex lam k r := by
  have := (h r).1
  unfold ex; omega

theorem strips_iff_cols {k : Nat} {lam mu : List Int} (hl : IsPartition lam) (hm : IsPartition mu) :
    Strips k lam mu ↔ (∀ j < k, col lam k ≤ col mu j) ∧ (∀ j, j + 1 < k → col lam (j + 1) ≤ col mu j) ∧
      (∀ j < k, col mu j ≤ col lam j + 1) ∧ (∀ r, ex lam k r ≤ ex mu k r) ∧ (∀ r, ex mu k (r + 1) ≤ ex lam k r) := by
  constructor
  · intro h
    refine ⟨fun j hj => ?_, fun j hj => ?_, fun j hj => ?_, h.ge, h.leS⟩
    · rw [col_le_iff hl]
      have h1 := (col_le_iff hm j (col mu j)).1 (le_refl _)
      have := h (col mu j)
      by_contra hc
      have := this.2.2 (by omega)
      omega
    · rw [col_le_iff hl]
      have h1 := (col_le_iff hm j (col mu j)).1 (le_refl _)
      have := h (col mu j)
      push_cast; omega
    · rw [col_le_iff hm]
      have h1 := (col_le_iff hl j (col lam j)).1 (le_refl _)
      have := h (col lam j)
      omega
  · rintro ⟨h1, h2, h3, h4, h5⟩ r
    have hl0 := hl.part_nonneg r
    have hm0 := hm.part_nonneg r
    refine ⟨?_, ?_, ?_⟩
    · by_contra hc
      by_cases hk : part lam r < k
      · have g := h3 (part lam r).toNat (by omega)
        have g1 := (col_le_iff hl (part lam r).toNat r).2 (by omega)
        have g2 := (col_le_iff hm (part lam r).toNat (r + 1)).1 (by omega)
        omega
      · have := h5 r
        unfold ex at this
        omega
    · by_contra hc
      by_cases hk : part lam r ≤ k
      · have g := h2 (part mu r).toNat (by omega)
        have g1 := (col_le_iff hm (part mu r).toNat r).2 (by omega)
        have g2 := (col_le_iff hl ((part mu r).toNat + 1) r).1 (by omega)
        push_cast at g2
        omega
      · have := h4 r
        unfold ex at this
        by_cases hmk : part mu r ≤ k
        · omega
        · omega
    · intro hk
      have := h4 r
      unfold ex at this
      omega

/-- a row related to the diagonal `t` -/
def RowRel (k : Nat) (lam mu : List Int) (t : Int) (s : Nat) : Prop := eB lam k s ≤ t ∧ t < eB mu k s

/-- diagonal of the lowest of `h` boxes of column `j` -/
def dg (k : Nat) (d : Int) (j h : Nat) : Int := h + k - (j + 1) - d

theorem added_row {k : Nat} {d : Int} {lam mu : List Int} (hl : IsPartition lam) (hm : IsPartition mu)
    (hd : d = 0 ∨ d = 1) (hst : Strips k lam mu) {j : Nat} (hj : j < k) {r : Nat} (h1 : col mu j ≤ r + 1)
    (h2 : r + 1 ≤ col lam j) (s e : Nat) :
    Added lam mu s e ∧ Related k d r j s e ↔
      RowRel k lam mu (dg k d j (r + 1)) s ∧ (e : Int) = k + dg k d j (r + 1) - s := by
  unfold Added InShape Related RowRel eB dg
  constructor
  · rintro ⟨⟨ha, hb⟩, hrel⟩
    by_cases hek : e < k
    · exfalso
      have hss := (strips_iff_cols hl hm).1 hst
      have g1 := (col_le_iff hl e s).2 (by omega)
      have g2 := (lt_col hm e s).2 (by omega)
      have g3 := hss.2.2.1 e hek
      have hse : s = col lam e := by omega
      have hrel' : (s : Int) - e = r - j := by omega
      rcases Nat.lt_or_ge j e with hje | hje
      · have := col_anti hm (le_of_lt hje)
        omega
      · have := col_anti hl hje
        omega
    · unfold ex
      push_cast
      refine ⟨⟨?_, ?_⟩, ?_⟩ <;> omega
  · rintro ⟨⟨ha, hb⟩, he⟩
    unfold ex at *
    push_cast at *
    refine ⟨⟨?_, ?_⟩, ?_⟩ <;> omega

theorem eB_zero {k : Nat} {l : List Int} (h : IsPartition l) {r : Nat} (hr : col l k ≤ r) : ex l k r = 0 := by
  have := (col_le_iff h k r).1 hr
  unfold ex; omega

theorem ex_pos {k : Nat} {l : List Int} (h : IsPartition l) {r : Nat} (hr : r < col l k) : 0 < ex l k r := by
  have := (lt_col h k r).1 hr
  unfold ex; omega

theorem ex_strict {k : Nat} {l : List Int} (h : IsPartition l) (hs : KStrict k l) {r : Nat} (hr : 0 < ex l k r) :
    ex l k (r + 1) < ex l k r := by
  have := (kstrict_part (by omega) h).1 hs r (by unfold ex at hr; omega)
  unfold ex at *; omega

theorem eB_anti {k : Nat} {l : List Int} (h : IsPartition l) (hs : KStrict k l) {r s : Nat} (hrs : r ≤ s)
    (hsL : s ≤ col l k) : eB l k s ≤ eB l k r := by
  induction s with
  | zero => have : r = 0 := by omega
            subst this; exact le_refl _
  | succ s ih =>
    rcases Nat.lt_or_ge r (s + 1) with hlt | hge
    · have h1 := ih (by omega) (by omega)
      have h2 := ex_strict h hs (ex_pos (k := k) h (r := s) (by omega))
      unfold eB at *
      push_cast
      omega
    · have : r = s + 1 := by omega
      subst this; exact le_refl _

/-- the row index in terms of excesses -/
def IsRow (k : Nat) (lam : List Int) (t : Int) (b : Nat) : Prop :=
  b ≤ col lam k ∧ (∀ r < b, t < eB lam k r) ∧ (b < col lam k → eB lam k b ≤ t)

theorem overlap {k : Nat} {lam mu : List Int} (hl : IsPartition lam) (hm : IsPartition mu)
    (hls : KStrict k lam) (hms : KStrict k mu) (hst : Strips k lam mu) {t : Int} {b : Nat} (hb : IsRow k lam t b)
    {r : Nat} (hbr : b < r) (hpos : 0 < ex mu k r) :
    r ≤ col lam k ∧ eB lam k r ≤ eB lam k b ∧ eB lam k b ≤ t ∧ eB mu k r ≤ t + 1 ∧
      (t < eB mu k r → eB lam k (r - 1) ≤ t ∧ t < eB mu k (r - 1) ∧ b ≤ r - 1) := by
  obtain ⟨s, rfl⟩ : ∃ s, r = s + 1 := ⟨r - 1, by omega⟩
  have h1 := hst.leS s
  have hrL : s + 1 ≤ col lam k := by
    by_contra hc
    have := eB_zero (k := k) hl (r := s) (by omega)
    omega
  have h2 := eB_anti hl hls (show b ≤ s + 1 by omega) hrL
  have h3 := hb.2.2 (by omega)
  have h4 := eB_anti hl hls (show b ≤ s by omega) (by omega)
  have h5 : eB mu k (s + 1) ≤ t + 1 := by unfold eB at *; push_cast; omega
  refine ⟨hrL, h2, h3, h5, fun ht => ?_⟩
  have hstr : ex mu k (s + 1) < ex mu k s := by
    apply ex_strict hm hms
    by_contra hc
    have g1 := hst.ge s
    have g2 := ex_pos (k := k) hl (r := s) (by omega)
    omega
  simp only [Nat.add_sub_cancel]
  unfold eB at *
  push_cast at *
  refine ⟨?_, ?_, ?_⟩ <;> omega

theorem row_le {k : Nat} {lam mu : List Int} (hl : IsPartition lam) (hst : Strips k lam mu) {t : Int} {s : Nat}
    (h : RowRel k lam mu t s) : s ≤ col lam k ∧ 0 < ex mu k s := by
  have hp : 0 < ex mu k s := by
    have := ex_nonneg lam k s
    unfold RowRel eB at h; omega
  refine ⟨?_, hp⟩
  by_contra hc
  obtain ⟨r, rfl⟩ : ∃ r, s = r + 1 := ⟨s - 1, by omega⟩
  have h1 := hst.leS r
  have := eB_zero (k := k) hl (r := r) (by omega)
  omega

theorem isRow_bI {k : Nat} {n d : Int} {lam : List Int} (h : InBox k n d lam) (t : Int) :
    IsRow k lam t (bI (splitBot lam k) (col lam k) t) := by
  obtain ⟨b1, b2⟩ := splitBot_spec h.isPart k
  have hB := isB_bI (splitBot lam k) (col lam k) t
  have e : ∀ r, Bp (splitBot lam k) r = eB lam k r := fun r => by unfold Bp eB; rw [b2]
  refine ⟨hB.1, fun r hr => ?_, fun hr => ?_⟩
  · rw [← e]; exact hB.2.1 r hr
  · rw [← e]; exact hB.2.2 hr

theorem shapeRel_iff {k : Nat} {n d : Int} {lam mu : List Int} (h : InBox k n d lam) (hm : InBox k n d mu)
    (hd : d = 0 ∨ d = 1) (hn : 0 ≤ n) (hr : 0 ≤ n + d - k) :
    ShapeRel k d lam mu ↔ PieriArrow k d lam mu := by
  obtain ⟨t1, t2⟩ := splitTop_spec h.isPart k
  obtain ⟨b1, b2⟩ := splitBot_spec h.isPart k
  have hpd := h.pd hd hn hr
  have hBp : ∀ r, Bp (splitBot lam k) r = eB lam k r := fun r => by unfold Bp eB; rw [b2]
  have htt : ∀ j < k, tt (splitTop lam k) k d j = dg k d j (col lam j) := by
    intro j hj; unfold tt dg; rw [t2 j hj]
  have hrow := isRow_bI h
  constructor
  · intro hs
    have hst : Strips k lam mu := (strips_iff_cols h.isPart hm.isPart).2 ⟨hs.geL, hs.geNext, hs.le, hs.ge, hs.leS⟩
    refine ⟨(strips_iff h.isPart hm.isPart).2 hst, ?_, ?_⟩
    · intro c hc heq r hrc s e s' e' ha hb ha' hb'
      rw [colHeight_eq, colHeight_eq] at heq
      rw [colHeight_eq] at hrc
      have g := (added_row h.isPart hm.isPart hd hst hc (by omega) (by omega) s e).1 ⟨ha, hb⟩
      have g' := (added_row h.isPart hm.isPart hd hst hc (by omega) (by omega) s' e').1 ⟨ha', hb'⟩
      rw [hrc] at g g'
      have hR := hrow (dg k d c (col lam c))
      have hout := hs.out c hc
      rw [htt c hc] at hout
      generalize bI (splitBot lam k) (col lam k) (dg k d c (col lam c)) = b at *
      have key : ∀ s, RowRel k lam mu (dg k d c (col lam c)) s → s = b := by
        intro s hrs
        have hp := row_le h.isPart hst hrs
        rcases Nat.lt_trichotomy s b with hlt | he | hlt
        · have := hR.2.1 s hlt
          unfold RowRel at hrs; omega
        · exact he
        · have := hout s hlt hp.2
          unfold RowRel eB dg at hrs; omega
      have k1 := key s g.1
      have k2 := key s' g'.1
      subst k1
      subst k2
      exact ⟨rfl, by omega⟩
    · intro c hlt
      rw [colHeight_eq, colHeight_eq] at hlt
      have hc : c < k := by
        by_contra hc
        have h1 := (lt_col h.isPart c (col mu c)).1 hlt
        have h2 := (col_le_iff hm.isPart c (col mu c)).1 (le_refl _)
        have := (hst (col mu c)).2.2 (by omega)
        omega
      have hR := hrow (dg k d c (col lam c))
      have hout := hs.out c hc
      have hrem := hs.rem c hc hlt
      have hV := hs.geV c hc
      unfold vI at hV
      rw [t2 c hc] at hV
      rw [htt c hc] at hout hrem hV
      rw [hBp] at hV
      generalize bI (splitBot lam k) (col lam k) (dg k d c (col lam c)) = b at *
      refine ⟨b, fun r hr1 hr2 => ?_⟩
      rw [colHeight_eq] at hr1 hr2
      have har := added_row h.isPart hm.isPart hd hst hc hr1 hr2
      have hV2 : eB lam k b + (c + 1) - k + d ≤ col mu c := by
        by_cases hx : dg k d c (col lam c) + 1 - (b : Int) ≤ 0
        · rw [if_pos hx] at hV; omega
        · rw [if_neg hx] at hV; exact hV
      have hbrel : RowRel k lam mu (dg k d c (r + 1)) b := by
        unfold RowRel eB dg at *
        push_cast
        omega
      have hpos : 0 ≤ (k : Int) + dg k d c (r + 1) - b := by
        have := ex_nonneg lam k b
        unfold RowRel eB at hbrel
        omega
      have hE := (har b ((k : Int) + dg k d c (r + 1) - b).toNat).2 ⟨hbrel, by omega⟩
      refine ⟨_, hE.1, hE.2, fun s' e' ha' hb' => ?_⟩
      have g := (har s' e').1 ⟨ha', hb'⟩
      have hp := row_le h.isPart hst g.1
      have hsb : s' = b := by
        rcases Nat.lt_trichotomy s' b with hlt' | he | hlt'
        · have := hR.2.1 s' hlt'
          have g1 := g.1.1
          unfold dg at *
          push_cast at *
          omega
        · exact he
        · have := hout s' hlt' hp.2
          have g1 := g.1.2
          unfold eB dg at *
          push_cast at *
          omega
      subst hsb
      exact ⟨rfl, by omega⟩
  · intro ha
    have hst := (strips_iff h.isPart hm.isPart).1 ha.strips
    obtain ⟨c1, c2, c3, c4, c5⟩ := (strips_iff_cols h.isPart hm.isPart).1 hst
    have hov := fun {t : Int} {b : Nat} (hb : IsRow k lam t b) {r : Nat} (hbr : b < r) (hpos : 0 < ex mu k r) =>
      overlap h.isPart hm.isPart h.kstrict hm.kstrict hst hb hbr hpos
    -- the three conditions for a single column
    have main : ∀ j < k, vI (splitTop lam k) (splitBot lam k) (col lam k) k d j ≤ col mu j ∧
        (col mu j < col lam j →
          tt (splitTop lam k) k d j - bI (splitBot lam k) (col lam k) (tt (splitTop lam k) k d j) + 1 ≤
          ex mu k (bI (splitBot lam k) (col lam k) (tt (splitTop lam k) k d j))) ∧
        (∀ r, bI (splitBot lam k) (col lam k) (tt (splitTop lam k) k d j) < r → 0 < ex mu k r →
          ex mu k r + r ≤ col mu j + k - (j + 1) - d) := by
      intro j hj
      have hvle := vI_le hpd j
      rw [t2 j hj] at hvle
      have hR := hrow (dg k d j (col lam j))
      rcases Nat.lt_trichotomy (col mu j) (col lam j) with hlt | heq | hgt
      · -- shortened column
        obtain ⟨s, hs⟩ := ha.fewer j hlt
        rw [colHeight_eq, colHeight_eq] at hs
        have hpos : 0 < col mu j := by
          by_contra hc
          obtain ⟨e, he1, he2, _⟩ := hs (col lam j - 1) (by omega) (by omega)
          have g := (added_row h.isPart hm.isPart hd hst hj (by omega) (by omega) s e).1 ⟨he1, he2⟩
          have hp := (row_le h.isPart hst g.1).2
          have h0 := (col_le_iff hm.isPart j s).1 (by omega)
          unfold ex at hp
          omega
        have hlow := hs (col mu j - 1) (by omega) (by omega)
        have hhigh := hs (col lam j - 1) (by omega) (by omega)
        have ar1 := added_row h.isPart hm.isPart hd hst hj (r := col mu j - 1) (by omega) (by omega)
        have ar2 := added_row h.isPart hm.isPart hd hst hj (r := col lam j - 1) (by omega) (by omega)
        rw [Nat.sub_add_cancel (show 1 ≤ col mu j by omega)] at ar1
        rw [Nat.sub_add_cancel (show 1 ≤ col lam j by omega)] at ar2
        obtain ⟨e1, l1, l2, l3⟩ := hlow
        obtain ⟨e2, m1, m2, m3⟩ := hhigh
        have r1 := ((ar1 s e1).1 ⟨l1, l2⟩).1
        have r2 := ((ar2 s e2).1 ⟨m1, m2⟩).1
        -- uniqueness of the row
        have uniq : ∀ (t : Int) (x e : Nat), (∀ s' e' : Nat, (RowRel k lam mu t s' ∧ (e' : Int) = k + t - s') → s' = s ∧ e' = e) →
            RowRel k lam mu t x → x = s := by
          intro t x e hu hx
          have hnn : 0 ≤ (k : Int) + t - x := by
            have := ex_nonneg lam k x
            unfold RowRel eB at hx
            omega
          exact (hu x ((k : Int) + t - x).toNat ⟨hx, by omega⟩).1
        have u1 : ∀ x, RowRel k lam mu (dg k d j (col mu j)) x → x = s := fun x hx =>
          uniq _ x e1 (fun s' e' hh => by have := (ar1 s' e').2 hh; exact l3 s' e' this.1 this.2) hx
        have u2 : ∀ x, RowRel k lam mu (dg k d j (col lam j)) x → x = s := fun x hx =>
          uniq _ x e2 (fun s' e' hh => by have := (ar2 s' e').2 hh; exact m3 s' e' this.1 this.2) hx
        unfold vI
        rw [t2 j hj, htt j hj, hBp]
        generalize bI (splitBot lam k) (col lam k) (dg k d j (col lam j)) = b at *
        have hsb : s = b := by
          have hp := row_le h.isPart hst r2
          rcases Nat.lt_trichotomy s b with hlt' | he | hlt'
          · have := hR.2.1 s hlt'
            have := r2.1
            omega
          · exact he
          · have := (hov hR hlt' hp.2).2.2.2.2 r2.2
            have := u2 (s - 1) ⟨this.1, this.2.1⟩
            omega
        subst hsb
        refine ⟨?_, fun _ => ?_, fun r hsr hpr => ?_⟩
        · have hx : ¬ dg k d j (col lam j) + 1 - (s : Int) ≤ 0 := by
            have := r2.1
            have := ex_nonneg lam k s
            unfold eB at *
            omega
          rw [if_neg hx]
          have := r1.1
          unfold dg at this; omega
        · have := r2.2
          unfold eB at this; omega
        · by_contra hc
          have ho := hov hR hsr hpr
          have : RowRel k lam mu (dg k d j (col mu j)) r := by
            have := r1.1
            unfold RowRel
            refine ⟨by omega, ?_⟩
            unfold eB dg; omega
          have := u1 r this
          omega
      · -- unchanged column
        rw [htt j hj]
        refine ⟨by omega, fun hc => by omega, fun r hbr hpr => ?_⟩
        generalize bI (splitBot lam k) (col lam k) (dg k d j (col lam j)) = b at *
        have ho := hov hR hbr hpr
        by_contra hc
        have hT : 0 < col lam j := by
          have := col_anti h.isPart (le_of_lt hj)
          omega
        have hgt : dg k d j (col lam j) < eB mu k r := by unfold eB dg; omega
        have ho2 := ho.2.2.2.2 hgt
        have ar := added_row h.isPart hm.isPart hd hst hj (r := col lam j - 1) (by omega) (by omega)
        rw [Nat.sub_add_cancel (show 1 ≤ col lam j by omega)] at ar
        have mk : ∀ x, RowRel k lam mu (dg k d j (col lam j)) x → ∃ e, Added lam mu x e ∧ Related k d (col lam j - 1) j x e := by
          intro x hx
          have hnn : 0 ≤ (k : Int) + dg k d j (col lam j) - x := by
            have := ex_nonneg lam k x
            unfold RowRel eB at hx
            omega
          exact ⟨_, (ar x ((k : Int) + dg k d j (col lam j) - x).toNat).2 ⟨hx, by omega⟩⟩
        obtain ⟨e1, f1, f2⟩ := mk r ⟨by omega, hgt⟩
        obtain ⟨e2, f3, f4⟩ := mk (r - 1) ⟨ho2.1, ho2.2.1⟩
        have := (ha.same j hj heq (col lam j - 1) (by rw [colHeight_eq]; omega) r e1 (r - 1) e2 f1 f2 f3 f4).1
        omega
      · -- extended column
        rw [htt j hj]
        refine ⟨by omega, fun hc => by omega, fun r hbr hpr => ?_⟩
        have ho := hov hR hbr hpr
        have := ho.2.2.2.1
        have := c3 j hj
        unfold eB dg at *
        omega
    exact ⟨c1, c2, fun j hj => (main j hj).1, c3, c4, c5, fun j hj => (main j hj).2.1, fun j hj => (main j hj).2.2⟩

end Verif
