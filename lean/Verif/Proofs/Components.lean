import Verif.Proofs.Comps
/-!
# `count_comps` counts connected components
-/

namespace Verif
open Spec

section Runs

variable {V : Type} (G : SimpleGraph V) (col : V → Nat) (F : Nat → Prop)

open Classical in
/-- the first column of the run that contains `e` -/
noncomputable def runStart (F : Nat → Prop) : Nat → Nat
  | 0 => 0
  | e + 1 => if F e then runStart F e else e + 1

theorem runStart_le (e : Nat) : runStart F e ≤ e := by
  induction e with
  | zero => exact le_refl _
  | succ e ih => rw [runStart]; split <;> omega

theorem runStart_F {e : Nat} (he : F e) : F (runStart F e) := by
  induction e with
  | zero => exact he
  | succ e ih =>
    rw [runStart]
    by_cases h : F e
    · rw [if_pos h]; exact ih h
    · rw [if_neg h]; exact he

theorem runStart_first (e : Nat) : 0 < runStart F e → ¬ F (runStart F e - 1) := by
  induction e with
  | zero => intro h; exact absurd h (by simp [runStart])
  | succ e ih =>
    rw [runStart]
    by_cases h : F e
    · rw [if_pos h]; exact ih
    · rw [if_neg h]; intro _; exact h

theorem runStart_self {e : Nat} (h : 0 < e → ¬ F (e - 1)) : runStart F e = e := by
  cases e with
  | zero => rfl
  | succ e => have h' : ¬ F e := h (by omega)
              rw [runStart, if_neg h']

variable {G col F} (hinj : Function.Injective col) (hF : ∀ e, F e ↔ ∃ v, col v = e)
  (hadj : ∀ u v, G.Adj u v ↔ col u = col v + 1 ∨ col v = col u + 1)
include hinj hF hadj

theorem runStart_adj {u v : V} (h : G.Adj u v) : runStart F (col u) = runStart F (col v) := by
  rcases (hadj u v).1 h with h1 | h1
  · rw [h1, runStart, if_pos ((hF _).2 ⟨v, rfl⟩)]
  · rw [h1, runStart, if_pos ((hF _).2 ⟨u, rfl⟩)]

theorem runStart_reach {u v : V} (h : G.Reachable u v) : runStart F (col u) = runStart F (col v) := by
  obtain ⟨w⟩ := h
  induction w with
  | nil => rfl
  | cons ha _ ih => rw [runStart_adj hinj hF hadj ha, ih]

theorem reach_runStart {u v : V} (h : col u = runStart F (col v)) : G.Reachable u v := by
  generalize he : col v = e at h
  induction e generalizing v with
  | zero =>
    have : u = v := hinj (by rw [h, he]; rfl)
    rw [this]
  | succ e ih =>
    rw [runStart] at h
    by_cases hc : F e
    · rw [if_pos hc] at h
      obtain ⟨w, hw⟩ := (hF e).1 hc
      exact (ih hw h).trans (SimpleGraph.Adj.reachable ((hadj w v).2 (Or.inr (by omega))))
    · rw [if_neg hc] at h
      have : u = v := hinj (by rw [h, he])
      rw [this]

open Classical in
theorem card_runs (M : Nat) (hM : ∀ e, F e → e < M) (skip : Bool) :
    Nat.card {C : G.ConnectedComponent // skip = true → ∀ v, G.connectedComponentMk v = C → col v ≠ 0} =
      ((Finset.range M).filter (fun e => F e ∧ (e = 0 → skip = false) ∧ (0 < e → ¬ F (e - 1)))).card := by
  set S := (Finset.range M).filter (fun e => F e ∧ (e = 0 → skip = false) ∧ (0 < e → ¬ F (e - 1))) with hS
  have hmem : ∀ e, e ∈ S ↔ F e ∧ (e = 0 → skip = false) ∧ (0 < e → ¬ F (e - 1)) := by
    intro e
    rw [hS, Finset.mem_filter, Finset.mem_range]
    exact ⟨fun h => h.2, fun h => ⟨hM e h.1, h⟩⟩
  have key : ∀ e : S, ∃ v, col v = e.1 := fun e => (hF e.1).1 ((hmem e.1).1 e.2).1
  choose box hbox using key
  have hst : ∀ e : S, runStart F e.1 = e.1 := fun e => runStart_self F ((hmem e.1).1 e.2).2.2
  have hok : ∀ e : S, skip = true → ∀ v, G.connectedComponentMk v = G.connectedComponentMk (box e) → col v ≠ 0 := by
    intro e hsk v hv h0
    have h1 := runStart_reach hinj hF hadj (SimpleGraph.ConnectedComponent.exact hv)
    rw [h0, hbox, hst] at h1
    have := ((hmem e.1).1 e.2).2.1 h1.symm
    rw [this] at hsk
    exact absurd hsk (by decide)
  have hb : Function.Bijective (fun e : S => (⟨G.connectedComponentMk (box e), hok e⟩ :
      {C : G.ConnectedComponent // skip = true → ∀ v, G.connectedComponentMk v = C → col v ≠ 0})) := by
    constructor
    · intro e e' h
      have h1 := runStart_reach hinj hF hadj (SimpleGraph.ConnectedComponent.exact (congrArg Subtype.val h))
      rw [hbox, hbox, hst, hst] at h1
      exact Subtype.ext h1
    · rintro ⟨C, hC⟩
      induction C using SimpleGraph.ConnectedComponent.ind with
      | _ v =>
      have hFv : F (col v) := (hF _).2 ⟨v, rfl⟩
      have hFs := runStart_F F hFv
      obtain ⟨u, hu⟩ := (hF _).1 hFs
      have hreach := reach_runStart hinj hF hadj hu
      have hin : runStart F (col v) ∈ S := by
        rw [hmem]
        refine ⟨hFs, fun h0 => ?_, runStart_first F (col v)⟩
        by_contra hsk
        exact hC (by simpa using hsk) u (SimpleGraph.ConnectedComponent.sound hreach) (hu.trans h0)
      refine ⟨⟨_, hin⟩, ?_⟩
      apply Subtype.ext
      apply SimpleGraph.ConnectedComponent.sound
      have : box ⟨_, hin⟩ = u := hinj (by rw [hbox, hu])
      rw [this]
      exact hreach
  rw [← Nat.card_eq_of_bijective _ hb, Nat.card_eq_fintype_card, Fintype.card_coe]

end Runs

/-- the leftover boxes in terms of the excesses -/
theorem mem_leftover {k : Nat} {d : Int} {lam mu : List Int} (hm : IsPartition mu) (hd : d = 0 ∨ d = 1) (s e : Nat) :
    (s, e) ∈ Leftover k d lam mu ↔ k ≤ e ∧ ex lam k s ≤ (e - k : Nat) ∧ ((e - k : Nat) : Int) < ex mu k s ∧
      ∀ j < k, ∀ h, col mu j ≤ h → h ≤ col lam j → ((e - k : Nat) : Int) + s ≠ dg k d j h := by
  have hrel : ∀ c < k, ∀ r, k ≤ e → (Related k d r c s e ↔ ((e - k : Nat) : Int) + s = dg k d c (r + 1)) := by
    intro c hc r hke
    unfold Related dg
    push_cast
    omega
  unfold Leftover Mentioned Added InShape
  simp only [Set.mem_setOf_eq, colHeight_eq]
  constructor
  · rintro ⟨⟨h1, h2⟩, hke, h3⟩
    refine ⟨hke, by unfold ex; omega, by unfold ex; omega, ?_⟩
    intro j hj x hx1 hx2 heq
    rcases Nat.eq_zero_or_pos x with rfl | hx
    · have := (col_le_iff hm j 0).1 hx1
      have := hm.part_anti (show 0 ≤ s by omega)
      omega
    · obtain ⟨r, rfl⟩ : ∃ r, x = r + 1 := ⟨x - 1, by omega⟩
      exact h3 ⟨j, hj, r, hx1, hx2, (hrel j hj r hke).2 heq⟩
  · rintro ⟨hke, h1, h2, h3⟩
    refine ⟨⟨by unfold ex at h1; omega, by unfold ex at h2; omega⟩, hke, ?_⟩
    rintro ⟨c, hc, r, hr1, hr2, hr⟩
    exact h3 c hc _ hr1 hr2 ((hrel c hc r hke).1 hr)

theorem countComps_card {k : Nat} {n d : Int} {lam mu : List Int} (h : InBox k n d lam) (hm : InBox k n d mu)
    (hd : d = 0 ∨ d = 1) (hn : 0 ≤ n) (hr : 0 ≤ n + d - k) (hs : ShapeRel k d lam mu) (skip : Bool) :
    countComps lam mu skip k d = Nat.card {C : (boxGraph (Leftover k d lam mu)).ConnectedComponent //
      skip = true → ∀ b, (boxGraph (Leftover k d lam mu)).connectedComponentMk b = C → b.1.2 ≠ k} := by
  classical
  have hst : Strips k lam mu := (strips_iff_cols h.isPart hm.isPart).2 ⟨hs.geL, hs.geNext, hs.le, hs.ge, hs.leS⟩
  have hml := mem_leftover (k := k) (lam := lam) hm.isPart hd
  have hrow : ∀ {s s' e e' : Nat}, (s, e) ∈ Leftover k d lam mu → (s', e') ∈ Leftover k d lam mu → s < s' →
      e' < e ∧ (e = e' + 1 → s' = s + 1) := by
    intro s s' e e' h1 h2 hlt
    obtain ⟨a1, a2, a3, _⟩ := (hml _ _).1 h1
    obtain ⟨b1, b2, b3, _⟩ := (hml _ _).1 h2
    obtain ⟨t, rfl⟩ : ∃ t, s' = t + 1 := ⟨s' - 1, by omega⟩
    have g1 := hst.leS t
    have g2 := ex_anti (k := k) h.isPart (show s ≤ t by omega)
    refine ⟨by omega, fun he => ?_⟩
    by_contra hc
    have g3 := ex_anti (k := k) h.isPart (show s + 1 ≤ t by omega)
    have g4 := ex_strict (k := k) h.isPart h.kstrict (r := s) (by omega)
    omega
  have hE : ∀ b : Leftover k d lam mu, k ≤ b.1.2 := fun b => b.2.2.1
  have := card_runs (G := boxGraph (Leftover k d lam mu)) (col := fun b => b.1.2 - k) (F := FreeCol k d lam mu)
    ?_ ?_ ?_ (ex mu k 0).toNat (fun e he => by have := freeCol_lt hm.isPart he; omega) skip
  · rw [countComps_eq h hm hd hn hr hs skip, ← this]
    apply Nat.card_congr
    apply Equiv.subtypeEquivRight
    intro C
    have : ∀ b : Leftover k d lam mu, b.1.2 - k ≠ 0 ↔ b.1.2 ≠ k := fun b => by have := hE b; omega
    simp only [this]
  · rintro ⟨⟨s, e⟩, h1⟩ ⟨⟨s', e'⟩, h2⟩ heq
    have a := ((hml _ _).1 h1).1
    have b := ((hml _ _).1 h2).1
    simp only at heq
    have hee : e = e' := by omega
    subst hee
    rcases Nat.lt_trichotomy s s' with hlt | he | hlt
    · have := hrow h1 h2 hlt; omega
    · subst he; rfl
    · have := hrow h2 h1 hlt; omega
  · intro e
    constructor
    · rintro ⟨s, h1, h2, h3⟩
      refine ⟨⟨(s, e + k), (hml _ _).2 ⟨by omega, ?_⟩⟩, by simp⟩
      rw [Nat.add_sub_cancel]
      exact ⟨h1, h2, h3⟩
    · rintro ⟨⟨⟨s, e'⟩, h1⟩, rfl⟩
      exact ⟨s, ((hml _ _).1 h1).2⟩
  · rintro ⟨⟨s, e⟩, h1⟩ ⟨⟨s', e'⟩, h2⟩
    have a := ((hml _ _).1 h1).1
    have b := ((hml _ _).1 h2).1
    unfold boxGraph
    simp only [ne_eq, Subtype.mk.injEq, Prod.mk.injEq]
    rcases Nat.lt_trichotomy s s' with hlt | he | hlt
    · have := hrow h1 h2 hlt; omega
    · omega
    · have := hrow h2 h1 hlt; omega

theorem countComps_numComps {k : Nat} {n d : Int} {lam mu : List Int} (h : InBox k n d lam) (hm : InBox k n d mu)
    (hd : d = 0 ∨ d = 1) (hn : 0 ≤ n) (hr : 0 ≤ n + d - k) (hs : ShapeRel k d lam mu) :
    countComps lam mu false k d = numComps k d lam mu ∧ countComps lam mu true k d = numCompsOff k d lam mu := by
  constructor
  · rw [countComps_card h hm hd hn hr hs, numComps]
    apply Nat.card_congr
    apply Equiv.subtypeUnivEquiv
    intro C hC
    cases hC
  · rw [countComps_card h hm hd hn hr hs, numCompsOff]
    apply Nat.card_congr
    apply Equiv.subtypeEquivRight
    intro C
    simp

end Verif
