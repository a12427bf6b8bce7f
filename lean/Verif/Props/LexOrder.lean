import Verif.Proofs.Kstrict
import Verif.Proofs.PieriA
import Verif.Proofs.PieriTop
import Mathlib.Data.List.Lex
/-!
# C93: the functions that step to the next partition

`part_itr`, `part_itr_between`, `_itr_kstrict`, `_pieri_itrA` and `_pieri_itr` return the next smaller element of a set of lists in the
lexicographic order, and `part_gen` lists everything from its argument downwards.
-/

namespace Verif
open Spec

/-- `step` goes from an element of the set `T` to the next smaller one in the lexicographic order, `none` after the smallest. -/
def Spec.StepsDown (T : List Int → Prop) (step : List Int → Option (List Int)) : Prop :=
  ∀ x, T x → (step x = none → ∀ z, T z → x ≤ z) ∧
    ∀ y, step x = some y → T y ∧ y < x ∧ ∀ z, T z → z < x → z ≤ y

theorem runs_suffix {α : Type} {step : α → Option α} {x0 : α} {L : List α} (r : Runs step x0 L) {x : α} (hx : x ∈ L) :
    ∃ L1 L2, L = L1 ++ L2 ∧ Runs step x L2 := by
  induction r with
  | last h =>
    obtain rfl : x = _ := List.mem_singleton.1 hx
    exact ⟨[], [x], rfl, Runs.last h⟩
  | @cons y z L h r ih =>
    rcases List.mem_cons.1 hx with rfl | hx
    · exact ⟨[], _, rfl, Runs.cons h r⟩
    · obtain ⟨L1, L2, h1, h2⟩ := ih hx
      exact ⟨y :: L1, L2, by rw [h1]; rfl, h2⟩

theorem runs_head {α : Type} {step : α → Option α} {x : α} {L : List α} (r : Runs step x L) : ∃ M, L = x :: M := by
  cases r with
  | last h => exact ⟨_, rfl⟩
  | cons h r => exact ⟨_, rfl⟩

/-- the part of the list from `x` on consists of the elements up to `x` -/
theorem runs_below {step : List Int → Option (List Int)} {x0 : List Int} {L : List (List Int)} (r : Runs step x0 L)
    (hL : L.Pairwise (· > ·)) {x : List Int} (hx : x ∈ L) :
    ∃ L2, Runs step x L2 ∧ L2.Pairwise (· > ·) ∧ ∀ z, z ∈ L2 ↔ z ∈ L ∧ z ≤ x := by
  obtain ⟨L1, L2, h1, h2⟩ := runs_suffix r hx
  obtain ⟨M, hM⟩ := runs_head h2
  rw [h1, List.pairwise_append] at hL
  refine ⟨L2, h2, hL.2.1, fun z => ⟨fun hz => ⟨by rw [h1]; exact List.mem_append_right _ hz, ?_⟩, fun hz => ?_⟩⟩
  · rw [hM] at hz
    rcases List.mem_cons.1 hz with rfl | hz
    · exact le_rfl
    · have := hL.2.1
      rw [hM] at this
      exact le_of_lt ((List.pairwise_cons.1 this).1 z hz)
  · rw [h1] at hz
    rcases List.mem_append.1 hz.1 with h | h
    · exact absurd (hL.2.2 z h x (by rw [hM]; simp)) (not_lt.2 hz.2)
    · exact h

theorem stepsDown_of_runs {step : List Int → Option (List Int)} {T : List Int → Prop}
    (H : ∀ x, T x → ∃ x0 L, Runs step x0 L ∧ L.Pairwise (· > ·) ∧ x ∈ L ∧ (∀ z, z ∈ L → T z) ∧ ∀ z, T z → z ≤ x → z ∈ L) :
    StepsDown T step := by
  intro x hx
  obtain ⟨x0, L, r, hL, hxL, hLT, hTL⟩ := H x hx
  obtain ⟨L2, r2, p2, m2⟩ := runs_below r hL hxL
  constructor
  · intro h z hz
    by_contra hlt
    rw [not_le] at hlt
    have hz2 := (m2 z).2 ⟨hTL z hz hlt.le, hlt.le⟩
    cases r2 with
    | last _ =>
      rw [List.mem_singleton.1 hz2] at hlt
      exact lt_irrefl _ hlt
    | cons h' _ => rw [h] at h'; cases h'
  · intro y h
    cases r2 with
    | last h' => rw [h] at h'; cases h'
    | @cons _ y' M h' r3 =>
      obtain rfl : y = y' := Option.some.inj (h.symm.trans h')
      obtain ⟨N, hN⟩ := runs_head r3
      have hyM : y ∈ M := by rw [hN]; simp
      have hy2 := (m2 y).1 (List.mem_cons_of_mem _ hyM)
      refine ⟨hLT y hy2.1, (List.pairwise_cons.1 p2).1 y hyM, fun z hz hzx => ?_⟩
      have hz2 := (m2 z).2 ⟨hTL z hz hzx.le, hzx.le⟩
      rcases List.mem_cons.1 hz2 with rfl | hz3
      · exact absurd hzx (lt_irrefl _)
      · rw [hN] at hz3
        rcases List.mem_cons.1 hz3 with rfl | hz4
        · exact le_rfl
        · have := (List.pairwise_cons.1 p2).2
          rw [hN] at this
          exact ((List.pairwise_cons.1 this).1 z hz4).le

/-! ### the enumerations are in descending order -/

theorem map_cons_desc {L : List (List Int)} (h : L.Pairwise (· > ·)) (x : Int) : (L.map (fun t => x :: t)).Pairwise (· > ·) := by
  rw [List.pairwise_map]
  exact h.imp (fun hab => List.cons_lt_cons_iff.2 (Or.inr ⟨rfl, hab⟩))

theorem enumB_desc (nxt : Nat → Nat) (r a : Nat) : (enumB nxt r a).Pairwise (· > ·) := by
  induction r generalizing a with
  | zero => simp [enumB]
  | succ r ih =>
    induction a with
    | zero => rw [enumB]; exact map_cons_desc (ih _) 0
    | succ a iha =>
      rw [enumB, List.pairwise_append]
      refine ⟨map_cons_desc (ih _) _, iha, fun x hx y hy => ?_⟩
      obtain ⟨t, -, rfl⟩ := List.mem_map.1 hx
      rw [mem_enumB] at hy
      cases y with
      | nil => simp at hy
      | cons b y =>
        have := hy.2.2.1
        exact List.cons_lt_cons_iff.2 (Or.inl (by push_cast; omega))

theorem flat_desc (N : Nat) (a : Int) (g : Nat → List (List Int)) (hg : ∀ x, (g x).Pairwise (· > ·)) :
    ((List.range N).reverse.flatMap (fun x => (g x).map (fun t => (a + (x : Int)) :: t))).Pairwise (· > ·) := by
  induction N with
  | zero => simp
  | succ N ih =>
    rw [List.range_succ, List.reverse_append, List.flatMap_append, List.pairwise_append]
    refine ⟨by simpa using map_cons_desc (hg N) _, ih, fun x hx y hy => ?_⟩
    simp only [List.reverse_cons, List.reverse_nil, List.nil_append, List.flatMap_cons, List.flatMap_nil, List.append_nil, List.mem_map] at hx
    obtain ⟨t, -, rfl⟩ := hx
    simp only [List.mem_flatMap, List.mem_reverse, List.mem_range, List.mem_map] at hy
    obtain ⟨z, hz, s, -, rfl⟩ := hy
    exact List.cons_lt_cons_iff.2 (Or.inl (by omega))

theorem enumD_desc (c : Int) (bs : Bnd) : (enumD c bs).Pairwise (· > ·) := by
  induction bs generalizing c with
  | nil => simp [enumD]
  | cons ab bs ih => obtain ⟨a, b⟩ := ab; exact flat_desc _ a _ (fun x => ih _)

theorem enumS_desc (bs : Bnd) (p : Nat) : (enumS bs p).Pairwise (· > ·) := by
  induction bs generalizing p with
  | nil => unfold enumS; split <;> simp
  | cons ab bs ih => obtain ⟨a, b⟩ := ab; exact flat_desc _ a _ (fun x => ih _)

theorem enumT_desc (c : Int) (bs : Bnd) (p : Nat) : (enumT c bs p).Pairwise (· > ·) := by
  induction bs generalizing c p with
  | nil => unfold enumT; split <;> simp
  | cons ab bs ih => obtain ⟨a, b⟩ := ab; exact flat_desc _ a _ (fun x => ih _ _)

/-! ### the sets -/

/-- entry by entry between `lo` and `hi` -/
def Spec.BetweenLists (lo hi l : List Int) : Prop := List.Forall₂ (· ≤ ·) lo l ∧ List.Forall₂ (· ≤ ·) l hi

theorem exists_bnd {lo hi : List Int} (h : List.Forall₂ (· ≤ ·) lo hi) :
    ∃ bs : Bnd, lo = bs.map Prod.fst ∧ hi = bs.map Prod.snd ∧ Valid bs := by
  induction h with
  | nil => exact ⟨[], rfl, rfl, by simp [Valid]⟩
  | @cons a b lo hi hab _ ih =>
    obtain ⟨bs, rfl, rfl, hv⟩ := ih
    exact ⟨(a, b) :: bs, rfl, rfl, by simpa [Valid] using ⟨hab, by simpa [Valid] using hv⟩⟩

theorem btw_iff (bs : Bnd) (l : List Int) : Btw bs l ↔ BetweenLists (bs.map Prod.fst) (bs.map Prod.snd) l := by
  unfold Btw BetweenLists
  induction bs generalizing l with
  | nil => cases l <;> simp
  | cons ab bs ih =>
    cases l with
    | nil => simp
    | cons x l => simp only [List.map_cons, List.forall₂_cons, ih]; tauto

theorem btwD_iff (bs : Bnd) (l : List Int) (c : Int) :
    BtwD c bs l ↔ Btw bs l ∧ l.Pairwise (· ≥ ·) ∧ ∀ x ∈ l, x ≤ c := by
  unfold Btw
  induction bs generalizing l c with
  | nil => cases l <;> simp [BtwD]
  | cons ab bs ih =>
    obtain ⟨a, b⟩ := ab
    cases l with
    | nil => simp [BtwD]
    | cons x l =>
      simp only [BtwD, ih, List.forall₂_cons, List.pairwise_cons, List.mem_cons, forall_eq_or_imp]
      constructor
      · rintro ⟨⟨h1, h2, h3⟩, h4, h5, h6⟩
        exact ⟨⟨⟨h1, h2⟩, h4⟩, ⟨h6, h5⟩, h3, fun y hy => (h6 y hy).trans h3⟩
      · rintro ⟨⟨⟨h1, h2⟩, h4⟩, ⟨h6, h5⟩, h3, -⟩
        exact ⟨⟨h1, h2, h3⟩, h4, h5, h6⟩

theorem btwT_iff (bs : Bnd) (l : List Int) (c : Int) :
    BtwT c bs l ↔ Btw bs l ∧ l.Pairwise (· > ·) ∧ ∀ x ∈ l, x ≤ c := by
  unfold Btw
  induction bs generalizing l c with
  | nil => cases l <;> simp [BtwT]
  | cons ab bs ih =>
    obtain ⟨a, b⟩ := ab
    cases l with
    | nil => simp [BtwT]
    | cons x l =>
      simp only [BtwT, ih, List.forall₂_cons, List.pairwise_cons, List.mem_cons, forall_eq_or_imp]
      constructor
      · rintro ⟨⟨h1, h2, h3⟩, h4, h5, h6⟩
        exact ⟨⟨⟨h1, h2⟩, h4⟩, ⟨fun y hy => by have := h6 y hy; show y < x; omega, h5⟩, h3, fun y hy => by have := h6 y hy; omega⟩
      · rintro ⟨⟨⟨h1, h2⟩, h4⟩, ⟨h6, h5⟩, h3, -⟩
        exact ⟨⟨h1, h2, h3⟩, h4, h5, fun y hy => by have : y < x := h6 y hy; omega⟩

theorem validD_of {bs : Bnd} (hv : Valid bs) (hd : (bs.map Prod.fst).Pairwise (· ≥ ·)) (c : Int) (hc : ∀ ab ∈ bs, ab.1 ≤ c) :
    ValidD c bs := by
  induction bs generalizing c with
  | nil => trivial
  | cons ab bs ih =>
    obtain ⟨a, b⟩ := ab
    rw [List.map_cons, List.pairwise_cons] at hd
    exact ⟨hc (a, b) (by simp), hv.cons.1, ih hv.cons.2 hd.2 a (fun cd hcd => hd.1 cd.1 (List.mem_map_of_mem hcd))⟩

theorem validT_of {bs : Bnd} (hv : Valid bs) (hd : (bs.map Prod.fst).Pairwise (· > ·)) (c : Int) (hc : ∀ ab ∈ bs, ab.1 ≤ c) :
    ValidT c bs := by
  induction bs generalizing c with
  | nil => trivial
  | cons ab bs ih =>
    obtain ⟨a, b⟩ := ab
    rw [List.map_cons, List.pairwise_cons] at hd
    exact ⟨hc (a, b) (by simp), hv.cons.1, ih hv.cons.2 hd.2 (a - 1)
      (fun cd hcd => by have : cd.1 < a := hd.1 cd.1 (List.mem_map_of_mem hcd); omega)⟩

theorem decD_of {bs : Bnd} (hd : (bs.map Prod.snd).Pairwise (· ≥ ·)) : DecD bs := by
  induction bs with
  | nil => trivial
  | cons ab bs ih =>
    obtain ⟨a, b⟩ := ab
    rw [List.map_cons, List.pairwise_cons] at hd
    exact ⟨fun cd hcd => hd.1 cd.2 (List.mem_map_of_mem hcd), ih hd.2⟩

theorem chainOK_of {bs : Bnd} (hv : Valid bs) (hd : List.Forall₂ (· ≤ ·) (bs.map Prod.snd).tail (bs.map Prod.fst).dropLast) (c : Int)
    (hc : ∀ ab ∈ bs.head?, ab.2 ≤ c) : ChainOK c bs := by
  induction bs generalizing c with
  | nil => trivial
  | cons ab bs ih =>
    obtain ⟨a, b⟩ := ab
    refine ⟨hc (a, b) (by simp), hv.cons.1, ?_⟩
    cases bs with
    | nil => trivial
    | cons cd bs =>
      simp only [List.map_cons, List.tail_cons, List.dropLast_cons₂, List.forall₂_cons] at hd
      exact ih hv.cons.2 (by simpa using hd.2) a (by simpa using hd.1)

theorem mem_le_of_forall₂ {R : Int → Int → Prop} {l m : List Int} (h : List.Forall₂ R l m) {x : Int} (hx : x ∈ l) : ∃ y ∈ m, R x y := by
  induction h with
  | nil => cases hx
  | cons hab _ ih =>
    rcases List.mem_cons.1 hx with rfl | hx
    · exact ⟨_, by simp, hab⟩
    · obtain ⟨y, h1, h2⟩ := ih hx
      exact ⟨y, by simp [h1], h2⟩

/-- an upper bound for finitely many integers -/
theorem exists_ub (l : List Int) : ∃ c : Nat, ∀ x ∈ l, x ≤ c := by
  induction l with
  | nil => exact ⟨0, by simp⟩
  | cons a l ih =>
    obtain ⟨c, hc⟩ := ih
    refine ⟨c + a.toNat, fun x hx => ?_⟩
    rcases List.mem_cons.1 hx with rfl | hx
    · omega
    · have := hc x hx; omega

theorem StepsDown.congr {T : List Int → Prop} {s t : List Int → Option (List Int)} (h : StepsDown T s) (e : ∀ x, T x → t x = s x) :
    StepsDown T t := fun x hx => by rw [e x hx]; exact h x hx

/-! ### C93 -/

theorem enumB_steps {nxt : Nat → Nat} {step : List Int → Option (List Int)} (w : Walks nxt step) {T : List Int → Prop} (r : Nat)
    (hT : ∀ (c : Nat) (l : List Int), (l.length = r ∧ Adm nxt c l) ↔ T l ∧ ∀ x ∈ l, x ≤ c) : StepsDown T step := by
  refine stepsDown_of_runs (fun x hx => ?_)
  obtain ⟨c, hc⟩ := exists_ub x
  have hmem : ∀ z, z ∈ enumB nxt r c ↔ T z ∧ ∀ y ∈ z, y ≤ c := fun z => by rw [mem_enumB, hT]
  refine ⟨_, _, w.runs r c, enumB_desc _ _ _, (hmem x).2 ⟨hx, hc⟩, fun z hz => ((hmem z).1 hz).1, fun z hz hzx => (hmem z).2 ⟨hz, ?_⟩⟩
  obtain ⟨c', hc'⟩ := exists_ub z
  have h1 := (hT c x).2 ⟨hx, hc⟩
  have h2 := (hT c' z).2 ⟨hz, hc'⟩
  have hlen : z.length = x.length := by rw [h1.1, h2.1]
  have hz1 : Adm nxt c z := by
    cases z with
    | nil => trivial
    | cons b z =>
      cases x with
      | nil => simp at hlen
      | cons a x =>
        refine ⟨h2.2.1, ?_, h2.2.2.2⟩
        have : b ≤ a := by
          rcases hzx.lt_or_eq with h | h
          · rcases List.cons_lt_cons_iff.1 h with h | h
            · exact h.le
            · exact h.1.le
          · exact (List.cons.inj h).1.le
        exact this.trans h1.2.2.1
  exact ((hT c z).1 ⟨h2.1, hz1⟩).2

/-- C93: `part_itr` steps down through the partitions with a fixed number of (possibly zero) parts. -/
theorem C93_part_itr (r : Nat) : StepsDown (fun l => l.length = r ∧ IsPartition l) partItr :=
  enumB_steps walks_partItr r (fun c l => by rw [adm_id_iff]; tauto)

/-- C93: `_itr_kstrict` steps down through the `k`-strict partitions with a fixed number of parts (the loop of `all_kstrict` ends at `[]`). -/
theorem C93_itr_kstrict (r k : Nat) : StepsDown (fun l => l.length = r ∧ IsPartition l ∧ KStrict k l)
    (fun l => if itrKstrict l k = [] then none else some (itrKstrict l k)) :=
  enumB_steps (walks_stepK k) r (fun c l => by rw [adm_nxtK_iff]; tauto)

/-- C93: `part_itr_between` steps down through the decreasing lists between two decreasing lists. -/
theorem C93_part_itr_between (lo hi : List Int) (hlo : lo.Pairwise (· ≥ ·)) (hhi : hi.Pairwise (· ≥ ·)) (h : List.Forall₂ (· ≤ ·) lo hi) :
    StepsDown (fun l => BetweenLists lo hi l ∧ l.Pairwise (· ≥ ·)) (fun l => partItrBetween l lo hi) := by
  obtain ⟨bs, rfl, rfl, hv⟩ := exists_bnd h
  obtain ⟨c, hc⟩ := exists_ub (bs.map Prod.snd)
  have hT : ∀ l, BtwD c bs l ↔ BetweenLists (bs.map Prod.fst) (bs.map Prod.snd) l ∧ l.Pairwise (· ≥ ·) := fun l => by
    rw [btwD_iff, btw_iff]
    refine ⟨fun hh => ⟨hh.1, hh.2.1⟩, fun hh => ⟨hh.1, hh.2, fun x hx => ?_⟩⟩
    obtain ⟨y, hy, hxy⟩ := mem_le_of_forall₂ hh.1.2 hx
    exact hxy.trans (hc y hy)
  have hD : ValidD c bs := validD_of hv hlo c (fun ab hab => (hv ab hab).trans (hc _ (List.mem_map_of_mem hab)))
  refine StepsDown.congr (s := stepD bs) ?_ (fun x hx => partItrBetween_eq (decD_of hhi) ((hT x).2 hx))
  refine stepsDown_of_runs (fun x hx => ⟨_, _, stepD_runs hD, enumD_desc _ _, ?_, fun z hz => ?_, fun z hz _ => ?_⟩)
  · rw [mem_enumD hD, hT]; exact hx
  · rw [mem_enumD hD, hT] at hz; exact hz
  · rw [mem_enumD hD, hT]; exact hz

/-- C93: `_pieri_itrA` steps down through the lists with a fixed sum between two interlacing lists. -/
theorem C93_pieri_itrA (lo hi : List Int) (s : Int) (h : List.Forall₂ (· ≤ ·) lo hi) (hil : List.Forall₂ (· ≤ ·) hi.tail lo.dropLast) :
    StepsDown (fun l => BetweenLists lo hi l ∧ l.sum = s) (fun l => pieriItrA l lo hi) := by
  obtain ⟨bs, rfl, rfl, hv⟩ := exists_bnd h
  obtain ⟨c, hc⟩ := exists_ub (bs.map Prod.snd)
  have hC : ChainOK c bs := chainOK_of hv hil c (fun ab hab => hc _ (List.mem_map_of_mem (List.mem_of_mem_head? hab)))
  refine StepsDown.congr (s := stepS bs) ?_ (fun x hx => ?_)
  · refine stepsDown_of_runs (fun x hx => ?_)
    have hb := (btw_iff bs x).2 hx.1
    have h0 := exc_nonneg hb
    have h1 := exc_le hb
    have hp : ((exc bs x).toNat : Int) = exc bs x := by omega
    have hmem : ∀ z, z ∈ enumS bs (exc bs x).toNat ↔ BetweenLists (bs.map Prod.fst) (bs.map Prod.snd) z ∧ z.sum = s := fun z => by
      rw [mem_enumS hv, hp, btw_iff]
      refine and_congr_right (fun _ => ?_)
      unfold exc
      rw [hx.2]; omega
    exact ⟨_, _, stepS_runs hv (exc bs x).toNat (by omega), enumS_desc _ _, (hmem x).2 hx, fun z hz => (hmem z).1 hz, fun z hz _ => (hmem z).2 hz⟩
  · have hb := (btw_iff bs x).2 hx.1
    by_cases hne : bs = []
    · subst hne
      obtain rfl : x = [] := by simpa [Btw] using hb
      rfl
    · exact pieriItrA_eq c bs x hne hC hb

/-- C93: `_pieri_itr` steps down through the strictly decreasing lists with a fixed sum between a strictly decreasing list and a list above it. -/
theorem C93_pieri_itr (lo hi : List Int) (s : Int) (hlo : lo.Pairwise (· > ·)) (h : List.Forall₂ (· ≤ ·) lo hi) :
    StepsDown (fun l => BetweenLists lo hi l ∧ l.Pairwise (· > ·) ∧ l.sum = s) (fun l => pieriItr l lo hi) := by
  obtain ⟨bs, rfl, rfl, hv⟩ := exists_bnd h
  obtain ⟨c, hc⟩ := exists_ub (bs.map Prod.snd)
  have hD : ValidT c bs := validT_of hv hlo c (fun ab hab => (hv ab hab).trans (hc _ (List.mem_map_of_mem hab)))
  have hT : ∀ l, BtwT c bs l ↔ BetweenLists (bs.map Prod.fst) (bs.map Prod.snd) l ∧ l.Pairwise (· > ·) := fun l => by
    rw [btwT_iff, btw_iff]
    refine ⟨fun hh => ⟨hh.1, hh.2.1⟩, fun hh => ⟨hh.1, hh.2, fun x hx => ?_⟩⟩
    obtain ⟨y, hy, hxy⟩ := mem_le_of_forall₂ hh.1.2 hx
    exact hxy.trans (hc y hy)
  refine StepsDown.congr (s := stepT bs) ?_ (fun x hx => ?_)
  · refine stepsDown_of_runs (fun x hx => ?_)
    have hb := (hT x).2 ⟨hx.1, hx.2.1⟩
    have h0 := exc_nonneg hb.toBtw
    have h1 := exc_leT hb
    have hp : ((exc bs x).toNat : Int) = exc bs x := by omega
    have hmem : ∀ z, z ∈ enumT c bs (exc bs x).toNat ↔
        BetweenLists (bs.map Prod.fst) (bs.map Prod.snd) z ∧ z.Pairwise (· > ·) ∧ z.sum = s := fun z => by
      rw [mem_enumT hD, hp, hT, and_assoc]
      refine and_congr_right (fun _ => and_congr_right (fun _ => ?_))
      unfold exc
      rw [hx.2.2]; omega
    exact ⟨_, _, stepT_runs hD (exc bs x).toNat (by omega), enumT_desc _ _ _, (hmem x).2 hx, fun z hz => (hmem z).1 hz, fun z hz _ => (hmem z).2 hz⟩
  · have hb := (btw_iff bs x).2 hx.1
    by_cases hne : bs = []
    · subst hne
      obtain rfl : x = [] := by simpa [Btw] using hb
      rfl
    · exact pieriItr_eq c bs x hne hD hb

/-- C93: `part_gen(lam)` lists, without trailing zeros, the partitions with as many parts as `lam` that are at most `lam` in the
lexicographic order, from the largest to the smallest. -/
theorem C93_part_gen (lam : List Int) (hl : IsPartition lam) (hne : lam ≠ []) :
    ∃ L : List (List Int), L.Pairwise (· > ·) ∧ (∀ nu, nu ∈ L ↔ (nu.length = lam.length ∧ IsPartition nu) ∧ nu ≤ lam) ∧
      ∀ fuel, L.length < fuel → partGen fuel lam = some (L.map partClip) := by
  obtain ⟨c, hc⟩ := exists_ub lam
  have hx : lam ∈ enumB id lam.length c := by rw [mem_enumB, adm_id_iff]; exact ⟨rfl, hl, hc⟩
  obtain ⟨L, r, p, m⟩ := runs_below (walks_partItr.runs lam.length c) (enumB_desc _ _ _) hx
  have hpos : 0 < lam.length := List.length_pos_of_ne_nil hne
  refine ⟨L, p, fun nu => ?_, fun fuel hf => ?_⟩
  · rw [m, mem_enumB, adm_id_iff]
    refine ⟨fun h => ⟨⟨h.1.1, h.1.2.1⟩, h.2⟩, fun h => ⟨⟨h.1.1, h.1.2, fun x hxn => ?_⟩, h.2⟩⟩
    cases nu with
    | nil => cases hxn
    | cons b nu =>
      cases lam with
      | nil => exact absurd rfl hne
      | cons a lam =>
        have hb : b ≤ a := by
          rcases h.2.lt_or_eq with h | h
          · rcases List.cons_lt_cons_iff.1 h with h | h
            · exact h.le
            · exact h.1.le
          · exact (List.cons.inj h).1.le
        have hxb : x ≤ b := by
          rcases List.mem_cons.1 hxn with rfl | hxn
          · exact le_rfl
          · exact (List.pairwise_cons.1 h.1.2.1).1 x hxn
        exact hxb.trans (hb.trans (hc a (by simp)))
  · rw [partGen, if_neg hne]
    exact partGenLoop_of_runs r hpos fuel hf

/-- the empty argument gives the empty list, not the list of the empty partition -/
example : partGen 5 [] = some [] := by decide
/-- `part_gen([3,1])` contains `[2,2]`, which is not contained in `[3,1]` -/
example : partGen 20 [3, 1] = some [[3, 1], [3], [2, 2], [2, 1], [2], [1, 1], [1], []] := by decide +kernel
example : IsPartition [3, 1] ∧ partItr [3, 1] = some [3, 0] ∧ partItr [3, 0] = some [2, 2] := by
  unfold IsPartition; decide +kernel
example : itrKstrict [4, 1, 1] 1 = [4, 1, 0] ∧ itrKstrict [3, 0, 0] 1 = [2, 1, 1] := by decide +kernel
example : partItrBetween [3, 2, 1] [2, 2, 1] [4, 3, 3] = some [2, 2, 2] := by decide +kernel
example : List.Forall₂ (· ≤ ·) [2, 2, 1] [(4 : Int), 3, 3] ∧ BetweenLists [2, 2, 1] [4, 3, 3] [3, 2, 1] := by
  unfold BetweenLists; decide
example : pieriItrA [5, 2, 0] [3, 1, 0] [5, 3, 1] = some [5, 1, 1] ∧ pieriItrA [5, 1, 1] [3, 1, 0] [5, 3, 1] = some [4, 3, 0] := by
  decide +kernel
example : List.Forall₂ (· ≤ ·) [(5 : Int), 3, 1].tail ([3, 1, 0] : List Int).dropLast := by decide
example : pieriItr [6, 3, 0] [3, 2, 0] [6, 5, 2] = some [6, 2, 1] ∧ pieriItr [6, 2, 1] [3, 2, 0] [6, 5, 2] = some [5, 4, 0] := by
  decide +kernel

end Verif
