import Verif.Model.PieriBCD
import Verif.Proofs.PieriA
/-!
# The enumeration behind `_pieri_fill` and `_pieri_itr`

`enumT c bs p`: all strictly decreasing lists between the lower and upper bounds `bs`, first entry at most `c`,
whose excess over the lower bounds is `p`, in descending lexicographic order.
-/

namespace Verif
open Spec

/-- the largest excess over the lower bounds -/
def capT : Int → Bnd → Int
  | _, [] => 0
  | c, (a, b) :: bs => (min b c - a) + capT (min b c - 1) bs

def greedyT : Int → Bnd → Int → List Int
  | _, [], _ => []
  | c, (a, b) :: bs, p =>
    min (min b (a + p)) c :: greedyT (min (min b (a + p)) c - 1) bs (p - min (min b (a + p)) c + a)

def enumT : Int → Bnd → Nat → List (List Int)
  | _, [], p => if p = 0 then [[]] else []
  | c, (a, b) :: bs, p =>
    (List.range (min (min b c - a).toNat p + 1)).reverse.flatMap
      (fun x : Nat => (enumT (a + (x : Int) - 1) bs (p - x)).map (fun t => (a + (x : Int)) :: t))

def stepT : Bnd → List Int → Option (List Int)
  | (a, _) :: bs, x :: xs =>
    match stepT bs xs with
    | some ys => some (x :: ys)
    | none =>
      if a < x ∧ exc bs xs + 1 ≤ capT (x - 1 - 1) bs then
        some ((x - 1) :: greedyT (x - 1 - 1) bs (exc bs xs + 1)) else none
  | _, _ => none

/-- the lower bounds are strictly decreasing, below the upper bounds, the first at most `c` -/
def ValidT : Int → Bnd → Prop
  | _, [] => True
  | c, (a, b) :: bs => a ≤ c ∧ a ≤ b ∧ ValidT (a - 1) bs

/-- strictly decreasing, between the bounds, the first entry at most `c` -/
def BtwT : Int → Bnd → List Int → Prop
  | _, [], [] => True
  | c, (a, b) :: bs, x :: xs => (a ≤ x ∧ x ≤ b ∧ x ≤ c) ∧ BtwT (x - 1) bs xs
  | _, _, _ => False

theorem ValidT.mono {c c' : Int} {bs : Bnd} (h : ValidT c bs) (hc : c ≤ c') : ValidT c' bs := by
  cases bs with
  | nil => trivial
  | cons ab bs => exact ⟨le_trans h.1 hc, h.2⟩

theorem capT_mono {c c' : Int} {bs : Bnd} (h : c ≤ c') : capT c bs ≤ capT c' bs := by
  induction bs generalizing c c' with
  | nil => simp [capT]
  | cons ab bs ih =>
    obtain ⟨a, b⟩ := ab
    simp only [capT]
    have := ih (c := min b c - 1) (c' := min b c' - 1) (by omega)
    omega

theorem capT_nonneg {c : Int} {bs : Bnd} (h : ValidT c bs) : 0 ≤ capT c bs := by
  induction bs generalizing c with
  | nil => simp [capT]
  | cons ab bs ih =>
    obtain ⟨a, b⟩ := ab
    obtain ⟨h1, h2, h3⟩ := h
    simp only [capT]
    have := ih (c := min b c - 1) (h3.mono (by omega))
    omega

theorem BtwT.toBtw {c : Int} {bs : Bnd} {l : List Int} (h : BtwT c bs l) : Btw bs l := by
  induction bs generalizing c l with
  | nil => cases l with
    | nil => exact List.Forall₂.nil
    | cons => exact absurd h (by simp [BtwT])
  | cons ab bs ih =>
    obtain ⟨a, b⟩ := ab
    cases l with
    | nil => exact absurd h (by simp [BtwT])
    | cons x l =>
      obtain ⟨⟨h1, h2, _⟩, h3⟩ := h
      exact List.Forall₂.cons ⟨h1, h2⟩ (ih h3)

theorem BtwT.mono {c c' : Int} {bs : Bnd} {l : List Int} (h : BtwT c bs l) (hc : c ≤ c') : BtwT c' bs l := by
  cases bs with
  | nil => cases l with
    | nil => trivial
    | cons => exact absurd h (by simp [BtwT])
  | cons ab bs =>
    cases l with
    | nil => exact absurd h (by simp [BtwT])
    | cons x l => exact ⟨⟨h.1.1, h.1.2.1, le_trans h.1.2.2 hc⟩, h.2⟩

theorem exc_leT {c : Int} {bs : Bnd} {t : List Int} (ht : BtwT c bs t) : exc bs t ≤ capT c bs := by
  induction bs generalizing c t with
  | nil => cases t with
    | nil => simp [exc, capT]
    | cons => exact absurd ht (by simp [BtwT])
  | cons ab bs ih =>
    obtain ⟨a, b⟩ := ab
    cases t with
    | nil => exact absurd ht (by simp [BtwT])
    | cons x t =>
      obtain ⟨⟨h1, h2, h3⟩, h4⟩ := ht
      have e1 := ih h4
      have e2 : capT (x - 1) bs ≤ capT (min b c - 1) bs := capT_mono (by omega)
      simp only [exc, List.sum_cons, List.map_cons, capT] at *
      omega

theorem mem_enumT {c : Int} {bs : Bnd} (h : ValidT c bs) (p : Nat) (l : List Int) :
    l ∈ enumT c bs p ↔ BtwT c bs l ∧ exc bs l = p := by
  induction bs generalizing c p l with
  | nil =>
    unfold enumT
    constructor
    · intro hl
      by_cases hp : p = 0
      · rw [if_pos hp] at hl
        simp at hl
        subst hl
        exact ⟨trivial, by simp [exc, hp]⟩
      · rw [if_neg hp] at hl; simp at hl
    · rintro ⟨h1, h2⟩
      cases l with
      | nil =>
        have : p = 0 := by simp [exc] at h2; omega
        simp [this]
      | cons => exact absurd h1 (by simp [BtwT])
  | cons ab bs ih =>
    obtain ⟨a, b⟩ := ab
    obtain ⟨hac, hab, hv⟩ := h
    simp only [enumT, List.mem_flatMap, List.mem_reverse, List.mem_range, List.mem_map]
    constructor
    · rintro ⟨x, hx, t, ht, rfl⟩
      rw [ih (hv.mono (by omega))] at ht
      refine ⟨⟨⟨by omega, by omega, by omega⟩, ht.1⟩, ?_⟩
      have := ht.2
      simp only [exc, List.sum_cons, List.map_cons] at *
      omega
    · rintro ⟨h1, h2⟩
      cases l with
      | nil => exact absurd h1 (by simp [BtwT])
      | cons y t =>
        obtain ⟨⟨g1, g2, g3⟩, ht⟩ := h1
        have h0 : 0 ≤ exc bs t := exc_nonneg ht.toBtw
        simp only [exc, List.sum_cons, List.map_cons] at h2 h0
        refine ⟨(y - a).toNat, by omega, t, ?_, by congr 1; omega⟩
        rw [ih (hv.mono (by omega))]
        refine ⟨ht.mono (by omega), ?_⟩
        simp only [exc]
        omega

theorem enumT_empty {c : Int} {bs : Bnd} (h : ValidT c bs) {p : Nat} (hp : capT c bs < p) : enumT c bs p = [] := by
  apply List.eq_nil_iff_forall_not_mem.2
  intro l hl
  rw [mem_enumT h] at hl
  have := exc_leT hl.1
  omega

theorem enumT_nodup (c : Int) (bs : Bnd) (p : Nat) : (enumT c bs p).Nodup := by
  induction bs generalizing c p with
  | nil => unfold enumT; split <;> simp
  | cons ab bs ih =>
    obtain ⟨a, b⟩ := ab
    unfold enumT
    rw [List.nodup_flatMap]
    refine ⟨fun x _ => (ih _ _).map (fun s t h => by simpa using h), ?_⟩
    have : ((List.range (min (min b c - a).toNat p + 1)).reverse).Nodup := by
      rw [List.nodup_reverse]; exact List.nodup_range
    refine this.imp ?_
    intro x y hxy
    rw [Function.onFun, List.disjoint_left]
    intro l h1 h2
    rw [List.mem_map] at h1 h2
    obtain ⟨s, _, rfl⟩ := h1
    obtain ⟨t, _, h⟩ := h2
    simp at h
    exact hxy h.1.symm

theorem enumT_length_le {c : Int} {bs : Bnd} (hv : ValidT c bs) (p : Nat) :
    (enumT c bs p).length ≤ (bs.map (fun ab => (ab.2 - ab.1 + 1).toNat)).prod := by
  induction bs generalizing c p with
  | nil => unfold enumT; split <;> simp
  | cons ab bs ih =>
    obtain ⟨a, b⟩ := ab
    obtain ⟨hac, hab, hv'⟩ := hv
    unfold enumT
    rw [List.length_flatMap, List.map_cons, List.prod_cons]
    have : ((List.range (min (min b c - a).toNat p + 1)).reverse.map
        (fun x : Nat => ((enumT (a + (x : Int) - 1) bs (p - x)).map (fun t => (a + (x : Int)) :: t)).length)).sum ≤
        (List.range (min (min b c - a).toNat p + 1)).reverse.length •
          (bs.map (fun ab => (ab.2 - ab.1 + 1).toNat)).prod := by
      have h1 := List.sum_le_card_nsmul ((List.range (min (min b c - a).toNat p + 1)).reverse.map
        (fun x : Nat => ((enumT (a + (x : Int) - 1) bs (p - x)).map (fun t => (a + (x : Int)) :: t)).length))
        (bs.map (fun ab => (ab.2 - ab.1 + 1).toNat)).prod (by
          intro y hy
          rw [List.mem_map] at hy
          obtain ⟨x, _, rfl⟩ := hy
          rw [List.length_map]
          exact ih (hv'.mono (by omega)) (p - x))
      simpa using h1
    refine le_trans this ?_
    show _ * _ ≤ _
    apply Nat.mul_le_mul_right
    simp
    omega

theorem stepT_runs {c : Int} {bs : Bnd} (h : ValidT c bs) (p : Nat) (hp : (p : Int) ≤ capT c bs) :
    Runs (stepT bs) (greedyT c bs p) (enumT c bs p) := by
  induction bs generalizing c p with
  | nil =>
    have : p = 0 := by simp [capT] at hp; omega
    subst this
    exact Runs.last rfl
  | cons ab bs ih =>
    obtain ⟨a, b⟩ := ab
    obtain ⟨hac, hab, hv⟩ := h
    have key : ∀ x : Nat, x ≤ p → (p : Int) - x ≤ capT (a + (x : Int) - 1) bs →
        Runs (stepT ((a, b) :: bs)) ((a + (x : Int)) :: greedyT (a + (x : Int) - 1) bs ((p - x : Nat) : Int))
          ((List.range (x + 1)).reverse.flatMap
            (fun x : Nat => (enumT (a + (x : Int) - 1) bs (p - x)).map (fun t => (a + (x : Int)) :: t))) := by
      intro x
      induction x with
      | zero =>
        intro _ hc
        have r := ih (c := a + ((0 : Nat) : Int) - 1) (hv.mono (by omega)) p (by simpa using hc)
        simp only [Nat.zero_add, List.range_one, List.reverse_singleton, List.flatMap_singleton,
          Nat.sub_zero]
        apply Runs.map_last (f := fun t => (a + ((0 : Nat) : Int)) :: t) r
        · intro u v huv
          simp only [stepT, huv]
        · intro u _ huv
          simp [stepT, huv]
      | succ x ihx =>
        intro hx hc
        have hvx := hv.mono (c' := a + ((x + 1 : Nat) : Int) - 1) (by omega)
        have r := ih hvx (p - (x + 1)) (by omega)
        rw [List.range_succ, List.reverse_append, List.reverse_singleton, List.singleton_append,
          List.flatMap_cons]
        have e3 : a + ((x + 1 : Nat) : Int) - 1 = a + (x : Int) := by omega
        by_cases hcx : (p : Int) - x ≤ capT (a + (x : Int) - 1) bs
        · apply Runs.map_append (f := fun t => (a + ((x + 1 : Nat) : Int)) :: t) r
            (ihx (by omega) hcx)
          · intro u v huv
            simp only [stepT, huv]
          · intro u hu huv
            have he := ((mem_enumT hvx _ _).1 hu).2
            have he' : exc bs u + 1 = ((p - x : Nat) : Int) := by omega
            simp only [stepT, huv, he']
            rw [e3, if_pos ⟨by omega, by omega⟩]
        · have hnil : (List.range (x + 1)).reverse.flatMap
            (fun x : Nat => (enumT (a + (x : Int) - 1) bs (p - x)).map (fun t => (a + (x : Int)) :: t)) = [] := by
            rw [List.flatMap_eq_nil_iff]
            intro y hy
            simp at hy
            have hm : capT (a + (y : Int) - 1) bs ≤ capT (a + (x : Int) - 1) bs := capT_mono (by omega)
            rw [enumT_empty (hv.mono (by omega)) (by omega)]
            rfl
          rw [hnil, List.append_nil]
          apply Runs.map_last (f := fun t => (a + ((x + 1 : Nat) : Int)) :: t) r
          · intro u v huv
            simp only [stepT, huv]
          · intro u hu huv
            have he := ((mem_enumT hvx _ _).1 hu).2
            simp only [stepT, huv]
            rw [e3, if_neg (by omega)]
    have hx : min (min b (a + (p : Int))) c = a + ((min (min b c - a).toNat p : Nat) : Int) := by omega
    have hfin := key (min (min b c - a).toNat p) (by omega) (by
      simp only [capT] at hp
      rcases Nat.le_total p (min b c - a).toNat with hle | hle
      · have := capT_nonneg (hv.mono (c' := a + ((min (min b c - a).toNat p : Nat) : Int) - 1) (by omega))
        omega
      · have e : a + ((min (min b c - a).toNat p : Nat) : Int) - 1 = min b c - 1 := by omega
        rw [e]; omega)
    rw [greedyT, enumT, hx]
    convert hfin using 3
    omega

/-! ### The code's functions in terms of bounds -/

theorem greedyT_length (c : Int) (bs : Bnd) (p : Int) : (greedyT c bs p).length = bs.length := by
  induction bs generalizing c p with
  | nil => rfl
  | cons ab bs ih => obtain ⟨a, b⟩ := ab; simp [greedyT, ih]

theorem fillLoop_eq (bs : Bnd) (inner outer ipre opre pre post : List Int) (prev : Int) (rr : Nat)
    (pp : Int) (hi : inner = ipre ++ bs.map Prod.fst) (ho : outer = opre ++ bs.map Prod.snd)
    (hil : ipre.length = rr + 1) (hol : opre.length = rr + 1) (hpl : pre.length = rr)
    (hpost : post.length = bs.length) (hc : ValidT (prev - 1) bs) (hpp : 0 ≤ pp) :
    fillLoop inner outer bs.length (rr + 1) pp (pre ++ prev :: post) =
      (pre ++ prev :: greedyT (prev - 1) bs pp, max 0 (pp - capT (prev - 1) bs)) := by
  induction bs generalizing ipre opre pre post prev rr pp with
  | nil =>
    have : post = [] := by simpa using hpost
    subst this
    simp only [List.length_nil, fillLoop, greedyT, capT]
    congr 1
    omega
  | cons ab bs ih =>
    obtain ⟨a, b⟩ := ab
    cases post with
    | nil => simp at hpost
    | cons y post =>
      simp only [List.map_cons] at hi ho
      simp only [List.length_cons, fillLoop]
      have e1 : at' outer (rr + 1) = b := by rw [ho]; exact at'_append_length' hol _ _
      have e2 : at' inner (rr + 1) = a := by rw [hi]; exact at'_append_length' hil _ _
      have e3 : at' (pre ++ prev :: y :: post) (rr + 1 - 1) = prev :=
        at'_append_length' (by simpa using hpl) _ _
      rw [e1, e2, e3]
      obtain ⟨hac, hab, hc'⟩ := hc
      generalize hx : min (min b (a + pp)) (prev - 1) = x
      have hset : (pre ++ prev :: y :: post).set (rr + 1) x = (pre ++ [prev]) ++ x :: post := by
        rw [show pre ++ prev :: y :: post = (pre ++ [prev]) ++ y :: post by simp]
        exact set_append_length (by simp [hpl]) _ _ _
      have hv := hc'.mono (c' := x - 1) (by omega)
      rw [hset, ih (ipre ++ [a]) (opre ++ [b]) (pre ++ [prev]) post x (rr + 1)
        (pp - x + a) (by simp [hi]) (by simp [ho]) (by simp [hil]) (by simp [hol])
        (by simp [hpl]) (by simpa using hpost) hv (by omega)]
      refine Prod.ext (by simp [greedyT, hx]) ?_
      simp only [capT]
      rcases le_total (a + pp) (min b (prev - 1)) with hle | hle
      · have h1 := capT_nonneg hv
        have h2 := capT_nonneg (hc'.mono (c' := min b (prev - 1) - 1) (by omega))
        omega
      · have e : x = min b (prev - 1) := by omega
        rw [e]; omega

theorem pieriFill_of_row {lam inner outer : List Int} {row : Nat} {p : Int} (hl : lam.length ≠ 0)
    (hr : row ≠ 0) {res : List Int} {pp : Int}
    (h : fillLoop inner outer (lam.length - row) row p lam = (res, pp)) :
    pieriFill lam inner outer row p = if pp > 0 then none else some res := by
  unfold pieriFill
  simp only [if_neg hl, if_neg hr, h]

theorem pieriFill_of_zero {lam inner outer : List Int} {p : Int} (hl : lam.length ≠ 0)
    {res : List Int} {pp : Int}
    (h : fillLoop inner outer (lam.length - 1) 1
      (p - min (at' outer 0) (at' inner 0 + p) + at' inner 0)
      (lam.set 0 (min (at' outer 0) (at' inner 0 + p))) = (res, pp)) :
    pieriFill lam inner outer 0 p = if pp > 0 then none else some res := by
  unfold pieriFill
  simp only [if_neg hl, if_true, h]

/-- `_pieri_fill` from a row `≥ 1`. -/
theorem pieriFill_succ (bs : Bnd) (inner outer ipre opre pre post : List Int) (prev : Int) (rr : Nat)
    (pp : Int) (hi : inner = ipre ++ bs.map Prod.fst) (ho : outer = opre ++ bs.map Prod.snd)
    (hil : ipre.length = rr + 1) (hol : opre.length = rr + 1) (hpl : pre.length = rr)
    (hpost : post.length = bs.length) (hc : ValidT (prev - 1) bs) (hpp : 0 ≤ pp) :
    pieriFill (pre ++ prev :: post) inner outer (rr + 1) pp =
      if pp ≤ capT (prev - 1) bs then some (pre ++ prev :: greedyT (prev - 1) bs pp) else none := by
  have hlen : (pre ++ prev :: post).length = rr + 1 + bs.length := by simp [hpl, hpost]; omega
  have hfl := fillLoop_eq bs inner outer ipre opre pre post prev rr pp hi ho hil hol hpl hpost hc hpp
  rw [show bs.length = (pre ++ prev :: post).length - (rr + 1) by omega] at hfl
  rw [pieriFill_of_row (by omega) (by omega) hfl]
  by_cases h : pp ≤ capT (prev - 1) bs
  · rw [if_neg (by omega), if_pos h]
  · rw [if_pos (by omega), if_neg h]

/-- `_pieri_fill` from the top. -/
theorem pieriFill_zero (bs : Bnd) (lam : List Int) (hbs : bs ≠ []) (k : Int) (hk : ∀ ab ∈ bs.head?, ab.2 ≤ k)
    (hlam : lam.length = bs.length) (hc : ValidT k bs) (p : Int) (hp : 0 ≤ p) :
    pieriFill lam (bs.map Prod.fst) (bs.map Prod.snd) 0 p =
      if p ≤ capT k bs then some (greedyT k bs p) else none := by
  obtain ⟨⟨a, b⟩, bs, rfl⟩ := List.exists_cons_of_ne_nil hbs
  cases lam with
  | nil => simp at hlam
  | cons y post =>
    obtain ⟨hb, hab, hc'⟩ := hc
    have hbk : b ≤ k := by simpa using hk
    have hl : post.length = bs.length := by simpa using hlam
    have hv := hc'.mono (c' := min b (a + p) - 1) (by omega)
    have := fillLoop_eq bs (((a, b) :: bs).map Prod.fst) (((a, b) :: bs).map Prod.snd) [a] [b] [] post
      (min b (a + p)) 0 (p - min b (a + p) + a) (by simp) (by simp) rfl rfl rfl hl
      hv (by omega)
    simp only [List.nil_append, Nat.zero_add] at this
    rw [show bs.length = (y :: post).length - 1 by simp [hl]] at this
    rw [pieriFill_of_zero (lam := y :: post) (by simp) this]
    have e : min (min b (a + p)) k = min b (a + p) := by omega
    have e' : min b k = b := by omega
    simp only [greedyT, capT, e, e']
    rcases le_total (a + p) b with hle | hle
    · have h1 := capT_nonneg hv
      have h2 := capT_nonneg (hc'.mono (c' := b - 1) (by omega))
      rw [if_neg (by omega), if_pos (by omega)]
    · have e2 : min b (a + p) = b := by omega
      rw [e2]
      by_cases h : p ≤ b - a + capT (b - 1) bs
      · rw [if_neg (by omega), if_pos h]
      · rw [if_pos (by omega), if_neg h]

theorem stepT_append (b1 : Bnd) (pre : List Int) (b2 : Bnd) (post ys : List Int)
    (hl : pre.length = b1.length) (h : stepT b2 post = some ys) :
    stepT (b1 ++ b2) (pre ++ post) = some (pre ++ ys) := by
  induction b1 generalizing pre with
  | nil =>
    have : pre = [] := by simpa using hl
    subst this; simpa using h
  | cons ab b1 ih =>
    obtain ⟨a, b⟩ := ab
    cases pre with
    | nil => simp at hl
    | cons x pre =>
      simp only [List.cons_append, stepT, ih pre (by simpa using hl)]

theorem ValidT.append_right {c : Int} {b1 b2 : Bnd} {a b : Int}
    (h : ValidT c (b1 ++ (a, b) :: b2)) : ValidT (a - 1) b2 := by
  induction b1 generalizing c with
  | nil => exact h.2.2
  | cons cd b1 ih => exact ih h.2.2

theorem BtwT.append_right {c : Int} {b1 b2 : Bnd} {pre post : List Int} (hl : pre.length = b1.length)
    (h : BtwT c (b1 ++ b2) (pre ++ post)) : ∃ c', BtwT c' b2 post := by
  induction b1 generalizing pre c with
  | nil =>
    have : pre = [] := by simpa using hl
    subst this; exact ⟨c, h⟩
  | cons ab b1 ih =>
    cases pre with
    | nil => simp at hl
    | cons x pre => exact ih (by simpa using hl) h.2

theorem itrLoop_eq (k : Int) (b1 b2 : Bnd) (pre post : List Int) (hl1 : pre.length = b1.length)
    (hl2 : post.length = b2.length) (hc : ValidT k (b1 ++ b2)) (hb : Btw (b1 ++ b2) (pre ++ post))
    (hb2 : Btw b2 post) (hs : stepT b2 post = none) :
    itrLoop (pre ++ post) ((b1 ++ b2).map Prod.fst) ((b1 ++ b2).map Prod.snd) b1.length (exc b2 post) =
      stepT (b1 ++ b2) (pre ++ post) := by
  induction b1 using List.reverseRecOn generalizing pre post b2 with
  | nil =>
    have : pre = [] := by simpa using hl1
    subst this
    simp only [List.length_nil, itrLoop, List.nil_append, hs]
  | append_singleton b1 ab ih =>
    obtain ⟨a, b⟩ := ab
    rcases List.eq_nil_or_concat pre with h | ⟨pre, x, h⟩
    · subst h; simp at hl1
    · rw [List.concat_eq_append] at h
      subst h
      have hl : pre.length = b1.length := by simpa using hl1
      have hab : Btw ((a, b) :: b2) (x :: post) := by
        have h1 : (b1 ++ [(a, b)]) ++ b2 = b1 ++ ((a, b) :: b2) := by simp
        have h2 : (pre ++ [x]) ++ post = pre ++ (x :: post) := by simp
        rw [h1, h2] at hb
        exact Btw.append_right hl hb
      have hx : a ≤ x ∧ x ≤ b := by cases hab with | cons h _ => exact h
      have hchain : ValidT (a - 1) b2 := by
        have h1 : (b1 ++ [(a, b)]) ++ b2 = b1 ++ ((a, b) :: b2) := by simp
        rw [h1] at hc; exact hc.append_right
      have e0 := exc_nonneg hb2
      have eassoc : (b1 ++ [(a, b)]) ++ b2 = b1 ++ ((a, b) :: b2) := by simp
      have eassoc' : (pre ++ [x]) ++ post = pre ++ (x :: post) := by simp
      have hexc : exc ((a, b) :: b2) (x :: post) = exc b2 post + x - a := by
        simp only [exc, List.sum_cons, List.map_cons]; omega
      rw [eassoc] at hc hb ⊢
      rw [eassoc'] at hb ⊢
      have e1 : at' (pre ++ x :: post) b1.length = x := at'_append_length' hl _ _
      have e2 : at' ((b1 ++ (a, b) :: b2).map Prod.fst) b1.length = a := by
        rw [List.map_append, List.map_cons]; exact at'_append_length' (by simp) _ _
      have hrec := fun hs' => ih ((a, b) :: b2) pre (x :: post) hl (by simp [hl2]) hc hb hab hs'
      simp only [List.length_append, List.length_singleton, itrLoop]
      rw [e1, e2]
      by_cases hxa : a < x
      · rw [if_pos hxa, set_append_length hl]
        have hfill := pieriFill_succ b2 ((b1 ++ (a, b) :: b2).map Prod.fst)
          ((b1 ++ (a, b) :: b2).map Prod.snd) (b1.map Prod.fst ++ [a]) (b1.map Prod.snd ++ [b]) pre post
          (x - 1) b1.length (exc b2 post + 1) (by simp) (by simp) (by simp) (by simp) hl hl2
          (hchain.mono (by omega)) (by omega)
        rw [hfill]
        by_cases hcap : exc b2 post + 1 ≤ capT (x - 1 - 1) b2
        · rw [if_pos hcap]
          have : stepT ((a, b) :: b2) (x :: post) =
              some ((x - 1) :: greedyT (x - 1 - 1) b2 (exc b2 post + 1)) := by
            simp only [stepT, hs]; rw [if_pos ⟨hxa, hcap⟩]
          rw [stepT_append _ _ _ _ _ hl this]
        · rw [if_neg hcap]
          dsimp only
          rw [← hexc]
          apply hrec
          simp only [stepT, hs]; rw [if_neg (by omega)]
      · rw [if_neg (by omega)]
        have : exc b2 post = exc ((a, b) :: b2) (x :: post) := by rw [hexc]; omega
        rw [this]
        apply hrec
        simp only [stepT, hs]; rw [if_neg (by omega)]

theorem pieriItr_eq (k : Int) (bs : Bnd) (mu : List Int) (hne : bs ≠ []) (hc : ValidT k bs)
    (hb : Btw bs mu) :
    pieriItr mu (bs.map Prod.fst) (bs.map Prod.snd) = stepT bs mu := by
  have hl : mu.length = bs.length := (List.Forall₂.length_eq hb).symm
  have hmu : mu ≠ [] := by rintro rfl; simp at hl; exact hne (List.eq_nil_of_length_eq_zero hl.symm)
  unfold pieriItr
  have hpos : 0 < bs.length := List.length_pos_of_ne_nil hne
  rw [if_neg (by omega)]
  obtain ⟨b1, ab, rfl⟩ : ∃ b1 ab, bs = b1 ++ [ab] := by
    rcases List.eq_nil_or_concat bs with h | ⟨b1, ab, h⟩
    · exact absurd h hne
    · exact ⟨b1, ab, by simpa using h⟩
  obtain ⟨pre, x, rfl⟩ : ∃ pre x, mu = pre ++ [x] := by
    rcases List.eq_nil_or_concat mu with h | ⟨b1, ab, h⟩
    · exact absurd h hmu
    · exact ⟨b1, ab, by simpa using h⟩
  obtain ⟨a, b⟩ := ab
  have hl1 : pre.length = b1.length := by simpa using hl
  have hb2 : Btw [(a, b)] [x] := Btw.append_right hl1 hb
  have := itrLoop_eq k b1 [(a, b)] pre [x] hl1 rfl hc hb hb2 (by simp [stepT, exc, capT])
  rw [← this]
  have e1 : last' (pre ++ [x]) = x := by simp [last']
  have e2 : last' ((b1 ++ [(a, b)]).map Prod.fst) = a := by simp [last']
  rw [e1, e2]
  simp [exc, hl1]

end Verif
