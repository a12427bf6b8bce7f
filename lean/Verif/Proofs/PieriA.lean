import Verif.Model.PieriA
import Verif.Proofs.Partition
import Verif.Proofs.Runs
import Mathlib.Data.List.Nodup
import Mathlib.Algebra.Order.BigOperators.Group.List
import Mathlib.Tactic.Ring
import Mathlib.Tactic.Linarith
/-!
# The enumeration behind the type A Pieri rule

`enumS bs p`: all lists between the lower and upper bounds `bs` whose excess over the lower bounds is `p`,
in descending lexicographic order; the fill / iterate functions of the code walk through it.
-/

namespace Verif
open Spec

abbrev Bnd := List (Int × Int)

def capSum (bs : Bnd) : Int := (bs.map (fun ab => ab.2 - ab.1)).sum

@[simp] theorem capSum_nil : capSum [] = 0 := rfl
@[simp] theorem capSum_cons (a b : Int) (bs : Bnd) : capSum ((a, b) :: bs) = (b - a) + capSum bs := rfl

def greedy : Bnd → Int → List Int
  | [], _ => []
  | (a, b) :: bs, p => min b (a + p) :: greedy bs (p - (min b (a + p) - a))

def enumS : Bnd → Nat → List (List Int)
  | [], p => if p = 0 then [[]] else []
  | (a, b) :: bs, p =>
    (List.range (min (b - a).toNat p + 1)).reverse.flatMap
      (fun x => (enumS bs (p - x)).map (fun t => (a + (x : Int)) :: t))

/-- excess of a list over the lower bounds -/
def exc (bs : Bnd) (l : List Int) : Int := l.sum - (bs.map Prod.fst).sum

def stepS : Bnd → List Int → Option (List Int)
  | (a, _) :: bs, x :: xs =>
    match stepS bs xs with
    | some ys => some (x :: ys)
    | none =>
      if a < x ∧ exc bs xs + 1 ≤ capSum bs then some ((x - 1) :: greedy bs (exc bs xs + 1)) else none
  | _, _ => none

def Valid (bs : Bnd) : Prop := ∀ ab ∈ bs, ab.1 ≤ ab.2

theorem Valid.cons {a b : Int} {bs : Bnd} (h : Valid ((a, b) :: bs)) : a ≤ b ∧ Valid bs :=
  ⟨h (a, b) (by simp), fun ab hab => h ab (by simp [hab])⟩

theorem capSum_nonneg {bs : Bnd} (h : Valid bs) : 0 ≤ capSum bs := by
  induction bs with
  | nil => simp
  | cons ab bs ih =>
    obtain ⟨a, b⟩ := ab
    obtain ⟨h1, h2⟩ := h.cons
    have := ih h2
    rw [capSum_cons]; omega

def Btw (bs : Bnd) (l : List Int) : Prop := List.Forall₂ (fun ab x => ab.1 ≤ x ∧ x ≤ ab.2) bs l

theorem mem_enumS {bs : Bnd} (h : Valid bs) (p : Nat) (l : List Int) :
    l ∈ enumS bs p ↔ Btw bs l ∧ exc bs l = p := by
  induction bs generalizing p l with
  | nil =>
    unfold enumS
    constructor
    · intro hl
      by_cases hp : p = 0
      · rw [if_pos hp] at hl
        simp at hl
        subst hl
        exact ⟨List.Forall₂.nil, by simp [exc, hp]⟩
      · rw [if_neg hp] at hl; simp at hl
    · rintro ⟨h1, h2⟩
      cases h1
      have : p = 0 := by simp [exc] at h2; omega
      simp [this]
  | cons ab bs ih =>
    obtain ⟨a, b⟩ := ab
    obtain ⟨hab, hv⟩ := h.cons
    simp only [enumS, List.mem_flatMap, List.mem_reverse, List.mem_range, List.mem_map]
    constructor
    · rintro ⟨x, hx, t, ht, rfl⟩
      rw [ih hv] at ht
      refine ⟨List.Forall₂.cons ⟨by simp, by simp; omega⟩ ht.1, ?_⟩
      have := ht.2
      simp only [exc, List.sum_cons, List.map_cons] at *
      omega
    · rintro ⟨h1, h2⟩
      cases h1 with
      | @cons _ y _ t hy ht =>
        have h0 : 0 ≤ exc bs t := by
          have : ∀ (bs : Bnd) (t : List Int), Btw bs t → 0 ≤ exc bs t := by
            intro bs t ht
            induction ht with
            | nil => simp [exc]
            | cons h _ ih => simp only [exc, List.sum_cons, List.map_cons] at *; omega
          exact this _ _ ht
        simp only [exc, List.sum_cons, List.map_cons] at h2 h0
        refine ⟨(y - a).toNat, by simp at hy; omega, t, ?_, by simp at hy; congr 1; omega⟩
        rw [ih hv]
        refine ⟨ht, ?_⟩
        simp only [exc]
        simp at hy
        omega

theorem exc_nonneg {bs : Bnd} {t : List Int} (ht : Btw bs t) : 0 ≤ exc bs t := by
  induction ht with
  | nil => simp [exc]
  | cons h _ ih => simp only [exc, List.sum_cons, List.map_cons] at *; omega

theorem exc_le {bs : Bnd} {t : List Int} (ht : Btw bs t) : exc bs t ≤ capSum bs := by
  induction ht with
  | nil => simp [exc]
  | @cons ab x bs t h _ ih =>
    obtain ⟨a, b⟩ := ab
    simp only [exc, List.sum_cons, List.map_cons, capSum_cons] at *; omega

theorem enumS_empty {bs : Bnd} (h : Valid bs) {p : Nat} (hp : capSum bs < p) : enumS bs p = [] := by
  apply List.eq_nil_iff_forall_not_mem.2
  intro l hl
  rw [mem_enumS h] at hl
  have := exc_le hl.1
  omega

theorem enumS_nodup (bs : Bnd) (p : Nat) : (enumS bs p).Nodup := by
  induction bs generalizing p with
  | nil => unfold enumS; split <;> simp
  | cons ab bs ih =>
    obtain ⟨a, b⟩ := ab
    unfold enumS
    rw [List.nodup_flatMap]
    refine ⟨fun x _ => (ih _).map (fun s t h => by simpa using h), ?_⟩
    have : ((List.range (min (b - a).toNat p + 1)).reverse).Nodup := by
      rw [List.nodup_reverse]; exact List.nodup_range
    refine this.imp ?_
    intro x y hxy
    rw [Function.onFun, List.disjoint_left]
    intro l h1 h2
    rw [List.mem_map] at h1 h2
    obtain ⟨s, _, rfl⟩ := h1
    obtain ⟨t, _, h⟩ := h2
    simp at h
    exact hxy h.1.symm

theorem enumS_length_le (bs : Bnd) (p : Nat) :
    (enumS bs p).length ≤ (bs.map (fun ab => (ab.2 - ab.1 + 1).toNat)).prod ∨ ¬ Valid bs := by
  by_cases hv : Valid bs
  · left
    induction bs generalizing p with
    | nil => unfold enumS; split <;> simp
    | cons ab bs ih =>
      obtain ⟨a, b⟩ := ab
      obtain ⟨hab, hv'⟩ := hv.cons
      unfold enumS
      rw [List.length_flatMap, List.map_cons, List.prod_cons]
      have : ((List.range (min (b - a).toNat p + 1)).reverse.map
          (fun x => ((enumS bs (p - x)).map (fun t => (a + (x : Int)) :: t)).length)).sum ≤
          (List.range (min (b - a).toNat p + 1)).reverse.length •
            (bs.map (fun ab => (ab.2 - ab.1 + 1).toNat)).prod := by
        have h1 := List.sum_le_card_nsmul ((List.range (min (b - a).toNat p + 1)).reverse.map
          (fun x => ((enumS bs (p - x)).map (fun t => (a + (x : Int)) :: t)).length))
          (bs.map (fun ab => (ab.2 - ab.1 + 1).toNat)).prod (by
            intro y hy
            rw [List.mem_map] at hy
            obtain ⟨x, _, rfl⟩ := hy
            rw [List.length_map]
            exact ih (p - x) hv')
        simpa using h1
      refine le_trans this ?_
      show _ * _ ≤ _
      apply Nat.mul_le_mul_right
      simp
      omega
  · exact Or.inr hv

theorem stepS_runs {bs : Bnd} (h : Valid bs) (p : Nat) (hp : (p : Int) ≤ capSum bs) :
    Runs (stepS bs) (greedy bs p) (enumS bs p) := by
  induction bs generalizing p with
  | nil =>
    have : p = 0 := by simp at hp; omega
    subst this
    exact Runs.last rfl
  | cons ab bs ih =>
    obtain ⟨a, b⟩ := ab
    obtain ⟨hab, hv⟩ := h.cons
    have key : ∀ x : Nat, x ≤ p → (p : Int) - x ≤ capSum bs →
        Runs (stepS ((a, b) :: bs)) ((a + (x : Int)) :: greedy bs ((p - x : Nat) : Int))
          ((List.range (x + 1)).reverse.flatMap
            (fun x => (enumS bs (p - x)).map (fun t => (a + (x : Int)) :: t))) := by
      intro x
      induction x with
      | zero =>
        intro _ hc
        have r := ih hv p (by simpa using hc)
        simp only [Nat.zero_add, List.range_one, List.reverse_singleton, List.flatMap_singleton,
          Nat.sub_zero]
        apply Runs.map_last (f := fun t => (a + ((0 : Nat) : Int)) :: t) r
        · intro u v huv
          simp only [stepS, huv]
        · intro u _ huv
          simp [stepS, huv]
      | succ x ihx =>
        intro hx hc
        have r := ih hv (p - (x + 1)) (by omega)
        rw [List.range_succ, List.reverse_append, List.reverse_singleton, List.singleton_append,
          List.flatMap_cons]
        by_cases hcx : (p : Int) - x ≤ capSum bs
        · apply Runs.map_append (f := fun t => (a + ((x + 1 : Nat) : Int)) :: t) r
            (ihx (by omega) hcx)
          · intro u v huv
            simp only [stepS, huv]
          · intro u hu huv
            have he := ((mem_enumS hv _ _).1 hu).2
            have he' : exc bs u + 1 = ((p - x : Nat) : Int) := by omega
            simp only [stepS, huv, he']
            rw [if_pos ⟨by omega, by omega⟩]
            congr 2
            omega
        · have hnil : (List.range (x + 1)).reverse.flatMap
            (fun x => (enumS bs (p - x)).map (fun t => (a + (x : Int)) :: t)) = [] := by
            rw [List.flatMap_eq_nil_iff]
            intro y hy
            simp at hy
            rw [enumS_empty hv (by omega)]
            rfl
          rw [hnil, List.append_nil]
          apply Runs.map_last (f := fun t => (a + ((x + 1 : Nat) : Int)) :: t) r
          · intro u v huv
            simp only [stepS, huv]
          · intro u hu huv
            have he := ((mem_enumS hv _ _).1 hu).2
            simp only [stepS, huv]
            rw [if_neg (by omega)]
    have hx : min b (a + (p : Int)) = a + ((min (b - a).toNat p : Nat) : Int) := by omega
    have hfin := key (min (b - a).toNat p) (by omega) (by rw [capSum_cons] at hp; have := capSum_nonneg hv; omega)
    rw [greedy, enumS, hx]
    convert hfin using 2
    congr 1
    omega

/-! ### The code's functions in terms of bounds -/

/-- consecutive bounds fit: each upper bound is at most the previous lower bound -/
def ChainOK : Int → Bnd → Prop
  | _, [] => True
  | prev, (a, b) :: bs => b ≤ prev ∧ a ≤ b ∧ ChainOK a bs

theorem ChainOK.mono {prev prev' : Int} {bs : Bnd} (h : ChainOK prev bs) (hp : prev ≤ prev') :
    ChainOK prev' bs := by
  cases bs with
  | nil => trivial
  | cons ab bs => exact ⟨le_trans h.1 hp, h.2⟩

theorem ChainOK.valid {prev : Int} {bs : Bnd} (h : ChainOK prev bs) : Valid bs := by
  induction bs generalizing prev with
  | nil => intro ab hab; simp at hab
  | cons ab bs ih =>
    obtain ⟨a, b⟩ := ab
    intro cd hcd
    rcases List.mem_cons.1 hcd with rfl | hcd
    · exact h.2.1
    · exact ih h.2.2 cd hcd

theorem at'_append_length (pre : List Int) (x : Int) (l : List Int) :
    at' (pre ++ x :: l) pre.length = x := by
  unfold at'
  simp

theorem at'_append_length' {pre : List Int} {r : Nat} (hr : pre.length = r) (x : Int) (l : List Int) :
    at' (pre ++ x :: l) r = x := by subst hr; exact at'_append_length _ _ _

theorem set_append_length {pre : List Int} {r : Nat} (hr : pre.length = r) (x y : Int) (l : List Int) :
    (pre ++ y :: l).set r x = pre ++ x :: l := by
  subst hr
  simp

theorem fillLoopA_eq (bs : Bnd) (inner outer ipre opre pre post : List Int) (prev : Int) (rr : Nat)
    (pp : Int) (hi : inner = ipre ++ bs.map Prod.fst) (ho : outer = opre ++ bs.map Prod.snd)
    (hil : ipre.length = rr + 1) (hol : opre.length = rr + 1) (hpl : pre.length = rr)
    (hpost : post.length = bs.length) (hc : ChainOK prev bs) (hpp : 0 ≤ pp) :
    fillLoopA inner outer bs.length (rr + 1) pp (pre ++ prev :: post) =
      (pre ++ prev :: greedy bs pp, max 0 (pp - capSum bs)) := by
  induction bs generalizing ipre opre pre post prev rr pp with
  | nil =>
    have : post = [] := by simpa using hpost
    subst this
    simp only [List.length_nil, fillLoopA, greedy, capSum_nil]
    congr 1
    omega
  | cons ab bs ih =>
    obtain ⟨a, b⟩ := ab
    cases post with
    | nil => simp at hpost
    | cons y post =>
      simp only [List.map_cons] at hi ho
      simp only [List.length_cons, fillLoopA]
      have e1 : at' outer (rr + 1) = b := by rw [ho]; exact at'_append_length' hol _ _
      have e2 : at' inner (rr + 1) = a := by rw [hi]; exact at'_append_length' hil _ _
      have e3 : at' (pre ++ prev :: y :: post) (rr + 1 - 1) = prev :=
        at'_append_length' (by simpa using hpl) _ _
      rw [e1, e2, e3]
      obtain ⟨hb, hab, hc'⟩ := hc
      have hx : min (min b (a + pp)) prev = min b (a + pp) := by omega
      rw [hx]
      have hset : (pre ++ prev :: y :: post).set (rr + 1) (min b (a + pp)) =
          (pre ++ [prev]) ++ min b (a + pp) :: post := by
        rw [show pre ++ prev :: y :: post = (pre ++ [prev]) ++ y :: post by simp]
        exact set_append_length (by simp [hpl]) _ _ _
      rw [hset, ih (ipre ++ [a]) (opre ++ [b]) (pre ++ [prev]) post (min b (a + pp)) (rr + 1)
        (pp - min b (a + pp) + a) (by simp [hi]) (by simp [ho]) (by simp [hil]) (by simp [hol])
        (by simp [hpl]) (by simpa using hpost) (hc'.mono (by omega)) (by omega)]
      have hg : greedy ((a, b) :: bs) pp = min b (a + pp) :: greedy bs (pp - min b (a + pp) + a) := by
        rw [greedy]; congr 2; omega
      rw [hg]
      have hcs := capSum_nonneg hc'.valid
      refine Prod.ext (by simp) ?_
      simp only [capSum_cons]
      omega

theorem greedy_length (bs : Bnd) (p : Int) : (greedy bs p).length = bs.length := by
  induction bs generalizing p with
  | nil => rfl
  | cons ab bs ih => obtain ⟨a, b⟩ := ab; simp [greedy, ih]

theorem pieriFillA_of_row {lam inner outer : List Int} {row : Nat} {p : Int} (hl : lam.length ≠ 0)
    (hr : row ≠ 0) {res : List Int} {pp : Int}
    (h : fillLoopA inner outer (lam.length - row) row p lam = (res, pp)) :
    pieriFillA lam inner outer row p = if pp > 0 then none else some (res.take lam.length) := by
  unfold pieriFillA
  simp only [if_neg hl, if_neg hr, h]

theorem pieriFillA_of_zero {lam inner outer : List Int} {p : Int} (hl : lam.length ≠ 0)
    {res : List Int} {pp : Int}
    (h : fillLoopA inner outer (lam.length - 1) 1
      (p - min (at' outer 0) (at' inner 0 + p) + at' inner 0)
      (lam.set 0 (min (at' outer 0) (at' inner 0 + p))) = (res, pp)) :
    pieriFillA lam inner outer 0 p = if pp > 0 then none else some (res.take lam.length) := by
  unfold pieriFillA
  simp only [if_neg hl, if_true, h]

theorem Btw.append_right {b1 b2 : Bnd} {pre post : List Int} (hl : pre.length = b1.length)
    (h : Btw (b1 ++ b2) (pre ++ post)) : Btw b2 post := by
  induction b1 generalizing pre with
  | nil =>
    have : pre = [] := by simpa using hl
    subst this; exact h
  | cons ab b1 ih =>
    cases pre with
    | nil => simp at hl
    | cons x pre => cases h with
      | cons _ h => exact ih (by simpa using hl) h

/-- `_pieri_fillA` from a row `≥ 1`. -/
theorem pieriFillA_succ (bs : Bnd) (inner outer ipre opre pre post : List Int) (prev : Int) (rr : Nat)
    (pp : Int) (hi : inner = ipre ++ bs.map Prod.fst) (ho : outer = opre ++ bs.map Prod.snd)
    (hil : ipre.length = rr + 1) (hol : opre.length = rr + 1) (hpl : pre.length = rr)
    (hpost : post.length = bs.length) (hc : ChainOK prev bs) (hpp : 0 ≤ pp) :
    pieriFillA (pre ++ prev :: post) inner outer (rr + 1) pp =
      if pp ≤ capSum bs then some (pre ++ prev :: greedy bs pp) else none := by
  have hlen : (pre ++ prev :: post).length = rr + 1 + bs.length := by simp [hpl, hpost]; omega
  have hfl := fillLoopA_eq bs inner outer ipre opre pre post prev rr pp hi ho hil hol hpl hpost hc hpp
  rw [show bs.length = (pre ++ prev :: post).length - (rr + 1) by omega] at hfl
  rw [pieriFillA_of_row (by omega) (by omega) hfl]
  by_cases h : pp ≤ capSum bs
  · rw [if_neg (by omega), if_pos h, List.take_of_length_le]
    simp [greedy_length, hpl, hpost]
  · rw [if_pos (by omega), if_neg h]

/-- `_pieri_fillA` from the top. -/
theorem pieriFillA_zero (bs : Bnd) (lam : List Int) (hbs : bs ≠ []) (k : Int)
    (hlam : lam.length = bs.length) (hc : ChainOK k bs) (p : Int) (hp : 0 ≤ p) :
    pieriFillA lam (bs.map Prod.fst) (bs.map Prod.snd) 0 p =
      if p ≤ capSum bs then some (greedy bs p) else none := by
  obtain ⟨⟨a, b⟩, bs, rfl⟩ := List.exists_cons_of_ne_nil hbs
  cases lam with
  | nil => simp at hlam
  | cons y post =>
    obtain ⟨hb, hab, hc'⟩ := hc
    have hl : post.length = bs.length := by simpa using hlam
    have := fillLoopA_eq bs (((a, b) :: bs).map Prod.fst) (((a, b) :: bs).map Prod.snd) [a] [b] [] post
      (min b (a + p)) 0 (p - min b (a + p) + a) (by simp) (by simp) rfl rfl rfl hl
      (hc'.mono (by omega)) (by omega)
    simp only [List.nil_append, Nat.zero_add] at this
    rw [show bs.length = (y :: post).length - 1 by simp [hl]] at this
    rw [pieriFillA_of_zero (lam := y :: post) (by simp) this]
    have hg : greedy ((a, b) :: bs) p = min b (a + p) :: greedy bs (p - min b (a + p) + a) := by
      rw [greedy]; congr 2; omega
    have hcs := capSum_nonneg hc'.valid
    rw [hg, capSum_cons]
    by_cases h : p ≤ b - a + capSum bs
    · rw [if_neg (by omega), if_pos h, List.take_of_length_le]
      simp [greedy_length, hl]
    · rw [if_pos (by omega), if_neg h]

theorem stepS_append (b1 : Bnd) (pre : List Int) (b2 : Bnd) (post ys : List Int)
    (hl : pre.length = b1.length) (h : stepS b2 post = some ys) :
    stepS (b1 ++ b2) (pre ++ post) = some (pre ++ ys) := by
  induction b1 generalizing pre with
  | nil =>
    have : pre = [] := by simpa using hl
    subst this; simpa using h
  | cons ab b1 ih =>
    obtain ⟨a, b⟩ := ab
    cases pre with
    | nil => simp at hl
    | cons x pre =>
      simp only [List.cons_append, stepS, ih pre (by simpa using hl)]

theorem ChainOK.append_right {prev : Int} {b1 b2 : Bnd} {a b : Int}
    (h : ChainOK prev (b1 ++ (a, b) :: b2)) : ChainOK a b2 := by
  induction b1 generalizing prev with
  | nil => exact h.2.2
  | cons cd b1 ih => exact ih h.2.2

theorem itrLoopA_eq (k : Int) (b1 b2 : Bnd) (pre post : List Int) (hl1 : pre.length = b1.length)
    (hl2 : post.length = b2.length) (hc : ChainOK k (b1 ++ b2)) (hb : Btw (b1 ++ b2) (pre ++ post))
    (hb2 : Btw b2 post) (hs : stepS b2 post = none) :
    itrLoopA (pre ++ post) ((b1 ++ b2).map Prod.fst) ((b1 ++ b2).map Prod.snd) b1.length (exc b2 post) =
      stepS (b1 ++ b2) (pre ++ post) := by
  induction b1 using List.reverseRecOn generalizing pre post b2 with
  | nil =>
    have : pre = [] := by simpa using hl1
    subst this
    simp only [List.length_nil, itrLoopA, List.nil_append, hs]
  | append_singleton b1 ab ih =>
    obtain ⟨a, b⟩ := ab
    rcases List.eq_nil_or_concat pre with h | ⟨pre, x, h⟩
    · subst h; simp at hl1
    · rw [List.concat_eq_append] at h
      subst h
      have hl : pre.length = b1.length := by simpa using hl1
      have hab : Btw ((a, b) :: b2) (x :: post) := by
        have h1 : (b1 ++ [(a, b)]) ++ b2 = b1 ++ ((a, b) :: b2) := by simp
        have h2 : (pre ++ [x]) ++ post = pre ++ (x :: post) := by simp
        rw [h1, h2] at hb
        exact Btw.append_right hl hb
      have hx : a ≤ x ∧ x ≤ b := by cases hab with | cons h _ => exact h
      have hchain : ChainOK a b2 := by
        have h1 : (b1 ++ [(a, b)]) ++ b2 = b1 ++ ((a, b) :: b2) := by simp
        rw [h1] at hc; exact hc.append_right
      have e0 := exc_nonneg hb2
      have eassoc : (b1 ++ [(a, b)]) ++ b2 = b1 ++ ((a, b) :: b2) := by simp
      have eassoc' : (pre ++ [x]) ++ post = pre ++ (x :: post) := by simp
      have hexc : exc ((a, b) :: b2) (x :: post) = exc b2 post + x - a := by
        simp only [exc, List.sum_cons, List.map_cons]; omega
      rw [eassoc] at hc hb ⊢
      rw [eassoc'] at hb ⊢
      have e1 : at' (pre ++ x :: post) b1.length = x := at'_append_length' hl _ _
      have e2 : at' ((b1 ++ (a, b) :: b2).map Prod.fst) b1.length = a := by
        rw [List.map_append, List.map_cons]; exact at'_append_length' (by simp) _ _
      have hrec := fun hs' => ih ((a, b) :: b2) pre (x :: post) hl (by simp [hl2]) hc hb hab hs'
      simp only [List.length_append, List.length_singleton, itrLoopA]
      rw [e1, e2]
      by_cases hxa : a < x
      · rw [if_pos hxa, set_append_length hl]
        have hfill := pieriFillA_succ b2 ((b1 ++ (a, b) :: b2).map Prod.fst)
          ((b1 ++ (a, b) :: b2).map Prod.snd) (b1.map Prod.fst ++ [a]) (b1.map Prod.snd ++ [b]) pre post
          (x - 1) b1.length (exc b2 post + 1) (by simp) (by simp) (by simp) (by simp) hl hl2
          (hchain.mono (by omega)) (by omega)
        rw [hfill]
        by_cases hcap : exc b2 post + 1 ≤ capSum b2
        · rw [if_pos hcap]
          have : stepS ((a, b) :: b2) (x :: post) =
              some ((x - 1) :: greedy b2 (exc b2 post + 1)) := by
            simp only [stepS, hs]; rw [if_pos ⟨hxa, hcap⟩]
          rw [stepS_append _ _ _ _ _ hl this]
        · rw [if_neg hcap]
          dsimp only
          rw [← hexc]
          apply hrec
          simp only [stepS, hs]; rw [if_neg (by omega)]
      · rw [if_neg (by omega)]
        have : exc b2 post = exc ((a, b) :: b2) (x :: post) := by rw [hexc]; omega
        rw [this]
        apply hrec
        simp only [stepS, hs]; rw [if_neg (by omega)]

theorem pieriItrA_eq (k : Int) (bs : Bnd) (mu : List Int) (hne : bs ≠ []) (hc : ChainOK k bs)
    (hb : Btw bs mu) :
    pieriItrA mu (bs.map Prod.fst) (bs.map Prod.snd) = stepS bs mu := by
  have hl : mu.length = bs.length := (List.Forall₂.length_eq hb).symm
  have hmu : mu ≠ [] := by rintro rfl; simp at hl; exact hne (List.eq_nil_of_length_eq_zero hl.symm)
  unfold pieriItrA
  have hpos : 0 < bs.length := List.length_pos_of_ne_nil hne
  rw [if_neg (by omega)]
  obtain ⟨b1, ab, rfl⟩ : ∃ b1 ab, bs = b1 ++ [ab] := by
    rcases List.eq_nil_or_concat bs with h | ⟨b1, ab, h⟩
    · exact absurd h hne
    · exact ⟨b1, ab, by simpa using h⟩
  obtain ⟨pre, x, rfl⟩ : ∃ pre x, mu = pre ++ [x] := by
    rcases List.eq_nil_or_concat mu with h | ⟨b1, ab, h⟩
    · exact absurd h hmu
    · exact ⟨b1, ab, by simpa using h⟩
  obtain ⟨a, b⟩ := ab
  have hl1 : pre.length = b1.length := by simpa using hl
  have hb2 : Btw [(a, b)] [x] := Btw.append_right hl1 hb
  have := itrLoopA_eq k b1 [(a, b)] pre [x] hl1 rfl hc hb hb2 (by simp [stepS, exc])
  rw [← this]
  have e1 : last' (pre ++ [x]) = x := by simp [last']
  have e2 : last' ((b1 ++ [(a, b)]).map Prod.fst) = a := by simp [last']
  rw [e1, e2]
  simp [exc, hl1]

end Verif
