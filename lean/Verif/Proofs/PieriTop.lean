import Verif.Proofs.PieriBot
/-!
# The enumeration behind `part_itr_between`

`enumD c bs`: all weakly decreasing lists between the lower and upper bounds `bs`, first entry at most `c`,
in descending lexicographic order.
-/

namespace Verif
open Spec

def topD : Int → Bnd → List Int
  | _, [] => []
  | c, (_, b) :: bs => min b c :: topD (min b c) bs

def enumD : Int → Bnd → List (List Int)
  | _, [] => [[]]
  | c, (a, b) :: bs =>
    (List.range ((min b c - a).toNat + 1)).reverse.flatMap
      (fun x : Nat => (enumD (a + (x : Int)) bs).map (fun t => (a + (x : Int)) :: t))

def stepD : Bnd → List Int → Option (List Int)
  | (a, _) :: bs, x :: xs =>
    match stepD bs xs with
    | some ys => some (x :: ys)
    | none => if a < x then some ((x - 1) :: topD (x - 1) bs) else none
  | _, _ => none

/-- the lower bounds are decreasing, below the upper bounds, the first at most `c` -/
def ValidD : Int → Bnd → Prop
  | _, [] => True
  | c, (a, b) :: bs => a ≤ c ∧ a ≤ b ∧ ValidD a bs

/-- the upper bounds are decreasing -/
def DecD : Bnd → Prop
  | [] => True
  | (_, b) :: bs => (∀ cd ∈ bs, cd.2 ≤ b) ∧ DecD bs

/-- weakly decreasing, between the bounds, the first entry at most `c` -/
def BtwD : Int → Bnd → List Int → Prop
  | _, [], [] => True
  | c, (a, b) :: bs, x :: xs => (a ≤ x ∧ x ≤ b ∧ x ≤ c) ∧ BtwD x bs xs
  | _, _, _ => False

theorem ValidD.mono {c c' : Int} {bs : Bnd} (h : ValidD c bs) (hc : c ≤ c') : ValidD c' bs := by
  cases bs with
  | nil => trivial
  | cons ab bs => exact ⟨le_trans h.1 hc, h.2⟩

theorem BtwD.length {c : Int} {bs : Bnd} {l : List Int} (h : BtwD c bs l) : l.length = bs.length := by
  induction bs generalizing c l with
  | nil => cases l with
    | nil => rfl
    | cons => exact absurd h (by simp [BtwD])
  | cons ab bs ih =>
    cases l with
    | nil => exact absurd h (by simp [BtwD])
    | cons x l => simp [ih h.2]

theorem mem_enumD {c : Int} {bs : Bnd} (h : ValidD c bs) (l : List Int) :
    l ∈ enumD c bs ↔ BtwD c bs l := by
  induction bs generalizing c l with
  | nil =>
    cases l with
    | nil => simp [enumD, BtwD]
    | cons => simp [enumD, BtwD]
  | cons ab bs ih =>
    obtain ⟨a, b⟩ := ab
    obtain ⟨hac, hab, hv⟩ := h
    simp only [enumD, List.mem_flatMap, List.mem_reverse, List.mem_range, List.mem_map]
    constructor
    · rintro ⟨x, hx, t, ht, rfl⟩
      rw [ih (hv.mono (by omega))] at ht
      exact ⟨⟨by omega, by omega, by omega⟩, ht⟩
    · intro h1
      cases l with
      | nil => exact absurd h1 (by simp [BtwD])
      | cons y t =>
        obtain ⟨⟨g1, g2, g3⟩, ht⟩ := h1
        have e : a + ((y - a).toNat : Int) = y := by omega
        refine ⟨(y - a).toNat, by omega, t, ?_, by rw [e]⟩
        rw [e, ih (hv.mono (by omega))]
        exact ht

theorem enumD_length_le {c : Int} {bs : Bnd} (hv : ValidD c bs) :
    (enumD c bs).length ≤ (bs.map (fun ab => (ab.2 - ab.1 + 1).toNat)).prod := by
  induction bs generalizing c with
  | nil => simp [enumD]
  | cons ab bs ih =>
    obtain ⟨a, b⟩ := ab
    obtain ⟨hac, hab, hv'⟩ := hv
    unfold enumD
    rw [List.length_flatMap, List.map_cons, List.prod_cons]
    have : ((List.range ((min b c - a).toNat + 1)).reverse.map
        (fun x : Nat => ((enumD (a + (x : Int)) bs).map (fun t => (a + (x : Int)) :: t)).length)).sum ≤
        (List.range ((min b c - a).toNat + 1)).reverse.length •
          (bs.map (fun ab => (ab.2 - ab.1 + 1).toNat)).prod := by
      have h1 := List.sum_le_card_nsmul ((List.range ((min b c - a).toNat + 1)).reverse.map
        (fun x : Nat => ((enumD (a + (x : Int)) bs).map (fun t => (a + (x : Int)) :: t)).length))
        (bs.map (fun ab => (ab.2 - ab.1 + 1).toNat)).prod (by
          intro y hy
          rw [List.mem_map] at hy
          obtain ⟨x, _, rfl⟩ := hy
          rw [List.length_map]
          exact ih (hv'.mono (by omega)))
      simpa using h1
    refine le_trans this ?_
    show _ * _ ≤ _
    apply Nat.mul_le_mul_right
    simp
    omega

theorem stepD_runs {c : Int} {bs : Bnd} (h : ValidD c bs) : Runs (stepD bs) (topD c bs) (enumD c bs) := by
  induction bs generalizing c with
  | nil => exact Runs.last rfl
  | cons ab bs ih =>
    obtain ⟨a, b⟩ := ab
    obtain ⟨hac, hab, hv⟩ := h
    have key : ∀ x : Nat,
        Runs (stepD ((a, b) :: bs)) ((a + (x : Int)) :: topD (a + (x : Int)) bs)
          ((List.range (x + 1)).reverse.flatMap
            (fun x : Nat => (enumD (a + (x : Int)) bs).map (fun t => (a + (x : Int)) :: t))) := by
      intro x
      induction x with
      | zero =>
        have r := ih (c := a + ((0 : Nat) : Int)) (hv.mono (by omega))
        simp only [Nat.zero_add, List.range_one, List.reverse_singleton, List.flatMap_singleton]
        apply Runs.map_last (f := fun t => (a + ((0 : Nat) : Int)) :: t) r
        · intro u v huv
          simp only [stepD, huv]
        · intro u _ huv
          simp [stepD, huv]
      | succ x ihx =>
        have r := ih (c := a + ((x + 1 : Nat) : Int)) (hv.mono (by omega))
        rw [List.range_succ, List.reverse_append, List.reverse_singleton, List.singleton_append,
          List.flatMap_cons]
        apply Runs.map_append (f := fun t => (a + ((x + 1 : Nat) : Int)) :: t) r ihx
        · intro u v huv
          simp only [stepD, huv]
        · intro u hu huv
          have e3 : a + ((x + 1 : Nat) : Int) - 1 = a + (x : Int) := by omega
          simp only [stepD, huv]
          rw [e3, if_pos (by omega)]
    have hx : min b c = a + (((min b c - a).toNat : Nat) : Int) := by omega
    have := key (min b c - a).toNat
    rw [← hx] at this
    rw [topD, enumD]
    exact this

theorem betweenLoop_cons (x : Int) (xs : List Int) (a : Int) (A : List Int) (m : Nat) :
    betweenLoop (x :: xs) (a :: A) (m + 1) =
      match betweenLoop xs A m with
      | 0 => if x = a then 0 else 1
      | i + 1 => i + 2 := by
  induction m with
  | zero => simp [betweenLoop, at']
  | succ m ih =>
    rw [betweenLoop]
    have e1 : at' (x :: xs) (m + 1) = at' xs m := by simp [at']
    have e2 : at' (a :: A) (m + 1) = at' A m := by simp [at']
    rw [e1, e2, ih]
    conv_rhs => rw [betweenLoop]
    by_cases h : at' xs m = at' A m
    · rw [if_pos h, if_pos h]
    · rw [if_neg h, if_neg h]

theorem topD_eq_map {bs : Bnd} (h : DecD bs) (c : Int) : topD c bs = bs.map (fun ab => min c ab.2) := by
  have gen : ∀ c c' : Int, (∀ cd ∈ bs, min c' cd.2 = min c cd.2) → topD c' bs = bs.map (fun ab => min c ab.2) := by
    induction bs with
    | nil => intros; rfl
    | cons ab bs ih =>
      obtain ⟨a, b⟩ := ab
      intro c c' hcc
      rw [topD, List.map_cons]
      have h0 := hcc (a, b) (by simp)
      simp only at h0
      rw [ih h.2 (c) (min b c') (fun cd hcd => by
        have h1 := hcc cd (by simp [hcd])
        have h2 := h.1 cd hcd
        omega)]
      congr 1
      omega
  exact gen c c (fun _ _ => rfl)

theorem partItrBetween_eq {c : Int} {bs : Bnd} {mu : List Int} (hd : DecD bs) (hb : BtwD c bs mu) :
    partItrBetween mu (bs.map Prod.fst) (bs.map Prod.snd) = stepD bs mu := by
  induction bs generalizing c mu with
  | nil => cases mu with
    | nil => rfl
    | cons => exact absurd hb (by simp [BtwD])
  | cons ab bs ih =>
    obtain ⟨a, b⟩ := ab
    cases mu with
    | nil => exact absurd hb (by simp [BtwD])
    | cons x xs =>
      have ih' := ih hd.2 hb.2
      have hl := hb.2.length
      unfold partItrBetween at ih' ⊢
      simp only [List.map_cons, List.length_cons, betweenLoop_cons]
      rw [stepD, ← ih']
      cases hbl : betweenLoop xs (bs.map Prod.fst) xs.length with
      | zero =>
        dsimp only
        by_cases hxa : x = a
        · rw [if_pos hxa, if_neg (by omega)]
        · rw [if_neg hxa, if_pos (by have := hb.1.1; omega)]
          dsimp only
          rw [topD_eq_map hd.2]
          simp only [List.take_zero, List.nil_append, Nat.sub_zero]
          rw [List.range_succ_eq_map, List.map_cons, List.map_map]
          have e0 : at' (x :: xs) 0 = x := rfl
          have e1 : at' (b :: bs.map Prod.snd) (0 + 0) = b := rfl
          rw [e0, e1, show min (x - 1) b = x - 1 by have := hb.1.2.1; omega]
          congr 2
          apply List.ext_getElem
          · simp [hl]
          · intro i h1 h2
            simp [at'] at h1 ⊢
            rw [List.getElem?_eq_getElem (by omega)]
            simp
      | succ i =>
        dsimp only
        have h0 : at' (x :: xs) (i + 1) = at' xs i := by simp [at']
        rw [h0]
        simp only [List.take_succ_cons, List.cons_append, Option.some.injEq, List.cons.injEq, true_and]
        rw [show xs.length + 1 - (i + 1) = xs.length - i by omega]
        congr 1
        apply List.map_congr_left
        intro j _
        have : at' (b :: bs.map Prod.snd) (i + 1 + j) = at' (bs.map Prod.snd) (i + j) := by
          rw [show i + 1 + j = (i + j) + 1 by omega]; simp [at']
        rw [this]

end Verif
