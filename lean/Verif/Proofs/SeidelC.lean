import Verif.Proofs.SeidelW
import Verif.Proofs.WordD
/-!
# Type C: reading the words backwards
-/

namespace Verif
open Spec

section
variable {R : Type*} [CommRing R]

theorem wt_eq_wtE (c x : R) (s : St) (u w : List L3) : wt c x s u w = wtE (endW c x) x s u w := by
  induction u generalizing s w with
  | nil => cases w <;> rfl
  | cons p u ih =>
    cases w with
    | nil => rfl
    | cons q w =>
      simp only [wt, wtE]
      rcases step s p q with _ | ⟨t, i, j⟩
      · rfl
      · simp only [ih]

/-- the weight of one step -/
def w1 (x : R) (s : St) (p q : L3) (t : St) : R :=
  match step s p q with
  | some (t', i, j) => if t' = t then 2 ^ i * x ^ j else 0
  | none => 0

/-- the sum over the states -/
def sumSt (f : St → R) : R := f .z + f .lr + f .l + f .r

theorem sumSt_comm (f : St → St → R) : sumSt (fun s => sumSt (fun t => f s t)) = sumSt (fun t => sumSt (fun s => f s t)) := by
  simp only [sumSt]; ring

theorem sumSt_mul (a : R) (f : St → R) : a * sumSt f = sumSt (fun s => a * f s) := by
  simp only [sumSt]; ring

theorem sumSt_mul' (f : St → R) (a : R) : sumSt f * a = sumSt (fun s => f s * a) := by
  simp only [sumSt]; ring

theorem sumSt_dual (f : St → R) : sumSt (fun s => f s.dual) = sumSt f := by
  simp only [sumSt, St.dual]; ring

theorem wtE_cons (e : St → R) (x : R) (s : St) (p q : L3) (u w : List L3) :
    wtE e x s (p :: u) (q :: w) = sumSt (fun t => w1 x s p q t * wtE e x t u w) := by
  simp only [wtE, w1]
  rcases step s p q with _ | ⟨t, i, j⟩
  · simp [sumSt]
  · cases t <;> simp [sumSt]

theorem wtE_append (e : St → R) (x : R) (p q : L3) : ∀ (u w : List L3) (s : St), u.length = w.length →
    wtE e x s (u ++ [p]) (w ++ [q]) = wtE (fun t => sumSt (fun t' => w1 x t p q t' * e t')) x s u w := by
  intro u
  induction u with
  | nil =>
    intro w s hl
    obtain rfl : w = [] := List.length_eq_zero_iff.1 (by simpa using hl.symm)
    rw [List.nil_append, List.nil_append, wtE_cons]
    rfl
  | cons r u ih =>
    intro w s hl
    cases w with
    | nil => simp at hl
    | cons r' w =>
      rw [List.cons_append, List.cons_append, wtE_cons, wtE_cons]
      congr 1
      funext t
      rw [ih w t (by simpa using hl)]

/-- the form with given weights at both ends -/
def bilW (i e : St → R) (x : R) (u w : List L3) : R := sumSt (fun s => i s * wtE e x s u w)

/-- the weights that make the steps symmetric -/
def gG (x : R) : St → R
  | .z => 1
  | .lr => 2 * x
  | _ => x

theorem w1_rev (x : R) (s t : St) (p q : L3) :
    w1 x t p.dual q.dual s.dual * gG x s = gG x t * w1 x s p q t.dual := by
  cases s <;> cases t <;> cases p <;> cases q <;> simp [w1, step, gG, St.dual, L3.dual] <;> ring

/-- backwards, with the first and the second half exchanged -/
def revW (u : List L3) : List L3 := (dualW u).reverse

theorem revW_cons (p : L3) (u : List L3) : revW (p :: u) = revW u ++ [p.dual] := by
  unfold revW
  rw [show dualW (p :: u) = p.dual :: dualW u from rfl, List.reverse_cons]

theorem bilW_rev (x : R) (j : St → R) : ∀ (u w : List L3) (i : St → R), u.length = w.length →
    bilW i (fun t => gG x t * j t.dual) x u w = bilW j (fun t => gG x t * i t.dual) x (revW u) (revW w) := by
  intro u
  induction u with
  | nil =>
    intro w i hl
    obtain rfl : w = [] := List.length_eq_zero_iff.1 (by simpa using hl.symm)
    simp only [bilW, sumSt, revW, dualW, List.map_nil, List.reverse_nil, wtE, gG, St.dual]
    ring
  | cons p u ih =>
    intro w i hl
    cases w with
    | nil => simp at hl
    | cons q w =>
      have hl' : u.length = w.length := by simpa using hl
      have h1 : bilW i (fun t => gG x t * j t.dual) x (p :: u) (q :: w) =
          bilW (fun t => sumSt (fun s => i s * w1 x s p q t)) (fun t => gG x t * j t.dual) x u w := by
        unfold bilW
        simp only [wtE_cons, sumSt_mul, sumSt_mul']
        rw [sumSt_comm]
        simp only [mul_assoc]
      rw [h1, ih w _ hl', revW_cons, revW_cons]
      unfold bilW
      have hlr : (revW u).length = (revW w).length := by simp [revW, hl']
      congr 1
      funext s
      rw [wtE_append _ _ _ _ _ _ _ hlr]
      congr 2
      funext t
      rw [sumSt_mul, ← sumSt_dual]
      congr 1
      funext s'
      have := w1_rev x s'.dual t p q
      have hd : s'.dual.dual = s' := by cases s' <;> rfl
      have hg : gG x s'.dual = gG x s' := by cases s' <;> rfl
      rw [hd, hg] at this
      linear_combination -i s'.dual * this

theorem opW_rev (c h x : R) {u w : List L3} (hl : u.length = w.length) :
    opW (2 * c) h x u w = opW (2 * h) c x (revW u) (revW w) := by
  have := bilW_rev x (fun s => match s with | .z => 1 | .lr => c | _ => 0) u w (fun s => match s with | .z => 1 | .lr => h | _ => 0) hl
  have e : ∀ c : R, (fun t : St => gG x t * (match t.dual with | .z => (1 : R) | .lr => c | _ => 0)) = endW (2 * c) x := by
    intro c
    funext t
    cases t <;> simp [gG, endW, St.dual]
    ring
  simp only [e] at this
  unfold opW
  rw [wt_eq_wtE, wt_eq_wtE, wt_eq_wtE, wt_eq_wtE]
  simpa [bilW, sumSt] using this

/-- the number of letters `a` -/
def cntA (u : List L3) : ℕ := u.count .a

/-- the number of open letters `a` -/
def St.chA : St → ℕ
  | .lr | .l => 1
  | _ => 0

theorem wtE_scale (y : R) (e : St → R) (x : R) : ∀ (u w : List L3) (s : St),
    y ^ (s.chA + cntA w) * wtE e x s u w = y ^ cntA u * wtE (fun t => y ^ t.chA * e t) x s u w := by
  intro u
  induction u with
  | nil =>
    intro w s
    cases w with
    | nil => simp [wtE, cntA]
    | cons q w => simp [wtE]
  | cons p u ih =>
    intro w s
    cases w with
    | nil => simp [wtE]
    | cons q w =>
      have hs : ∀ t i j, step s p q = some (t, i, j) → s.chA + cntA (q :: w) + cntA u = cntA (p :: u) + (t.chA + cntA w) := by
        intro t i j h
        cases s <;> cases p <;> cases q <;> simp [step] at h <;> obtain ⟨rfl, -⟩ := h <;> simp [St.chA, cntA] <;> omega
      simp only [wtE]
      rcases hst : step s p q with _ | ⟨t, i, j⟩
      · simp
      · have h1 := ih w t
        have h2 := hs t i j hst
        have h3 : s.chA + cntA (q :: w) = (cntA (p :: u) - cntA u) + (t.chA + cntA w) := by
          have : cntA u ≤ cntA (p :: u) := by simp [cntA, List.count_cons]
          omega
        simp only
        rw [h3, pow_add]
        calc y ^ (cntA (p :: u) - cntA u) * y ^ (t.chA + cntA w) * (2 ^ i * x ^ j * wtE e x t u w)
            = y ^ (cntA (p :: u) - cntA u) * (2 ^ i * x ^ j) * (y ^ (t.chA + cntA w) * wtE e x t u w) := by ring
          _ = y ^ (cntA (p :: u) - cntA u + cntA u) * (2 ^ i * x ^ j * wtE (fun t => y ^ t.chA * e t) x t u w) := by
            rw [h1, pow_add]; ring
          _ = _ := by
            rw [Nat.sub_add_cancel (by simp [cntA, List.count_cons])]

theorem opW_scale (y c h x : R) (u w : List L3) : y ^ cntA w * opW c (y * h) x u w = y ^ cntA u * opW (y * c) h x u w := by
  have h1 := wtE_scale y (endW c x) x u w .z
  have h2 := wtE_scale y (endW c x) x u w .lr
  have e : (fun t : St => y ^ t.chA * endW c x t) = endW (y * c) x := by
    funext t
    cases t <;> simp [St.chA, endW]
    ring
  rw [e] at h1 h2
  simp only [St.chA, zero_add] at h1 h2
  unfold opW
  rw [wt_eq_wtE, wt_eq_wtE, wt_eq_wtE, wt_eq_wtE, mul_add, mul_add, h1]
  linear_combination h * h2

end

theorem revW_length (u : List L3) : (revW u).length = u.length := by simp [revW]

theorem revW_revW (u : List L3) : revW (revW u) = u := by
  unfold revW
  rw [show dualW (dualW u).reverse = (dualW (dualW u)).reverse by simp [dualW], dualW_dualW, List.reverse_reverse]

theorem colsW_count (u : List L3) : colsW 0 u = u.count .o := by
  induction u with
  | nil => rfl
  | cons p u ih => cases p <;> simp [colsW, ih]

theorem colsW_revW (u : List L3) : colsW 0 (revW u) = colsW 0 u := by
  rw [← colsW_dualW 0 u, colsW_count, colsW_count, revW, List.count_reverse]

theorem revW_mem {n k : Nat} {u : List L3} (h : u ∈ Wd n k) : revW u ∈ Wd n k := by
  rw [mem_Wd] at h ⊢
  rw [revW_length, colsW_revW]
  exact h

open Polynomial in
theorem MC_rev (p : Nat) {n k : Nat} {u w : List L3} (hu : u ∈ Wd n k) (hw : w ∈ Wd n k) :
    X ^ cntA u * MC (C (1 / 2) * X) p (revW u) (revW w) = X ^ cntA w * MC (C (1 / 2) * X) p u w := by
  rw [mem_Wd] at hu hw
  unfold MC
  have hr := opW_rev (C (C (1 / 2)) : (Polynomial ℚ)[X]) (C (C (1 / 2) * X)) X (u := revW u) (w := revW w)
    (by rw [revW_length, revW_length, hu.1, hw.1])
  rw [revW_revW, revW_revW] at hr
  have e1 : (2 * C (C (1 / 2)) : (Polynomial ℚ)[X]) = C 1 := by
    rw [show (2 : (Polynomial ℚ)[X]) = C (C 2) by rw [show (C (2 : ℚ)) = 2 from map_ofNat _ 2]; exact (map_ofNat _ 2).symm, ← C_mul, ← C_mul]; norm_num
  have e2 : (2 * C (C (1 / 2) * X) : (Polynomial ℚ)[X]) = C X := by
    rw [C_mul, ← mul_assoc, e1]; simp
  have e3 : (C (C (1 / 2) * X) : (Polynomial ℚ)[X]) = C X * C (C (1 / 2)) := by rw [← C_mul, mul_comm]
  have hs := opW_scale (C X : (Polynomial ℚ)[X]) (C 1) (C (C (1 / 2))) X u w
  rw [← e3, show (C X * C 1 : (Polynomial ℚ)[X]) = C X by simp] at hs
  rw [e1, e2] at hr
  rw [hr, ← Polynomial.coeff_C_mul, ← Polynomial.coeff_C_mul, C_pow, C_pow, hs]

end Verif
