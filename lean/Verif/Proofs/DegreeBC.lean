import Verif.Proofs.RingBC
import Verif.Proofs.WordD2Odd
import Verif.Proofs.RelationsQ
import Verif.Proofs.RingOps
import Verif.Spec.Degree
import Mathlib.LinearAlgebra.Lagrange
import Mathlib.Tactic.FieldSimp
import Mathlib.Tactic.LinearCombination
/-!
# Powers of the class of a hyperplane on `OG(n, 2n+1)` and `IG(n, 2n)`: shifted tableaux
-/

namespace Verif
open Spec
open scoped Nat

/-! ### The identity behind the recursion -/

theorem shift_identity {S : Finset ℕ} (hS : ∀ v ∈ S, 1 ≤ v) :
    ∑ v ∈ S, ((v : ℚ) * ∏ y ∈ S.erase v, (((v : ℚ) + y) * (v - y - 1) / ((v - y) * (v + y - 1)))) = ∑ v ∈ S, (v : ℚ) := by
  rcases S.eq_empty_or_nonempty with rfl | hne
  · simp
  classical
  set yv : ℕ → ℚ := fun v => v * (v - 1) with hy
  set zv : ℕ → ℚ := fun v => v * (v + 1) with hz
  set Pz : Polynomial ℚ := ∏ j ∈ S, (Polynomial.X - Polynomial.C (zv j)) with hPz
  set Py : Polynomial ℚ := ∏ j ∈ S, (Polynomial.X - Polynomial.C (yv j)) with hPy
  have hcard : 0 < S.card := Finset.card_pos.2 hne
  have inj : Set.InjOn yv S := by
    intro a ha b hb h
    have h1 : (1 : ℚ) ≤ a := by exact_mod_cast hS a ha
    have h2 : (1 : ℚ) ≤ b := by exact_mod_cast hS b hb
    have h3 : ((a : ℚ) - b) * (a + b - 1) = 0 := by
      simp only [hy] at h
      linear_combination h
    rcases mul_eq_zero.1 h3 with h4 | h4
    · exact_mod_cast sub_eq_zero.1 h4
    · exfalso; linarith
  have dz : Pz.degree = S.card := by
    rw [hPz, Polynomial.degree_prod]
    simp
  have dy : Py.degree = S.card := by
    rw [hPy, Polynomial.degree_prod]
    simp
  have hdeg : (Pz - Py).degree < S.card := by
    rw [← dz]
    refine Polynomial.degree_sub_lt (dz.trans dy.symm) (Polynomial.Monic.ne_zero (Polynomial.monic_prod_of_monic _ _ fun i _ => Polynomial.monic_X_sub_C _)) ?_
    rw [Polynomial.Monic.leadingCoeff (Polynomial.monic_prod_of_monic _ _ fun i _ => Polynomial.monic_X_sub_C _),
      Polynomial.Monic.leadingCoeff (Polynomial.monic_prod_of_monic _ _ fun i _ => Polynomial.monic_X_sub_C _)]
  have key := Lagrange.coeff_eq_sum inj hdeg
  rw [Polynomial.coeff_sub, hPz, hPy, Polynomial.prod_X_sub_C_coeff_card_pred _ _ hcard, Polynomial.prod_X_sub_C_coeff_card_pred _ _ hcard] at key
  have hev : ∀ i ∈ S, (Polynomial.eval (yv i) (∏ j ∈ S, (Polynomial.X - Polynomial.C (zv j)) - ∏ j ∈ S, (Polynomial.X - Polynomial.C (yv j)))) /
      ∏ j ∈ S.erase i, (yv i - yv j) =
      -2 * ((i : ℚ) * ∏ y ∈ S.erase i, (((i : ℚ) + y) * (i - y - 1) / ((i - y) * (i + y - 1)))) := by
    intro i hi
    rw [Polynomial.eval_sub, Polynomial.eval_prod, Polynomial.eval_prod]
    have h0 : ∏ j ∈ S, Polynomial.eval (yv i) (Polynomial.X - Polynomial.C (yv j)) = 0 :=
      Finset.prod_eq_zero hi (by simp)
    rw [h0, sub_zero, ← Finset.mul_prod_erase _ _ hi, mul_div_assoc, ← Finset.prod_div_distrib, ← mul_assoc]
    congr 1
    · simp only [Polynomial.eval_sub, Polynomial.eval_X, Polynomial.eval_C, hy, hz]
      ring
    · refine Finset.prod_congr rfl fun j _ => ?_
      simp only [Polynomial.eval_sub, Polynomial.eval_X, Polynomial.eval_C, hy, hz]
      congr 1 <;> ring
  rw [Finset.sum_congr rfl hev, ← Finset.mul_sum] at key
  have h2 : -∑ i ∈ S, zv i - -∑ i ∈ S, yv i = -2 * ∑ v ∈ S, (v : ℚ) := by
    rw [Finset.mul_sum, ← Finset.sum_neg_distrib, ← Finset.sum_neg_distrib, ← Finset.sum_sub_distrib]
    refine Finset.sum_congr rfl fun v _ => ?_
    simp only [hy, hz]
    ring
  rw [h2] at key
  linarith

/-! ### The product of a set -/

/-- `|x - y| / (x + y)` -/
def dq (x y : ℕ) : ℚ := |(x : ℚ) - y| / (x + y)

theorem dq_comm (x y : ℕ) : dq x y = dq y x := by rw [dq, dq, abs_sub_comm, add_comm]

/-- the product of a set of parts -/
def fS (S : Finset ℕ) : ℚ := ∏ x ∈ S, (1 / (x ! : ℚ) * ∏ y ∈ S with y < x, dq x y)

theorem fS_insert {v : ℕ} {T : Finset ℕ} (hv : v ∉ T) : fS (insert v T) = 1 / (v ! : ℚ) * (∏ y ∈ T, dq v y) * fS T := by
  unfold fS
  rw [Finset.prod_insert hv, Finset.filter_insert, if_neg (lt_irrefl v)]
  have h1 : ∀ x ∈ T, (1 / (x ! : ℚ) * ∏ y ∈ insert v T with y < x, dq x y) =
      (if v < x then dq v x else 1) * (1 / (x ! : ℚ) * ∏ y ∈ T with y < x, dq x y) := by
    intro x _
    rw [Finset.filter_insert]
    split
    · rw [Finset.prod_insert (by simp [hv]), dq_comm v x]
      ring
    · rw [one_mul]
  rw [Finset.prod_congr rfl h1, Finset.prod_mul_distrib]
  have h2 : ∏ y ∈ T, dq v y = (∏ y ∈ T with y < v, dq v y) * ∏ x ∈ T, (if v < x then dq v x else 1) := by
    rw [Finset.prod_filter, ← Finset.prod_mul_distrib]
    refine Finset.prod_congr rfl fun y hy => ?_
    have : y ≠ v := fun h => hv (h ▸ hy)
    rcases lt_or_gt_of_ne this with h | h
    · rw [if_pos h, if_neg (by omega), mul_one]
    · rw [if_neg (by omega), if_pos h, one_mul]
  rw [h2]
  ring

/-- one part less by one -/
def mv (v : ℕ) (S : Finset ℕ) : Finset ℕ := if v = 1 then S.erase v else insert (v - 1) (S.erase v)

theorem fS_mv {S : Finset ℕ} (hS : ∀ v ∈ S, 1 ≤ v) {v : ℕ} (hv : v ∈ S) (hv' : v - 1 ∉ S) :
    fS (mv v S) = fS S * ((v : ℚ) * ∏ y ∈ S.erase v, (((v : ℚ) + y) * (v - y - 1) / ((v - y) * (v + y - 1)))) := by
  obtain ⟨t, rfl⟩ : ∃ t, v = t + 1 := ⟨v - 1, by have := hS v hv; omega⟩
  rw [Nat.add_sub_cancel] at hv'
  set T := S.erase (t + 1) with hT
  have hnot : t + 1 ∉ T := Finset.notMem_erase _ _
  have hnot' : t ∉ T := fun h => hv' (Finset.mem_of_mem_erase h)
  have e1 : fS S = 1 / ((t + 1)! : ℚ) * (∏ y ∈ T, dq (t + 1) y) * fS T := by
    rw [← fS_insert hnot, hT, Finset.insert_erase hv]
  have e2 : fS (mv (t + 1) S) = 1 / (t ! : ℚ) * (∏ y ∈ T, dq t y) * fS T := by
    unfold mv
    rw [Nat.add_sub_cancel]
    split
    · rename_i h
      have ht : t = 0 := by omega
      subst ht
      have : ∏ y ∈ T, dq 0 y = 1 := by
        refine Finset.prod_eq_one fun y hy => ?_
        have h1 : (1 : ℚ) ≤ y := by exact_mod_cast hS y (Finset.mem_of_mem_erase hy)
        unfold dq
        rw [Nat.cast_zero, zero_sub, abs_neg, zero_add, abs_of_nonneg (by linarith), div_self (by linarith)]
      rw [this]
      simp [hT]
    · exact fS_insert hnot'
  rw [e1, e2]
  have h3 : ∏ y ∈ T, dq t y = (∏ y ∈ T, dq (t + 1) y) *
      ∏ y ∈ T, ((((t + 1 : ℕ) : ℚ) + y) * (((t + 1 : ℕ) : ℚ) - y - 1) / ((((t + 1 : ℕ) : ℚ) - y) * (((t + 1 : ℕ) : ℚ) + y - 1))) := by
    rw [← Finset.prod_mul_distrib]
    refine Finset.prod_congr rfl fun y hy => ?_
    have hy1 : (1 : ℚ) ≤ y := by exact_mod_cast hS y (Finset.mem_of_mem_erase hy)
    have ht0 : (0 : ℚ) ≤ t := by positivity
    have n1 : y ≠ t := fun h => hnot' (h ▸ hy)
    have n2 : y ≠ t + 1 := fun h => hnot (h ▸ hy)
    unfold dq
    push_cast
    rcases lt_or_gt_of_ne n1 with h | h
    · have h' : (y : ℚ) + 1 ≤ t := by exact_mod_cast h
      rw [abs_of_nonneg (by linarith), abs_of_nonneg (by linarith)]
      have a1 : (t : ℚ) + y ≠ 0 := by linarith
      have a2 : (t : ℚ) + 1 + y ≠ 0 := by linarith
      have a3 : (t : ℚ) + 1 - y ≠ 0 := by linarith
      have a4 : (t : ℚ) + 1 + y - 1 ≠ 0 := by linarith
      rw [div_mul_div_comm, div_eq_div_iff a1 (mul_ne_zero a2 (mul_ne_zero a3 a4))]
      ring
    · have h' : (t : ℚ) + 2 ≤ y := by
        have : t + 2 ≤ y := by omega
        exact_mod_cast this
      rw [abs_of_nonpos (by linarith), abs_of_nonpos (by linarith)]
      have a1 : (t : ℚ) + y ≠ 0 := by linarith
      have a2 : (t : ℚ) + 1 + y ≠ 0 := by linarith
      have a3 : (t : ℚ) + 1 - y ≠ 0 := by linarith
      have a4 : (t : ℚ) + 1 + y - 1 ≠ 0 := by linarith
      rw [div_mul_div_comm, div_eq_div_iff a1 (mul_ne_zero a2 (mul_ne_zero a3 a4))]
      ring
  rw [h3]
  have f1 : ((t + 1)! : ℚ) = (t + 1 : ℕ) * (t ! : ℚ) := by
    rw [Nat.factorial_succ]; push_cast; ring
  have f2 : (t ! : ℚ) ≠ 0 := by exact_mod_cast Nat.factorial_ne_zero t
  have f3 : ((t + 1 : ℕ) : ℚ) ≠ 0 := by exact_mod_cast Nat.succ_ne_zero t
  rw [f1, one_div, one_div, mul_inv]
  generalize ((t + 1 : ℕ) : ℚ) = s at f3 ⊢
  generalize (∏ y ∈ T, dq (t + 1) y) = A
  generalize (∏ y ∈ T, ((s + (y : ℚ)) * (s - y - 1) / ((s - y) * (s + y - 1)))) = B
  rw [show s⁻¹ * (t ! : ℚ)⁻¹ * A * fS T * (s * B) = (s⁻¹ * s) * ((t ! : ℚ)⁻¹ * A * fS T * B) by ring, inv_mul_cancel₀ f3]
  ring

/-- The recursion: removing one box in all ways. -/
theorem fS_rec {S : Finset ℕ} (hS : ∀ v ∈ S, 1 ≤ v) :
    ∑ v ∈ S, (if v - 1 ∈ S then 0 else fS (mv v S)) = (∑ v ∈ S, (v : ℚ)) * fS S := by
  rw [← shift_identity hS, Finset.sum_mul]
  refine Finset.sum_congr rfl fun v hv => ?_
  split
  · rename_i h
    have h1 := hS v hv
    have h2 : ∏ y ∈ S.erase v, (((v : ℚ) + y) * (v - y - 1) / ((v - y) * (v + y - 1))) = 0 := by
      refine Finset.prod_eq_zero (i := v - 1) (Finset.mem_erase.2 ⟨by omega, h⟩) ?_
      rw [Nat.cast_sub h1]
      simp
    rw [h2]
    simp
  · rename_i h
    rw [fS_mv hS hv h]
    ring

/-! ### Words -/

/-- the set of parts of a word -/
def setW : List L3 → Finset ℕ
  | [] => ∅
  | .a :: u => insert (u.length + 1) (setW u)
  | _ :: u => setW u

theorem setW_bound : ∀ (u : List L3), ∀ v ∈ setW u, 1 ≤ v ∧ v ≤ u.length
  | [], v, h => by simp [setW] at h
  | .a :: u, v, h => by
    rw [setW, Finset.mem_insert] at h
    rcases h with rfl | h
    · simp
    · have := setW_bound u v h; simp; omega
  | .b :: u, v, h => by have := setW_bound u v h; simp; omega
  | .o :: u, v, h => by have := setW_bound u v h; simp; omega

theorem setW_top (u : List L3) : u.length + 1 ∉ setW u := fun h => by have := setW_bound u _ h; omega

/-- the first coefficient after an opened box -/
def e2 (c : ℚ) : List L3 → List L3 → ℚ
  | [], [] => c
  | .a :: u, .b :: w => if u = w then 2 else 0
  | _, _ => 0

/-- the coefficient for one box -/
def e1W (c : ℚ) : List L3 → List L3 → ℚ
  | p :: u, q :: w => if p = q then e1W c u w else if p = .b ∧ q = .a then e2 c u w else 0
  | _, _ => 0

theorem sumW_delta (n : ℕ) (w : List L3) (hw : w.length = n) (ψ : List L3 → ℚ) :
    sumW n (fun u => (if u = w then 2 else 0) * ψ u) = 2 * ψ w := by
  rw [sumW_eq, ← List.sum_toFinset _ (words_nodup n), Finset.sum_eq_single w]
  · simp
  · intro b _ hb; simp [hb]
  · intro h; exact absurd (List.mem_toFinset.2 (mem_words.2 hw)) h

theorem sumW_e2 (c : ℚ) (ψ : List L3 → ℚ) : ∀ (w : List L3),
    sumW w.length (fun u => e2 c u w * ψ u) =
      match w with
      | [] => c * ψ []
      | .b :: w => 2 * ψ (.a :: w)
      | _ => 0
  | [] => rfl
  | .b :: w => by
    simp only [List.length_cons, sumW, e2, zero_mul, sumW_zero, zero_add, add_zero]
    exact sumW_delta w.length w rfl (fun u => ψ (.a :: u))
  | .a :: w => by simp [sumW, e2, sumW_zero]
  | .o :: w => by simp [sumW, e2, sumW_zero]

theorem sumW_e1W (c : ℚ) : ∀ (w : List L3) (_ : colsW 0 w = 0) (φ : Finset ℕ → ℚ),
    sumW w.length (fun u => e1W c u w * φ (setW u)) =
      ∑ v ∈ setW w, (if v - 1 ∈ setW w then 0 else (if v = 1 then c else 2) * φ (mv v (setW w))) := by
  intro w
  induction w with
  | nil => intro _ φ; simp [sumW, e1W, setW]
  | cons q w ih =>
    intro hc φ
    obtain ⟨hq, hc'⟩ := colsW_zero_cons hc
    cases q with
    | o => exact absurd rfl hq
    | b =>
      simp only [List.length_cons, sumW, e1W, setW, reduceCtorEq, false_and, and_false, if_false, if_true, zero_mul, sumW_zero, zero_add]
      exact ih hc' φ
    | a =>
      simp only [List.length_cons, sumW, e1W, setW, reduceCtorEq, false_and, and_self, if_false, if_true, zero_mul, sumW_zero, zero_add]
      have hlen : sumW w.length (fun u => e1W c u w * φ (insert (u.length + 1) (setW u))) =
          sumW w.length (fun u => e1W c u w * φ (insert (w.length + 1) (setW u))) :=
        sumW_congr fun u hu => by rw [hu]
      rw [hlen, ih hc' (fun T => φ (insert (w.length + 1) T)), Finset.sum_insert (setW_top w), add_comm]
      congr 1
      · rw [sumW_e2 c (fun u => φ (setW u)), Nat.add_sub_cancel]
        have hmv : mv (w.length + 1) (insert (w.length + 1) (setW w)) = if w.length = 0 then setW w else insert w.length (setW w) := by
          unfold mv
          rw [Finset.erase_insert (setW_top w), Nat.add_sub_cancel]
          simp
        rw [hmv]
        match w with
        | [] => simp [setW]
        | .b :: w => 
          have := setW_top w
          simp [setW, this]
        | .a :: w => simp [setW]
        | .o :: w => exact absurd rfl (colsW_zero_cons hc').1
      · refine Finset.sum_congr rfl fun v hv => ?_
        have hb := setW_bound w v hv
        have h1 : v - 1 ∈ insert (w.length + 1) (setW w) ↔ v - 1 ∈ setW w := by
          rw [Finset.mem_insert, or_iff_right (by omega)]
        have h2 : mv v (insert (w.length + 1) (setW w)) = insert (w.length + 1) (mv v (setW w)) := by
          unfold mv
          rw [Finset.erase_insert_of_ne (by omega)]
          split
          · rfl
          · exact Finset.insert_comm _ _ _
        simp only [h1, h2]

/-! ### The coefficients of one box -/

theorem coeff_X_mul_one (p : Polynomial (Polynomial ℚ)) : (Polynomial.X * p).coeff 1 = p.coeff 0 := Polynomial.coeff_X_mul p 0

theorem wt_one_lr (c : Polynomial ℚ) : ∀ (u w : List L3), u.length = w.length → colsW 0 u = 0 → colsW 0 w = 0 →
    (wt (Polynomial.C c) Polynomial.X .lr u w).coeff 1 =
      match u, w with
      | [], [] => c
      | .a :: u, .b :: w => if u = w then 2 else 0
      | _, _ => 0
  | [], [], _, _, _ => by simp [wt, endW]
  | p :: u, q :: w, hl, hu, hw => by
    have hl' : u.length = w.length := by simpa using hl
    have h1 := (colsW_zero_cons hu).1
    have h2 := (colsW_zero_cons hw).1
    have e2 : (2 : Polynomial (Polynomial ℚ)) = Polynomial.C 2 := (map_ofNat Polynomial.C 2).symm
    cases p <;> cases q <;> simp_all [wt, step, Polynomial.coeff_X_mul, wt_zero c u w _ hl']
    rw [mul_assoc, Polynomial.coeff_C_mul, coeff_X_mul_one, wt_zero c u w _ hl']
    simp
  | [], q :: w, hl, _, _ => by simp at hl
  | p :: u, [], hl, _, _ => by simp at hl

theorem wt_one (c : ℚ) : ∀ (u w : List L3), u.length = w.length → colsW 0 u = 0 → colsW 0 w = 0 →
    (wt (Polynomial.C (Polynomial.C c)) Polynomial.X .z u w).coeff 1 = Polynomial.C (e1W c u w)
  | [], [], _, _, _ => by simp [wt, endW, e1W, Polynomial.coeff_one]
  | p :: u, q :: w, hl, hu, hw => by
    have hl' : u.length = w.length := by simpa using hl
    have h1 := colsW_zero_cons hu
    have h2 := colsW_zero_cons hw
    have ih := wt_one c u w hl' h1.2 h2.2
    cases p with
    | o => exact absurd rfl h1.1
    | a =>
      cases q with
      | o => exact absurd rfl h2.1
      | a => simpa [wt, step, e1W] using ih
      | b => simp [wt, step, e1W]
    | b =>
      cases q with
      | o => exact absurd rfl h2.1
      | b => simpa [wt, step, e1W] using ih
      | a =>
        have h3 := wt_one_lr (Polynomial.C c) u w hl' h1.2 h2.2
        simp only [wt, step, e1W, pow_zero, one_mul, h3, reduceCtorEq, if_false, and_self, if_true]
        have e2 : (2 : Polynomial ℚ) = Polynomial.C 2 := (map_ofNat Polynomial.C 2).symm
        match u, w with
        | [], [] => simp [Verif.e2]
        | .a :: u, .b :: w => simp only [Verif.e2, e2]; split <;> simp
        | .a :: u, .a :: w => simp [Verif.e2]
        | .a :: u, .o :: w => simp [Verif.e2]
        | .b :: u, q :: w => simp [Verif.e2]
        | .o :: u, q :: w => simp [Verif.e2]
        | [], q :: w => simp at hl'
        | p :: u, [] => simp at hl'
  | [], q :: w, hl, _, _ => by simp at hl
  | p :: u, [], hl, _, _ => by simp at hl

theorem MC_one {n : ℕ} {u w : List L3} (hu : u ∈ Wd n 0) (hw : w ∈ Wd n 0) : MC 0 1 u w = Polynomial.C (e1W 1 u w) := by
  rw [mem_Wd] at hu hw
  unfold MC opW
  rw [Polynomial.C_0, zero_mul, add_zero, ← wt_one 1 u w (by omega) hu.2 hw.2, Polynomial.C_1 (R := ℚ)]

theorem MB_one {n : ℕ} {u w : List L3} (hu : u ∈ Wd n 0) (hw : w ∈ Wd n 0) : MB 0 1 u w = Polynomial.C (1 / 2 * e1W 2 u w) := by
  rw [mem_Wd] at hu hw
  unfold MB opW
  have e : (2 : Polynomial ℚ) = Polynomial.C 2 := (map_ofNat Polynomial.C 2).symm
  rw [Polynomial.C_0, zero_mul, add_zero, e, wt_one 2 u w (by omega) hu.2 hw.2, if_neg (by omega), Polynomial.C_mul]

/-! ### The sums over words -/

/-- the number of boxes of a word -/
def sizeW (w : List L3) : ℕ := ∑ v ∈ setW w, v

theorem sum_e1W (c : ℚ) {n : ℕ} {w : List L3} (hw : w ∈ Wd n 0) (φ : Finset ℕ → ℚ) :
    ∑ u ∈ Wd n 0, e1W c u w * φ (setW u) =
      ∑ v ∈ setW w, (if v - 1 ∈ setW w then 0 else (if v = 1 then c else 2) * φ (mv v (setW w))) := by
  have hw' := mem_Wd.1 hw
  rw [← sumW_e1W c w hw'.2 φ, hw'.1, sumW_Wd]
  intro u hu hne
  have : ∀ (u w : List L3), colsW 0 w = 0 → colsW 0 u ≠ 0 → e1W c u w = 0 := by
    intro u
    induction u with
    | nil => intro w _ _; rfl
    | cons p u ih =>
      intro w h1 h2
      cases w with
      | nil => rfl
      | cons q w =>
        obtain ⟨h3, h4⟩ := colsW_zero_cons h1
        unfold e1W
        split
        · rename_i h
          subst h
          refine ih w h4 ?_
          cases p
          · exact absurd rfl h3
          · simpa [colsW] using h2
          · simpa [colsW] using h2
        · split
          · rename_i h
            obtain ⟨rfl, rfl⟩ := h
            have h2 : colsW 0 u ≠ 0 := by simpa [colsW] using h2
            unfold e2
            split
            · exact absurd rfl h2
            · rename_i u' w'
              split
              · rename_i h
                subst h
                exact absurd (by simpa [colsW] using h4) (by simpa [colsW] using h2)
              · rfl
            · rfl
          · rfl
  rw [this u w hw'.2 hne, zero_mul]

theorem sum_mv {S : Finset ℕ} (hS : ∀ v ∈ S, 1 ≤ v) {v : ℕ} (hv : v ∈ S) (hv' : v - 1 ∉ S) : ∑ x ∈ mv v S, x + 1 = ∑ x ∈ S, x := by
  have h1 := hS v hv
  have h2 := Finset.add_sum_erase S (fun x => x) hv
  unfold mv
  split
  · omega
  · rw [Finset.sum_insert (fun h => hv' (Finset.mem_of_mem_erase h))]
    omega

theorem card_mv {S : Finset ℕ} {v : ℕ} (hv : v ∈ S) (hv' : v - 1 ∉ S) : (mv v S).card = if v = 1 then S.card - 1 else S.card := by
  unfold mv
  split
  · exact Finset.card_erase_of_mem hv
  · rw [Finset.card_insert_of_notMem (fun h => hv' (Finset.mem_of_mem_erase h)), Finset.card_erase_of_mem hv]
    have := Finset.card_pos.2 ⟨v, hv⟩
    omega

theorem card_le_sum {S : Finset ℕ} (hS : ∀ v ∈ S, 1 ≤ v) : S.card ≤ ∑ v ∈ S, v := by
  have := Finset.card_nsmul_le_sum S (fun v => v) 1 hS
  simpa using this

theorem setW_pos (w : List L3) : ∀ v ∈ setW w, 1 ≤ v := fun v hv => (setW_bound w v hv).1

/-- the recursion of type B -/
theorem rec_B {n : ℕ} {w : List L3} (hw : w ∈ Wd n 0) (r : ℕ) :
    ∑ u ∈ Wd n 0, (1 / 2 * e1W 2 u w) * (if sizeW u = r then (r ! : ℚ) * fS (setW u) else 0) =
      if sizeW w = r + 1 then ((r + 1)! : ℚ) * fS (setW w) else 0 := by
  have h := sum_e1W 2 hw (fun S => 1 / 2 * (if ∑ v ∈ S, v = r then (r ! : ℚ) * fS S else 0))
  have e : ∑ u ∈ Wd n 0, (1 / 2 * e1W 2 u w) * (if sizeW u = r then (r ! : ℚ) * fS (setW u) else 0) =
      ∑ u ∈ Wd n 0, e1W 2 u w * (1 / 2 * (if ∑ v ∈ setW u, v = r then (r ! : ℚ) * fS (setW u) else 0)) :=
    Finset.sum_congr rfl fun u _ => by rw [sizeW]; ring
  rw [e, h]
  have hS := setW_pos w
  have e2 : ∀ v ∈ setW w, (if v - 1 ∈ setW w then 0 else (if v = 1 then (2 : ℚ) else 2) *
      (1 / 2 * (if ∑ x ∈ mv v (setW w), x = r then (r ! : ℚ) * fS (mv v (setW w)) else 0))) =
      (if sizeW w = r + 1 then (r ! : ℚ) else 0) * (if v - 1 ∈ setW w then 0 else fS (mv v (setW w))) := by
    intro v hv
    split
    · simp
    · rename_i h0
      have h1 := sum_mv hS hv h0
      have h2 : (∑ x ∈ mv v (setW w), x = r) ↔ sizeW w = r + 1 := by unfold sizeW; omega
      simp only [h2, ite_self]
      split <;> ring
  rw [Finset.sum_congr rfl e2, ← Finset.mul_sum, fS_rec hS]
  split
  · rename_i h3
    unfold sizeW at h3
    rw [← Nat.cast_sum, h3, Nat.factorial_succ]
    push_cast
    ring
  · ring

/-- the recursion of type C -/
theorem rec_C {n : ℕ} {w : List L3} (hw : w ∈ Wd n 0) (r : ℕ) :
    ∑ u ∈ Wd n 0, e1W 1 u w * (if sizeW u = r then (r ! : ℚ) * (2 ^ (sizeW u - (setW u).card) * fS (setW u)) else 0) =
      if sizeW w = r + 1 then ((r + 1)! : ℚ) * (2 ^ (sizeW w - (setW w).card) * fS (setW w)) else 0 := by
  have h := sum_e1W 1 hw (fun S => (if ∑ v ∈ S, v = r then (r ! : ℚ) * (2 ^ (∑ v ∈ S, v - S.card) * fS S) else 0))
  have e : ∑ u ∈ Wd n 0, e1W 1 u w * (if sizeW u = r then (r ! : ℚ) * (2 ^ (sizeW u - (setW u).card) * fS (setW u)) else 0) =
      ∑ u ∈ Wd n 0, e1W 1 u w * (if ∑ v ∈ setW u, v = r then (r ! : ℚ) * (2 ^ (∑ v ∈ setW u, v - (setW u).card) * fS (setW u)) else 0) :=
    Finset.sum_congr rfl fun u _ => by rw [sizeW]
  rw [e, h]
  have hS := setW_pos w
  have e2 : ∀ v ∈ setW w, (if v - 1 ∈ setW w then 0 else (if v = 1 then (1 : ℚ) else 2) *
      (if ∑ x ∈ mv v (setW w), x = r then (r ! : ℚ) * (2 ^ (∑ x ∈ mv v (setW w), x - (mv v (setW w)).card) * fS (mv v (setW w))) else 0)) =
      (if sizeW w = r + 1 then (r ! : ℚ) * 2 ^ (sizeW w - (setW w).card) else 0) * (if v - 1 ∈ setW w then 0 else fS (mv v (setW w))) := by
    intro v hv
    split
    · simp
    · rename_i h0
      have h1 := sum_mv hS hv h0
      have h2 : (∑ x ∈ mv v (setW w), x = r) ↔ sizeW w = r + 1 := by unfold sizeW; omega
      have h3 := card_mv hv h0
      have h4 : (mv v (setW w)).card ≤ ∑ x ∈ mv v (setW w), x := by
        apply card_le_sum
        intro x hx
        unfold mv at hx
        split at hx
        · exact hS x (Finset.mem_of_mem_erase hx)
        · rw [Finset.mem_insert] at hx
          rcases hx with rfl | hx
          · have := hS v hv; omega
          · exact hS x (Finset.mem_of_mem_erase hx)
      have h5 := Finset.card_pos.2 ⟨v, hv⟩
      simp only [h2]
      split
      · split
        · rename_i h6 h7
          rw [if_pos h6] at h3
          rw [show sizeW w - (setW w).card = ∑ x ∈ mv v (setW w), x - (mv v (setW w)).card by unfold sizeW; omega]
          ring
        · simp
      · split
        · rename_i h6 h7
          rw [if_neg h6] at h3
          rw [show sizeW w - (setW w).card = ∑ x ∈ mv v (setW w), x - (mv v (setW w)).card + 1 by unfold sizeW; omega, pow_succ]
          ring
        · simp
  rw [Finset.sum_congr rfl e2, ← Finset.mul_sum, fS_rec hS]
  split
  · rename_i h3
    have h3' : ∑ v ∈ setW w, v = r + 1 := h3
    rw [← Nat.cast_sum, h3', Nat.factorial_succ]
    push_cast
    ring
  · ring

/-! ### Powers -/

theorem lin_words {n : ℕ} {t : List Int → LMod} {x : LMod} (hx : ∀ l ∈ x.support, clsBC n 0 l) (mu : List Int) :
    lin t x mu = ∑ u ∈ Wd n 0, x (labW u) * t (labW u) mu := by
  classical
  rw [lin, Finsupp.linearCombination_apply, Finsupp.sum_of_support_subset (s := (Wd n 0).image labW)]
  · rw [Finset.sum_image (fun u hu w hw h => Wd_inj u hu w hw h), Finsupp.finsetSum_apply]
    simp
  · intro l hl
    obtain ⟨u, hu, rfl⟩ := (Wd_cls (Nat.zero_le n) l).1 (hx l hl)
    exact Finset.mem_image_of_mem _ hu
  · simp

theorem labW_size : ∀ {w : List L3}, colsW 0 w = 0 → (labW w).sum = sizeW w
  | [], _ => rfl
  | .o :: w, h => absurd rfl (colsW_zero_cons h).1
  | .b :: w, h => by rw [labW_b, labW_size (colsW_zero_cons h).2]; rfl
  | .a :: w, h => by
    have h2 := (colsW_zero_cons h).2
    rw [labW_a, List.sum_cons, labW_size h2, sizeW, sizeW, setW, Finset.sum_insert (setW_top w), h2]
    push_cast
    ring

theorem labW_card : ∀ {w : List L3}, colsW 0 w = 0 → (labW w).length = (setW w).card
  | [], _ => rfl
  | .o :: w, h => absurd rfl (colsW_zero_cons h).1
  | .b :: w, h => by rw [labW_b, labW_card (colsW_zero_cons h).2]; rfl
  | .a :: w, h => by
    have h2 := (colsW_zero_cons h).2
    rw [labW_a, List.length_cons, labW_card h2, setW, Finset.card_insert_of_notMem (setW_top w)]

theorem labW_mapprod (f : ℤ → ℚ) : ∀ {w : List L3}, colsW 0 w = 0 → ((labW w).map f).prod = ∏ y ∈ setW w, f y
  | [], _ => rfl
  | .o :: w, h => absurd rfl (colsW_zero_cons h).1
  | .b :: w, h => by rw [labW_b, labW_mapprod f (colsW_zero_cons h).2]; rfl
  | .a :: w, h => by
    have h2 := (colsW_zero_cons h).2
    rw [labW_a, List.map_cons, List.prod_cons, labW_mapprod f h2, setW, Finset.prod_insert (setW_top w), h2]
    simp

theorem shiftProd_labW : ∀ {w : List L3}, colsW 0 w = 0 → shiftProd (labW w) = fS (setW w)
  | [], _ => rfl
  | .o :: w, h => absurd rfl (colsW_zero_cons h).1
  | .b :: w, h => by rw [labW_b, shiftProd_labW (colsW_zero_cons h).2]; rfl
  | .a :: w, h => by
    have h2 := (colsW_zero_cons h).2
    rw [labW_a, shiftProd, labW_mapprod _ h2, shiftProd_labW h2, setW, fS_insert (setW_top w), h2]
    congr 2
    refine Finset.prod_congr rfl fun y hy => ?_
    have hb := setW_bound w y hy
    have : (y : ℚ) ≤ w.length := by exact_mod_cast hb.2
    unfold dq
    push_cast
    rw [abs_of_nonneg (by linarith)]
    ring_nf

theorem labW_nil_iff {n : ℕ} {w : List L3} (hw : w ∈ Wd n 0) : sizeW w = 0 → labW w = [] ∧ setW w = ∅ := by
  intro h
  have hS := card_le_sum (setW_pos w)
  have hc : (setW w).card = 0 := by unfold sizeW at h; omega
  have h1 := labW_card (mem_Wd.1 hw).2
  rw [hc] at h1
  exact ⟨List.length_eq_zero_iff.1 h1, Finset.card_eq_zero.1 hc⟩

/-- The powers of the operator of `S[1]` on `S[]`, given the recursion. -/
theorem pow_words {n : ℕ} {X : Space} {pieri : Int → List Int → Except PyErr Poly} {spc : Int → Prop} {cls : List Int → Prop} {B : ℕ}
    (Z : RingOn X pieri spc cls B) (hs : spc 1) (hcls : ∀ l, cls l ↔ clsBC n 0 l) {e : List L3 → List L3 → ℚ} {F : ℕ → List L3 → ℚ}
    (ht : ∀ u ∈ Wd n 0, ∀ w ∈ Wd n 0, Z.Y.t 1 (labW u) (labW w) = Polynomial.C (e u w))
    (h0 : ∀ w ∈ Wd n 0, F 0 w = if labW w = [] then 1 else 0)
    (hF : ∀ w ∈ Wd n 0, ∀ r, ∑ u ∈ Wd n 0, e u w * F r u = F (r + 1) w) (r : ℕ) :
    ∀ w ∈ Wd n 0, Z.Y.act (MvPolynomial.X (.S [1]) ^ r) (Finsupp.single [] 1) (labW w) = Polynomial.C (F r w) := by
  induction r with
  | zero =>
    intro w hw
    rw [pow_zero, map_one, Module.End.one_apply, h0 w hw, Finsupp.single_apply]
    by_cases h : labW w = []
    · simp [h]
    · rw [if_neg h, if_neg (fun e => h e.symm)]; simp
  | succ r ih =>
    intro w hw
    have hsup := Z.Y.act_support (MvPolynomial.X (.S [1]) ^ r) (x := Finsupp.single [] 1) (by
      intro a ha
      rw [Finset.mem_singleton.1 (Finsupp.support_single_subset ha)]
      exact Z.nil)
    have h1 : num2spec 1 = [1] := by decide
    rw [pow_succ', map_mul, Module.End.mul_apply, ← h1, Z.Y.act_special hs, h1, lin_words (fun l hl => (hcls l).1 (hsup l hl)),
      ← hF w hw r, map_sum]
    refine Finset.sum_congr rfl fun u hu => ?_
    rw [ih u hu, ht u hu w hw, Polynomial.C_mul, mul_comm]

end Verif
