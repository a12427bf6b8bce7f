import Verif.Proofs.WordSys
import Verif.Proofs.WordC
import Mathlib.Algebra.Group.Subgroup.Defs
import Mathlib.Algebra.Ring.Subring.Defs
/-!
# The product `T(x) T(-x)` of the Pieri operators

The composite of the transfer matrices at `x` and `-x` is a polynomial of small degree in `x`. This gives the relations
between the special classes.
-/

namespace Verif

section
variable {R : Type*} [CommRing R]

/-- Elements of degree at most `d` in `x`. -/
structure Filt (x : R) where
  D : ℕ → AddSubgroup R
  mono : ∀ {d e}, d ≤ e → ∀ {a}, a ∈ D d → a ∈ D e
  one : (1 : R) ∈ D 0
  mul : ∀ {d a}, a ∈ D d → x * a ∈ D (d + 1)

variable {x : R} (F : Filt x)

theorem Filt.pow {d : ℕ} {a : R} (h : a ∈ F.D d) (j : ℕ) : x ^ j * a ∈ F.D (d + j) := by
  induction j with
  | zero => simpa using h
  | succ j ih =>
    rw [pow_succ', mul_assoc]
    exact F.mul ih

theorem Filt.two {d : ℕ} {a : R} (h : a ∈ F.D d) (i : ℕ) : 2 ^ i * a ∈ F.D d := by
  induction i with
  | zero => simpa using h
  | succ i ih =>
    rw [pow_succ', mul_assoc, two_mul]
    exact add_mem ih ih

theorem Filt.term {d e : ℕ} {p : R} (hp : p ∈ F.D d) (i j i' j' : ℕ) (h : d + j + j' ≤ e) :
    2 ^ i * x ^ j * (2 ^ i' * (-x) ^ j') * p ∈ F.D e := by
  refine F.mono h ?_
  rcases Nat.even_or_odd j' with hj | hj
  · rw [hj.neg_pow, show 2 ^ i * x ^ j * (2 ^ i' * x ^ j') * p = 2 ^ i * (2 ^ i' * (x ^ j' * (x ^ j * p))) by ring]
    exact F.two (F.two (F.pow (F.pow hp j) j') _) _
  · rw [hj.neg_pow, show 2 ^ i * x ^ j * (2 ^ i' * -x ^ j') * p = -(2 ^ i * (2 ^ i' * (x ^ j' * (x ^ j * p)))) by ring]
    exact neg_mem (F.two (F.two (F.pow (F.pow hp j) j') _) _)

theorem Filt.of_eq {d e : ℕ} {a b : R} (hb : b ∈ F.D d) (h : d ≤ e) (he : a = b) : a ∈ F.D e := by
  rw [he]
  exact F.mono h hb

/-- the bounds for the pairs of states that occur -/
structure Bd (N : ℕ) (f : St → St → R) : Prop where
  zz : f .z .z ∈ F.D N
  zr : f .z .r ∈ F.D (N + 1)
  rz : f .r .z ∈ F.D N
  zl : f .z .l ∈ F.D N
  lz : f .l .z ∈ F.D (N + 1)
  rr : f .r .r ∈ F.D (N + 1)
  rl : f .r .l ∈ F.D N
  ll : f .l .l ∈ F.D (N + 1)
  lr : f .l .r - x * f .z .lr ∈ F.D (N + 2)
  rel1 : f .z .lr + f .lr .z + 2 * f .r .l = 0
  rel2 : f .l .lr + x * f .lr .l = 0
  rel3 : f .lr .r - x * f .r .lr = 0

/-- the contribution of one letter of the middle word -/
def viaF (x y : R) (f : St → St → R) (s t : St) (p m q : L3) : R :=
  match step s p m, step t m q with
  | some (s', i, j), some (t', i', j') => 2 ^ i * x ^ j * (2 ^ i' * y ^ j') * f s' t'
  | _, _ => 0

/-- one letter of both words -/
def stepF (x y : R) (f : St → St → R) (p q : L3) (s t : St) : R :=
  viaF x y f s t p .o q + viaF x y f s t p .a q + viaF x y f s t p .b q

theorem comp2_stepF (c x y : R) (s t : St) (p q : L3) (u v : List L3) :
    comp2 c x y s t (p :: u) (q :: v) = stepF x y (fun s t => comp2 c x y s t u v) p q s t := by
  rw [comp2_cons]
  rfl

/-- the number of letters `o` -/
def o1 (p : L3) : ℕ := if p = .o then 1 else 0

macro "dg" F:term : tactic => `(tactic| first
  | exact zero_mem _
  | exact Filt.term $F (by assumption) _ _ _ _ (by simp [o1] <;> omega)
  | exact add_mem (Filt.term $F (by assumption) _ _ _ _ (by simp [o1] <;> omega)) (Filt.term $F (by assumption) _ _ _ _ (by simp [o1] <;> omega))
  | exact add_mem (add_mem (Filt.term $F (by assumption) _ _ _ _ (by simp [o1] <;> omega)) (Filt.term $F (by assumption) _ _ _ _ (by simp [o1] <;> omega)))
      (Filt.term $F (by assumption) _ _ _ _ (by simp [o1] <;> omega)))

section
variable {F} {N : ℕ} {f : St → St → R} (H : Bd F N f) (p q : L3)
include H

theorem Bd.step_zz : stepF x (-x) f p q .z .z ∈ F.D (N + o1 p + o1 q) := by
  obtain ⟨zz, zr, rz, zl, lz, rr, rl, ll, lr, h1, h2, h3⟩ := H
  cases p <;> cases q <;> simp only [stepF, viaF, step, add_zero, zero_add]
  all_goals first
    | dg F
    | exact F.of_eq (neg_mem rl) (by simp [o1]) (by linear_combination h1)

theorem Bd.step_zr : stepF x (-x) f p q .z .r ∈ F.D (N + o1 p + o1 q + 1) := by
  obtain ⟨zz, zr, rz, zl, lz, rr, rl, ll, lr, h1, h2, h3⟩ := H
  cases p <;> cases q <;> simp only [stepF, viaF, step, add_zero, zero_add]
  all_goals first
    | dg F
    | skip
  case o.a => exact F.of_eq lr (by simp [o1]) (by ring)
  case b.a => exact F.of_eq (zero_mem (F.D 0)) (by simp) (by linear_combination h3)

theorem Bd.step_rz : stepF x (-x) f p q .r .z ∈ F.D (N + o1 p + o1 q) := by
  obtain ⟨zz, zr, rz, zl, lz, rr, rl, ll, lr, h1, h2, h3⟩ := H
  cases p <;> cases q <;> simp only [stepF, viaF, step, add_zero, zero_add]
  all_goals first
    | dg F
    | exact F.of_eq (neg_mem (F.mul rl)) (by simp [o1]) (by linear_combination x * h1)

theorem Bd.step_zl : stepF x (-x) f p q .z .l ∈ F.D (N + o1 p + o1 q) := by
  obtain ⟨zz, zr, rz, zl, lz, rr, rl, ll, lr, h1, h2, h3⟩ := H
  cases p <;> cases q <;> simp only [stepF, viaF, step, add_zero, zero_add]
  all_goals first
    | dg F
    | exact F.of_eq (F.mul rl) (by simp [o1]) (by linear_combination (-x) * h1)

theorem Bd.step_lz : stepF x (-x) f p q .l .z ∈ F.D (N + o1 p + o1 q + 1) := by
  obtain ⟨zz, zr, rz, zl, lz, rr, rl, ll, lr, h1, h2, h3⟩ := H
  cases p <;> cases q <;> simp only [stepF, viaF, step, add_zero, zero_add]
  all_goals first
    | dg F
    | skip
  case b.o =>
    exact F.of_eq (sub_mem lr (F.mono (by omega) (F.two (F.mul rl) 1))) (by simp [o1]) (by linear_combination x * h1)
  case b.a => exact F.of_eq (zero_mem (F.D 0)) (by simp) (by linear_combination h2)

theorem Bd.step_rr : stepF x (-x) f p q .r .r ∈ F.D (N + o1 p + o1 q + 1) := by
  obtain ⟨zz, zr, rz, zl, lz, rr, rl, ll, lr, h1, h2, h3⟩ := H
  cases p <;> cases q <;> simp only [stepF, viaF, step, add_zero, zero_add]
  all_goals first
    | dg F
    | exact F.of_eq (zero_mem (F.D 0)) (by simp) (by linear_combination x * h3)

theorem Bd.step_rl : stepF x (-x) f p q .r .l ∈ F.D (N + o1 p + o1 q) := by
  obtain ⟨zz, zr, rz, zl, lz, rr, rl, ll, lr, h1, h2, h3⟩ := H
  cases p <;> cases q <;> simp only [stepF, viaF, step, add_zero, zero_add]
  all_goals first
    | dg F
    | exact F.of_eq (F.mul (F.mul rl)) (by simp [o1]) (by linear_combination (-x ^ 2) * h1)

theorem Bd.step_ll : stepF x (-x) f p q .l .l ∈ F.D (N + o1 p + o1 q + 1) := by
  obtain ⟨zz, zr, rz, zl, lz, rr, rl, ll, lr, h1, h2, h3⟩ := H
  cases p <;> cases q <;> simp only [stepF, viaF, step, add_zero, zero_add]
  all_goals first
    | dg F
    | exact F.of_eq (zero_mem (F.D 0)) (by simp) (by linear_combination (-x) * h2)

theorem Bd.step_lr : stepF x (-x) f p q .l .r - x * stepF x (-x) f p q .z .lr ∈ F.D (N + o1 p + o1 q + 2) := by
  obtain ⟨zz, zr, rz, zl, lz, rr, rl, ll, lr, h1, h2, h3⟩ := H
  cases p <;> cases q <;> simp only [stepF, viaF, step, add_zero, zero_add, sub_zero]
  case o.o => exact F.of_eq (F.mul (F.mul lr)) (by simp [o1]) (by ring)
  case o.a => exact F.of_eq (zero_mem (F.D 0)) (by simp) (by ring)
  case o.b =>
    exact F.of_eq (F.mul (F.mul (add_mem lz (F.mono (Nat.le_succ _) (F.two zl 1)))))
      (by simp [o1]) (by ring)
  case a.o => exact F.of_eq (F.mul (F.mul zr)) (by simp [o1]) (by ring)
  case a.a => exact F.of_eq (zero_mem (F.D 0)) (by simp) (by ring)
  case a.b => exact F.of_eq (F.mul (F.mul zz)) (by simp [o1]) (by ring)
  case b.o => exact F.of_eq (zero_mem (F.D 0)) (by simp) (by linear_combination x ^ 2 * h3)
  case b.a => exact F.of_eq (zero_mem (F.D 0)) (by simp) (by ring)
  case b.b => exact F.of_eq (zero_mem (F.D 0)) (by simp) (by linear_combination x ^ 2 * h1)

theorem Bd.step_lrlr : stepF x (-x) f p q .lr .lr = if p = q then (if p = .o then x ^ 4 else -x ^ 2) * f .lr .lr else 0 := by
  obtain ⟨zz, zr, rz, zl, lz, rr, rl, ll, lr, h1, h2, h3⟩ := H
  cases p <;> cases q <;> simp [stepF, viaF, step]
  case o.o => ring
  case o.b => linear_combination (-2 * x ^ 2) * h2
  case a.o => linear_combination (-2 * x ^ 2) * h3
  case a.a => ring
  case a.b => linear_combination (-2 * x ^ 2) * h1
  case b.b => ring

theorem Bd.step_rel1 : stepF x (-x) f p q .z .lr + stepF x (-x) f p q .lr .z + 2 * stepF x (-x) f p q .r .l = 0 := by
  obtain ⟨zz, zr, rz, zl, lz, rr, rl, ll, lr, h1, h2, h3⟩ := H
  cases p <;> cases q <;> simp [stepF, viaF, step]
  all_goals try ring1
  case o.o => linear_combination (-x ^ 2) * h1
  case o.a => linear_combination (x) * h2
  case a.a => linear_combination (x) * h1
  case b.o => linear_combination (-x) * h3
  case b.b => linear_combination (-x) * h1

theorem Bd.step_rel2 : stepF x (-x) f p q .l .lr + x * stepF x (-x) f p q .lr .l = 0 := by
  obtain ⟨zz, zr, rz, zl, lz, rr, rl, ll, lr, h1, h2, h3⟩ := H
  cases p <;> cases q <;> simp [stepF, viaF, step]
  all_goals try ring1
  case o.o => linear_combination (-x ^ 3) * h2
  case a.o => linear_combination (-x ^ 3) * h1
  case b.b => linear_combination (-x) * h2

theorem Bd.step_rel3 : stepF x (-x) f p q .lr .r - x * stepF x (-x) f p q .r .lr = 0 := by
  obtain ⟨zz, zr, rz, zl, lz, rr, rl, ll, lr, h1, h2, h3⟩ := H
  cases p <;> cases q <;> simp [stepF, viaF, step]
  all_goals try ring1
  case o.o => linear_combination (x ^ 3) * h3
  case o.b => linear_combination (x ^ 3) * h1
  case a.a => linear_combination (x) * h3

/-- one letter more -/
theorem Bd.step : Bd F (N + o1 p + o1 q) (stepF x (-x) f p q) :=
  ⟨H.step_zz p q, H.step_zr p q, H.step_rz p q, H.step_zl p q, H.step_lz p q, H.step_rr p q, H.step_rl p q, H.step_ll p q,
    H.step_lr p q, H.step_rel1 p q, H.step_rel2 p q, H.step_rel3 p q⟩

end

theorem Bd.congr {N M : ℕ} {f : St → St → R} (H : Bd F N f) (h : N = M) : Bd F M f := h ▸ H

theorem bd_nil (c : R) (hc : c = 1 ∨ c = 2) : Bd F 0 (fun s t => comp2 c x (-x) s t [] []) := by
  have h1 := F.one
  constructor <;> simp only [comp2_nil, endW, mul_zero, zero_mul, sub_zero, add_zero, mul_one] <;>
    first | exact zero_mem _ | exact h1 | ring | skip
  rcases hc with rfl | rfl
  · exact F.of_eq (F.pow F.one 2) (by simp) rfl
  · exact F.of_eq (F.pow (F.two F.one 1) 2) (by simp) (by ring)

theorem colsW_o1 (p : L3) (u : List L3) : colsW 0 (p :: u) = colsW 0 u + o1 p := by
  cases p <;> simp [colsW, o1]

theorem bd_comp2 (c : R) (hc : c = 1 ∨ c = 2) : ∀ (u v : List L3), u.length = v.length →
    Bd F (colsW 0 u + colsW 0 v) (fun s t => comp2 c x (-x) s t u v) := by
  intro u
  induction u with
  | nil =>
    intro v hv
    obtain rfl : v = [] := List.length_eq_zero_iff.1 (by simpa using hv.symm)
    exact bd_nil F c hc
  | cons p u ih =>
    intro v hv
    cases v with
    | nil => simp at hv
    | cons q v =>
      have := (ih v (by simpa using hv)).step p q
      have e : (fun s t => comp2 c x (-x) s t (p :: u) (q :: v)) = stepF x (-x) (fun s t => comp2 c x (-x) s t u v) p q := by
        funext s t
        exact comp2_stepF c x (-x) s t p q u v
      rw [e]
      refine Bd.congr F this ?_
      rw [colsW_o1, colsW_o1]
      omega

include F in
/-- the remaining entry is a power of `x` on the diagonal -/
theorem comp2_lrlr (c : R) (hc : c = 1 ∨ c = 2) : ∀ (u v : List L3), u.length = v.length →
    comp2 c x (-x) .lr .lr u v = if u = v then -c ^ 2 * (-1) ^ (u.length + colsW 0 u) * x ^ (2 * (u.length + colsW 0 u) + 2) else 0 := by
  intro u
  induction u with
  | nil =>
    intro v hv
    obtain rfl : v = [] := List.length_eq_zero_iff.1 (by simpa using hv.symm)
    rw [comp2_nil]
    simp only [endW, colsW]
    simp
    ring
  | cons p u ih =>
    intro v hv
    cases v with
    | nil => simp at hv
    | cons q v =>
      have hl : u.length = v.length := by simpa using hv
      rw [comp2_stepF, (bd_comp2 F c hc u v hl).step_lrlr p q, ih v hl]
      by_cases hpq : p = q
      · subst hpq
        rw [if_pos rfl]
        by_cases huv : u = v
        · subst huv
          rw [if_pos rfl, if_pos rfl, colsW_o1]
          cases p <;> simp [o1] <;> ring
        · have h' : ¬ p :: u = p :: v := by simpa using huv
          rw [if_neg huv, if_neg h', mul_zero]
      · rw [if_neg hpq, if_neg (by simp [hpq])]

end

/-! ### Degrees of the operators themselves -/

section
open Polynomial
variable {S : Type*} [CommRing S]

/-- twice the degree that a state can add -/
def stE : St → ℕ
  | .z => 0
  | .lr => 2
  | _ => 1

theorem coeff_step (i j d : ℕ) (f : S[X]) : (2 ^ i * X ^ j * f).coeff d = if j ≤ d then 2 ^ i * f.coeff (d - j) else 0 := by
  have e : (2 ^ i * X ^ j * f : S[X]) = C (2 ^ i) * (f * X ^ j) := by
    rw [map_pow, map_ofNat]; ring
  rw [e, coeff_C_mul, coeff_mul_X_pow']
  split <;> simp

theorem wt_deg (c : S) : ∀ (u w : List L3) (s : St) (d : ℕ), u.length = w.length →
    2 * u.length + colsW 0 u + colsW 0 w + stE s < 2 * d → (wt (C c) X s u w).coeff d = 0 := by
  intro u
  induction u with
  | nil =>
    intro w s d hw hd
    obtain rfl : w = [] := List.length_eq_zero_iff.1 (by simpa using hw.symm)
    simp only [colsW, List.length_nil, stE] at hd
    cases s <;> simp only [wt, endW, coeff_one, coeff_C_mul, coeff_X, coeff_zero] <;> simp at hd ⊢ <;> omega
  | cons p u ih =>
    intro w s d hw hd
    cases w with
    | nil => simp at hw
    | cons q w =>
      have hl : u.length = w.length := by simpa using hw
      simp only [wt]
      rcases h : step s p q with _ | ⟨t, i, j⟩
      · simp
      · simp only
        rw [coeff_step]
        split
        · rw [ih w t _ hl, mul_zero]
          rw [colsW_o1, colsW_o1, List.length_cons] at hd
          cases s <;> cases p <;> cases q <;> simp [step] at h <;> obtain ⟨rfl, rfl, rfl⟩ := h <;>
            simp [stE, o1] at hd ⊢ <;> omega
        · rfl

theorem wt_top (c : S) : ∀ (u w : List L3) (d : ℕ), u.length = w.length → 2 * u.length + colsW 0 u + colsW 0 w + 2 = 2 * d →
    (wt (C c) X .lr u w).coeff d = if u = w then c else 0 := by
  intro u
  induction u with
  | nil =>
    intro w d hw hd
    obtain rfl : w = [] := List.length_eq_zero_iff.1 (by simpa using hw.symm)
    simp only [colsW, List.length_nil] at hd
    obtain rfl : d = 1 := by omega
    simp [wt, endW]
  | cons p u ih =>
    intro w d hw hd
    cases w with
    | nil => simp at hw
    | cons q w =>
      have hl : u.length = w.length := by simpa using hw
      rw [colsW_o1, colsW_o1, List.length_cons] at hd
      have key : ∀ t i j, 2 * u.length + colsW 0 u + colsW 0 w + stE t < 2 * d - 2 * j →
          (2 ^ i * X ^ j * wt (C c) X t u w).coeff d = 0 := by
        intro t i j h
        rw [coeff_step]
        split
        · rw [wt_deg c u w t _ hl (by omega), mul_zero]
        · rfl
      have key2 : ∀ j, p = q → 2 * j = 2 + 2 * o1 p → (2 ^ 0 * X ^ j * wt (C c) X .lr u w).coeff d = if p :: u = q :: w then c else 0 := by
        intro j hpq hj
        subst hpq
        rw [coeff_step, if_pos (by omega), ih w (d - j) hl (by omega)]
        simp
      simp only [wt]
      cases p <;> cases q <;> simp only [step]
      case o.o => exact key2 2 rfl (by simp [o1])
      case a.a => exact key2 1 rfl (by simp [o1])
      case b.b => exact key2 1 rfl (by simp [o1])
      all_goals simp [o1] at hd
      all_goals rw [if_neg (by simp)]
      all_goals first | exact coeff_zero _ | exact key _ _ _ (by simp [stE]; omega)

/-- polynomials of degree at most `d` -/
def degF (S : Type*) [CommRing S] : Filt (X : S[X]) where
  D d := { carrier := {f | ∀ e, d < e → f.coeff e = 0}
           zero_mem' := fun e _ => coeff_zero e
           add_mem' := fun {a b} ha hb e he => by rw [coeff_add, ha e he, hb e he, add_zero]
           neg_mem' := fun {a} ha e he => by rw [coeff_neg, ha e he, neg_zero] }
  mono h _ ha e he := ha e (by omega)
  one e he := by rw [coeff_one, if_neg (by omega)]
  mul {d a} ha e he := by
    obtain ⟨e, rfl⟩ : ∃ e', e = e' + 1 := ⟨e - 1, by omega⟩
    rw [coeff_X_mul]
    exact ha e (by omega)

theorem opW_comp2 {R : Type*} [CommRing R] (c h x y : R) (u v : List L3) :
    sumW u.length (fun w => opW c h x u w * opW c h y w v) =
      comp2 c x y .z .z u v + h * (comp2 c x y .z .lr u v + comp2 c x y .lr .z u v) + h ^ 2 * comp2 c x y .lr .lr u v := by
  unfold comp2
  rw [← sumW_add, ← sumW_mul, ← sumW_add, ← sumW_mul, ← sumW_add]
  exact sumW_congr (fun w _ => by unfold opW; ring)

/-- **The relation between the coefficients of the Pieri operators**, types B and C. -/
theorem opW_rel (c h : S) (hc : c = 1 ∨ c = 2) {n k d : ℕ} {u v : List L3} (hu : u ∈ Wd n k) (hv : v ∈ Wd n k) (hd : 2 * k < d)
    (hd' : d < 2 * (n + k) + 2) :
    ∑ ab ∈ Finset.antidiagonal d, (-1) ^ ab.2 *
      ∑ w ∈ Wd n k, (opW (C c) (C h) X u w).coeff ab.1 * (opW (C c) (C h) X w v).coeff ab.2 = 0 := by
  rw [mem_Wd] at hu hv
  have hc' : (C c : S[X]) = 1 ∨ (C c : S[X]) = 2 := by
    rcases hc with rfl | rfl
    · exact Or.inl (map_one _)
    · exact Or.inr (map_ofNat _ 2)
  have hneg : ∀ w v, opW (C c) (C h) (-X : S[X]) w v = (opW (C c) (C h) X w v).comp (-X) := by
    intro w v
    have := opW_map (compRingHom (-X : S[X])) (C c) (C h) X w v
    simpa using this.symm
  have hl : u.length = v.length := by omega
  have H := opW_comp2 (C c) (C h) X (-X : S[X]) u v
  have B := bd_comp2 (degF S) (C c) hc' u v hl
  have h0 : (comp2 (C c) X (-X) .z .z u v + C h * (comp2 (C c) X (-X) .z .lr u v + comp2 (C c) X (-X) .lr .z u v) +
      C h ^ 2 * comp2 (C c) X (-X) .lr .lr u v : S[X]).coeff d = 0 := by
    have e1 : (comp2 (C c) X (-X) .z .lr u v + comp2 (C c) X (-X) .lr .z u v : S[X]) = -(2 * comp2 (C c) X (-X) .r .l u v) := by
      linear_combination B.rel1
    have e2 : (2 * comp2 (C c) X (-X) .r .l u v : S[X]).coeff d = 0 := by
      have h1 := (degF S).two B.rl 1
      rw [pow_one] at h1
      exact h1 d (by omega)
    have e3 : (C h ^ 2 * comp2 (C c) X (-X) .lr .lr u v : S[X]).coeff d = 0 := by
      rw [comp2_lrlr (degF S) (C c) hc' u v hl]
      split
      · have e4 : (C h ^ 2 * (-C c ^ 2 * (-1) ^ (u.length + colsW 0 u) * X ^ (2 * (u.length + colsW 0 u) + 2)) : S[X]) =
            C (h ^ 2 * (-c ^ 2 * (-1) ^ (u.length + colsW 0 u))) * X ^ (2 * (u.length + colsW 0 u) + 2) := by
          simp only [map_mul, map_pow, map_neg, map_one]
          ring
        rw [e4, coeff_C_mul, coeff_X_pow, if_neg (by omega), mul_zero]
      · rw [mul_zero, coeff_zero]
    rw [e1, coeff_add, coeff_add, coeff_C_mul, coeff_neg, B.zz d (by omega), e2, e3]
    simp
  rw [← H, hu.1, sumW_Wd (k := k) _ (fun w h1 h2 => by rw [opW_cols _ _ _ (by omega) (by omega), zero_mul]), finsetSum_coeff] at h0
  simp only [Finset.mul_sum]
  rw [Finset.sum_comm, ← h0]
  apply Finset.sum_congr rfl
  intro w _
  rw [coeff_mul]
  apply Finset.sum_congr rfl
  intro ab _
  have e5 : (-X : S[X]) = C (-1) * X := by simp
  rw [hneg, e5, comp_C_mul_X_coeff]
  ring

end

end Verif
