import Verif.Proofs.RelationsQ
import Verif.Proofs.RingD
import Mathlib.Algebra.Group.Subgroup.Basic
/-!
# Relations between the Pieri operators of type D

The composite of the first operators at `x` and `-x` has degree at most `2k`, as in types B and C. Its coefficient of degree
`2k` is the square of the second operator.
-/

namespace Verif
open Spec

set_option linter.unusedSimpArgs false

section
variable {R : Type*} [CommRing R]

/-- the contribution of one letter of the middle word, second matrices -/
def viaSS (g : St → St → R) (s t : St) (p m q : L3) : R :=
  match stepSg s p m, stepSg t m q with
  | some (s', i), some (t', i') => i * i' * g s' t'
  | _, _ => 0

/-- one letter of both words, second matrices -/
def stepSS (g : St → St → R) (p q : L3) (s t : St) : R :=
  viaSS g s t p .o q + viaSS g s t p .a q + viaSS g s t p .b q

end

section
open Polynomial
variable {S : Type*} [CommRing S]

/-- the coefficients of largest degree -/
structure Ld (N : ℕ) (ε : S) (f : St → St → S[X]) (g : St → St → S) : Prop where
  zz : (f .z .z).coeff N = ε * g .z .z
  zr : (f .z .r).coeff (N + 1) = -(ε * g .z .r)
  rz : (f .r .z).coeff N = ε * g .r .z
  zl : (f .z .l).coeff N = -(ε * g .z .l)
  lz : (f .l .z).coeff (N + 1) = ε * g .l .z
  rr : (f .r .r).coeff (N + 1) = -(ε * g .r .r)
  rl : (f .r .l).coeff N = -(ε * g .r .l)
  ll : (f .l .l).coeff (N + 1) = -(ε * g .l .l)
  lr : (f .l .r - X * f .z .lr).coeff (N + 2) = -(ε * g .l .r)

theorem term_coeff (i j i' j' e : ℕ) (f : S[X]) :
    (2 ^ i * X ^ j * (2 ^ i' * (-X) ^ j') * f).coeff (e + (j + j')) = 2 ^ i * 2 ^ i' * (-1) ^ j' * f.coeff e := by
  have : (2 ^ i * X ^ j * (2 ^ i' * (-X) ^ j') * f : S[X]) = C (2 ^ i * 2 ^ i' * (-1) ^ j') * (f * X ^ (j + j')) := by
    simp only [map_mul, map_pow, map_ofNat, map_neg, map_one]
    rw [neg_pow]
    ring
  rw [this, coeff_C_mul, coeff_mul_X_pow]

theorem term_coeff' (i j i' j' M : ℕ) (f : S[X]) :
    (2 ^ i * X ^ j * (2 ^ i' * (-X) ^ j') * f).coeff M =
      if j + j' ≤ M then 2 ^ i * 2 ^ i' * (-1) ^ j' * f.coeff (M - (j + j')) else 0 := by
  split
  · rename_i h
    obtain ⟨e, rfl⟩ : ∃ e, M = e + (j + j') := ⟨M - (j + j'), by omega⟩
    rw [term_coeff, Nat.add_sub_cancel]
  · have : (2 ^ i * X ^ j * (2 ^ i' * (-X) ^ j') * f : S[X]) = C (2 ^ i * 2 ^ i' * (-1) ^ j') * (f * X ^ (j + j')) := by
      simp only [map_mul, map_pow, map_ofNat, map_neg, map_one]
      rw [neg_pow]
      ring
    rw [this, coeff_C_mul, coeff_mul_X_pow', if_neg ‹_›, mul_zero]

theorem degF_succ {f : S[X]} {d : ℕ} (h : f ∈ (degF S).D d) : f.coeff (d + 1) = 0 ∧ f.coeff (d + 2) = 0 ∧ f.coeff (d + 3) = 0 :=
  ⟨h _ (by omega), h _ (by omega), h _ (by omega)⟩

section
variable {N : ℕ} {ε : S} {f : St → St → S[X]} {g : St → St → S} (H : Bd (degF S) N f) (K : Ld N ε f g)

section
include H K

theorem Ld.k1 : (f .z .lr).coeff N + (f .lr .z).coeff N = 2 * (ε * g .r .l) := by
  have := congrArg (fun p => coeff p N) H.rel1
  have e : (2 * f .r .l : S[X]) = C 2 * f .r .l := by rw [map_ofNat]
  simp only [e, coeff_add, coeff_C_mul, coeff_zero, K.rl] at this
  linear_combination this

theorem Ld.k1' : (f .z .lr).coeff (N + 1) + (f .lr .z).coeff (N + 1) = 0 := by
  have := congrArg (fun p => coeff p (N + 1)) H.rel1
  have e : (2 * f .r .l : S[X]) = C 2 * f .r .l := by rw [map_ofNat]
  simp only [e, coeff_add, coeff_C_mul, coeff_zero, (degF_succ H.rl).1] at this
  linear_combination this

end

include H in
theorem Bd.k2 : (f .l .lr).coeff (N + 1) + (f .lr .l).coeff N = 0 := by
  have := congrArg (fun p => coeff p (N + 1)) H.rel2
  simpa using this

include H in
theorem Bd.k3 : (f .lr .r).coeff (N + 1) - (f .r .lr).coeff N = 0 := by
  have := congrArg (fun p => coeff p (N + 1)) H.rel3
  simpa using this

include K in
theorem Ld.k4 : (f .l .r).coeff (N + 2) - (f .z .lr).coeff (N + 1) = -(ε * g .l .r) := by
  have := K.lr
  simpa using this

variable (p q : L3)
include H K

theorem Ld.step_zz : (stepF X (-X) f p q .z .z).coeff (N + o1 p + o1 q) = ε * (-1) ^ o1 q * stepSS g p q .z .z := by
  have k1 := K.k1 H
  have k1' := K.k1' H
  have k2 := H.k2
  have k3 := H.k3
  have k4 := K.k4
  obtain ⟨zz, zr, rz, zl, lz, rr, rl, ll, lr, h1, h2, h3⟩ := H
  obtain ⟨zz', zr', rz', zl', lz', rr', rl', ll', lr'⟩ := K
  cases p <;> cases q <;>
    simp only [stepF, viaF, step, stepSS, viaSS, stepSg, add_zero, zero_add, coeff_add, coeff_zero, term_coeff'] <;>
    simp [o1, degF_succ zz, degF_succ zr, degF_succ rz, degF_succ zl, degF_succ lz, degF_succ rr, degF_succ rl, degF_succ ll,
      zz', zr', rz', zl', lz', rr', rl', ll']
  case b.a => linear_combination k1

theorem Ld.step_zr : (stepF X (-X) f p q .z .r).coeff (N + o1 p + o1 q + 1) = -(ε * (-1) ^ o1 q * stepSS g p q .z .r) := by
  have k1 := K.k1 H
  have k1' := K.k1' H
  have k2 := H.k2
  have k3 := H.k3
  have k4 := K.k4
  obtain ⟨zz, zr, rz, zl, lz, rr, rl, ll, lr, h1, h2, h3⟩ := H
  obtain ⟨zz', zr', rz', zl', lz', rr', rl', ll', lr'⟩ := K
  cases p <;> cases q <;>
    simp only [stepF, viaF, step, stepSS, viaSS, stepSg, add_zero, zero_add, coeff_add, coeff_zero, term_coeff'] <;>
    simp [o1, degF_succ zz, degF_succ zr, degF_succ rz, degF_succ zl, degF_succ lz, degF_succ rr, degF_succ rl, degF_succ ll,
      zz', zr', rz', zl', lz', rr', rl', ll']
  case o.a => linear_combination k4
  case b.a => linear_combination k3

theorem Ld.step_rz : (stepF X (-X) f p q .r .z).coeff (N + o1 p + o1 q) = ε * (-1) ^ o1 q * stepSS g p q .r .z := by
  have k1 := K.k1 H
  have k1' := K.k1' H
  have k2 := H.k2
  have k3 := H.k3
  have k4 := K.k4
  obtain ⟨zz, zr, rz, zl, lz, rr, rl, ll, lr, h1, h2, h3⟩ := H
  obtain ⟨zz', zr', rz', zl', lz', rr', rl', ll', lr'⟩ := K
  cases p <;> cases q <;>
    simp only [stepF, viaF, step, stepSS, viaSS, stepSg, add_zero, zero_add, coeff_add, coeff_zero, term_coeff'] <;>
    simp [o1, degF_succ zz, degF_succ zr, degF_succ rz, degF_succ zl, degF_succ lz, degF_succ rr, degF_succ rl, degF_succ ll,
      zz', zr', rz', zl', lz', rr', rl', ll']
  case o.a => linear_combination k1

theorem Ld.step_zl : (stepF X (-X) f p q .z .l).coeff (N + o1 p + o1 q) = -(ε * (-1) ^ o1 q * stepSS g p q .z .l) := by
  have k1 := K.k1 H
  have k1' := K.k1' H
  have k2 := H.k2
  have k3 := H.k3
  have k4 := K.k4
  obtain ⟨zz, zr, rz, zl, lz, rr, rl, ll, lr, h1, h2, h3⟩ := H
  obtain ⟨zz', zr', rz', zl', lz', rr', rl', ll', lr'⟩ := K
  cases p <;> cases q <;>
    simp only [stepF, viaF, step, stepSS, viaSS, stepSg, add_zero, zero_add, coeff_add, coeff_zero, term_coeff'] <;>
    simp [o1, degF_succ zz, degF_succ zr, degF_succ rz, degF_succ zl, degF_succ lz, degF_succ rr, degF_succ rl, degF_succ ll,
      zz', zr', rz', zl', lz', rr', rl', ll']
  case b.o => linear_combination -k1

theorem Ld.step_lz : (stepF X (-X) f p q .l .z).coeff (N + o1 p + o1 q + 1) = ε * (-1) ^ o1 q * stepSS g p q .l .z := by
  have k1 := K.k1 H
  have k1' := K.k1' H
  have k2 := H.k2
  have k3 := H.k3
  have k4 := K.k4
  obtain ⟨zz, zr, rz, zl, lz, rr, rl, ll, lr, h1, h2, h3⟩ := H
  obtain ⟨zz', zr', rz', zl', lz', rr', rl', ll', lr'⟩ := K
  cases p <;> cases q <;>
    simp only [stepF, viaF, step, stepSS, viaSS, stepSg, add_zero, zero_add, coeff_add, coeff_zero, term_coeff'] <;>
    simp [o1, degF_succ zz, degF_succ zr, degF_succ rz, degF_succ zl, degF_succ lz, degF_succ rr, degF_succ rl, degF_succ ll,
      zz', zr', rz', zl', lz', rr', rl', ll']
  case b.o => linear_combination k4 + k1'
  case b.a => linear_combination k2

theorem Ld.step_rr : (stepF X (-X) f p q .r .r).coeff (N + o1 p + o1 q + 1) = -(ε * (-1) ^ o1 q * stepSS g p q .r .r) := by
  have k1 := K.k1 H
  have k1' := K.k1' H
  have k2 := H.k2
  have k3 := H.k3
  have k4 := K.k4
  obtain ⟨zz, zr, rz, zl, lz, rr, rl, ll, lr, h1, h2, h3⟩ := H
  obtain ⟨zz', zr', rz', zl', lz', rr', rl', ll', lr'⟩ := K
  cases p <;> cases q <;>
    simp only [stepF, viaF, step, stepSS, viaSS, stepSg, add_zero, zero_add, coeff_add, coeff_zero, term_coeff'] <;>
    simp [o1, degF_succ zz, degF_succ zr, degF_succ rz, degF_succ zl, degF_succ lz, degF_succ rr, degF_succ rl, degF_succ ll,
      zz', zr', rz', zl', lz', rr', rl', ll']
  case o.a => linear_combination k3

theorem Ld.step_rl : (stepF X (-X) f p q .r .l).coeff (N + o1 p + o1 q) = -(ε * (-1) ^ o1 q * stepSS g p q .r .l) := by
  have k1 := K.k1 H
  have k1' := K.k1' H
  have k2 := H.k2
  have k3 := H.k3
  have k4 := K.k4
  obtain ⟨zz, zr, rz, zl, lz, rr, rl, ll, lr, h1, h2, h3⟩ := H
  obtain ⟨zz', zr', rz', zl', lz', rr', rl', ll', lr'⟩ := K
  cases p <;> cases q <;>
    simp only [stepF, viaF, step, stepSS, viaSS, stepSg, add_zero, zero_add, coeff_add, coeff_zero, term_coeff'] <;>
    simp [o1, degF_succ zz, degF_succ zr, degF_succ rz, degF_succ zl, degF_succ lz, degF_succ rr, degF_succ rl, degF_succ ll,
      zz', zr', rz', zl', lz', rr', rl', ll']
  case o.o => linear_combination -k1

theorem Ld.step_ll : (stepF X (-X) f p q .l .l).coeff (N + o1 p + o1 q + 1) = -(ε * (-1) ^ o1 q * stepSS g p q .l .l) := by
  have k1 := K.k1 H
  have k1' := K.k1' H
  have k2 := H.k2
  have k3 := H.k3
  have k4 := K.k4
  obtain ⟨zz, zr, rz, zl, lz, rr, rl, ll, lr, h1, h2, h3⟩ := H
  obtain ⟨zz', zr', rz', zl', lz', rr', rl', ll', lr'⟩ := K
  cases p <;> cases q <;>
    simp only [stepF, viaF, step, stepSS, viaSS, stepSg, add_zero, zero_add, coeff_add, coeff_zero, term_coeff'] <;>
    simp [o1, degF_succ zz, degF_succ zr, degF_succ rz, degF_succ zl, degF_succ lz, degF_succ rr, degF_succ rl, degF_succ ll,
      zz', zr', rz', zl', lz', rr', rl', ll']
  case b.o => linear_combination -k2

theorem Ld.step_lr : (stepF X (-X) f p q .l .r - X * stepF X (-X) f p q .z .lr).coeff (N + o1 p + o1 q + 2) =
    -(ε * (-1) ^ o1 q * stepSS g p q .l .r) := by
  have k1 := K.k1 H
  have k1' := K.k1' H
  have k2 := H.k2
  have k3 := H.k3
  have k4 := K.k4
  obtain ⟨zz, zr, rz, zl, lz, rr, rl, ll, lr, h1, h2, h3⟩ := H
  obtain ⟨zz', zr', rz', zl', lz', rr', rl', ll', lr'⟩ := K
  rw [show N + o1 p + o1 q + 2 = N + o1 p + o1 q + 1 + 1 from rfl, coeff_sub, coeff_X_mul]
  cases p <;> cases q <;>
    simp only [stepF, viaF, step, stepSS, viaSS, stepSg, add_zero, zero_add, coeff_add, coeff_zero, term_coeff'] <;>
    simp [o1, degF_succ zz, degF_succ zr, degF_succ rz, degF_succ zl, degF_succ lz, degF_succ rr, degF_succ rl, degF_succ ll,
      zz', zr', rz', zl', lz', rr', rl', ll']
  case o.o => linear_combination k4
  case o.b => ring
  case a.o => ring
  case a.b => ring
  case b.o => linear_combination k3
  case b.b => linear_combination k1

/-- one letter more -/
theorem Ld.step : Ld (N + o1 p + o1 q) (ε * (-1) ^ o1 q) (stepF X (-X) f p q) (stepSS g p q) :=
  ⟨K.step_zz H p q, K.step_zr H p q, K.step_rz H p q, K.step_zl H p q, K.step_lz H p q, K.step_rr H p q, K.step_rl H p q, K.step_ll H p q,
    K.step_lr H p q⟩

end

/-! ### Words with an inner letter -/

theorem viaE_viaF {R : Type*} [CommRing R] (x y : R) (s t : St) (p m q : L3) (f : St → St → R) : viaE x y s t p m q f = viaF x y f s t p m q := rfl

theorem fGG_compE {R : Type*} [CommRing R] (x y : R) {U V : WordD} (hl : U.1.length = V.1.length) :
    fGG x y U V = compE x y (fun s t => endG x s U.2 .o * endG y t .o V.2 + endG x s U.2 .a * endG y t .a V.2 +
      endG x s U.2 .b * endG y t .b V.2) U.1 V.1 := by
  funext s t
  rw [compE_add, compE_add]
  unfold fGG sumD gD
  simp only
  rw [compE_eq _ _ _ _ _ _ hl, compE_eq _ _ _ _ _ _ hl, compE_eq _ _ _ _ _ _ hl]

theorem fGG_cons {R : Type*} [CommRing R] (x y : R) (p q : L3) {u v : List L3} (i j : L3) (hl : u.length = v.length) :
    fGG x y (p :: u, i) (q :: v, j) = stepF x y (fGG x y (u, i) (v, j)) p q := by
  rw [fGG_compE x y (U := (p :: u, i)) (V := (q :: v, j)) (by simpa using hl), fGG_compE x y (U := (u, i)) (V := (v, j)) hl]
  rfl

theorem fGG_nil {R : Type*} [CommRing R] (x y : R) (i j : L3) (s t : St) :
    fGG x y ([], i) ([], j) s t = endG x s i .o * endG y t .o j + endG x s i .a * endG y t .a j + endG x s i .b * endG y t .b j := rfl

/-- the composite of the second matrices -/
def fSS {R : Type*} [CommRing R] (U V : WordD) (s t : St) : R := sumD U.1.length (fun W => sD s U W * sD t W V)

theorem fSS_nil {R : Type*} [CommRing R] (i j : L3) (s t : St) :
    (fSS ([], i) ([], j) s t : R) = endSg s i .o * endSg t .o j + endSg s i .a * endSg t .a j + endSg s i .b * endSg t .b j := rfl

theorem fSS_cons {R : Type*} [CommRing R] (p q : L3) {u v : List L3} (i j : L3) :
    (fSS (p :: u, i) (q :: v, j) : St → St → R) = stepSS (fSS (u, i) (v, j)) p q := by
  funext s t
  have key : ∀ m, sumD u.length (fun W => (sD s (p :: u, i) (m :: W.1, W.2) : R) * sD t (m :: W.1, W.2) (q :: v, j)) =
      viaSS (fSS (u, i) (v, j)) s t p m q := by
    intro m
    unfold viaSS fSS
    simp only [sD, wtS]
    rcases stepSg s p m with _ | ⟨s', e⟩
    · simp only [zero_mul]
      have := sumD_mul u.length (0 : R) (fun _ => 0)
      simpa using this
    · rcases stepSg t m q with _ | ⟨t', e'⟩
      · simp only [mul_zero]
        have := sumD_mul u.length (0 : R) (fun _ => 0)
        simpa using this
      · simp only
        rw [← sumD_mul]
        exact sumD_congr (fun W _ => by ring)
  unfold stepSS
  rw [← key, ← key, ← key]
  exact sumD_succ u.length _

theorem colsD_o1 (p : L3) (u : List L3) (i : L3) : colsD (p :: u, i) = colsD (u, i) + o1 p := by
  cases p <;> simp [colsD, colsW, o1]

theorem bd_fGG_nil (i j : L3) : Bd (degF S) (i.k0 + j.k0) (fGG X (-X) ([], i) ([], j)) := by
  have h0 : (1 : S[X]) ∈ (degF S).D 0 := (degF S).one
  have m : ∀ (z : ℤ) (n : ℕ), ((z : S[X]) * X ^ n) ∈ (degF S).D n := fun z n => by
    have := zsmul_mem ((degF S).pow h0 n) z
    rw [zsmul_eq_mul, mul_one, zero_add] at this
    exact this
  constructor <;> cases i <;> cases j <;> simp only [fGG_nil, endG, L3.k0, mul_zero, zero_mul, add_zero, zero_add, mul_one, one_mul, sub_zero] <;>
    first
    | exact zero_mem _
    | exact h0
    | ring1
    | exact (degF S).of_eq (m 1 0) (by norm_num) (by push_cast; ring1)
    | exact (degF S).of_eq (m 1 1) (by norm_num) (by push_cast; ring1)
    | exact (degF S).of_eq (m (-1) 1) (by norm_num) (by push_cast; ring1)
    | exact (degF S).of_eq (m (-2) 2) (by norm_num) (by push_cast; ring1)
    | exact (degF S).of_eq (m (-1) 2) (by norm_num) (by push_cast; ring1)
    | exact (degF S).of_eq (m 1 2) (by norm_num) (by push_cast; ring1)
    | exact (degF S).of_eq (m (-2) 3) (by norm_num) (by push_cast; ring1)

theorem ld_fGG_nil (i j : L3) : Ld (i.k0 + j.k0) ((-1) ^ j.k0) (fGG (X : S[X]) (-X) ([], i) ([], j)) (fSS ([], i) ([], j)) := by
  have e1 : (X * -X : S[X]) = -X ^ 2 := by ring
  constructor <;> cases i <;> cases j <;>
    simp only [fGG_nil, fSS_nil, endG, endSg, L3.k0, mul_zero, zero_mul, add_zero, zero_add, mul_one, one_mul, sub_zero] <;>
    simp [coeff_X, coeff_one, e1, coeff_X_pow]
  all_goals norm_num

theorem bd_fGG : ∀ (u v : List L3) (i j : L3), u.length = v.length →
    Bd (degF S) (colsD (u, i) + colsD (v, j)) (fGG X (-X) (u, i) (v, j)) ∧
    Ld (colsD (u, i) + colsD (v, j)) ((-1) ^ colsD (v, j)) (fGG (X : S[X]) (-X) (u, i) (v, j)) (fSS (u, i) (v, j)) := by
  intro u
  induction u with
  | nil =>
    intro v i j hv
    obtain rfl : v = [] := List.length_eq_zero_iff.1 (by simpa using hv.symm)
    exact ⟨bd_fGG_nil i j, ld_fGG_nil i j⟩
  | cons p u ih =>
    intro v i j hv
    cases v with
    | nil => simp at hv
    | cons q v =>
      have hl : u.length = v.length := by simpa using hv
      obtain ⟨B, L⟩ := ih v i j hl
      rw [fGG_cons X (-X) p q i j hl, fSS_cons, colsD_o1, colsD_o1, pow_add,
        show colsD (u, i) + o1 p + (colsD (v, j) + o1 q) = colsD (u, i) + colsD (v, j) + o1 p + o1 q by omega]
      exact ⟨B.step p q, L.step B p q⟩

/-- the remaining entry is a power of `x` on the diagonal -/
theorem fGG_lrlr : ∀ (u v : List L3) (i j : L3), u.length = v.length →
    fGG (X : S[X]) (-X) (u, i) (v, j) .lr .lr = if (u, i) = (v, j) then
      -4 * (-1) ^ (u.length + colsD (u, i)) * X ^ (2 * (u.length + colsD (u, i)) + 2) else 0 := by
  intro u
  induction u with
  | nil =>
    intro v i j hv
    obtain rfl : v = [] := List.length_eq_zero_iff.1 (by simpa using hv.symm)
    rw [fGG_nil]
    cases i <;> cases j <;> simp [endG, colsD, colsW, L3.k0] <;> ring
  | cons p u ih =>
    intro v i j hv
    cases v with
    | nil => simp at hv
    | cons q v =>
      have hl : u.length = v.length := by simpa using hv
      rw [fGG_cons X (-X) p q i j hl, (bd_fGG u v i j hl).1.step_lrlr p q, ih v i j hl]
      by_cases hpq : p = q
      · subst hpq
        rw [if_pos rfl]
        by_cases huv : (u, i) = (v, j)
        · obtain ⟨rfl, rfl⟩ := Prod.mk.inj huv
          rw [if_pos rfl, if_pos rfl, colsD_o1]
          cases p <;> simp [o1] <;> ring
        · have h' : ¬ (p :: u, i) = (p :: v, j) := by simpa using huv
          rw [if_neg huv, if_neg h', mul_zero]
      · rw [if_neg hpq, if_neg (by simp [hpq])]

/-! ### The operators -/

/-- the second operator with itself, by first letters -/
def compSSk {R : Type*} [CommRing R] (h : R) (g : St → St → R) : L3 → L3 → R
  | .o, .o => 2 * h * g .l .r
  | .o, .a => g .l .z
  | .o, .b => h * g .l .z
  | .a, .o => h * g .z .r
  | .a, .a => g .z .z + -h * g .r .l
  | .a, .b => h ^ 2 * g .r .l
  | .b, .o => g .z .r
  | .b, .a => g .r .l
  | .b, .b => g .z .z + -h * g .r .l

theorem ker_compSS {R : Type*} [CommRing R] (h : R) (p q : L3) (U V : WordD) :
    sumD (U.1.length + 1) (fun W => (opSE (p :: U.1, U.2) W + opSO (-h) (p :: U.1, U.2) W) *
      (opSE W (q :: V.1, V.2) + opSO h W (q :: V.1, V.2))) = compSSk h (fSS U V) p q := by
  rw [sumD_succ]
  cases p <;> cases q <;> simp only [opSE, opSO, kerSE, kerSO, compSSk, fSS, ← sumD_mul, ← sumD_add] <;>
    exact sumD_congr (fun w _ => by ring)

/-- the coefficient of largest degree of the composite -/
theorem compQ_lead {N : ℕ} {ε : S} {f : St → St → S[X]} {g : St → St → S} (H : Bd (degF S) N f) (K : Ld N ε f g) (h : S) (p q : L3)
    (hlr : (f .lr .lr).coeff N = 0) :
    (compQ (C h) (C (h ^ 2)) X (-X) f p q).coeff (N + o1 p + o1 q) = ε * (-1) ^ o1 q * compSSk h g p q := by
  have k1 := K.k1 H
  have k1' := K.k1' H
  have k2 := H.k2
  have k3 := H.k3
  have k4 := K.k4
  obtain ⟨zz, zr, rz, zl, lz, rr, rl, ll, lr, h1, h2, h3⟩ := H
  obtain ⟨zz', zr', rz', zl', lz', rr', rl', ll', lr'⟩ := K
  have e2 : (C h : S[X]) ^ 2 = C (h ^ 2) := by rw [map_pow]
  have e3 : (2 * f .l .r : S[X]) = C 2 * f .l .r := by rw [map_ofNat]
  have e4 : (X * -X * f .lr .lr : S[X]) = -(X * (X * f .lr .lr)) := by ring
  cases p <;> cases q <;> simp only [compQ, compSSk, o1, e2, e3, e4]
  all_goals simp [degF_succ zz, degF_succ zr, degF_succ rz, degF_succ zl, degF_succ lz, degF_succ rr, degF_succ rl, degF_succ ll,
      zz', zr', rz', zl', lz', rr', rl', ll', coeff_C_mul, mul_add, -map_pow, hlr]
  case o.o => linear_combination 2 * h * k4 + h * k1'
  case o.a => linear_combination h * k2
  case o.b => linear_combination h ^ 2 * k2
  case a.o => linear_combination h ^ 2 * k3
  case a.a => ring
  case a.b => linear_combination h ^ 2 * k1
  case b.o => linear_combination h * k3
  case b.a => linear_combination k1
  case b.b => ring

/-- the composite of two operators with a part that exchanges the types, by the composites for `h` and `-h` -/
theorem twice_opG {R : Type*} [CommRing R] (h h' x y : R) (n : ℕ) (U V : WordD) :
    2 * sumD n (fun W => opG h h' x U W * opG h h' y W V) =
      sumD n (fun W => (opGE h' x U W + opGO h x U W) * (opGE h' y W V + opGO h y W V)) +
      sumD n (fun W => (opGE h' x U W + opGO (-h) x U W) * (opGE h' y W V + opGO (-h) y W V)) +
      (sumD n (fun W => (opGE h' x U W + opGO h x U W) * (opGE h' y W (swD V) + opGO h y W (swD V))) -
      sumD n (fun W => (opGE h' x U W + opGO (-h) x U W) * (opGE h' y W (swD V) + opGO (-h) y W (swD V)))) := by
  unfold opG
  rw [twist_sum _ _ _ _ _ 1 (opGE_sw h' y) (opGO_sw h y), sub_eq_neg_add, ← neg_one_mul (sumD n _), ← sumD_mul, ← sumD_add, ← sumD_add, ← sumD_add,
    ← sumD_add, ← sumD_mul]
  exact sumD_congr (fun W _ => by rw [opGO_neg, opGO_neg, opGO_neg]; ring)

theorem twice_opS {R : Type*} [CommRing R] (h : R) (n : ℕ) (U V : WordD) :
    2 * sumD n (fun W => opS h U W * opS h W V) =
      sumD n (fun W => (opSE U W + opSO (-h) U W) * (opSE W V + opSO h W V)) +
      sumD n (fun W => (opSE U W + opSO (- -h) U W) * (opSE W V + opSO (-h) W V)) +
      (sumD n (fun W => (opSE U W + opSO (-h) U W) * (opSE W (swD V) + opSO h W (swD V))) -
      sumD n (fun W => (opSE U W + opSO (- -h) U W) * (opSE W (swD V) + opSO (-h) W (swD V)))) := by
  unfold opS
  rw [twist_sum _ _ _ _ _ (-1) opSE_sw (opSO_sw h), sub_eq_neg_add, ← neg_one_mul (sumD n _), ← sumD_mul, ← sumD_add, ← sumD_add, ← sumD_add,
    ← sumD_add, ← sumD_mul]
  exact sumD_congr (fun W _ => by rw [neg_neg, opSO_neg, opSO_neg, opSO_neg]; ring)

/-- the composite for a value of `h`, in degrees above `2k` -/
theorem opGE_rel (h h' : S) {n k d : ℕ} {U V : WordD} (hU : U.1.length = n ∧ colsD U = k) (hV : V.1.length = n ∧ colsD V = k)
    (hh : h' = h ^ 2 ∨ (colsW 0 U.1 = 0 ∧ colsW 0 V.1 = 0)) (hd : 2 * k < d) :
    (sumD n (fun W => (opGE (C h') X U W + opGO (C h) X U W) * (opGE (C h') (-X) W V + opGO (C h) (-X) W V)) : S[X]).coeff d =
      if d = 2 * (n + k) ∧ U = V then (-1) ^ (n + k) * (4 * h') else 0 := by
  obtain ⟨hU1, hU2⟩ := hU
  obtain ⟨hV1, hV2⟩ := hV
  rcases U with ⟨_ | ⟨p, u⟩, i⟩
  · rcases V with ⟨_ | ⟨q, v⟩, j⟩
    · simp only [List.length_nil] at hU1 hV1
      subst hU1
      rw [if_neg (by rintro ⟨h1, -⟩; omega)]
      simp only [sumD, sumW, opGE, opGO, gD_z_nil]
      cases i <;> cases j <;> simp [coeff_one] <;> omega
    · simp at hU1 hV1; omega
  · rcases V with ⟨_ | ⟨q, v⟩, j⟩
    · simp at hU1 hV1; omega
    · have hl : u.length = v.length := by simp at hU1 hV1; omega
      simp only [List.length_cons] at hU1 hV1
      rw [colsD_o1] at hU2 hV2
      have e := ker_comp (C h) (C h') X (-X : S[X]) p q (u, i) (v, j)
      simp only [hU1] at e
      rw [e]
      have B := (bd_fGG (S := S) u v i j hl).1
      have hh' : (C h' : S[X]) = C h ^ 2 ∨ (p ≠ .o ∧ q ≠ .o) := by
        rcases hh with rfl | ⟨h1, h2⟩
        · exact Or.inl (by rw [map_pow])
        · refine Or.inr ⟨?_, ?_⟩
          · rintro rfl; simp [colsW] at h1
          · rintro rfl; simp [colsW] at h2
      have hs := compQ_small B (C h) (C h') (degF_C h) (degF_C h') p q hh' d (by omega)
      rw [coeff_sub, sub_eq_zero] at hs
      rw [hs, fGG_lrlr u v i j hl]
      by_cases hpq : p = q
      · subst hpq
        rw [if_pos rfl]
        by_cases huv : (u, i) = (v, j)
        · obtain ⟨rfl, rfl⟩ := Prod.mk.inj huv
          rw [if_pos rfl]
          have e1 : (C h' * ((if p = .o then -X ^ 2 else 1) * (-4 * (-1) ^ (u.length + colsD (u, i)) *
              X ^ (2 * (u.length + colsD (u, i)) + 2))) : S[X]) = C ((-1) ^ (n + k) * (4 * h')) * X ^ (2 * (n + k)) := by
            obtain rfl : k = colsD (u, i) + o1 p := hU2.symm
            obtain rfl : n = u.length + 1 := hU1.symm
            simp only [map_mul, map_pow, map_neg, map_one, map_ofNat]
            cases p <;> simp [o1] <;> ring
          rw [e1, coeff_C_mul, coeff_X_pow]
          simp
        · have h' : ¬ (p :: u, i) = (p :: v, j) := by simpa using huv
          rw [if_neg huv, mul_zero, mul_zero, coeff_zero, if_neg (fun h => h' h.2)]
      · rw [if_neg hpq, coeff_zero, if_neg]
        rintro ⟨-, h⟩
        exact hpq (List.cons.inj (Prod.mk.inj h).1).1

/-- the composite for a value of `h`, in degree `2k` -/
theorem opGE_lead (h : S) {n k : ℕ} {U V : WordD} (hn : 1 ≤ n) (hU : U.1.length = n ∧ colsD U = k) (hV : V.1.length = n ∧ colsD V = k) :
    (sumD n (fun W => (opGE (C (h ^ 2)) X U W + opGO (C h) X U W) * (opGE (C (h ^ 2)) (-X) W V + opGO (C h) (-X) W V)) : S[X]).coeff (2 * k) =
      (-1) ^ k * sumD n (fun W => (opSE U W + opSO (-h) U W) * (opSE W V + opSO h W V)) := by
  obtain ⟨hU1, hU2⟩ := hU
  obtain ⟨hV1, hV2⟩ := hV
  rcases U with ⟨_ | ⟨p, u⟩, i⟩
  · simp at hU1; omega
  · rcases V with ⟨_ | ⟨q, v⟩, j⟩
    · simp at hV1; omega
    · have hl : u.length = v.length := by simp at hU1 hV1; omega
      simp only [List.length_cons] at hU1 hV1
      rw [colsD_o1] at hU2 hV2
      have e := ker_comp (C h) (C (h ^ 2)) X (-X : S[X]) p q (u, i) (v, j)
      have e' := ker_compSS h p q (u, i) (v, j)
      simp only [hU1] at e e'
      rw [e, e']
      obtain ⟨B, L⟩ := bd_fGG (S := S) u v i j hl
      have := compQ_lead B L h p q (by
        rw [fGG_lrlr u v i j hl]
        split
        · rename_i huv
          obtain ⟨rfl, rfl⟩ := Prod.mk.inj huv
          have e1 : (-4 * (-1) ^ (u.length + colsD (u, i)) * X ^ (2 * (u.length + colsD (u, i)) + 2) : S[X]) =
              C (-4 * (-1) ^ (u.length + colsD (u, i))) * X ^ (2 * (u.length + colsD (u, i)) + 2) := by
            simp only [map_mul, map_pow, map_neg, map_one, map_ofNat]
          rw [e1, coeff_C_mul, coeff_X_pow, if_neg (by omega), mul_zero]
        · exact coeff_zero _)
      rw [show colsD (u, i) + colsD (v, j) + o1 p + o1 q = 2 * k by omega, ← pow_add, hV2] at this
      exact this

end

section
open Polynomial
variable {S : Type*} [CommRing S] [IsDomain S] [CharZero S]

/-- coefficients of the composite, as a sum over the words of the classes -/
theorem sumG_coeff (h h' : S) {n k : ℕ} (hk : k = 0 → h = 0) {U V : WordD} (hU : U ∈ WdD n k) (d : ℕ) :
    ∑ ab ∈ Finset.antidiagonal d, (-1) ^ ab.2 *
      ∑ W ∈ WdD n k, (opG (C h) (C h') X U W).coeff ab.1 * (opG (C h) (C h') X W V).coeff ab.2 =
    (sumD n (fun W => opG (C h) (C h') X U W * opG (C h) (C h') (-X) W V) : S[X]).coeff d := by
  have hneg : ∀ W V, opG (C h) (C h') (-X : S[X]) W V = (opG (C h) (C h') X W V).comp (-X) := by
    intro W V
    have := opG_map (compRingHom (-X : S[X])) (C h) (C h') X W V
    simpa using this.symm
  have hz : k = 0 → C h = (0 : S[X]) := fun h0 => by rw [hk h0]; simp
  rw [sumD_WdD (k := k) _ (fun W h1 h2 => by rw [opG_out _ _ _ hz hU h1 h2, zero_mul]), finsetSum_coeff]
  simp only [Finset.mul_sum]
  rw [Finset.sum_comm]
  apply Finset.sum_congr rfl
  intro W _
  rw [coeff_mul]
  apply Finset.sum_congr rfl
  intro ab _
  have e5 : (-X : S[X]) = C (-1) * X := by simp
  rw [hneg, e5, comp_C_mul_X_coeff]
  ring

theorem two_coeff (f : S[X]) (d : ℕ) : (2 * f).coeff d = 2 * f.coeff d := by
  rw [show (2 * f : S[X]) = C 2 * f by rw [map_ofNat], coeff_C_mul]

theorem swD_WdD {n k : ℕ} {V : WordD} (hV : V.1.length = n ∧ colsD V = k) : (swD V).1.length = n ∧ colsD (swD V) = k :=
  ⟨hV.1, by rw [colsD_sw]; exact hV.2⟩

/-- **The relation between the coefficients of the Pieri operators**, type D. -/
theorem opG_rel {h h' : S} {n k d : ℕ} (hk : k = 0 → h = 0) (hh : k ≠ 0 → h' = h ^ 2) {U V : WordD} (hU : U ∈ WdD n k) (hV : V ∈ WdD n k)
    (hd : 2 * k < d) :
    ∑ ab ∈ Finset.antidiagonal d, (-1) ^ ab.2 *
      ∑ W ∈ WdD n k, (opG (C h) (C h') X U W).coeff ab.1 * (opG (C h) (C h') X W V).coeff ab.2 =
    if d = 2 * (n + k) ∧ U = V then (-1) ^ (n + k) * (4 * h') else 0 := by
  rw [sumG_coeff h h' hk hU]
  rw [mem_WdD] at hU hV
  have hU' : U.1.length = n ∧ colsD U = k := ⟨hU.1, hU.2.1⟩
  have hV' : V.1.length = n ∧ colsD V = k := ⟨hV.1, hV.2.1⟩
  have hc : ∀ g : S, g ^ 2 = h ^ 2 → (h' = g ^ 2 ∨ (colsW 0 U.1 = 0 ∧ colsW 0 V.1 = 0)) := by
    intro g hg
    rcases Nat.eq_zero_or_pos k with h0 | h0
    · right
      have e1 := colsW_add U.2.k0 U.1
      have e2 := colsW_add V.2.k0 V.1
      have e3 := hU.2.1
      have e4 := hV.2.1
      unfold colsD at e3 e4
      omega
    · exact Or.inl ((hh (by omega)).trans hg.symm)
  have key := congrArg (fun f => coeff f d) (twice_opG (C h) (C h') (X : S[X]) (-X) n U V)
  simp only [two_coeff, coeff_add, coeff_sub] at key
  rw [← map_neg C h, opGE_rel h h' hU' hV' (hc h rfl) hd, opGE_rel (-h) h' hU' hV' (hc (-h) (by ring)) hd,
    opGE_rel h h' hU' (swD_WdD hV') (hc h rfl) hd, opGE_rel (-h) h' hU' (swD_WdD hV') (hc (-h) (by ring)) hd, sub_self, add_zero, ← two_mul] at key
  exact mul_left_cancel₀ two_ne_zero key

/-- **The coefficient of degree `2k`** is the square of the second operator. -/
theorem opG_lead (h : S) {n k : ℕ} (hn : 1 ≤ n) (hk : k ≠ 0) {U V : WordD} (hU : U ∈ WdD n k) (hV : V ∈ WdD n k) :
    ∑ ab ∈ Finset.antidiagonal (2 * k), (-1) ^ ab.2 *
      ∑ W ∈ WdD n k, (opG (C h) (C (h ^ 2)) X U W).coeff ab.1 * (opG (C h) (C (h ^ 2)) X W V).coeff ab.2 =
    (-1) ^ k * ∑ W ∈ WdD n k, opS h U W * opS h W V := by
  rw [sumG_coeff h (h ^ 2) (fun h0 => absurd h0 hk) hU,
    ← sumD_WdD (n := n) (k := k) (fun W => opS h U W * opS h W V) (fun W h1 h2 => by rw [opS_out _ hk hU h1 h2, zero_mul])]
  rw [mem_WdD] at hU hV
  have hU' : U.1.length = n ∧ colsD U = k := ⟨hU.1, hU.2.1⟩
  have hV' : V.1.length = n ∧ colsD V = k := ⟨hV.1, hV.2.1⟩
  have key := congrArg (fun f => coeff f (2 * k)) (twice_opG (C h) (C (h ^ 2)) (X : S[X]) (-X) n U V)
  simp only [two_coeff, coeff_add, coeff_sub] at key
  have hm := opGE_lead (-h) hn hU' hV'
  have hm' := opGE_lead (-h) hn hU' (swD_WdD hV')
  rw [neg_sq] at hm hm'
  rw [← map_neg C h, opGE_lead h hn hU' hV', hm, opGE_lead h hn hU' (swD_WdD hV'), hm'] at key
  have key2 := twice_opS h n U V
  apply mul_left_cancel₀ (two_ne_zero (α := S))
  rw [key]
  linear_combination (-(-1) ^ k) * key2

end
end Verif
