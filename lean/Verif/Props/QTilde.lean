import Verif.Proofs.QTilde
import Verif.Props.Pfaff
import Mathlib.Algebra.DualNumber
/-!
# C128: the products on `IG(n, 2n)`, `OG(n, 2n+1)` and `OG(n+1, 2n+2)` are multiplication of values of the polynomials `Q̃`
-/

namespace Verif
open Spec MvPolynomial

section
variable {R : Type} [CommRing R] [Algebra ℚ R] {n : ℕ} {f : Sym → R} {e : ℕ → R} {t : R}

theorem rowPair_Icc (e : ℕ → R) (b a : ℕ) : rowPair e b a = e b * e a + ∑ i ∈ Finset.Icc 1 a, 2 * (-1) ^ i * (e (b + i) * e (a - i)) := by
  unfold rowPair
  rw [Finset.sum_range_succ', add_comm, ← Finset.Ico_add_one_right_eq_Icc, Finset.sum_Ico_eq_sum_range, Nat.add_sub_cancel]
  congr 1
  · simp
  · refine Finset.sum_congr rfl (fun i _ => ?_)
    rw [if_neg (by omega), add_comm 1 i]
    ring

theorem aeval_hvarC (h0 : e 0 = 1) (hfr : ∀ p : ℕ, 1 ≤ p → p ≤ n → f (.S [(p : Int)]) = e p) (p : ℕ) :
    aeval f (hvar n (p : ℕ)) = if p ≤ n then e p else 0 := by
  unfold hvar
  by_cases h1 : p = 0
  · subst h1; simp [h0]
  · rw [if_neg (by omega)]
    by_cases h2 : p ≤ n
    · rw [if_pos (by omega), if_pos h2, aeval_X, hfr p (by omega) h2]
    · rw [if_neg (by omega), if_neg h2, map_zero]

theorem lg_rel_eq (h0 : e 0 = 1) (hh : ∀ p, n + 1 < p → e p = 0) (ht : 2 * e (n + 1) = t)
    (hfr : ∀ p : ℕ, 1 ≤ p → p ≤ n → f (.S [(p : Int)]) = e p) {r : ℕ} (h2 : r ≤ n) {y : P}
    (hy : aeval f y = if n + 1 ≤ 2 * r then (-1) ^ (n - r) * (t * e (2 * r - (n + 1))) else 0) :
    aeval f (hvar n (r : ℕ) ^ 2 - (∑ i ∈ Finset.Icc 1 r, C (-2 * (-1) ^ i) * (hvar n ((r + i : ℕ) : ℤ) * hvar n ((r - i : ℕ) : ℤ)) + y)) =
      rowPair e r r := by
  have hv := aeval_hvarC (n := n) h0 hfr
  rw [rowPair_Icc]
  rw [map_sub, map_add, map_pow, map_sum, hv, if_pos h2, hy]
  have hs : ∑ i ∈ Finset.Icc 1 r, aeval f (C (-2 * (-1) ^ i) * (hvar n ((r + i : ℕ) : ℤ) * hvar n ((r - i : ℕ) : ℤ))) =
      -∑ i ∈ Finset.Icc 1 r, 2 * (-1) ^ i * (e (r + i) * e (r - i)) +
      ∑ i ∈ Finset.Icc 1 r, 2 * (-1) ^ i * ((if r + i = n + 1 then e (n + 1) else 0) * e (r - i)) := by
    rw [← Finset.sum_neg_distrib, ← Finset.sum_add_distrib]
    refine Finset.sum_congr rfl (fun i hi => ?_)
    rw [Finset.mem_Icc] at hi
    rw [map_mul (aeval f), map_mul (aeval f), hv, hv, if_pos (show r - i ≤ n by omega)]
    have : aeval f (C (-2 * (-1) ^ i) : P) = -2 * (-1) ^ i := by
      rw [C_mul, neg_one_C, show (C (-2) : P) = -2 by rw [C_neg]; rfl]
      simp
    rw [this]
    by_cases h3 : r + i ≤ n
    · rw [if_pos h3, if_neg (show ¬ r + i = n + 1 by omega)]; ring
    · rw [if_neg h3]
      by_cases h4 : r + i = n + 1
      · rw [if_pos h4, h4]; ring
      · rw [if_neg h4, hh (r + i) (by omega)]; ring
  have hs2 : ∑ i ∈ Finset.Icc 1 r, 2 * (-1) ^ i * ((if r + i = n + 1 then e (n + 1) else 0) * e (r - i)) =
      -if n + 1 ≤ 2 * r then (-1) ^ (n - r) * (t * e (2 * r - (n + 1))) else 0 := by
    by_cases h3 : n + 1 ≤ 2 * r
    · rw [if_pos h3, Finset.sum_eq_single (n + 1 - r)]
      · rw [if_pos (by omega), ← ht, show n + 1 - r = n - r + 1 by omega, show r - (n - r + 1) = 2 * r - (n + 1) by omega, pow_succ]
        ring
      · intro i _ hi
        rw [if_neg (by omega)]
        ring
      · intro h
        rw [Finset.mem_Icc] at h
        omega
    · rw [if_neg h3, neg_zero]
      refine Finset.sum_eq_zero (fun i hi => ?_)
      rw [Finset.mem_Icc] at hi
      rw [if_neg (by omega)]
      ring
  rw [hs, hs2]
  ring

theorem lg_rel (he : LGPoint n t e) (hfr : ∀ p : ℕ, 1 ≤ p → p ≤ n → f (.S [(p : Int)]) = e p) {r : ℕ} (h1 : 1 ≤ r) (h2 : r ≤ n) {y : P}
    (hy : aeval f y = if n + 1 ≤ 2 * r then (-1) ^ (n - r) * (t * e (2 * r - (n + 1))) else 0) :
    aeval f (hvar n (r : ℕ) ^ 2 - (∑ i ∈ Finset.Icc 1 r, C (-2 * (-1) ^ i) * (hvar n ((r + i : ℕ) : ℤ) * hvar n ((r - i : ℕ) : ℤ)) + y)) = 0 := by
  rw [lg_rel_eq he.zero he.high he.top hfr h2 hy, he.rel r h1 h2]

theorem two_unit : IsUnit (2 : R) := by
  have h : IsUnit (algebraMap ℚ R 2) := (isUnit_iff_ne_zero.2 (by norm_num)).map _
  rwa [map_ofNat] at h

theorem aeval_hvarB (hfr : ∀ p : ℕ, 1 ≤ p → p ≤ n → 2 * f (.S [(p : Int)]) = e p) (hh : ∀ p, n < p → e p = 0) {p : ℕ} (hp : 1 ≤ p) :
    2 * aeval f (hvar n (p : ℕ)) = e p := by
  unfold hvar
  rw [if_neg (by omega)]
  by_cases h2 : p ≤ n
  · rw [if_pos (by omega), aeval_X, hfr p (by omega) h2]
  · rw [if_neg (by omega), map_zero, mul_zero, hh p (by omega)]

theorem og_rel (he : OGPoint n t e) (hfr : ∀ p : ℕ, 1 ≤ p → p ≤ n → 2 * f (.S [(p : Int)]) = e p) {r : ℕ} (h1 : 1 ≤ r) (h2 : r ≤ n) {y : P}
    (hy : aeval f y = if r = n then t else 0) :
    aeval f (hvar n (r : ℕ) ^ 2 - (∑ i ∈ Finset.Icc 1 r, C (-(-1) ^ i * if r - i ≤ 0 then 1 else 2) *
      (hvar n ((r + i : ℕ) : ℤ) * hvar n ((r - i : ℕ) : ℤ)) + y)) = 0 := by
  have hv := fun {p : ℕ} (hp : 1 ≤ p) => aeval_hvarB (n := n) hfr he.high hp
  have hrel : rowPair e r r = 4 * if r = n then t else 0 := by
    by_cases h : r = n
    · subst h
      rw [if_pos rfl, ← he.top, rowPair_Icc, Finset.sum_eq_zero, add_zero, pow_two]
      intro i hi
      rw [Finset.mem_Icc] at hi
      rw [he.high _ (by omega)]
      ring
    · rw [if_neg h, mul_zero]
      exact he.rel r h1 (by omega)
  rw [rowPair_Icc] at hrel
  refine ((two_unit (R := R)).mul two_unit).mul_left_cancel ?_
  rw [map_sub, map_add, map_pow, map_sum, hy, mul_zero]
  have hs : 2 * 2 * ∑ i ∈ Finset.Icc 1 r, aeval f (C (-(-1) ^ i * if r - i ≤ 0 then 1 else 2) *
      (hvar n ((r + i : ℕ) : ℤ) * hvar n ((r - i : ℕ) : ℤ))) = -∑ i ∈ Finset.Icc 1 r, 2 * (-1) ^ i * (e (r + i) * e (r - i)) := by
    rw [← Finset.sum_neg_distrib, Finset.mul_sum]
    refine Finset.sum_congr rfl (fun i hi => ?_)
    rw [Finset.mem_Icc] at hi
    rw [map_mul (aeval f), map_mul (aeval f), ← hv (p := r + i) (by omega)]
    by_cases h3 : r - i ≤ 0
    · have e0 : r - i = 0 := by omega
      have : aeval f (C (-(-1) ^ i * if r - i ≤ 0 then 1 else 2) : P) = -(-1) ^ i := by
        rw [if_pos h3, mul_one, C_neg, neg_one_C]; simp
      rw [this, e0, he.zero, hvar_zero', map_one]
      ring
    · have : aeval f (C (-(-1) ^ i * if r - i ≤ 0 then 1 else 2) : P) = -(-1) ^ i * 2 := by
        rw [if_neg h3, C_mul, C_neg, neg_one_C, show (C 2 : P) = 2 from rfl]; simp
      rw [this, ← hv (p := r - i) (by omega)]
      ring
  have h5 : 2 * 2 * (aeval f (hvar n (r : ℕ))) ^ 2 = e r * e r := by
    rw [← hv h1]; ring
  rw [mul_sub, mul_add, h5, hs, eq_sub_of_add_eq hrel]
  ring

theorem half_top (he : LGPoint n (f .q) e) : e (n + 1) = aeval f (inq (Polynomial.C (1 / 2) * Polynomial.X)) := by
  refine (two_unit (R := R)).mul_left_cancel ?_
  rw [he.top]
  have : (2 : R) * algebraMap ℚ R (1 / 2) = 1 := by
    rw [← map_ofNat (algebraMap ℚ R) 2, ← map_mul]; norm_num
  unfold inq
  rw [map_mul, map_mul, Polynomial.aeval_X, aeval_X, Polynomial.aeval_C, AlgHom.commutes, ← mul_assoc, this, one_mul]

theorem aeval_aLG (h0 : e 0 = 1) (hfr : ∀ p : ℕ, 1 ≤ p → p ≤ n → f (.S [(p : Int)]) = e p) {r : ℕ} (h2 : r ≤ n) :
    aeval f (inq (aLG n r) * hvar n ((2 * r - (n + 1) : ℕ) : ℤ)) =
      if n + 1 ≤ 2 * r then (-1) ^ (n - r) * (f .q * e (2 * r - (n + 1))) else 0 := by
  rw [map_mul, aeval_hvarC h0 hfr, if_pos (by omega)]
  unfold aLG
  split
  · simp [inq]; ring
  · simp [inq]

theorem aeval_span {S : Set P} (h : ∀ x ∈ S, aeval f x = 0) {x : P} (hx : x ∈ Ideal.span S) : aeval f x = 0 := by
  have : Ideal.span S ≤ RingHom.ker (aeval f : P →ₐ[ℚ] R) := Ideal.span_le.2 (fun x hx => (RingHom.mem_ker).2 (h x hx))
  exact RingHom.mem_ker.1 (this hx)

theorem qTilde_row (e : ℕ → R) (p : ℕ) : qTilde e [(p : Int)] = e p := by
  unfold qTilde
  rw [List.length_singleton, qtil]
  simp

end

section
variable {X : Space} {pieri : Int → List Int → Except PyErr Poly} {n B : ℕ}
variable {R : Type} [CommRing R] [Algebra ℚ R] {f : Sym → R}

/-- from products of vectors to the products of the code -/
theorem value_mult (Z : RingOn X pieri (stdSpc n) (clsBC n 0) B)
    (h : ∀ {x y : LMod}, (∀ l ∈ x.support, clsBC n 0 l) → (∀ l ∈ y.support, clsBC n 0 l) →
      aeval f (ev (Z.Y.prod x y)) = aeval f (ev x) * aeval f (ev y)) {fuel : ℕ} (hf : B ≤ fuel) {a b : Poly}
    (ha : LinComb (clsBC n 0) a) (hb : LinComb (clsBC n 0) b) :
    ∃ w, gmult X pieri fuel a b = .ok w ∧ LinComb (clsBC n 0) w ∧ valueAt f w = valueAt f a * valueAt f b := by
  obtain ⟨x, hx, hxc⟩ := linComb_ev ha.2
  obtain ⟨y, hy, hyc⟩ := linComb_ev hb.2
  obtain ⟨w, h1, h2, h3⟩ := Z.mult hf ha.1 hx hxc hb.1 hy hyc
  refine ⟨w, h1, linComb_of_ev h2 h3 (Z.Y.prod_support x hyc), ?_⟩
  rw [valueAt_den, valueAt_den, valueAt_den, h3, hx, hy, h hxc hyc]

end

/-! ### C128 -/

section
variable {R : Type} [CommRing R] [Algebra ℚ R] {n : ℕ} {f : Sym → R} {e : ℕ → R} {X : Space} {fuel : ℕ}

theorem bound_max (hf : giamBoundBC n n ≤ fuel) : boundBC n 0 ≤ fuel := by
  have := giamBoundBC_eq (Nat.zero_le n)
  rw [Nat.cast_zero, sub_zero] at this
  omega

/-- **C128**, type C, classical: put `q` to anything and `S[l]` to `Q̃_l`; on `IG(n, 2n)` the value of a product is the product of the values. -/
theorem C128_IG_classical (hn : 0 < n) (hX : mkIG n (2 * n) = .ok X) (hf : giamBoundBC n n ≤ fuel) (he : LGPoint n 0 e)
    (hS : ∀ l, BCClass n n l → f (.S l) = qTilde e l) {a b : Poly} (ha : LinComb (BCClass n n) a) (hb : LinComb (BCClass n n) b) :
    ∃ w, X.mult fuel a b = .ok w ∧ LinComb (BCClass n n) w ∧ valueAt f w = valueAt f a * valueAt f b := by
  rw [mkIG_max] at hX
  cases hX
  rw [bcClass_max] at *
  have hfr : ∀ p : ℕ, 1 ≤ p → p ≤ n → f (.S [(p : Int)]) = e p := fun p h1 h2 => by rw [hS _ (clsBC_row0 h1 h2), qTilde_row]
  have hI : ∀ x ∈ supported ℚ (specialSet (stdSpc n)), (ringIG n 0 hn.le).Y.act x (Finsupp.single [] 1) = 0 → aeval f x = 0 :=
    fun x hx h => aeval_span (fun y hy => by
      obtain ⟨r, h1, h2, rfl⟩ := (relLG_iff n y).1 hy
      exact lg_rel he hfr h1 h2 (by simp [inq])) ((ringIG_zero hn hx).1 h)
  have h2 : e (n + 1) = 0 := (two_unit (R := R)).mul_left_cancel (by rw [he.top, mul_zero])
  refine value_mult (ringIG n 0 hn.le) (fun {x y} hx hy => ?_) (bound_max hf) ha hb
  exact value_prod hI hn (pfOp_W n 1 0) one_ne_zero
    (fun u hu w hw => opW_zero 1 0 (by rw [mem_Wd] at hu hw; omega)) (fun p l _ _ => by rw [one_smul]; rfl)
    (fun u hu w hw => opW_top 1 0 hu hw) (fun p hp u hu w hw => opW_high 1 0 hu hw hp) he.zero
    (fun p h1 h2 => by rw [inq_one, map_one, one_mul, hfr p h1 h2]) (by rw [h2]; simp [inq]) he.high
    (by rw [inq_one, map_one]; exact isUnit_one) (fun l hl => by rw [inq_one, map_one, one_pow, one_mul, hS l hl]) hx hy

theorem killQIG (ord : List Int → List Int) (hn : 0 < n) (he : LGPoint n (f .q) e)
    (hfr : ∀ p : ℕ, 1 ≤ p → p ≤ n → f (.S [(p : Int)]) = e p) :
    ∀ x ∈ supported ℚ (specialSet (stdSpc n)), (ringQIG ord n 0 hn.le).Y.act x (Finsupp.single [] 1) = 0 → aeval f x = 0 := by
  intro x hx h
  refine aeval_span (fun y hy => ?_) ((ringQIG_zero hn ord hx).1 h)
  obtain ⟨r, h1, h2, rfl⟩ := (relQLG_iff n y).1 hy
  exact lg_rel he hfr h1 h2 (aeval_aLG he.zero hfr h2)

/-- **C128**, type C, quantum: `2 e_{n+1}` is the value of `q`. -/
theorem C128_IG_quantum (ord : List Int → List Int) (hn : 0 < n) (hX : mkIG n (2 * n) = .ok X) (hf : giamBoundBC n n ≤ fuel)
    (he : LGPoint n (f .q) e) (hS : ∀ l, BCClass n n l → f (.S l) = qTilde e l) {a b : Poly} (ha : LinComb (BCClass n n) a)
    (hb : LinComb (BCClass n n) b) :
    ∃ w, X.qmult ord fuel a b = .ok w ∧ LinComb (BCClass n n) w ∧ valueAt f w = valueAt f a * valueAt f b := by
  rw [mkIG_max] at hX
  cases hX
  rw [bcClass_max] at *
  have hfr : ∀ p : ℕ, 1 ≤ p → p ≤ n → f (.S [(p : Int)]) = e p := fun p h1 h2 => by rw [hS _ (clsBC_row0 h1 h2), qTilde_row]
  have h2 := half_top he
  refine value_mult (ringQIG ord n 0 hn.le) (fun {x y} hx hy => ?_) (bound_max hf) ha hb
  exact value_prod (killQIG ord hn he hfr) hn (pfOp_W n 1 (Polynomial.C (1 / 2) * Polynomial.X)) one_ne_zero
    (fun u hu w hw => opW_zero 1 _ (by rw [mem_Wd] at hu hw; omega)) (fun p l _ _ => (one_smul _ _).symm)
    (fun u hu w hw => opW_top 1 _ hu hw) (fun p hp u hu w hw => opW_high 1 _ hu hw hp) he.zero
    (fun p h1 h2 => by rw [inq_one, map_one, one_mul, hfr p h1 h2]) (by rw [h2, mul_one]) he.high
    (by rw [inq_one, map_one]; exact isUnit_one) (fun l hl => by rw [inq_one, map_one, one_pow, one_mul, hS l hl]) hx hy

theorem aeval_inq_two (f : Sym → R) : aeval f (inq 2) = 2 := by
  unfold inq; rw [map_ofNat, map_ofNat]

/-- **C128**, type B, classical: put `S[l]` to `P̃_l`, that is `2^length(l) * S[l]` to `Q̃_l`. -/
theorem C128_OG_classical (hn : 0 < n) (hX : mkOG n (2 * n + 1) = .ok X) (hf : giamBoundBC n n ≤ fuel) (he : OGPoint n 0 e)
    (hS : ∀ l, BCClass n n l → 2 ^ l.length * f (.S l) = qTilde e l) {a b : Poly} (ha : LinComb (BCClass n n) a)
    (hb : LinComb (BCClass n n) b) :
    ∃ w, X.mult fuel a b = .ok w ∧ LinComb (BCClass n n) w ∧ valueAt f w = valueAt f a * valueAt f b := by
  rw [mkOG_max] at hX
  cases hX
  rw [bcClass_max] at *
  have hfr : ∀ p : ℕ, 1 ≤ p → p ≤ n → 2 * f (.S [(p : Int)]) = e p := fun p h1 h2 => by
    have := hS _ (clsBC_row0 h1 h2)
    rwa [List.length_singleton, pow_one, qTilde_row] at this
  have hI : ∀ x ∈ supported ℚ (specialSet (stdSpc n)), (ringOG n 0 hn.le).Y.act x (Finsupp.single [] 1) = 0 → aeval f x = 0 :=
    fun x hx h => aeval_span (fun y hy => by
      obtain ⟨r, h1, h2, rfl⟩ := (relOGm_iff n y).1 hy
      exact og_rel he hfr h1 h2 (by simp [inq])) ((ringOG_zero hn hx).1 h)
  refine value_mult (ringOG n 0 hn.le) (fun {x y} hx hy => ?_) (bound_max hf) ha hb
  exact value_prod hI hn (pfOp_W n 2 0) two_ne_zeroQ
    (fun u hu w hw => opW_zero _ _ (by rw [mem_Wd] at hu hw; omega))
    (fun p l hp _ => by
      rw [← cfB_two hp]
      exact tM_scale (M := MB 0) (fun u w => by
        unfold MB
        rw [← mul_assoc, show (Polynomial.C (if p ≤ 0 then 1 else 1 / 2 : ℚ)) = Polynomial.C (scB 0 p) from rfl, cfB_scB, one_mul, cfB_two hp]) l)
    (fun u hu w hw => opW_top _ _ hu hw) (fun p hp u hu w hw => opW_high _ _ hu hw hp) he.zero
    (fun p h1 h2 => by rw [aeval_inq_two, hfr p h1 h2]) (by rw [he.high _ (by omega)]; simp [inq]) (fun p hp => he.high p (by omega))
    (by rw [aeval_inq_two]; exact two_unit) (fun l hl => by rw [aeval_inq_two, hS l hl]) hx hy

/-- **C128**, type B, quantum: `e_n^2 / 4` is the value of `q`. -/
theorem C128_OG_quantum (ord : List Int → List Int) (hn : 0 < n) (hX : mkOG n (2 * n + 1) = .ok X) (hf : giamBoundBC n n ≤ fuel)
    (he : OGPoint n (f .q) e) (hS : ∀ l, BCClass n n l → 2 ^ l.length * f (.S l) = qTilde e l) {a b : Poly}
    (ha : LinComb (BCClass n n) a) (hb : LinComb (BCClass n n) b) :
    ∃ w, X.qmult ord fuel a b = .ok w ∧ LinComb (BCClass n n) w ∧ valueAt f w = valueAt f a * valueAt f b := by
  rw [mkOG_max] at hX
  cases hX
  rw [bcClass_max] at *
  have hfr : ∀ p : ℕ, 1 ≤ p → p ≤ n → 2 * f (.S [(p : Int)]) = e p := fun p h1 h2 => by
    have := hS _ (clsBC_row0 h1 h2)
    rwa [List.length_singleton, pow_one, qTilde_row] at this
  have hI : ∀ x ∈ supported ℚ (specialSet (stdSpc n)), (ringQOG ord n 0 hn).Y.act x (Finsupp.single [] 1) = 0 → aeval f x = 0 :=
    fun x hx h => aeval_span (fun y hy => by
      obtain ⟨r, h1, h2, rfl⟩ := (relQOGm_iff n y).1 hy
      exact og_rel he hfr h1 h2 (by
        rw [map_mul, hvar_zero', map_one, mul_one]
        split <;> simp [inq])) ((ringQOG_zero hn ord hx).1 h)
  refine value_mult (ringQOG ord n 0 hn) (fun {x y} hx hy => ?_) (bound_max hf) ha hb
  exact value_prod hI hn (pfOp_Q n 2 Polynomial.X (if (0 : ℕ) = 0 then Polynomial.X else Polynomial.X ^ 2)) two_ne_zeroQ
    (fun u hu w hw => opQ_zero _ _ _ (by rw [mem_Wd] at hu hw; omega))
    (fun p l hp _ => by
      rw [← cfB_two hp]
      exact tM_scale (M := MQB 0) (fun u w => by
        unfold MQB
        rw [← mul_assoc, cfB_scB, one_mul, cfB_two hp]) l)
    (g := 0) (fun u hu w hw => by rw [opQ_high _ _ _ hu hw (by omega), ite_self]) (fun p hp u hu w hw => opQ_high _ _ _ hu hw (by omega))
    he.zero (fun p h1 h2 => by rw [aeval_inq_two, hfr p h1 h2]) (by rw [he.high _ (by omega)]; simp [inq]) (fun p hp => he.high p (by omega))
    (by rw [aeval_inq_two]; exact two_unit) (fun l hl => by rw [aeval_inq_two, hS l hl]) hx hy

theorem valueAt_permQ {u v : Poly} (h : u.Perm v) : valueAt f u = valueAt f v := (h.map _).sum_eq

/-- **C128**, type D, classical: on `OG(n+1, 2n+2)`. -/
theorem C128_OGD_classical (hn : 0 < n) (hX : mkOG (n + 1) (2 * n + 2) = .ok X) (hf : giamBoundBC n n ≤ fuel)
    (hf' : giamBoundD (n + 1) n ≤ fuel) (he : OGPoint n 0 e)
    (hS : ∀ l, DClass (n + 1) n l → 2 ^ l.length * f (.S l) = qTilde e l) {a b : Poly} (ha : LinComb (DClass (n + 1) n) a)
    (hb : LinComb (DClass (n + 1) n) b) :
    ∃ w, X.mult fuel a b = .ok w ∧ valueAt f w = valueAt f a * valueAt f b := by
  have hc : DClass ((n : Int) + 1) n = BCClass n n := by
    funext l; exact propext (C87_classes (Int.natCast_nonneg n) l).symm
  rw [hc] at ha hb
  simp only [hc] at hS
  obtain ⟨w, h1, -, h3⟩ := C128_OG_classical hn (mkOG_max (n := n)) hf he hS ha hb
  obtain ⟨w', v, e1, e2, e3⟩ := C87_mult (by omega) (mkOG_max (n := n)) hX hf hf' ha hb
  rw [h1] at e1
  cases e1
  exact ⟨v, e2, by rw [← h3, valueAt_permQ e3]⟩

/-- **C128**, type D, quantum: on `OG(n+1, 2n+2)`. -/
theorem C128_OGD_quantum (ord : List Int → List Int) (hn : 0 < n) (hX : mkOG (n + 1) (2 * n + 2) = .ok X) (hf : giamBoundBC n n ≤ fuel)
    (hf' : giamBoundD (n + 1) n ≤ fuel) (he : OGPoint n (f .q) e)
    (hS : ∀ l, DClass (n + 1) n l → 2 ^ l.length * f (.S l) = qTilde e l) {a b : Poly} (ha : LinComb (DClass (n + 1) n) a)
    (hb : LinComb (DClass (n + 1) n) b) :
    ∃ w, X.qmult ord fuel a b = .ok w ∧ valueAt f w = valueAt f a * valueAt f b := by
  have hc : DClass ((n : Int) + 1) n = BCClass n n := by
    funext l; exact propext (C87_classes (Int.natCast_nonneg n) l).symm
  rw [hc] at ha hb
  simp only [hc] at hS
  obtain ⟨w, h1, -, h3⟩ := C128_OG_quantum ord hn (mkOG_max (n := n)) hf he hS ha hb
  obtain ⟨w', v, e1, e2, e3⟩ := C87_qmult ord ord (by omega) (mkOG_max (n := n)) hX hf hf' ha hb
  rw [h1] at e1
  cases e1
  exact ⟨v, e2, by rw [← h3, valueAt_permQ e3]⟩

end

/-- `IG(2, 4)` with `e = (1, 2, 2, 1)` and `q = 2`: the values of `S[1]`, `S[2]`, `S[2,1]` are `2`, and `S[1]*S[2,1] = q*S[1]` becomes `2*2 = 2*2`,
`S[2]*S[2] = q*S[1]` becomes `2*2 = 2*2`. -/
def ptLG : ℕ → ℚ := fun p => if p = 0 then 1 else if p = 1 then 2 else if p = 2 then 2 else if p = 3 then 1 else 0

example : LGPoint 2 2 ptLG ∧ qTilde ptLG [1] = 2 ∧ qTilde ptLG [2] = 2 ∧ qTilde ptLG [2, 1] = 2 ∧ mkIG 2 4 = .ok ⟨.C, 0, 2⟩ ∧
    giamBoundBC 2 2 ≤ 20 ∧ LinComb (BCClass 2 2) (Poly.sym (.S [2, 1])) ∧
    (Space.mk .C 0 2).qmult id 20 (Poly.sym (.S [1])) (Poly.sym (.S [2, 1])) = .ok [([.q, .S [1]], 1)] ∧
    (Space.mk .C 0 2).qmult id 20 (Poly.sym (.S [2])) (Poly.sym (.S [2])) = .ok [([.q, .S [1]], 1)] := by
  refine ⟨⟨rfl, fun p hp => ?_, by norm_num [ptLG], fun r h1 h2 => ?_⟩, by decide +kernel, by decide +kernel, by decide +kernel, by decide +kernel,
    by decide +kernel, linComb_single_sym (by decide +kernel), by decide +kernel, by decide +kernel⟩
  · unfold ptLG
    rw [if_neg (by omega), if_neg (by omega), if_neg (by omega), if_neg (by omega)]
  · obtain rfl | rfl : r = 1 ∨ r = 2 := by omega
    · decide +kernel
    · decide +kernel

/-- `OG(3, 7)` with `e = (1, 2, 2, 1)` and `q = 1/4`: the value of `S[3]` is `1/2`, those of `S[2,1]` and `S[3,1]` are `2/4`, and
`S[3,1]*S[3,2] = q*S[2,1]+...`. -/
def ptOG : ℕ → ℚ := fun p => if p = 0 then 1 else if p = 1 then 2 else if p = 2 then 2 else if p = 3 then 1 else 0

example : OGPoint 3 (1 / 4) ptOG ∧ qTilde ptOG [3] = 1 ∧ qTilde ptOG [3, 1] = 2 ∧ qTilde ptOG [3, 2] = 2 ∧ qTilde ptOG [3, 2, 1] = 2 ∧
    mkOG 3 7 = .ok ⟨.B, 0, 3⟩ ∧ mkOG 4 8 = .ok ⟨.D, 0, 3⟩ ∧ giamBoundBC 3 3 ≤ 90 ∧ giamBoundD 4 3 ≤ 90 ∧
    LinComb (BCClass 3 3) (Poly.sym (.S [3, 2, 1])) ∧ LinComb (DClass 4 3) (Poly.sym (.S [3, 2, 1])) ∧
    (Space.mk .B 0 3).qmult id 90 (Poly.sym (.S [3])) (Poly.sym (.S [3, 2, 1])) = .ok [([.q, .S [2, 1]], 1)] ∧
    (Space.mk .D 0 3).qmult id 90 (Poly.sym (.S [3])) (Poly.sym (.S [3, 2, 1])) = .ok [([.q, .S [2, 1]], 1)] := by
  refine ⟨⟨rfl, fun p hp => ?_, by norm_num [ptOG], fun r h1 h2 => ?_⟩, by decide +kernel, by decide +kernel, by decide +kernel, by decide +kernel,
    by decide +kernel, by decide +kernel, by decide +kernel, by decide +kernel, linComb_single_sym (by decide +kernel),
    linComb_single_sym (by decide +kernel), by decide +kernel, by decide +kernel⟩
  · unfold ptOG
    rw [if_neg (by omega), if_neg (by omega), if_neg (by omega), if_neg (by omega)]
  · obtain rfl | rfl : r = 1 ∨ r = 2 := by omega
    · decide +kernel
    · decide +kernel

/-- The classical relations have solutions with nilpotent values: `e = (1, ε, 0, ...)` with `ε^2 = 0`. -/
def ptEps : ℕ → DualNumber ℚ := fun p => if p = 0 then 1 else if p = 1 then DualNumber.eps else 0

example : LGPoint 2 0 ptEps ∧ OGPoint 2 0 ptEps ∧ qTilde ptEps [1] ≠ 0 ∧
    (Space.mk .C 0 2).mult 20 (Poly.sym (.S [1])) (Poly.sym (.S [1])) = .ok [([.S [2]], 2)] ∧ qTilde ptEps [1] * qTilde ptEps [1] = 2 * qTilde ptEps [2] := by
  have h1 : ∀ r, 1 ≤ r → r ≤ 2 → rowPair ptEps r r = 0 := by
    intro r h1 h2
    obtain rfl | rfl : r = 1 ∨ r = 2 := by omega
    · simp [rowPair, ptEps, Finset.sum_range_succ]
    · simp [rowPair, ptEps, Finset.sum_range_succ]
  refine ⟨⟨rfl, fun p hp => ?_, by simp [ptEps], h1⟩, ⟨rfl, fun p hp => ?_, by simp [ptEps], fun r h2 h3 => h1 r h2 (by omega)⟩, ?_,
    by decide +kernel, ?_⟩
  · unfold ptEps
    rw [if_neg (by omega), if_neg (by omega)]
  · unfold ptEps
    rw [if_neg (by omega), if_neg (by omega)]
  · intro h
    have := congrArg TrivSqZeroExt.snd h
    simp [qTilde, qtil, ptEps] at this
  · simp [qTilde, qtil, ptEps]

end Verif
