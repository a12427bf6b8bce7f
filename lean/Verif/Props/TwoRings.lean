import Verif.Proofs.QTildeTop
import Verif.Proofs.Universal
import Verif.Props.Verlinde
import Verif.Props.CompareBD
import Mathlib.Algebra.Polynomial.Expand
/-!
# C130, C131: the quantum ring of `IG(n, 2n)`, the classical ring of `IG(n+1, 2n+2)` and the quantum ring of `OG(n+1, 2n+3)`
-/

namespace Verif
open Spec MvPolynomial

section
variable {n : ℕ}

theorem cls_strict (l : List Int) : clsBC n 0 l ↔ l.Pairwise (fun a b => b < a) ∧ ∀ x ∈ l, 0 < x ∧ x ≤ n := by
  rw [clsBC_eq (by omega) l]
  constructor
  · rintro ⟨h1, h2, h3⟩
    exact ⟨List.Pairwise.imp_of_mem (fun {a b} ha _ h => h (by have := h1.2 a ha; simpa using this)) h2,
      fun x hx => ⟨h1.2 x hx, by have := h3.2 x hx; push_cast at this; omega⟩⟩
  · rintro ⟨h1, h2⟩
    refine ⟨⟨h1.imp (fun h => by omega), fun x hx => (h2 x hx).1⟩, by unfold KStrict; refine h1.imp ?_; intro a b h _; exact h, ?_, fun x hx => by have := h2 x hx; push_cast; omega⟩
    have := strict_len_le l n h1 h2
    omega

theorem cls_succ (l : List Int) : clsBC (n + 1) 0 l ↔ clsBC n 0 l ∨ ∃ nu, clsBC n 0 nu ∧ ((n + 1 : ℕ) : Int) :: nu = l := by
  simp only [cls_strict]
  constructor
  · rintro ⟨h1, h2⟩
    rcases l with _ | ⟨a, l⟩
    · exact Or.inl ⟨h1, by simp⟩
    · rw [List.pairwise_cons] at h1
      have ha := h2 a (by simp)
      have hl : ∀ x ∈ l, 0 < x ∧ x ≤ (n : Int) := fun x hx => by
        have e1 := h2 x (by simp [hx])
        have e2 := h1.1 x hx
        push_cast at *
        omega
      by_cases h : a = ((n + 1 : ℕ) : Int)
      · subst h
        exact Or.inr ⟨l, ⟨h1.2, hl⟩, rfl⟩
      · refine Or.inl ⟨List.pairwise_cons.2 h1, fun x hx => ?_⟩
        rcases List.mem_cons.1 hx with rfl | hx
        · push_cast at *; omega
        · exact hl x hx
  · rintro (⟨h1, h2⟩ | ⟨nu, ⟨h1, h2⟩, rfl⟩)
    · exact ⟨h1, fun x hx => by have := h2 x hx; push_cast; omega⟩
    · refine ⟨List.pairwise_cons.2 ⟨fun x hx => by have := h2 x hx; push_cast; omega, h1⟩, fun x hx => ?_⟩
      rcases List.mem_cons.1 hx with rfl | hx
      · push_cast; omega
      · have := h2 x hx; push_cast; omega

/-- the classes of `IG(n, 2n)` -/
noncomputable def clsFin (n : ℕ) : Finset (List Int) := (Wd n 0).image labW

theorem mem_clsFin {l : List Int} : l ∈ clsFin n ↔ clsBC n 0 l := by
  unfold clsFin
  rw [Wd_cls (Nat.zero_le n), Finset.mem_image]

theorem not_cls_top (nu : List Int) : ¬ clsBC n 0 (((n + 1 : ℕ) : Int) :: nu) := fun h => by
  have := ((cls_strict _).1 h).2 _ List.mem_cons_self
  push_cast at this
  omega

variable {R : Type} [CommRing R] [Algebra ℚ R]

theorem aeval_ev_fin (f : Sym → R) {x : LMod} (hx : ∀ l ∈ x.support, clsBC n 0 l) :
    aeval f (ev x) = ∑ l ∈ clsFin n, Polynomial.aeval (f .q) (x l) * f (.S l) := by
  rw [aeval_ev, Finsupp.sum]
  refine Finset.sum_subset (fun l hl => mem_clsFin.2 (hx l hl)) (fun l _ hl => ?_)
  rw [Finsupp.notMem_support_iff.1 hl, map_zero, zero_mul]

theorem aeval_ev_succ (f : Sym → R) {x : LMod} (hx : ∀ l ∈ x.support, clsBC (n + 1) 0 l) :
    aeval f (ev x) = ∑ l ∈ clsFin n, (Polynomial.aeval (f .q) (x l) * f (.S l) +
      Polynomial.aeval (f .q) (x (((n + 1 : ℕ) : Int) :: l)) * f (.S (((n + 1 : ℕ) : Int) :: l))) := by
  classical
  have h : clsFin (n + 1) = clsFin n ∪ (clsFin n).image (fun l => ((n + 1 : ℕ) : Int) :: l) := by
    ext l
    simp only [Finset.mem_union, Finset.mem_image, mem_clsFin]
    exact cls_succ l
  rw [aeval_ev_fin f hx, h, Finset.sum_union, Finset.sum_image (fun a _ b _ h => (List.cons.inj h).2), Finset.sum_add_distrib]
  rw [Finset.disjoint_left]
  rintro l h1 h2
  obtain ⟨nu, -, rfl⟩ := Finset.mem_image.1 h2
  exact not_cls_top nu (mem_clsFin.1 h1)

theorem aeval_sq_zero {t : R} (ht : t * t = 0) (a : Polynomial ℚ) :
    Polynomial.aeval t a = algebraMap ℚ R (a.coeff 0) + algebraMap ℚ R (a.coeff 1) * t := by
  conv_lhs => rw [← Polynomial.divX_mul_X_add a, ← Polynomial.divX_mul_X_add a.divX]
  simp only [map_add, map_mul, Polynomial.aeval_X, Polynomial.aeval_C, Polynomial.coeff_divX]
  linear_combination (Polynomial.aeval t a.divX.divX) * ht

end

/-- the products of two classes as vectors -/
theorem lin_coeffs {cls : List Int → Prop} {w : Poly} (h : LinComb cls w) : ∃ x : LMod, (∀ l ∈ x.support, cls l) ∧
    (∀ {R : Type} [CommRing R] [Algebra ℚ R] (f : Sym → R), valueAt f w = aeval f (ev x)) ∧
    ∀ d l, coeffOf (List.replicate d Sym.q ++ [.S l]) w = (x l).coeff d := by
  obtain ⟨x, hx, hxc⟩ := linComb_ev h.2
  refine ⟨x, hxc, fun f => by rw [valueAt_den, hx], fun d l => ?_⟩
  rw [coeffOf_den h.1 (qmono_sorted d l), hx, expo_qmono, coeff_ev]

section
variable {n fuel fuel' : ℕ} {X Y : Space}

theorem bcClass_succ {l : List Int} (h : BCClass n n l) : BCClass ((n + 1 : ℕ) : Int) ((n + 1 : ℕ) : Int) l := by
  rw [bcClass_max] at *
  exact (cls_succ l).2 (Or.inl h)

/-- **C130**: on `IG(n, 2n)` the coefficients of `S[nu]` and `q*S[nu]` in a quantum product are the coefficient of `S[nu]` and half of the coefficient
of `S[n+1,nu]` in the classical product on `IG(n+1, 2n+2)`. -/
theorem C130_lines (ord : List Int → List Int) (hn : 0 < n) (hX : mkIG n (2 * n) = .ok X)
    (hY : mkIG ((n + 1 : ℕ) : Int) (2 * ((n + 1 : ℕ) : Int)) = .ok Y) (hf : giamBoundBC n n ≤ fuel)
    (hf' : giamBoundBC ((n + 1 : ℕ) : Int) ((n + 1 : ℕ) : Int) ≤ fuel') {l mu : List Int} (hl : BCClass n n l) (hmu : BCClass n n mu) :
    ∃ w w', X.qmult ord fuel (Poly.sym (.S l)) (Poly.sym (.S mu)) = .ok w ∧ Y.mult fuel' (Poly.sym (.S l)) (Poly.sym (.S mu)) = .ok w' ∧
      ∀ nu, BCClass n n nu → coeffOf [.S nu] w = coeffOf [.S nu] w' ∧ 2 * coeffOf [.q, .S nu] w = coeffOf [.S (((n : Int) + 1) :: nu)] w' := by
  obtain ⟨R, i1, i2, f, e, hp, hS, hinj⟩ := universal_classical (n := n + 1) (Nat.succ_pos n)
  have htop : e (n + 1 + 1) = 0 := (two_unit (R := R)).mul_left_cancel (by rw [hp.top, mul_zero])
  have hhigh : ∀ p, n + 1 < p → e p = 0 := fun p h => by
    rcases Nat.eq_or_lt_of_le (show n + 1 + 1 ≤ p from h) with rfl | h
    · exact htop
    · exact hp.high p h
  have hsq : e (n + 1) * e (n + 1) = 0 := by
    rw [← rowPair_high hhigh]; exact hp.rel (n + 1) (by omega) le_rfl
  let g : Sym → R := fun s => match s with | .q => 2 * e (n + 1) | s => f s
  have hgS : ∀ l, g (.S l) = f (.S l) := fun _ => rfl
  have hgq : g .q = 2 * e (n + 1) := rfl
  have hp' : LGPoint n (g .q) e := ⟨hp.zero, hhigh, rfl, fun r h1 h2 => hp.rel r h1 (by omega)⟩
  obtain ⟨w, hw, hwl, hwv⟩ := C128_IG_quantum ord hn hX hf hp' (fun l _ => (hgS l).trans (hS l)) (linComb_single_sym hl) (linComb_single_sym hmu)
  obtain ⟨w', hw', hwl', hwv'⟩ := C128_IG_classical (Nat.succ_pos n) hY hf' hp (fun l _ => hS l) (linComb_single_sym (bcClass_succ hl))
    (linComb_single_sym (bcClass_succ hmu))
  refine ⟨w, w', hw, hw', ?_⟩
  rw [bcClass_max] at hwl hwl'
  obtain ⟨x, hxc, hxv, hxd⟩ := lin_coeffs hwl
  obtain ⟨x', hxc', hxv', hxd'⟩ := lin_coeffs hwl'
  let y : LMod := ∑ nu ∈ clsFin n, (Finsupp.single nu (Polynomial.C ((x nu).coeff 0)) +
    Finsupp.single (((n + 1 : ℕ) : Int) :: nu) (Polynomial.C (2 * (x nu).coeff 1)))
  have hy : ∀ m, y m = ∑ nu ∈ clsFin n, ((if nu = m then Polynomial.C ((x nu).coeff 0) else 0) +
      (if ((n + 1 : ℕ) : Int) :: nu = m then Polynomial.C (2 * (x nu).coeff 1) else 0)) := by
    intro m
    simp only [y, Finsupp.finsetSum_apply, Finsupp.add_apply, Finsupp.single_apply]
  have hy1 : ∀ nu, clsBC n 0 nu → y nu = Polynomial.C ((x nu).coeff 0) := by
    intro nu hnu
    rw [hy, Finset.sum_eq_single nu]
    · rw [if_pos rfl, if_neg (fun h => ?_), add_zero]
      have := congrArg List.length h
      simp at this
    · intro m hm hne
      rw [if_neg hne, if_neg (fun h => not_cls_top m (h ▸ hnu)), add_zero]
    · intro h; exact absurd (mem_clsFin.2 hnu) h
  have hy2 : ∀ nu, clsBC n 0 nu → y (((n + 1 : ℕ) : Int) :: nu) = Polynomial.C (2 * (x nu).coeff 1) := by
    intro nu hnu
    rw [hy, Finset.sum_eq_single nu]
    · rw [if_pos rfl, if_neg (fun h => ?_), zero_add]
      have := congrArg List.length h
      simp at this
    · intro m hm hne
      rw [if_neg (fun h => not_cls_top nu (h ▸ mem_clsFin.1 hm)), if_neg (fun h => hne (List.cons.inj h).2), add_zero]
    · intro h; exact absurd (mem_clsFin.2 hnu) h
  have hyc : ∀ m ∈ y.support, clsBC (n + 1) 0 m := by
    intro m hm
    by_contra hc
    rw [cls_succ, not_or] at hc
    rw [Finsupp.mem_support_iff, hy] at hm
    refine hm (Finset.sum_eq_zero (fun nu hnu => ?_))
    rw [if_neg (fun h : nu = m => hc.1 (h ▸ mem_clsFin.1 hnu)), if_neg (fun h => hc.2 ⟨nu, mem_clsFin.1 hnu, h⟩), add_zero]
  have hval : aeval g (ev x) = aeval f (ev y) := by
    rw [aeval_ev_fin g hxc, aeval_ev_succ f hyc]
    refine Finset.sum_congr rfl (fun nu hnu => ?_)
    have hnu := mem_clsFin.1 hnu
    rw [hy1 nu hnu, hy2 nu hnu, hgq, aeval_sq_zero (by linear_combination 4 * hsq), hgS, hS (_ :: nu), qTilde_top hhigh _ nu rfl, ← hS nu,
      Polynomial.aeval_C, Polynomial.aeval_C, map_mul, map_ofNat]
    ring
  have hEq : x' = y := by
    rw [← sub_eq_zero]
    refine hinj _ (fun m hm => ?_) ?_
    · rcases Finset.mem_union.1 (Finsupp.support_sub hm) with h | h
      · exact hxc' m h
      · exact hyc m h
    · rw [map_sub, map_sub, ← hval, ← hxv', ← hxv, hwv, hwv', valueAt_sym, valueAt_sym, valueAt_sym, valueAt_sym, hgS, hgS, sub_self]
  intro nu hnu
  rw [bcClass_max] at hnu
  have a1 := hxd 0 nu
  have a2 := hxd 1 nu
  have a3 := hxd' 0 nu
  have a4 := hxd' 0 (((n + 1 : ℕ) : Int) :: nu)
  rw [hEq, hy1 nu hnu, Polynomial.coeff_C_zero] at a3
  rw [hEq, hy2 nu hnu, Polynomial.coeff_C_zero] at a4
  simp only [List.replicate, List.nil_append, List.cons_append] at a1 a2 a3 a4
  push_cast at a4
  exact ⟨a1.trans a3.symm, by rw [a2, a4]⟩

/-- `a(q^2 / 16)` -/
noncomputable def sq16 (a : Polynomial ℚ) : Polynomial ℚ := Polynomial.expand ℚ 2 (a.comp (Polynomial.C (1 / 16) * Polynomial.X))

theorem aeval_sq16 {R : Type} [CommRing R] [Algebra ℚ R] (t : R) (a : Polynomial ℚ) :
    Polynomial.aeval t (sq16 a) = Polynomial.aeval (algebraMap ℚ R (1 / 16) * t ^ 2) a := by
  unfold sq16
  rw [Polynomial.expand_aeval, Polynomial.aeval_comp, map_mul, Polynomial.aeval_C, Polynomial.aeval_X]

theorem sq16_even (a : Polynomial ℚ) (d : ℕ) : (sq16 a).coeff (2 * d) = a.coeff d * (1 / 16) ^ d := by
  unfold sq16
  rw [Polynomial.coeff_expand_mul' (by decide), Polynomial.comp_C_mul_X_coeff]

theorem sq16_odd (a : Polynomial ℚ) (d : ℕ) : (sq16 a).coeff (2 * d + 1) = 0 := by
  unfold sq16
  rw [Polynomial.coeff_expand (by decide), if_neg (by omega)]

/-- **C131**: the quantum products on `OG(n+1, 2n+3)` of classes without the part `n+1` are those on `IG(n, 2n)`, where `q` is replaced by
`4*S[n+1]`, `q^2` by `16*q`, up to powers of `2`. -/
theorem C131_quantum (ord ord' : List Int → List Int) (hn : 0 < n) (hX : mkIG n (2 * n) = .ok X)
    (hY : mkOG ((n + 1 : ℕ) : Int) (2 * ((n + 1 : ℕ) : Int) + 1) = .ok Y) (hf : giamBoundBC n n ≤ fuel)
    (hf' : giamBoundBC ((n + 1 : ℕ) : Int) ((n + 1 : ℕ) : Int) ≤ fuel') {l mu : List Int} (hl : BCClass n n l) (hmu : BCClass n n mu) :
    ∃ w w', X.qmult ord fuel (Poly.sym (.S l)) (Poly.sym (.S mu)) = .ok w ∧ Y.qmult ord' fuel' (Poly.sym (.S l)) (Poly.sym (.S mu)) = .ok w' ∧
      ∀ nu, BCClass n n nu → ∀ d : ℕ,
        2 ^ (l.length + mu.length) * coeffOf (List.replicate d Sym.q ++ [.S nu]) w' =
          2 ^ (nu.length + 4 * d) * coeffOf (List.replicate (2 * d) Sym.q ++ [.S nu]) w ∧
        2 ^ (l.length + mu.length) * coeffOf (List.replicate d Sym.q ++ [.S (((n : Int) + 1) :: nu)]) w' =
          2 ^ (nu.length + 2 + 4 * d) * coeffOf (List.replicate (2 * d + 1) Sym.q ++ [.S nu]) w := by
  obtain ⟨R, i1, i2, f, e, hp, hS, hinj⟩ := universal_quantum ord hn
  have hhalf : algebraMap ℚ R (1 / 2) * 2 = 1 := by
    rw [← map_ofNat (algebraMap ℚ R) 2, ← map_mul]; norm_num
  have hetop : e (n + 1) = algebraMap ℚ R (1 / 2) * f .q := by rw [← hp.top, ← mul_assoc, hhalf, one_mul]
  have h16 : 4 * algebraMap ℚ R (1 / 16) = algebraMap ℚ R (1 / 2) ^ 2 := by
    rw [← map_ofNat (algebraMap ℚ R) 4, ← map_mul, ← map_pow]; norm_num
  let g : Sym → R := fun s => match s with | .S l => algebraMap ℚ R (1 / 2) ^ l.length * f (.S l) | _ => algebraMap ℚ R (1 / 16) * f .q ^ 2
  have hgS : ∀ l, g (.S l) = algebraMap ℚ R (1 / 2) ^ l.length * qTilde e l := fun l => by rw [← hS l]
  have hgq : g .q = algebraMap ℚ R (1 / 16) * f .q ^ 2 := rfl
  have hp' : OGPoint (n + 1) (g .q) e := by
    refine ⟨hp.zero, hp.high, ?_, fun r h1 h2 => hp.rel r h1 (by omega)⟩
    rw [hetop, hgq, mul_pow, ← h16]
    ring
  have hgS' : ∀ l : List Int, 2 ^ l.length * g (.S l) = qTilde e l := fun l => by
    rw [hgS, ← mul_assoc, ← mul_pow, mul_comm 2, hhalf, one_pow, one_mul]
  obtain ⟨w, hw, hwl, hwv⟩ := C128_IG_quantum ord hn hX hf hp (fun l _ => hS l) (linComb_single_sym hl) (linComb_single_sym hmu)
  obtain ⟨w', hw', hwl', hwv'⟩ := C128_OG_quantum ord' (Nat.succ_pos n) hY hf' hp' (fun l _ => hgS' l) (linComb_single_sym (bcClass_succ hl))
    (linComb_single_sym (bcClass_succ hmu))
  refine ⟨w, w', hw, hw', ?_⟩
  rw [bcClass_max] at hwl hwl'
  obtain ⟨x, hxc, hxv, hxd⟩ := lin_coeffs hwl
  obtain ⟨x', hxc', hxv', hxd'⟩ := lin_coeffs hwl'
  let y : LMod := ∑ nu ∈ clsFin n, Finsupp.single nu (Polynomial.C ((1 / 2) ^ nu.length) * sq16 (x' nu) +
    Polynomial.C ((1 / 2) ^ (nu.length + 2)) * (sq16 (x' (((n + 1 : ℕ) : Int) :: nu)) * Polynomial.X))
  have hy : ∀ m, y m = ∑ nu ∈ clsFin n, (if nu = m then Polynomial.C ((1 / 2) ^ nu.length) * sq16 (x' nu) +
      Polynomial.C ((1 / 2) ^ (nu.length + 2)) * (sq16 (x' (((n + 1 : ℕ) : Int) :: nu)) * Polynomial.X) else 0) := by
    intro m
    simp only [y, Finsupp.finsetSum_apply, Finsupp.single_apply]
  have hy1 : ∀ nu, clsBC n 0 nu → y nu = Polynomial.C ((1 / 2) ^ nu.length) * sq16 (x' nu) +
      Polynomial.C ((1 / 2) ^ (nu.length + 2)) * (sq16 (x' (((n + 1 : ℕ) : Int) :: nu)) * Polynomial.X) := by
    intro nu hnu
    rw [hy, Finset.sum_ite_eq', if_pos (mem_clsFin.2 hnu)]
  have hyc : ∀ m ∈ y.support, clsBC n 0 m := by
    intro m hm
    by_contra hc
    rw [Finsupp.mem_support_iff, hy, Finset.sum_ite_eq', if_neg (fun h => hc (mem_clsFin.1 h))] at hm
    exact hm rfl
  have hval : aeval g (ev x') = aeval f (ev y) := by
    rw [aeval_ev_fin f hyc, aeval_ev_succ g hxc']
    refine Finset.sum_congr rfl (fun nu hnu => ?_)
    have hnu := mem_clsFin.1 hnu
    rw [hy1 nu hnu, map_add, map_mul, map_mul, map_mul, aeval_sq16, aeval_sq16, Polynomial.aeval_C, Polynomial.aeval_C, Polynomial.aeval_X,
      hgq, hgS, hgS, qTilde_top hp.high _ nu rfl, hetop, List.length_cons, hS nu, map_pow, map_pow]
    ring
  have hEq : y = Polynomial.C ((1 / 2 : ℚ) ^ (l.length + mu.length)) • x := by
    rw [← sub_eq_zero]
    refine hinj _ (fun m hm => ?_) ?_
    · rcases Finset.mem_union.1 (Finsupp.support_sub hm) with h | h
      · exact hyc m h
      · exact hxc m (Finsupp.support_smul h)
    · have hc : aeval f (inq (Polynomial.C ((1 / 2 : ℚ) ^ (l.length + mu.length)))) = algebraMap ℚ R (1 / 2) ^ (l.length + mu.length) := by
        rw [inq, Polynomial.aeval_C, AlgHom.commutes, map_pow]
      rw [map_sub, map_sub, ← hval, ev_smul, map_mul, hc, ← hxv', ← hxv, hwv, hwv', valueAt_sym, valueAt_sym, valueAt_sym, valueAt_sym, hgS, hgS, hS, hS]
      ring
  intro nu hnu d
  rw [bcClass_max] at hnu
  have hk := hy1 nu hnu
  rw [hEq, Finsupp.smul_apply, smul_eq_mul] at hk
  have hpow : ∀ a b : ℕ, (2 : ℚ) ^ (a + b) = 2 ^ a * 2 ^ b := fun a b => pow_add _ _ _
  have h2 : ∀ a : ℕ, (2 : ℚ) ^ a * (1 / 2) ^ a = 1 := fun a => by rw [← mul_pow]; norm_num
  have h3 : ∀ d : ℕ, (2 : ℚ) ^ (4 * d) * (1 / 16) ^ d = 1 := fun d => by rw [pow_mul, ← mul_pow]; norm_num
  rw [hxd', hxd', hxd, hxd]
  constructor
  · have h := congrArg (fun a => a.coeff (2 * d)) hk
    simp only [Polynomial.coeff_add, Polynomial.coeff_C_mul] at h
    have hz : (sq16 (x' (((n + 1 : ℕ) : Int) :: nu)) * Polynomial.X).coeff (2 * d) = 0 := by
      rcases d with _ | d
      · simp
      · rw [show 2 * (d + 1) = 2 * d + 1 + 1 by ring, Polynomial.coeff_mul_X, sq16_odd]
    rw [hz, sq16_even] at h
    have e1 := h2 (l.length + mu.length)
    have e2 := h2 nu.length
    have e3 := h3 d
    rw [hpow nu.length]
    linear_combination (-(2 ^ (l.length + mu.length) * 2 ^ nu.length * 2 ^ (4 * d))) * h + 2 ^ nu.length * 2 ^ (4 * d) * (x nu).coeff (2 * d) * e1 -
      2 ^ (l.length + mu.length) * (x' nu).coeff d * (2 ^ (4 * d) * (1 / 16) ^ d) * e2 - 2 ^ (l.length + mu.length) * (x' nu).coeff d * e3
  · have h := congrArg (fun a => a.coeff (2 * d + 1)) hk
    simp only [Polynomial.coeff_add, Polynomial.coeff_C_mul, Polynomial.coeff_mul_X] at h
    rw [sq16_odd, sq16_even] at h
    have e1 := h2 (l.length + mu.length)
    have e2 := h2 (nu.length + 2)
    have e3 := h3 d
    push_cast at h
    rw [hpow (nu.length + 2)]
    linear_combination (-(2 ^ (l.length + mu.length) * 2 ^ (nu.length + 2) * 2 ^ (4 * d))) * h +
      2 ^ (nu.length + 2) * 2 ^ (4 * d) * (x nu).coeff (2 * d + 1) * e1 -
      2 ^ (l.length + mu.length) * (x' (((n : Int) + 1) :: nu)).coeff d * (2 ^ (4 * d) * (1 / 16) ^ d) * e2 -
      2 ^ (l.length + mu.length) * (x' (((n : Int) + 1) :: nu)).coeff d * e3

/-- **C131**, type D: the same for `OG(n+2, 2n+4)`. -/
theorem C131_quantumD (ord ord' : List Int → List Int) (hn : 0 < n) (hX : mkIG n (2 * n) = .ok X)
    (hY : mkOG (((n + 1 : ℕ) : Int) + 1) (2 * ((n + 1 : ℕ) : Int) + 2) = .ok Y) (hf : giamBoundBC n n ≤ fuel)
    (hf' : giamBoundBC ((n + 1 : ℕ) : Int) ((n + 1 : ℕ) : Int) ≤ fuel') (hf'' : giamBoundD (((n + 1 : ℕ) : Int) + 1) ((n + 1 : ℕ) : Int) ≤ fuel')
    {l mu : List Int} (hl : BCClass n n l) (hmu : BCClass n n mu) :
    ∃ w w', X.qmult ord fuel (Poly.sym (.S l)) (Poly.sym (.S mu)) = .ok w ∧ Y.qmult ord' fuel' (Poly.sym (.S l)) (Poly.sym (.S mu)) = .ok w' ∧
      ∀ nu, BCClass n n nu → ∀ d : ℕ,
        2 ^ (l.length + mu.length) * coeffOf (List.replicate d Sym.q ++ [.S nu]) w' =
          2 ^ (nu.length + 4 * d) * coeffOf (List.replicate (2 * d) Sym.q ++ [.S nu]) w ∧
        2 ^ (l.length + mu.length) * coeffOf (List.replicate d Sym.q ++ [.S (((n : Int) + 1) :: nu)]) w' =
          2 ^ (nu.length + 2 + 4 * d) * coeffOf (List.replicate (2 * d + 1) Sym.q ++ [.S nu]) w := by
  obtain ⟨w, w', h1, h2, h3⟩ := C131_quantum ord ord' hn hX mkOG_max hf hf' hl hmu
  obtain ⟨u, v, e1, e2, e3⟩ := C87_qmult ord' ord' (by omega) (mkOG_max (n := n + 1)) hY hf' hf'' (linComb_single_sym (bcClass_succ hl))
    (linComb_single_sym (bcClass_succ hmu))
  rw [h2] at e1
  cases e1
  refine ⟨w, v, h1, e2, fun nu hnu d => ?_⟩
  rw [← coeffOf_perm e3, ← coeffOf_perm e3]
  exact h3 nu hnu d

end

/-- `S[2]*S[1] = S[2,1] + q` on `IG(2, 4)` and `S[2,1] + 2*S[3]` on `IG(3, 6)`. -/
example : mkIG 2 4 = .ok ⟨.C, 0, 2⟩ ∧ mkIG 3 6 = .ok ⟨.C, 0, 3⟩ ∧ giamBoundBC 2 2 ≤ 40 ∧ giamBoundBC 3 3 ≤ 40 ∧ BCClass 2 2 [2] ∧ BCClass 2 2 [1] ∧
    (Space.mk .C 0 2).qmult id 40 (Poly.sym (.S [2])) (Poly.sym (.S [1])) = .ok [([.S [2, 1]], 1), ([.q, .S []], 1)] ∧
    (Space.mk .C 0 3).mult 40 (Poly.sym (.S [2])) (Poly.sym (.S [1])) = .ok [([.S [3]], 2), ([.S [2, 1]], 1)] := by
  decide +kernel

/-- `S[2,1]*S[2,1] = q^2` on `IG(2, 4)`, `q` on `OG(3, 7)` and `OG(4, 8)`; `S[2,1]*S[2] = q*S[2]` on `IG(2, 4)`, `S[3,2]` on `OG(3, 7)`. -/
example : mkOG 3 7 = .ok ⟨.B, 0, 3⟩ ∧ mkOG 4 8 = .ok ⟨.D, 0, 3⟩ ∧ giamBoundD 4 3 ≤ 90 ∧ BCClass 2 2 [2, 1] ∧
    (Space.mk .C 0 2).qmult id 40 (Poly.sym (.S [2, 1])) (Poly.sym (.S [2, 1])) = .ok [([.q, .q, .S []], 1)] ∧
    (Space.mk .B 0 3).qmult id 90 (Poly.sym (.S [2, 1])) (Poly.sym (.S [2, 1])) = .ok [([.q, .S []], 1)] ∧
    (Space.mk .D 0 3).qmult id 90 (Poly.sym (.S [2, 1])) (Poly.sym (.S [2, 1])) = .ok [([.q, .S []], 1)] ∧
    (Space.mk .C 0 2).qmult id 40 (Poly.sym (.S [2, 1])) (Poly.sym (.S [2])) = .ok [([.q, .S [2]], 1)] ∧
    (Space.mk .B 0 3).qmult id 90 (Poly.sym (.S [2, 1])) (Poly.sym (.S [2])) = .ok [([.S [3, 2]], 1)] := by
  decide +kernel

end Verif
