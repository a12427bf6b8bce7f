import Verif.Proofs.RingHom
import Verif.Props.RingBC
import Verif.Props.SchurPol
/-!
# C81: the classical rings of IG(m,2n) and OG(m,2n+1)

They differ by powers of 2 only.
-/

namespace Verif
open Spec

/-- The number of parts greater than `k`. -/
def Spec.bigParts (k : ℤ) (l : List Int) : ℕ := l.countP (fun x => k < x)

section words

/-- what a state has gained -/
def valSt : St → ℕ
  | .z => 0
  | .lr => 1
  | .l => 1
  | .r => 0

theorem wt_two {R : Type*} [CommRing R] (x : R) (u w : List L3) (s : St) :
    2 ^ (u.count .a) * wt 2 x s u w = 2 ^ (w.count .a + valSt s) * wt 1 x s u w := by
  induction u generalizing w s with
  | nil =>
    cases w with
    | nil => cases s <;> simp [wt, endW, valSt]
    | cons q w => simp [wt]
  | cons p u ih =>
    cases w with
    | nil => simp [wt]
    | cons q w =>
      cases hst : step s p q with
      | none => simp [wt, hst]
      | some t =>
        obtain ⟨t, i, j⟩ := t
        have hw : ∀ c : R, wt c x s (p :: u) (q :: w) = 2 ^ i * x ^ j * wt c x t u w := fun c => by simp [wt, hst]
        rw [hw, hw]
        have h := ih w t
        have e : (p :: u).count .a + (w.count .a + valSt t) = u.count .a + ((q :: w).count .a + valSt s) := by
          cases s <;> cases p <;> cases q <;> simp [step] at hst <;> obtain ⟨rfl, -, -⟩ := hst <;> simp [valSt, List.count_cons] <;> omega
        obtain ⟨d, hd⟩ : ∃ d, (p :: u).count .a = d + u.count .a := ⟨_, by rw [List.count_cons, add_comm]⟩
        rw [hd, show (q :: w).count .a + valSt s = d + (w.count .a + valSt t) by omega, pow_add, pow_add 2 d,
          show 2 ^ d * 2 ^ u.count .a * (2 ^ i * x ^ j * wt 2 x t u w) = 2 ^ d * (2 ^ i * x ^ j) * (2 ^ u.count .a * wt 2 x t u w) by ring, h]
        ring

theorem shapeW_count (k0 : ℕ) (u : List L3) (r0 : ℕ) (c : ℕ) :
    ((shapeW k0 r0 u).map (· + (c : ℤ))).countP (fun x => decide ((colsW k0 u + c : ℤ) < x)) = u.count .a ∧
      ∀ x ∈ shapeW k0 r0 u, 0 ≤ x := by
  induction u generalizing c with
  | nil => 
    refine ⟨?_, ?_⟩
    · rw [List.countP_eq_zero.2]
      · simp
      · intro x hx
        obtain ⟨y, hy, rfl⟩ := List.mem_map.1 hx
        rw [show y = 0 from List.eq_of_mem_replicate hy]
        simp [colsW]
    · intro x hx
      simp [shapeW] at hx
      omega
  | cons p u ih =>
    cases p with
    | o =>
      have := ih (c + 1)
      refine ⟨?_, ?_⟩
      · rw [show (L3.o :: u).count .a = u.count .a by simp, ← this.1]
        simp only [shapeW, List.map_map, colsW]
        congr 1
        · funext x; push_cast; congr 2; ring
        · congr 1
          funext x
          simp; ring
      · intro x hx
        simp only [shapeW, List.mem_map] at hx
        obtain ⟨y, hy, rfl⟩ := hx
        have := this.2 y hy
        omega
    | a =>
      have := ih c
      refine ⟨?_, ?_⟩
      · simp only [shapeW, colsW, List.map_cons, List.countP_cons]
        rw [if_pos (by simp; omega), List.count_cons_self]
        exact congrArg (· + 1) this.1
      · intro x hx
        simp only [shapeW, List.mem_cons] at hx
        rcases hx with rfl | hx
        · omega
        · exact this.2 x hx
    | b =>
      have := ih c
      refine ⟨?_, ?_⟩
      · simp only [shapeW, colsW, List.map_append, List.countP_append]
        rw [show (L3.b :: u).count .a = u.count .a + 0 by simp]
        refine congrArg₂ (· + ·) this.1 ?_
        simp
      · intro x hx
        simp only [shapeW, List.mem_append, List.mem_singleton] at hx
        rcases hx with hx | rfl
        · exact this.2 x hx
        · omega

theorem bigParts_partClip {k : ℤ} (hk : 0 ≤ k) {l : List Int} (hl : IsPartition l) : bigParts k (partClip l) = bigParts k l := by
  rw [partClip_eq_filter hl, bigParts, bigParts, List.countP_filter]
  refine List.countP_congr (fun x hx => ?_)
  simp
  omega

theorem bigParts_labW {n k : ℕ} {u : List L3} (hu : u ∈ Wd n k) : bigParts k (labW u) = u.count .a := by
  rw [mem_Wd] at hu
  rw [labW, bigParts_partClip (by omega) (shapeW_isPart 0 0 u).1, ← (shapeW_count 0 u 0 0).1, hu.2, bigParts]
  simp

end words

/-- the comparison map -/
noncomputable def phiBC (k : ℕ) : LMod →ₗ[Polynomial ℚ] LMod := lin (fun l => Finsupp.single l (2 ^ bigParts k l))

theorem phiBC_single (k : ℕ) (l : List Int) (a : Polynomial ℚ) : phiBC k (Finsupp.single l a) = Finsupp.single l (a * 2 ^ bigParts k l) := by
  simp [phiBC, lin]

theorem phiBC_apply (k : ℕ) (x : LMod) (l : List Int) : phiBC k x l = 2 ^ bigParts k l * x l := by
  induction x using Finsupp.induction_linear with
  | zero => simp
  | add x y hx hy => rw [map_add, Finsupp.add_apply, hx, hy, Finsupp.add_apply, mul_add]
  | single l' a =>
    rw [phiBC_single, Finsupp.single_apply, Finsupp.single_apply]
    split
    · rename_i h; rw [h, mul_comm]
    · rw [mul_zero]

open Polynomial in
theorem MC_MB {n k : ℕ} (p : ℕ) {u w : List L3} (hu : u ∈ Wd n k) (hw : w ∈ Wd n k) :
    MC 0 p u w * 2 ^ bigParts k (labW w) = (if p ≤ k then 1 else 2) * 2 ^ bigParts k (labW u) * MB k p u w := by
  rw [bigParts_labW hu, bigParts_labW hw, MC, MB, opW, opW]
  simp only [map_zero, zero_mul, add_zero, map_one]
  have h := congrArg (fun f => coeff f p) (wt_two (X : (ℚ[X])[X]) u w .z)
  have e : ∀ (j : ℕ) (f : (ℚ[X])[X]), coeff (2 ^ j * f) p = 2 ^ j * coeff f p := by
    intro j f
    rw [show (2 : (ℚ[X])[X]) ^ j = C (2 ^ j) by rw [map_pow, map_ofNat], coeff_C_mul]
  simp only [e, valSt, add_zero] at h
  rw [mul_comm, ← h, show (C 2 : (ℚ[X])[X]) = 2 from map_ofNat _ 2]
  split
  · simp
  · have e1 : (2 : ℚ[X]) * C (1 / 2) = 1 := by
      rw [show (2 : ℚ[X]) = C 2 from (map_ofNat _ 2).symm, ← C_mul]; norm_num
    have e2 : ∀ A B : ℚ[X], A * B = 2 * A * (C (1 / 2) * B) := by
      intro A B
      rw [show 2 * A * (C (1 / 2) * B) = (2 * C (1 / 2)) * (A * B) by ring, e1, one_mul]
    exact e2 _ _

theorem compareBC {a b : ℕ} (h : b ≤ a) {x y : LMod} (hx : ∀ l ∈ x.support, clsBC a b l) (hy : ∀ l ∈ y.support, clsBC a b l) :
    phiBC b ((ringIG a b h).Y.prod x y) = (ringOG a b h).Y.prod (phiBC b x) (phiBC b y) := by
  refine GiamSys.hom _ _ (phiBC b) (fun l hl => ?_) ?_ (fun p hp => ?_) hx hy
  · rw [phiBC_single]
    exact supp_single hl _
  · rw [phiBC_single]
    simp [bigParts]
  · refine ⟨(if p.toNat ≤ b then (1 : Polynomial ℚ) else 2) • (ringOG a b h).Y.t p [], fun nu hnu =>
      (ringOG a b h).Y.closed p [] nu (Finsupp.support_smul hnu), fun l hl => ?_⟩
    have e1 : (ringOG a b h).Y.t p [] = lin ((ringOG a b h).Y.t p) (Finsupp.single [] 1) := by simp [lin]
    rw [GiamSys.prod_smul_left, e1, GiamSys.prod_lin _ hp (supp_single (ringOG a b h).nil 1) (by rw [phiBC_single]; exact supp_single hl _),
      GiamSys.one_prod, phiBC_single]
    obtain ⟨u, hu, rfl⟩ := (Wd_cls h l).1 hl
    have t1 : (ringIG a b h).Y.t p (labW u) = ∑ w ∈ Wd a b, Finsupp.single (labW w) (MC 0 p.toNat u w) := tM_lab _ Wd_inj _ hu
    have t2 : (ringOG a b h).Y.t p (labW u) = ∑ w ∈ Wd a b, Finsupp.single (labW w) (MB b p.toNat u w) := tM_lab _ Wd_inj _ hu
    rw [t1, map_sum, show lin ((ringOG a b h).Y.t p) (Finsupp.single (labW u) (1 * 2 ^ bigParts b (labW u))) =
      (2 ^ bigParts b (labW u) : Polynomial ℚ) • (ringOG a b h).Y.t p (labW u) by simp [lin], t2, Finset.smul_sum, Finset.smul_sum]
    refine Finset.sum_congr rfl (fun w hw => ?_)
    rw [phiBC_single, MC_MB _ hu hw, Finsupp.smul_single, Finsupp.smul_single, smul_eq_mul, smul_eq_mul, mul_assoc]

/-- **C81**: the coefficients of products of classes in the classical rings of `IG(m,2n)` and `OG(m,2n+1)` differ by a power of 2: the
exponent is the number of parts greater than `n-m`. -/
theorem C81_IG_OG {m n : Int} {X X' : Space} (hmn : m ≤ n) (hX : mkIG m (2 * n) = .ok X) (hX' : mkOG m (2 * n + 1) = .ok X') {fuel : Nat}
    (hf : giamBoundBC m n ≤ fuel) {l mu : List Int} (hl : BCClass m n l) (hmu : BCClass m n mu) :
    ∃ w w', X.mult fuel (Poly.sym (.S l)) (Poly.sym (.S mu)) = .ok w ∧ X'.mult fuel (Poly.sym (.S l)) (Poly.sym (.S mu)) = .ok w' ∧
      ∀ nu, coeffOf [.S nu] w * 2 ^ bigParts (n - m) nu = coeffOf [.S nu] w' * 2 ^ (bigParts (n - m) l + bigParts (n - m) mu) := by
  obtain ⟨a, b, h, rfl, rfl, rfl⟩ := igCase hX
  obtain ⟨a', b', h', e1, e2, rfl⟩ := ogCase hmn hX'
  obtain rfl : a = a' := by omega
  obtain rfl : b = b' := by omega
  rw [giamBoundBC_eq h] at hf
  rw [bcClass_eq h] at hl hmu
  rw [show (a : ℤ) - (a - b) = b by omega]
  obtain ⟨w, h1, h2, h3⟩ := (ringIG a b h).mult hf (wf_sym (.S l)) (x := Finsupp.single l 1) (by simp [inq])
      (supp_single hl 1) (wf_sym (.S mu)) (y := Finsupp.single mu 1) (by simp [inq]) (supp_single hmu 1)
  obtain ⟨w', h1', h2', h3'⟩ := (ringOG a b h).mult hf (wf_sym (.S l)) (x := Finsupp.single l 1) (by simp [inq])
      (supp_single hl 1) (wf_sym (.S mu)) (y := Finsupp.single mu 1) (by simp [inq]) (supp_single hmu 1)
  refine ⟨w, w', h1, h1', fun nu => ?_⟩
  have c1 : coeffOf [.S nu] w = ((ringIG a b h).Y.prod (Finsupp.single l 1) (Finsupp.single mu 1) nu).coeff 0 := by
    rw [← coeff_ev, ← expo_qmono, ← h3, ← coeffOf_den h2 (qmono_sorted 0 _)]; rfl
  have c2 : coeffOf [.S nu] w' = ((ringOG a b h).Y.prod (Finsupp.single l 1) (Finsupp.single mu 1) nu).coeff 0 := by
    rw [← coeff_ev, ← expo_qmono, ← h3', ← coeffOf_den h2' (qmono_sorted 0 _)]; rfl
  have key := congrArg (fun x : LMod => x nu) (compareBC h (supp_single hl 1) (supp_single hmu 1))
  simp only [phiBC_apply, phiBC_single, one_mul] at key
  have e : ∀ (j : ℕ) (l : List Int), (Finsupp.single l (2 ^ j) : LMod) = (2 ^ j : Polynomial ℚ) • Finsupp.single l 1 := by intro j l; simp
  rw [e, e, GiamSys.prod_smul_left, GiamSys.prod_smul_right, Finsupp.smul_apply, Finsupp.smul_apply, smul_eq_mul, smul_eq_mul] at key
  have key' := congrArg (fun p => Polynomial.coeff p 0) key
  have e' : ∀ (j : ℕ) (f : Polynomial ℚ), Polynomial.coeff (2 ^ j * f) 0 = 2 ^ j * Polynomial.coeff f 0 := by
    intro j f
    rw [show (2 : Polynomial ℚ) ^ j = Polynomial.C (2 ^ j) by rw [map_pow, map_ofNat], Polynomial.coeff_C_mul]
  simp only [e'] at key'
  rw [c1, c2, mul_comm, key', pow_add]
  ring

/-- on `IG(2,6)` and `OG(2,7)`: `S[2] * S[3]`; two parts greater than 1 in the factors and in `[3,2]`, one in `[4,1]` -/
example : BCClass 2 3 [2] ∧ BCClass 2 3 [3] ∧ mkIG 2 (2 * 3) = .ok ⟨.C, 1, 3⟩ ∧ mkOG 2 (2 * 3 + 1) = .ok ⟨.B, 1, 3⟩ ∧
    (Space.mk .C 1 3).mult 45 (Poly.sym (.S [3])) (Poly.sym (.S [2])) = .ok [([.S [4, 1]], 2), ([.S [3, 2]], 1)] ∧
    (Space.mk .B 1 3).mult 45 (Poly.sym (.S [3])) (Poly.sym (.S [2])) = .ok [([.S [4, 1]], 1), ([.S [3, 2]], 1)] ∧
    bigParts 1 [4, 1] = 1 ∧ bigParts 1 [3, 2] = 2 := by
  refine ⟨⟨⟨by decide, by decide⟩, by unfold KStrict; decide, by decide, by decide⟩,
    ⟨⟨by decide, by decide⟩, by unfold KStrict; decide, by decide, by decide⟩, by decide, by decide, by decide +kernel, by decide +kernel, by decide, by decide⟩

end Verif
