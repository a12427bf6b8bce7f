import Verif.Proofs.SpinD
import Verif.Proofs.RingD
import Verif.Proofs.SeidelD
import Verif.Proofs.TwoSeidel
/-!
# Type D: the matrices and the words read backwards
-/

namespace Verif.Spin
open Verif

section
variable {R : Type*} [CommRing R]

theorem opGO_one (h x : R) (U W : WordD) : opGO h x U W = h * opGO 1 x U W := by
  rcases U with ⟨_ | ⟨p, u⟩, i⟩ <;> rcases W with ⟨_ | ⟨q, w⟩, j⟩ <;> simp only [opGO, mul_zero]
  cases p <;> cases q <;> simp [kerO]

theorem opSO_one (h : R) (U W : WordD) : opSO h U W = h * opSO 1 U W := by
  rcases U with ⟨_ | ⟨p, u⟩, i⟩ <;> rcases W with ⟨_ | ⟨q, w⟩, j⟩ <;> simp only [opSO, mul_zero]
  cases p <;> cases q <;> simp [kerSO]

theorem opKG_one (h x : R) (U W : WordD) : opKG h 1 x one U W = opG h (h ^ 2) x U W := by
  unfold opKG opG
  rw [opGO_one h]
  simp [one, val, sgn]

theorem opKS_one (h x : R) (U W : WordD) : opKS h 1 x one U W = opS h U W := by
  unfold opKS opS
  rw [opSO_one h]
  simp [one, val, sgn]

theorem op_spin (h x : R) {c1 c2 : Bool} {U W : WordD} (hU : U.1 ≠ []) (hl : U.1.length = W.1.length) (hn : od (U.1.length - 1) = xor c1 c2) :
    h ^ numD c1 U * opG h (h ^ 2) x (spin c1 c2 U) (spin c1 c2 W) = h ^ numD c1 W * opG h (h ^ 2) x U W ∧
      h ^ numD c1 U * opS h (spin c1 c2 U) (spin c1 c2 W) = h ^ numD c1 W * opS h U W := by
  rcases U with ⟨_ | ⟨p, u⟩, i⟩
  · exact absurd rfl hU
  · rcases W with ⟨_ | ⟨q, w⟩, j⟩
    · simp at hl
    · have hF : ∀ d, val h 1 x (one.F d) = h ^ d := fun d => by simp [one, val, sgn]
      have := opK_spin (y1 := h) (y2 := 1) (x := x) (Q := one) (lone := false) (c1 := c1) (c2 := c2) (chk_one c1) (B := h ^ 2)
        (fun c d => by rw [hF, hF, pow_add, pow_mul]) (p := p) (q := q) (i := i) (j := j) (u := u) (w := w) (by simpa using hl)
        (by simpa using hn) (by simp)
      rw [hF, hF, opKG_one, opKG_one, opKS_one, opKS_one] at this
      exact this

end

open Polynomial

theorem MDg_spin (h : Polynomial ℚ) (k : ℕ) (p : Int) {c1 c2 : Bool} {U W : WordD} (hU : U.1 ≠ []) (hl : U.1.length = W.1.length)
    (hn : od (U.1.length - 1) = xor c1 c2) :
    h ^ numD c1 U * MDg h (h ^ 2) k p (spin c1 c2 U) (spin c1 c2 W) = h ^ numD c1 W * MDg h (h ^ 2) k p U W := by
  have e1 := (op_spin (C h : (Polynomial ℚ)[X]) X hU hl hn).1
  have e2 := (op_spin h (1 : Polynomial ℚ) hU hl hn).2
  rw [← C_pow, ← C_pow, ← C_pow] at e1
  have e3 := congrArg (fun f => f.coeff p.natAbs) e1
  simp only [coeff_C_mul] at e3
  unfold MDg
  linear_combination C (alD k p) * e3 + C (alD k p) * C (beD k p) * e2

/-! ### Without letters `o` -/

theorem MDg_map (φ : Polynomial ℚ →+* Polynomial ℚ) (hφ : ∀ c, φ (C c) = C c) (h h' : Polynomial ℚ) (k : ℕ) (p : Int) (U W : WordD) :
    φ (MDg h h' k p U W) = MDg (φ h) (φ h') k p U W := by
  unfold MDg
  rw [map_mul, map_add, map_mul, hφ, hφ, opS_map, ← Polynomial.coeff_map]
  congr 3
  have := opG_map (mapRingHom φ) (C h) (C h') (X : (Polynomial ℚ)[X]) U W
  rw [coe_mapRingHom] at this
  rw [this, map_C, map_C, map_X]

theorem MDg_no_o (h g h' : Polynomial ℚ) (k : ℕ) (p : Int) {U W : WordD} (hU : ∀ v, U.1 ≠ .o :: v) (hW : ∀ v, W.1 ≠ .o :: v) :
    MDg h h' k p U W = MDg g h' k p U W := by
  have e1 : ∀ c : (Polynomial ℚ)[X], opGO c X U (swD W) = 0 := by
    intro c
    rcases U with ⟨_ | ⟨r, u⟩, i⟩ <;> rcases W with ⟨_ | ⟨q, w⟩, j⟩ <;> simp only [opGO, swD]
    have := hU u
    have := hW w
    cases r <;> cases q <;> simp_all [kerO]
  have e2 : ∀ c : Polynomial ℚ, opSO c U (swD W) = 0 := by
    intro c
    rcases U with ⟨_ | ⟨r, u⟩, i⟩ <;> rcases W with ⟨_ | ⟨q, w⟩, j⟩ <;> simp only [opSO, swD]
    have := hU u
    have := hW w
    cases r <;> cases q <;> simp_all [kerSO]
  unfold MDg opG opS
  rw [e1, e1, e2, e2]

/-! ### The map on the words of a space -/

/-- the two signs of the map that belongs to a class of type `t` -/
def c1 (k : ℕ) (t : Bool) : Bool := xor (od (k + 1)) t

def c2 (n k : ℕ) (t : Bool) : Bool := xor (od (n + 1)) (c1 k t)

theorem c12 {n : ℕ} (hn : 0 < n) (k : ℕ) (t : Bool) : od (n - 1) = xor (c1 k t) (c2 n k t) := by
  obtain ⟨m, rfl⟩ : ∃ m, n = m + 1 := ⟨n - 1, by omega⟩
  unfold c2
  rw [show m + 1 + 1 = 2 * 1 + m by omega, od_two, show m + 1 - 1 = m by omega]
  generalize c1 k t = b
  generalize od m = a
  cases a <;> cases b <;> rfl

/-- the map of words that belongs to a class of type `t` -/
def spD (n k : ℕ) (t : Bool) : WordD → WordD := spin (c1 k t) (c2 n k t)

/-- the inverse map -/
def spD' (n k : ℕ) (t : Bool) : WordD → WordD := spin (c2 n k t) (c1 k t)

/-- the power of `q` -/
def spE (k : ℕ) (t : Bool) (U : WordD) : ℕ := if k = 0 then numD (c1 k t) U / 2 else numD (c1 k t) U

theorem no_o {n : ℕ} {U : WordD} (hU : U ∈ WdD n 0) : cntO U.1 = 0 ∧ U.2 = .a := by
  obtain ⟨h1, h2, h3⟩ := mem_WdD.1 hU
  unfold colsD at h2
  rw [colsW_eq] at h2
  exact ⟨by omega, h3 rfl⟩

theorem inn_par {c : Bool} {p : L3} {u : List L3} {i : L3} (hi : i ≠ .o) :
    isA (inn c p u i) = xor (xor (xor (od (cntA u)) (isA p)) c) (isA i) := by
  unfold inn
  generalize xor (xor (od (cntA u)) (isA p)) c = b
  cases b <;> cases i <;> simp_all [tw, L3.sw, isA]

theorem od_b2n (b : Bool) : od (b2n b) = b := by cases b <;> rfl

theorem numD_par {c : Bool} {p : L3} {u : List L3} {i : L3} (hi : i ≠ .o) : od (numD c (p :: u, i)) = xor c (isA i) := by
  unfold numD
  rw [od_add, od_add, od_b2n, od_b2n, inn_par hi]
  generalize od (cntA u) = x
  generalize isA p = y
  generalize isA i = z
  cases x <;> cases y <;> cases z <;> cases c <;> rfl

theorem isA_dual {p : L3} (hp : p ≠ .o) : isA p.dual = !isA p := by
  cases p <;> simp_all [isA, L3.dual]

theorem inn_o {c : Bool} {p : L3} {u : List L3} {i : L3} (hi : i ≠ .o) : inn c p u i ≠ .o := by
  unfold inn
  generalize xor (xor (od (cntA u)) (isA p)) c = b
  cases b <;> cases i <;> simp_all [tw, L3.sw]


theorem spin_mem {n k : ℕ} {a b : Bool} {U : WordD} (hU : U ∈ WdD n k) (h0 : k = 0 → (spin a b U).2 = .a) : spin a b U ∈ WdD n k := by
  obtain ⟨h1, h2, h3⟩ := mem_WdD.1 hU
  rw [mem_WdD, length_spin, colsD_spin]
  exact ⟨h1, h2, h0⟩

/-- without letters `o` the inner letter stays `a` -/
theorem spin_a {n : ℕ} (hn : 0 < n) {a b : Bool} {U : WordD} (hU : U ∈ WdD n 0) (h : xor a b = od (n + 1)) : (spin a b U).2 = .a := by
  obtain ⟨h1, h2⟩ := no_o hU
  have hlen := (mem_WdD.1 hU).1
  rcases U with ⟨_ | ⟨p, u⟩, i⟩
  · simp at hlen; omega
  · simp only at h2
    subst h2
    rw [cntO_cons] at h1
    have hp : p ≠ .o := by rintro rfl; simp [L3.k0] at h1
    have hd : p.dual ≠ .o := by cases p <;> simp_all [L3.dual]
    have hx := inn_par (c := b) (p := (inn a p u .a).dual) (u := revW u) (i := p.dual) hd
    have hy := inn_o (c := b) (p := (inn a p u .a).dual) (u := revW u) (i := p.dual) hd
    have hc := cnt_rev u
    rw [show cntO u = 0 by omega, add_zero] at hc
    have hc := congrArg od hc
    rw [od_add] at hc
    rw [isA_dual (inn_o (by simp)), isA_dual hp, inn_par (c := a) (p := p) (u := u) (i := .a) (by simp)] at hx
    have hl' : od (n + 1) = od u.length := by
      rw [← hlen, List.length_cons, show u.length + 1 + 1 = 2 * 1 + u.length by omega, od_two]
    rw [hl', ← hc] at h
    have : isA (inn b (inn a p u .a).dual (revW u) p.dual) = true := by
      rw [hx]
      revert h
      have : isA L3.a = true := rfl
      rw [this]
      generalize od (cntA u) = x
      generalize od (cntA (revW u)) = y
      generalize isA p = z
      cases x <;> cases y <;> cases z <;> cases a <;> cases b <;> simp
    unfold isA at this
    simpa [spin] using this

theorem spD_mem {n k : ℕ} (hn : 0 < n) {t : Bool} {U : WordD} (hU : U ∈ WdD n k) : spD n k t U ∈ WdD n k := by
  refine spin_mem hU (fun h => ?_)
  subst h
  apply spin_a hn hU
  unfold c2
  generalize c1 0 t = x
  generalize od (n + 1) = y
  cases x <;> cases y <;> rfl

theorem spD'_mem {n k : ℕ} (hn : 0 < n) {t : Bool} {U : WordD} (hU : U ∈ WdD n k) : spD' n k t U ∈ WdD n k := by
  refine spin_mem hU (fun h => ?_)
  subst h
  apply spin_a hn hU
  unfold c2
  generalize c1 0 t = x
  generalize od (n + 1) = y
  cases x <;> cases y <;> rfl

theorem spD'_spD (n k : ℕ) (t : Bool) (U : WordD) : spD' n k t (spD n k t U) = U := spin_spin _ _ U

theorem spD_spD' (n k : ℕ) (t : Bool) (U : WordD) : spD n k t (spD' n k t U) = U := spin_spin _ _ U

theorem spD_M (p : Int) {n k : ℕ} (hn : 0 < n) {t : Bool} (ht : k = 0 → t = false) {U W : WordD} (hU : U ∈ WdD n k) (hW : W ∈ WdD n k) :
    X ^ spE k t U * MDg (hQ k) (hQ' k) k p (spD n k t U) (spD n k t W) = X ^ spE k t W * MDg (hQ k) (hQ' k) k p U W := by
  have lU := (mem_WdD.1 hU).1
  have lW := (mem_WdD.1 hW).1
  have hne : U.1 ≠ [] := by
    intro h
    rw [h] at lU
    simp at lU; omega
  have key := MDg_spin X k p (c1 := c1 k t) (c2 := c2 n k t) (W := W) hne (by omega) (by rw [lU]; exact c12 hn k t)
  by_cases hk : k = 0
  · subst hk
    obtain rfl := ht rfl
    have ev : ∀ V ∈ WdD n 0, numD (c1 0 false) V = spE 0 false V * 2 := by
      intro V hV
      obtain ⟨h1, h2⟩ := no_o hV
      have hlen := (mem_WdD.1 hV).1
      unfold spE
      rw [if_pos rfl]
      rcases V with ⟨_ | ⟨q, v⟩, i⟩
      · simp [numD]
      · simp only at h2
        subst h2
        have := numD_par (c := c1 0 false) (p := q) (u := v) (i := .a) (by simp)
        have h3 : xor (c1 0 false) (isA L3.a) = false := by decide
        rw [h3] at this
        unfold od at this
        have : numD (c1 0 false) (q :: v, .a) % 2 ≠ 1 := by simpa using this
        omega
    apply expand_injective (R := ℚ) (n := 2) (by omega)
    have eC : ∀ c : ℚ, (expand ℚ 2 : Polynomial ℚ →+* Polynomial ℚ) (C c) = C c := fun c => by simp
    have eX : (expand ℚ 2 : Polynomial ℚ →+* Polynomial ℚ) X = X ^ 2 := by simp
    have e0 : hQ 0 = 0 := by simp [hQ]
    have e1 : hQ' 0 = X := by simp [hQ']
    show (expand ℚ 2 : Polynomial ℚ →+* Polynomial ℚ) _ = (expand ℚ 2 : Polynomial ℚ →+* Polynomial ℚ) _
    rw [map_mul, map_mul, map_pow, map_pow, MDg_map _ eC, MDg_map _ eC, e0, e1, eX, map_zero, ← pow_mul, ← pow_mul, mul_comm 2, mul_comm 2,
      ← ev U hU, ← ev W hW, MDg_no_o 0 X _ _ _ (no_oD rfl (spD_mem hn hU)) (no_oD rfl (spD_mem hn hW)),
      MDg_no_o 0 X _ _ _ (no_oD rfl hU) (no_oD rfl hW)]
    exact key
  · have e0 : hQ k = X := by simp [hQ, hk]
    have e1 : hQ' k = X ^ 2 := by simp [hQ', hk]
    have e2 : ∀ V, spE k t V = numD (c1 k t) V := fun V => by unfold spE; rw [if_neg hk]
    rw [e0, e1, e2, e2]
    exact key

end Verif.Spin
