import Verif.Proofs.Quadric
import Verif.Props.Relations
import Verif.Props.RingA
import Verif.Props.Output
/-!
# C103: projective spaces and quadrics
-/

namespace Verif
open Spec MvPolynomial

/-- the factor `e(p)`: `e(p) * S[p]` is the power of the hyperplane class, up to the term with `q` -/
def Spec.dbl (k p : ℕ) : ℚ := if p ≤ k then 1 else 2

theorem returns_mono {r : Except PyErr Poly} {m : Mono} {c : ℚ} (hc : c ≠ 0)
    (hm : m.Pairwise (fun a b => listLt b.code a.code = false)) (h : Returns r (C c * monoDen m)) : r = .ok [(m, c)] := by
  obtain ⟨w, rfl, h2, h3⟩ := h
  have := perm_of_den_eq h2 (r := [(m, c)]) ⟨by simp, by simpa using ⟨hc, hm⟩⟩ (by rw [h3]; simp)
  rw [List.perm_singleton.1 this]

theorem returns_zero {r : Except PyErr Poly} (h : Returns r 0) : r = .ok [] := by
  obtain ⟨w, rfl, h2, h3⟩ := h
  have := perm_of_den_eq h2 (r := []) ⟨by simp, by simp⟩ (by rw [h3]; simp)
  rw [List.perm_nil.1 this]

section
variable {Sp : Space} {pieri : Int → List Int → Except PyErr Poly} {N B : ℕ}

theorem row_prod (Z : RingOn Sp pieri (stdSpc (N + 1 + N)) (clsBC (N + 1) N) B) (M : ℕ → List L3 → List L3 → Polynomial ℚ)
    (cf : ℕ → Polynomial ℚ) (hz : ∀ u ∈ Wd (N + 1) N, ∀ w ∈ Wd (N + 1) N, M 0 u w = if u = w then 1 else 0) (h0 : cf 0 = 1)
    (ht : ∀ p l, 1 ≤ p → p ≤ N + 1 + N → tM (Wd (N + 1) N) labW M p l = cf p • Z.Y.t p l)
    (hbot : ∀ b ≤ 2 * N + 1, ∀ w ≤ 2 * N + 1, M b (rowW N 0) (rowW N w) = if w = b then cf b else 0) {a b : ℕ}
    (ha : a ≤ 2 * N + 1) (hb : b ≤ 2 * N + 1) :
    (cf a * cf b) • Z.Y.prod (Finsupp.single (rowS a) 1) (Finsupp.single (rowS b) 1) =
      cf b • ∑ w ∈ Finset.range (2 * N + 2), Finsupp.single (rowS w) (M a (rowW N b) (rowW N w)) := by
  rw [← tM2_prod (N := M) Z Wd_inj (Wd_cls (by omega)) (fun p h1 h2 => clsBC_row (by omega) h1 h2) cf hz h0 ht (by omega) (by omega)]
  unfold tM2
  have e0 : tM (Wd (N + 1) N) labW M b [] = Finsupp.single (rowS b) (cf b) := by
    have h1 : labW (rowW N 0) = [] := labW_row (by omega)
    rw [← h1, tM_lab M Wd_inj b (rowW_mem (by omega)), sum_rowW, Finset.sum_eq_single b]
    · rw [hbot b hb b hb, if_pos rfl, labW_row hb]
    · intro w hw hne
      rw [Finset.mem_range] at hw
      rw [hbot b hb w (by omega), if_neg hne, Finsupp.single_zero]
    · intro h; simp at h; omega
  rw [e0, lin, Finsupp.linearCombination_single, ← labW_row hb, tM_lab M Wd_inj a (rowW_mem hb), sum_rowW]
  congr 1
  refine Finset.sum_congr rfl fun w hw => ?_
  rw [Finset.mem_range] at hw
  rw [labW_row (by omega)]

end

/-! ### IG(1, 2n) -/

open Polynomial in
theorem MC_row (h : Polynomial ℚ) {N a u w : ℕ} (ha : a ≤ 2 * N + 1) (hu : u ≤ 2 * N + 1) (hw : w ≤ 2 * N + 1) :
    MC h a (rowW N u) (rowW N w) = (if w = u + a then 1 else 0) + if w + (2 * N + 2) = u + a then 2 * h else 0 := by
  unfold MC opW
  rw [wt_z_row _ _ hu hw, wt_lr_row _ _ hu hw, Polynomial.coeff_add, Polynomial.coeff_C_mul]
  congr 1
  · simp only [map_one, ite_self, one_mul]
    split
    · rw [Polynomial.coeff_X_pow]
      congr 1
      exact propext ⟨fun _ => by omega, fun _ => by omega⟩
    · rw [Polynomial.coeff_zero, if_neg (by omega)]
  · simp only [map_one, mul_one, one_mul, ite_self]
    rcases lt_trichotomy u w with h1 | h1 | h1
    · rw [if_pos h1, Polynomial.coeff_zero, mul_zero, if_neg (by omega)]
    · rw [if_neg h1.not_lt, if_pos h1, Polynomial.coeff_X_pow, if_neg (by omega), mul_zero, if_neg (by omega)]
    · rw [if_neg h1.le.not_gt, if_neg h1.ne', show (2 : (Polynomial ℚ)[X]) = Polynomial.C 2 from (map_ofNat Polynomial.C 2).symm, Polynomial.coeff_C_mul, Polynomial.coeff_X_pow]
      by_cases h2 : w + (2 * N + 2) = u + a
      · rw [if_pos h2, if_pos (by omega)]; ring
      · rw [if_neg h2, if_neg (by omega), mul_zero, mul_zero]

theorem sum_two {N c : ℕ} (g : Polynomial ℚ) (hc : c ≤ 4 * N + 2) :
    ev (∑ w ∈ Finset.range (2 * N + 2), Finsupp.single (rowS w)
      ((if w = c then 1 else 0) + if w + (2 * N + 2) = c then g else 0)) =
      if c < 2 * N + 2 then MvPolynomial.X (.S (rowS c)) else inq g * MvPolynomial.X (.S (rowS (c - (2 * N + 2)))) := by
  split
  · rename_i h
    rw [Finset.sum_eq_single c]
    · rw [if_pos rfl, if_neg (by omega), add_zero, ev_single, inq_one, one_mul]
    · intro w _ hne
      rw [if_neg hne, if_neg (by omega), add_zero, Finsupp.single_zero]
    · intro h'; simp at h'; omega
  · rename_i h
    rw [Finset.sum_eq_single (c - (2 * N + 2))]
    · rw [if_neg (by omega), if_pos (by omega), zero_add, ev_single]
    · intro w hw hne
      rw [Finset.mem_range] at hw
      rw [if_neg (by omega), if_neg (by omega), add_zero, Finsupp.single_zero]
    · intro h'; simp at h'; omega

theorem row_IG {Sp : Space} {pieri : Int → List Int → Except PyErr Poly} {N B : ℕ} {h : Polynomial ℚ}
    (Z : RingOn Sp pieri (stdSpc (N + 1 + N)) (clsBC (N + 1) N) B)
    (ht : ∀ p l, Z.Y.t p l = tM (Wd (N + 1) N) labW (MC h) p.toNat l) {a b : ℕ} (ha : a ≤ 2 * N + 1) (hb : b ≤ 2 * N + 1) :
    ev (Z.Y.prod (Finsupp.single (rowS a) 1) (Finsupp.single (rowS b) 1)) =
      if a + b < 2 * N + 2 then MvPolynomial.X (.S (rowS (a + b)))
      else inq (2 * h) * MvPolynomial.X (.S (rowS (a + b - (2 * N + 2)))) := by
  have key := row_prod Z (MC h) (fun _ => 1) (fun u hu w hw => opW_zero 1 _ (by rw [mem_Wd] at hu hw; omega)) rfl
    (fun p l _ _ => by rw [one_smul, ht]; rfl) (fun b hb w hw => by
      rw [MC_row h hb (by omega) hw, zero_add, if_neg (c := w + _ = b) (by omega), add_zero]) ha hb
  rw [one_mul, one_smul, one_smul] at key
  rw [key, Nat.add_comm a b, ← sum_two (2 * h) (by omega)]
  congr 1
  refine Finset.sum_congr rfl fun w hw => ?_
  rw [Finset.mem_range] at hw
  rw [MC_row h ha hb (by omega)]

/-- **C103.** On the projective space `IG(1, 2n)` the quantum product of `S[i]` and `S[j]` is `S[i+j]` for `i + j < 2n`
and `q*S[i+j-2n]` otherwise. -/
theorem C103_IG_quantum (ord : List Int → List Int) {n : ℕ} {X : Space} (hX : mkIG 1 (2 * n) = .ok X) {fuel : ℕ}
    (hf : giamBoundBC 1 n ≤ fuel) {i j : ℕ} (hi : i < 2 * n) (hj : j < 2 * n) :
    X.qmult ord fuel (Poly.sym (.S (rowS i))) (Poly.sym (.S (rowS j))) =
      .ok (if i + j < 2 * n then [([.S (rowS (i + j))], 1)] else [([.q, .S (rowS (i + j - 2 * n))], 1)]) := by
  obtain ⟨a, b, h, h1, h2, rfl⟩ := igCase hX
  obtain rfl : n = a := by omega
  obtain rfl : n = b + 1 := by omega
  rw [h2, giamBoundBC_eq h] at hf
  have key : Returns (Space.qmult ord ⟨.C, b, (b + 1 : ℕ)⟩ fuel _ _) _ := mult_rows (by omega) (ringQIG ord (b + 1) b h) hf (show i ≤ b + 1 + b by omega) (show j ≤ b + 1 + b by omega)
  rw [row_IG (ringQIG ord (b + 1) b h) (fun p l => rfl) (by omega) (by omega)] at key
  by_cases h3 : i + j < 2 * (b + 1)
  · rw [if_pos (by omega)] at key
    rw [if_pos h3]
    exact returns_mono one_ne_zero (by simp) (by simpa using key)
  · rw [if_neg (by omega)] at key
    rw [if_neg h3]
    refine returns_mono one_ne_zero (by simp [Sym.code, listLt]) ?_
    have e : inq (2 * (Polynomial.C (1 / 2) * Polynomial.X)) = MvPolynomial.X .q := by
      rw [← mul_assoc, show (2 : Polynomial ℚ) = Polynomial.C 2 from (map_ofNat Polynomial.C 2).symm, ← Polynomial.C_mul]
      norm_num [inq]
    rw [e] at key
    simpa [mul_add] using key

/-- **C103.** The classical product: `S[i+j]`, or 0. -/
theorem C103_IG_classical {n : ℕ} {X : Space} (hX : mkIG 1 (2 * n) = .ok X) {fuel : ℕ}
    (hf : giamBoundBC 1 n ≤ fuel) {i j : ℕ} (hi : i < 2 * n) (hj : j < 2 * n) :
    X.mult fuel (Poly.sym (.S (rowS i))) (Poly.sym (.S (rowS j))) =
      .ok (if i + j < 2 * n then [([.S (rowS (i + j))], 1)] else []) := by
  obtain ⟨a, b, h, h1, h2, rfl⟩ := igCase hX
  obtain rfl : n = a := by omega
  obtain rfl : n = b + 1 := by omega
  rw [h2, giamBoundBC_eq h] at hf
  have key : Returns (Space.mult ⟨.C, b, (b + 1 : ℕ)⟩ fuel _ _) _ := mult_rows (by omega) (ringIG (b + 1) b h) hf (show i ≤ b + 1 + b by omega) (show j ≤ b + 1 + b by omega)
  rw [row_IG (ringIG (b + 1) b h) (fun p l => rfl) (by omega) (by omega)] at key
  by_cases h3 : i + j < 2 * (b + 1)
  · rw [if_pos (by omega)] at key
    rw [if_pos h3]
    exact returns_mono one_ne_zero (by simp) (by simpa using key)
  · rw [if_neg (by omega)] at key
    rw [if_neg h3]
    exact returns_zero (by simpa [inq] using key)

example : (Space.mk .C 1 2).qmult (fun l => l) 45 (Poly.sym (.S [3])) (Poly.sym (.S [2])) = .ok [([.q, .S [1]], 1)] ∧
    (Space.mk .C 1 2).mult 45 (Poly.sym (.S [1])) (Poly.sym (.S [2])) = .ok [([.S [3]], 1)] ∧
    (Space.mk .C 1 2).mult 45 (Poly.sym (.S [3])) (Poly.sym (.S [2])) = .ok [] := by decide +kernel

/-! ### Gr(1, n) -/

theorem nodup_singleton {α : Type*} {L : List α} {x : α} (h : L.Nodup) (h' : ∀ y, y ∈ L ↔ y = x) : L = [x] :=
  List.perm_singleton.1 ((List.perm_ext_iff_of_nodup h (by simp)).2 (fun y => by rw [h' y]; simp))

theorem reducedPart_row {l : List Int} (h : ReducedPart l) (h' : l.length ≤ 1) : ∃ c : ℕ, l = rowS c := by
  match l, h' with
  | [], _ => exact ⟨0, rfl⟩
  | [x], _ =>
    have := h.2 x (by simp)
    exact ⟨x.toNat, by unfold Spec.rowS; rw [if_neg (by omega)]; congr 1; omega⟩

theorem part_row (c : ℕ) : part (rowS c) 0 = c ∧ ∀ i, part (rowS c) (i + 1) = 0 := by
  unfold Spec.rowS
  split
  · subst_vars; simp [Spec.part]
  · simp [Spec.part]

theorem sum_row (c : ℕ) : (rowS c).sum = c := by
  unfold Spec.rowS
  split
  · subst_vars; simp
  · simp

theorem rowS_gr {n c : ℕ} (hc : c < n) : ReducedPart (rowS c) ∧ InRect (rowS c) 1 ((n : Int) - (1 : ℕ)) := by
  unfold Spec.rowS
  split
  · simp [Spec.ReducedPart, Spec.InRect]
  · simp [Spec.ReducedPart, Spec.InRect]; omega

theorem gr_strips {n p c : ℕ} (hc : c < n) (mu : List Int) :
    (ReducedPart mu ∧ InRect mu 1 ((n : Int) - (1 : ℕ)) ∧ HorizontalStrip (rowS c) mu ∧ mu.sum = (rowS c).sum + p) ↔
      c + p < n ∧ mu = rowS (c + p) := by
  constructor
  · rintro ⟨h1, h2, h3, h4⟩
    obtain ⟨d, rfl⟩ := reducedPart_row h1 h2.1
    rw [sum_row, sum_row] at h4
    obtain rfl : d = c + p := by omega
    refine ⟨?_, rfl⟩
    by_contra h5
    have := h2.2 ((c + p : ℕ) : Int) (by unfold Spec.rowS; rw [if_neg (by omega)]; simp)
    omega
  · rintro ⟨h1, rfl⟩
    refine ⟨(rowS_gr h1).1, (rowS_gr h1).2, fun i => ?_, by rw [sum_row, sum_row]; push_cast; ring⟩
    cases i with
    | zero => rw [(part_row _).1, (part_row _).1, (part_row _).2]; omega
    | succ i => rw [(part_row _).2, (part_row _).2, (part_row _).2]; omega

theorem gr_bertram {n p c : ℕ} (hc : c < n) (hp : p < n) (nu : List Int) :
    (Bertram 1 (rowS c) nu ∧ nu.sum = (rowS c).sum + p - n) ↔ n ≤ c + p ∧ nu = rowS (c + p - n) := by
  constructor
  · rintro ⟨h1, h4⟩
    obtain ⟨d, rfl⟩ := reducedPart_row h1.1 h1.2.1
    rw [sum_row, sum_row] at h4
    exact ⟨by omega, by congr 1; omega⟩
  · rintro ⟨h1, rfl⟩
    refine ⟨⟨(rowS_gr (n := n) (by omega)).1, (rowS_gr (n := n) (by omega)).2.1, fun i hi => ?_⟩, by rw [sum_row, sum_row]; omega⟩
    obtain rfl : i = 0 := by omega
    rw [(part_row _).1, (part_row _).1]
    omega

/-- **C103.** On the projective space `Gr(1, n)` the quantum product of `S[i]` and `S[j]` is `S[i+j]` for `i + j < n` and
`q*S[i+j-n]` otherwise. -/
theorem C103_Gr_quantum {n : ℕ} (hn : 1 < n) {X : Space} (hX : mkGr 1 n = .ok X) {fuel : ℕ} (hf : giamBound 1 n ≤ fuel) {i j : ℕ}
    (hi : i < n) (hj : j < n) :
    Gr.qmult X fuel (Poly.sym (.S (rowS i))) (Poly.sym (.S (rowS j))) =
      .ok (if i + j < n then [([.S (rowS (i + j))], 1)] else [([.q, .S (rowS (i + j - n))], 1)]) := by
  have hl := linComb_sym (rowS_gr hj)
  have hX' : mkGr (1 : ℕ) n = .ok X := hX
  rcases Nat.eq_zero_or_pos i with rfl | h0
  · obtain ⟨w, w', h1, h2, h3⟩ := (C21_unit le_rfl hX' hf hl).1
    rw [show rowS 0 = [] from rfl, h1, zero_add, if_pos hj]
    cases h2
    rw [List.perm_singleton.1 h3]
  · obtain ⟨w, w', h1, h2, h3⟩ := C21_pieri le_rfl hX' hf i h0 (by omega) hl
    obtain ⟨v, L, N, h4, h5, h6, h7, h8, h9⟩ := C16_qpieri le_rfl (by omega) hX' i h0 (by omega) (lam := rowS j)
      ⟨(rowS_gr hj).1.1, fun x hx => ((rowS_gr hj).1.2 x hx).le⟩ (rowS_gr hj).2
    rw [h4] at h2
    cases h2
    have e : rowS i = [(i : Int)] := by unfold Spec.rowS; rw [if_neg (by omega)]
    rw [e, h1]
    have h10 : ∀ mu, mu ∈ L ↔ j + i < n ∧ mu = rowS (j + i) := fun mu => (h8 mu).trans (gr_strips hj mu)
    have h11 : ∀ mu, mu ∈ N ↔ n ≤ j + i ∧ mu = rowS (j + i - n) := fun mu => (h9 mu).trans (gr_bertram hj hi mu)
    by_cases h : j + i < n
    · have hN : N = [] := List.eq_nil_iff_forall_not_mem.2 fun x hx => by have := (h11 x).1 hx; omega
      have hL := nodup_singleton h6 (x := rowS (j + i)) (fun y => (h10 y).trans (and_iff_right h))
      rw [hN, hL] at h5
      rw [if_pos (by omega), Nat.add_comm i j, List.perm_singleton.1 (h3.trans h5)]
    · have hL : L = [] := List.eq_nil_iff_forall_not_mem.2 fun x hx => by have := (h10 x).1 hx; omega
      have hN := nodup_singleton h7 (x := rowS (j + i - n)) (fun y => (h11 y).trans (and_iff_right (by omega)))
      rw [hN, hL] at h5
      rw [if_neg (by omega), Nat.add_comm i j, List.perm_singleton.1 (h3.trans h5)]

/-- **C103.** The classical product: `S[i+j]`, or 0. -/
theorem C103_Gr_classical {n : ℕ} {X : Space} (hX : mkGr 1 n = .ok X) {fuel : ℕ} (hf : giamBound 1 n ≤ fuel) {i j : ℕ}
    (hi : i < n) (hj : j < n) :
    Gr.mult X fuel (Poly.sym (.S (rowS i))) (Poly.sym (.S (rowS j))) =
      .ok (if i + j < n then [([.S (rowS (i + j))], 1)] else []) := by
  have hl := linComb_sym (rowS_gr hj)
  have hX' : mkGr (1 : ℕ) n = .ok X := hX
  rcases Nat.eq_zero_or_pos i with rfl | h0
  · obtain ⟨w, w', h1, h2, h3⟩ := (C20_unit le_rfl hX' hf hl).1
    rw [show rowS 0 = [] from rfl, h1, zero_add, if_pos hj]
    cases h2
    rw [List.perm_singleton.1 h3]
  · obtain ⟨w, w', h1, h2, h3⟩ := C20_pieri le_rfl hX' hf i h0 (by omega) hl
    obtain ⟨v, L, h4, h5, h6, h8⟩ := C15_pieri le_rfl hX' i (lam := rowS j)
      ⟨(rowS_gr hj).1.1, fun x hx => ((rowS_gr hj).1.2 x hx).le⟩ (rowS_gr hj).2
    rw [h4] at h2
    cases h2
    have e : rowS i = [(i : Int)] := by unfold Spec.rowS; rw [if_neg (by omega)]
    rw [e, h1]
    have h10 : ∀ mu, mu ∈ L ↔ j + i < n ∧ mu = rowS (j + i) := fun mu => (h8 mu).trans (gr_strips hj mu)
    by_cases h : j + i < n
    · have hL := nodup_singleton h6 (x := rowS (j + i)) (fun y => (h10 y).trans (and_iff_right h))
      rw [hL] at h5
      rw [if_pos (by omega), Nat.add_comm i j, List.perm_singleton.1 (h3.trans h5)]
    · have hL : L = [] := List.eq_nil_iff_forall_not_mem.2 fun x hx => by have := (h10 x).1 hx; omega
      rw [hL] at h5
      rw [if_neg (by omega), List.perm_nil.1 (h3.trans h5)]

example : Gr.qmult ⟨.A, 4, 5⟩ 28 (Poly.sym (.S [3])) (Poly.sym (.S [4])) = .ok [([.q, .S [2]], 1)] ∧
    Gr.mult ⟨.A, 4, 5⟩ 28 (Poly.sym (.S [1])) (Poly.sym (.S [2])) = .ok [([.S [3]], 1)] ∧
    Gr.mult ⟨.A, 4, 5⟩ 28 (Poly.sym (.S [3])) (Poly.sym (.S [4])) = .ok [] := by decide +kernel

/-! ### The quadrics OG(1, 2n+1) -/

theorem row_OG {Sp : Space} {pieri : Int → List Int → Except PyErr Poly} {N B : ℕ}
    (Z : RingOn Sp pieri (stdSpc (N + 1 + N)) (clsBC (N + 1) N) B) (M : ℕ → List L3 → List L3 → Polynomial ℚ)
    (hz : ∀ u ∈ Wd (N + 1) N, ∀ w ∈ Wd (N + 1) N, M 0 u w = if u = w then 1 else 0)
    (ht : ∀ p l, 1 ≤ p → p ≤ N + 1 + N → tM (Wd (N + 1) N) labW M p l = cfB N p • Z.Y.t p l)
    (hbot : ∀ b ≤ 2 * N + 1, ∀ w ≤ 2 * N + 1, M b (rowW N 0) (rowW N w) = if w = b then cfB N b else 0) {a b : ℕ}
    (ha : a ≤ 2 * N + 1) (hb : b ≤ 2 * N + 1) :
    ev (Z.Y.prod (Finsupp.single (rowS a) 1) (Finsupp.single (rowS b) 1)) =
      C (1 / dbl N a) * ∑ w ∈ Finset.range (2 * N + 2), inq (M a (rowW N b) (rowW N w)) * MvPolynomial.X (.S (rowS w)) := by
  have key := congrArg ev (row_prod Z M (cfB N) hz (by simp [cfB]) ht hbot ha hb)
  have hC : ∀ p, inq (cfB N p) = C (dbl N p) := fun p => by simp [inq, cfB, dbl]
  have hd : ∀ p, dbl N p ≠ 0 := fun p => by unfold dbl; split <;> norm_num
  rw [ev_smul, ev_smul, show inq (cfB N a * cfB N b) = inq (cfB N a) * inq (cfB N b) from map_mul _ _ _, hC, hC, map_sum] at key
  simp only [ev_single] at key
  have e : ∀ p, C (1 / dbl N p) * C (dbl N p) = (1 : P) := fun p => by rw [← C_mul, one_div, inv_mul_cancel₀ (hd p), C_1]
  generalize (∑ w ∈ Finset.range (2 * N + 2), inq (M a (rowW N b) (rowW N w)) * MvPolynomial.X (.S (rowS w))) = s at key ⊢
  generalize ev (Z.Y.prod (Finsupp.single (rowS a) 1) (Finsupp.single (rowS b) 1)) = v at key ⊢
  calc v = (C (1 / dbl N a) * C (dbl N a)) * (C (1 / dbl N b) * C (dbl N b)) * v := by rw [e, e]; ring
    _ = C (1 / dbl N a) * C (1 / dbl N b) * (C (dbl N a) * C (dbl N b) * v) := by ring
    _ = C (1 / dbl N a) * (C (1 / dbl N b) * C (dbl N b)) * s := by rw [key]; ring
    _ = _ := by rw [e]; ring

/-- **C103.** The classical product on the quadric `OG(1, 2n+1)`, with `e(p) = 1` for `p < n` and 2 otherwise:
`S[i] * S[j] = e(i+j) / (e(i)*e(j)) * S[i+j]`, or 0. -/
theorem C103_OG_classical {n : ℕ} (hn : 1 ≤ n) {X : Space} (hX : mkOG 1 (2 * n + 1) = .ok X) {fuel : ℕ}
    (hf : giamBoundBC 1 n ≤ fuel) {i j : ℕ} (hi : i < 2 * n) (hj : j < 2 * n) :
    X.mult fuel (Poly.sym (.S (rowS i))) (Poly.sym (.S (rowS j))) =
      .ok (if i + j < 2 * n then [([.S (rowS (i + j))], dbl (n - 1) (i + j) / (dbl (n - 1) i * dbl (n - 1) j))] else []) := by
  obtain ⟨a, b, h, h1, h2, rfl⟩ := ogCase' (by omega) (by omega) hX
  obtain rfl : n = a := by omega
  obtain rfl : n = b + 1 := by omega
  rw [h2, giamBoundBC_eq h.le] at hf
  have key : Returns (Space.mult ⟨.B, b, (b + 1 : ℕ)⟩ fuel _ _) _ :=
    mult_rows (by omega) (ringOG (b + 1) b h.le) hf (show i ≤ b + 1 + b by omega) (show j ≤ b + 1 + b by omega)
  have hM : ∀ p u w, u ≤ 2 * b + 1 → w ≤ 2 * b + 1 →
      (opW (Polynomial.C (2 : Polynomial ℚ)) (Polynomial.C 0) Polynomial.X (rowW b u) (rowW b w)).coeff p =
        if w = u + p then (if u ≤ b ∧ b < w then 2 else 1) else 0 := by
    intro p u w hu hw
    unfold opW
    rw [wt_z_row _ _ hu hw, map_zero, zero_mul, add_zero]
    split
    · rw [← Polynomial.C_1, ← apply_ite Polynomial.C, Polynomial.coeff_C_mul, Polynomial.coeff_X_pow]
      by_cases h3 : w = u + p
      · rw [if_pos h3, if_pos (c := p = w - u) (by omega), mul_one]
      · rw [if_neg h3, if_neg (c := p = w - u) (by omega), mul_zero]
    · rw [Polynomial.coeff_zero, if_neg (by omega)]
  rw [row_OG (ringOG (b + 1) b h.le)
    (fun p u w => (opW (Polynomial.C (2 : Polynomial ℚ)) (Polynomial.C 0) Polynomial.X u w).coeff p)
    (fun u hu w hw => opW_zero _ _ (by rw [mem_Wd] at hu hw; omega))
    (fun p l _ _ => tM_scale (M := MB b) (fun u w => by
      unfold MB
      rw [← mul_assoc, show (Polynomial.C (if p ≤ b then 1 else 1 / 2 : ℚ)) = Polynomial.C (scB b p) from rfl, cfB_scB, one_mul]) l)
    (fun c hc w hw => by
      rw [hM c 0 w (by omega) hw, zero_add]
      split
      · subst_vars
        unfold cfB
        by_cases h3 : w ≤ b
        · rw [if_neg (by omega), if_pos h3, Polynomial.C_1]
        · rw [if_pos (by omega), if_neg h3, map_ofNat]
      · rfl) (by omega) (by omega)] at key
  have hs : (∑ w ∈ Finset.range (2 * b + 2),
      inq ((opW (Polynomial.C (2 : Polynomial ℚ)) (Polynomial.C 0) Polynomial.X (rowW b j) (rowW b w)).coeff i) *
        MvPolynomial.X (.S (rowS w))) =
      if i + j < 2 * (b + 1) then C (dbl b (i + j) / dbl b j) * MvPolynomial.X (.S (rowS (i + j))) else 0 := by
    split
    · rename_i h3
      rw [Finset.sum_eq_single (i + j)]
      · rw [hM i j (i + j) (by omega) (by omega), if_pos (by omega)]
        congr 1
        unfold dbl
        split_ifs <;> first | (exfalso; omega) | (norm_num [inq]; done) | (norm_num [inq]; exact (map_ofNat _ 2).trans (map_ofNat _ 2).symm)
      · intro w hw hne
        rw [Finset.mem_range] at hw
        rw [hM i j w (by omega) (by omega), if_neg (by omega)]; simp
      · intro h'; simp at h'; omega
    · refine Finset.sum_eq_zero fun w hw => ?_
      rw [Finset.mem_range] at hw
      rw [hM i j w (by omega) (by omega), if_neg (by omega)]; simp
  rw [hs] at key
  have hd : ∀ p, dbl b p ≠ 0 := fun p => by unfold dbl; split <;> norm_num
  by_cases h3 : i + j < 2 * (b + 1)
  · rw [if_pos h3] at key
    rw [if_pos h3, Nat.add_sub_cancel]
    refine returns_mono (div_ne_zero (hd _) (mul_ne_zero (hd _) (hd _))) (by simp) ?_
    have e3 : 1 / dbl b i * (dbl b (i + j) / dbl b j) = dbl b (i + j) / (dbl b i * dbl b j) := by
      rw [div_mul_div_comm, one_mul]
    rw [← mul_assoc, ← C_mul, e3] at key
    simpa using key
  · rw [if_neg h3] at key
    rw [if_neg h3]
    exact returns_zero (by simpa using key)

example : (Space.mk .B 1 2).mult 45 (Poly.sym (.S [1])) (Poly.sym (.S [1])) = .ok [([.S [2]], 2)] ∧
    (Space.mk .B 1 2).mult 45 (Poly.sym (.S [1])) (Poly.sym (.S [2])) = .ok [([.S [3]], 1)] ∧
    (Space.mk .B 1 2).mult 45 (Poly.sym (.S [2])) (Poly.sym (.S [2])) = .ok [] := by decide +kernel

/-- the entries of the quantum operators of the quadric -/
noncomputable def MQuad (k p : ℕ) (u w : List L3) : Polynomial ℚ :=
  (opQ (Polynomial.C (2 : Polynomial ℚ)) (Polynomial.C Polynomial.X)
    (Polynomial.C (if k = 0 then Polynomial.X else Polynomial.X ^ 2)) Polynomial.X u w).coeff p

theorem coeff_mono (g : Polynomial ℚ) (d p : ℕ) :
    (Polynomial.C g * (Polynomial.X : Polynomial (Polynomial ℚ)) ^ d).coeff p = if p = d then g else 0 := by
  rw [Polynomial.coeff_C_mul, Polynomial.coeff_X_pow]
  split <;> simp

theorem MQuad_bot {N p w : ℕ} (hw : w ≤ 2 * N + 3) :
    MQuad (N + 1) p (rowW (N + 1) 0) (rowW (N + 1) w) = if w = p then cfB (N + 1) p else 0 := by
  unfold MQuad
  rw [opQ_bot _ _ _ _ hw, ← Polynomial.C_1, ← apply_ite Polynomial.C, coeff_mono]
  by_cases h : w = p
  · rw [if_pos h, if_pos h.symm, h]
    unfold cfB
    by_cases h3 : p ≤ N + 1
    · rw [if_neg (by omega), if_pos h3, Polynomial.C_1]
    · rw [if_pos (by omega), if_neg h3, map_ofNat]
  · rw [if_neg h, if_neg (Ne.symm h)]

theorem MQuad_mid {N p u w : ℕ} (hp0 : 1 ≤ p) (hp : p ≤ 2 * N + 3) (hu0 : 1 ≤ u) (hu : u ≤ 2 * N + 2) (hw0 : 1 ≤ w) (hw : w ≤ 2 * N + 2) :
    MQuad (N + 1) p (rowW (N + 1) u) (rowW (N + 1) w) =
      (if w = u + p then Polynomial.C (dbl (N + 1) w / dbl (N + 1) u) else 0) +
      if w + (2 * N + 3) = u + p then
        Polynomial.C (if p = 2 * N + 3 then 2 else 4 * dbl (N + 1) w / dbl (N + 1) u) * Polynomial.X else 0 := by
  unfold MQuad
  rw [opQ_mid _ _ _ _ hu0 hu hw0 hw, Polynomial.coeff_add, Polynomial.coeff_C_mul]
  congr 1
  · by_cases h : u ≤ w
    · rw [if_pos h, ← Polynomial.C_1, ← apply_ite Polynomial.C, coeff_mono]
      by_cases h3 : w = u + p
      · rw [if_pos h3, if_pos (c := p = w - u) (by omega)]
        unfold dbl
        split_ifs <;> first | (exfalso; omega) | (norm_num; done) | (norm_num; rfl)
      · rw [if_neg h3, if_neg (c := p = w - u) (by omega)]
    · rw [if_neg h, if_neg (by omega), Polynomial.coeff_zero]
  · rcases lt_trichotomy u w with h1 | h1 | h1
    · rw [if_pos h1, Polynomial.coeff_zero, mul_zero, if_neg (by omega)]
    · rw [if_neg h1.not_lt, if_pos h1, coeff_mono]
      by_cases h3 : p = 2 * N + 3
      · rw [if_pos h3, if_pos (by omega), if_pos h3, mul_comm]; rfl
      · rw [if_neg h3, if_neg (by omega), mul_zero]
    · rw [if_neg h1.le.not_gt, if_neg h1.ne', show (2 : Polynomial (Polynomial ℚ)) = Polynomial.C 2 from (map_ofNat Polynomial.C 2).symm,
        ← Polynomial.C_mul, ← apply_ite Polynomial.C, coeff_mono]
      by_cases h3 : w + (2 * N + 3) = u + p
      · rw [if_pos h3, if_pos (c := p = _) (by omega), if_neg (c := p = _) (by omega), mul_comm]
        congr 1
        unfold dbl
        split_ifs <;> first | (exfalso; omega) | (norm_num; done) | (norm_num; rfl)
      · rw [if_neg h3, if_neg (c := p = _) (by omega), mul_zero]

theorem MQuad_mid_bot {N p u : ℕ} (hu0 : 1 ≤ u) (hu : u ≤ 2 * N + 2) :
    MQuad (N + 1) p (rowW (N + 1) u) (rowW (N + 1) 0) =
      if u + p = 2 * N + 3 then Polynomial.C (2 / dbl (N + 1) u) * Polynomial.X else 0 := by
  unfold MQuad
  rw [opQ_mid_bot _ _ _ _ hu0 hu, Polynomial.coeff_C_mul, ← Polynomial.C_1, ← apply_ite Polynomial.C, coeff_mono]
  by_cases h3 : u + p = 2 * N + 3
  · rw [if_pos h3, if_pos (c := p = _) (by omega), mul_comm]
    congr 1
    unfold dbl
    split_ifs <;> first | (norm_num; done) | (norm_num; rfl)
  · rw [if_neg h3, if_neg (c := p = _) (by omega), mul_zero]

theorem MQuad_mid_top {N p u : ℕ} (hu0 : 1 ≤ u) (hu : u ≤ 2 * N + 2) :
    MQuad (N + 1) p (rowW (N + 1) u) (rowW (N + 1) (2 * N + 3)) =
      if u + p = 2 * N + 3 then Polynomial.C (2 / dbl (N + 1) u) else 0 := by
  unfold MQuad
  rw [opQ_mid_top _ _ _ _ hu0 hu, ← Polynomial.C_1, ← apply_ite Polynomial.C, coeff_mono]
  by_cases h3 : u + p = 2 * N + 3
  · rw [if_pos h3, if_pos (c := p = _) (by omega)]
    unfold dbl
    split_ifs <;> first | (norm_num; done) | (norm_num; rfl)
  · rw [if_neg h3, if_neg (c := p = _) (by omega)]

theorem row_QOG (ord : List Int → List Int) {N a b : ℕ} (ha : a ≤ 2 * N + 3) (hb : b ≤ 2 * N + 3) :
    ev ((ringQOG ord (N + 2) (N + 1) (by omega)).Y.prod (Finsupp.single (rowS a) 1) (Finsupp.single (rowS b) 1)) =
      C (1 / dbl (N + 1) a) * ∑ w ∈ Finset.range (2 * N + 4),
        inq (MQuad (N + 1) a (rowW (N + 1) b) (rowW (N + 1) w)) * MvPolynomial.X (.S (rowS w)) :=
  row_OG (ringQOG ord (N + 2) (N + 1) (by omega)) (MQuad (N + 1))
    (fun u hu w hw => opQ_zero _ _ _ (by rw [mem_Wd] at hu hw; omega))
    (fun p l _ _ => tM_scale (M := MQB (N + 1)) (fun u w => by
      unfold MQB
      rw [← mul_assoc, cfB_scB, one_mul]; rfl) l)
    (fun c hc w hw => MQuad_bot hw) ha hb

theorem MQuad_top {N p w : ℕ} (hp : 1 ≤ p) (hw : w ≤ 2 * N + 3) :
    MQuad (N + 1) p (rowW (N + 1) (2 * N + 3)) (rowW (N + 1) w) =
      (if p = w ∧ w ≠ 2 * N + 3 then Polynomial.C (dbl (N + 1) w) * Polynomial.X else 0) +
      if w = 0 ∧ p = 2 * N + 3 then Polynomial.C 2 * Polynomial.X ^ 2 else 0 := by
  unfold MQuad
  rcases Nat.eq_zero_or_pos w with rfl | hw0
  · rw [opQ_top_bot, Polynomial.coeff_C_mul, coeff_mono, if_neg (c := _ ∧ _) (by omega), zero_add, if_neg (c := N + 1 = 0) (by omega)]
    by_cases h3 : p = 2 * N + 3
    · rw [if_pos h3, if_pos ⟨rfl, h3⟩, mul_comm]; rfl
    · rw [if_neg h3, if_neg (fun h => h3 h.2), mul_zero]
  · rw [if_neg (c := w = 0 ∧ _) (by omega), add_zero]
    rcases Nat.lt_or_ge w (2 * N + 3) with h1 | h1
    · have e : (if w ≤ N + 1 then 1 else Polynomial.C 2 : Polynomial (Polynomial ℚ)) = Polynomial.C (Polynomial.C (dbl (N + 1) w)) := by
        unfold dbl
        split_ifs
        · rw [Polynomial.C_1, Polynomial.C_1]
        · rfl
      rw [opQ_top_mid _ _ _ _ hw0 (by omega), Polynomial.coeff_C_mul, e, coeff_mono]
      by_cases h3 : p = w
      · rw [if_pos h3, if_pos (c := _ ∧ _) ⟨h3, h1.ne⟩, mul_comm]
      · rw [if_neg h3, if_neg (c := _ ∧ _) (fun h => h3 h.1), mul_zero]
    · obtain rfl : w = 2 * N + 3 := by omega
      rw [opQ_top_top, Polynomial.coeff_one, if_neg (by omega), if_neg (fun h => h.2 rfl)]

/-- **C103.** The quantum product on the quadric `OG(1, 2n+1)`, `n ≥ 2`, of dimension `K = 2n-1`, with `e(p) = 1` for `p < n`
and 2 otherwise, for `1 ≤ i, j`. -/
theorem C103_OG_quantum (ord : List Int → List Int) {n : ℕ} (hn : 2 ≤ n) {X : Space} (hX : mkOG 1 (2 * n + 1) = .ok X) {fuel : ℕ}
    (hf : giamBoundBC 1 n ≤ fuel) {i j : ℕ} (hi : 1 ≤ i) (hj : 1 ≤ j) :
    (i + j < 2 * n - 1 → X.qmult ord fuel (Poly.sym (.S (rowS i))) (Poly.sym (.S (rowS j))) =
      .ok [([.S (rowS (i + j))], dbl (n - 1) (i + j) / (dbl (n - 1) i * dbl (n - 1) j))]) ∧
    (i + j = 2 * n - 1 → SameResult (X.qmult ord fuel (Poly.sym (.S (rowS i))) (Poly.sym (.S (rowS j))))
      (.ok [([.S (rowS (i + j))], 1), ([.q, .S []], 1)])) ∧
    (i < 2 * n - 1 → j < 2 * n - 1 → 2 * n - 1 < i + j →
      X.qmult ord fuel (Poly.sym (.S (rowS i))) (Poly.sym (.S (rowS j))) =
      .ok [([.q, .S (rowS (i + j - (2 * n - 1)))], 4 * dbl (n - 1) (i + j - (2 * n - 1)) / (dbl (n - 1) i * dbl (n - 1) j))]) ∧
    (i < 2 * n - 1 → j = 2 * n - 1 →
      X.qmult ord fuel (Poly.sym (.S (rowS i))) (Poly.sym (.S (rowS j))) = .ok [([.q, .S (rowS i)], 1)]) ∧
    (i = 2 * n - 1 → j < 2 * n - 1 →
      X.qmult ord fuel (Poly.sym (.S (rowS i))) (Poly.sym (.S (rowS j))) = .ok [([.q, .S (rowS j)], 1)]) ∧
    (i = 2 * n - 1 → j = 2 * n - 1 →
      X.qmult ord fuel (Poly.sym (.S (rowS i))) (Poly.sym (.S (rowS j))) = .ok [([.q, .q, .S []], 1)]) := by
  obtain ⟨a, b, h, h1, h2, rfl⟩ := ogCase' (by omega) (by omega) hX
  obtain rfl : n = a := by omega
  obtain ⟨N, rfl⟩ : ∃ N, n = N + 2 := ⟨n - 2, by omega⟩
  obtain rfl : b = N + 1 := by omega
  rw [h2, giamBoundBC_eq h.le] at hf
  have hd : ∀ p, dbl (N + 1) p ≠ 0 := fun p => by unfold dbl; split <;> norm_num
  have key : i ≤ 2 * N + 3 → j ≤ 2 * N + 3 → Returns (Space.qmult ord ⟨.B, (N + 1 : ℕ), (N + 2 : ℕ)⟩ fuel _ _) _ := fun h3 h4 => by
    have := mult_rows (by omega) (ringQOG ord (N + 2) (N + 1) (by omega)) hf (show i ≤ N + 2 + (N + 1) by omega)
      (show j ≤ N + 2 + (N + 1) by omega)
    rw [row_QOG ord h3 h4] at this
    exact this
  have hq : inq Polynomial.X = MvPolynomial.X .q := by simp [inq]
  have hc : ∀ c : ℚ, inq (Polynomial.C c) = C c := fun c => by simp [inq]
  have hqc : ∀ c : ℚ, inq (Polynomial.C c * Polynomial.X) = C c * MvPolynomial.X .q := fun c => by simp [inq]
  rw [show 2 * (N + 2) - 1 = 2 * N + 3 by omega, show N + 2 - 1 = N + 1 by omega]
  -- the case of one term
  have one : ∀ (w : ℕ) (hw : w ≤ 2 * N + 3) (g : Polynomial ℚ) (c : ℚ) (m : Mono) (hc0 : c ≠ 0)
      (hm : m.Pairwise (fun a b => listLt b.code a.code = false)), i ≤ 2 * N + 3 → j ≤ 2 * N + 3 →
      (∀ w' ≤ 2 * N + 3, MQuad (N + 1) i (rowW (N + 1) j) (rowW (N + 1) w') = if w' = w then g else 0) →
      C (1 / dbl (N + 1) i) * (inq g * MvPolynomial.X (.S (rowS w))) = C c * monoDen m →
      Space.qmult ord ⟨.B, (N + 1 : ℕ), (N + 2 : ℕ)⟩ fuel (Poly.sym (.S (rowS i))) (Poly.sym (.S (rowS j))) = .ok [(m, c)] := by
    intro w hw g c m hc0 hm hi' hj' hM hv
    refine returns_mono hc0 hm ?_
    have k := key hi' hj'
    rw [Finset.sum_eq_single w (fun w' hw' hne => by
        rw [Finset.mem_range] at hw'
        rw [hM w' (by omega), if_neg hne]; simp) (fun h' => by simp at h'; omega), hM w hw, if_pos rfl, hv] at k
    exact k
  refine ⟨fun h3 => ?_, fun h3 => ?_, fun h3 h4 h5 => ?_, fun h3 h4 => ?_, fun h3 h4 => ?_, fun h3 h4 => ?_⟩
  · refine one (i + j) (by omega) (Polynomial.C (dbl (N + 1) (i + j) / dbl (N + 1) j)) _ _
      (div_ne_zero (hd _) (mul_ne_zero (hd _) (hd _))) (by simp) (by omega) (by omega) (fun w hw => ?_) ?_
    · rcases Nat.eq_zero_or_pos w with rfl | hw0
      · rw [MQuad_mid_bot hj (by omega), if_neg (by omega), if_neg (by omega)]
      · rcases Nat.lt_or_ge w (2 * N + 3) with h6 | h6
        · rw [MQuad_mid hi (by omega) hj (by omega) hw0 (by omega), if_neg (c := w + _ = _) (by omega), add_zero, Nat.add_comm i j]
          by_cases h7 : w = j + i
          · rw [if_pos h7, if_pos h7, h7]
          · rw [if_neg h7, if_neg h7]
        · obtain rfl : w = 2 * N + 3 := by omega
          rw [MQuad_mid_top hj (by omega), if_neg (by omega), if_neg (by omega)]
    · rw [hc, ← mul_assoc, ← C_mul, div_mul_div_comm, one_mul]; simp
  · refine same_of_returns (v := MvPolynomial.X (.S (rowS (2 * N + 3))) + MvPolynomial.X .q * MvPolynomial.X (.S [])) ?_
      ⟨_, rfl, ⟨by simp, by simp [Sym.code, listLt]⟩, by simp [h3]⟩
    have k := key (by omega) (by omega)
    rw [Finset.sum_range_succ, Finset.sum_range_succ', Finset.sum_eq_zero (fun w hw => by
        rw [Finset.mem_range] at hw
        rw [MQuad_mid hi (by omega) hj (by omega) (by omega) (by omega), if_neg (by omega), if_neg (by omega)]; simp), zero_add,
      MQuad_mid_bot hj (by omega), MQuad_mid_top hj (by omega), if_pos (by omega), if_pos (by omega), hqc, hc] at k
    have e : 1 / dbl (N + 1) i * (2 / dbl (N + 1) j) = 1 := by
      unfold dbl
      split_ifs <;> first | (exfalso; omega) | norm_num
    have e2 : ∀ x y : P, C (1 / dbl (N + 1) i) * (C (2 / dbl (N + 1) j) * MvPolynomial.X .q * x + C (2 / dbl (N + 1) j) * y) =
        y + MvPolynomial.X .q * x := fun x y => by
      have : C (1 / dbl (N + 1) i) * C (2 / dbl (N + 1) j) = (1 : P) := by rw [← C_mul, e, C_1]
      calc _ = C (1 / dbl (N + 1) i) * C (2 / dbl (N + 1) j) * (y + MvPolynomial.X .q * x) := by ring
        _ = _ := by rw [this, one_mul]
    rw [e2] at k
    exact k
  · refine one (i + j - (2 * N + 3)) (by omega)
      (Polynomial.C (4 * dbl (N + 1) (i + j - (2 * N + 3)) / dbl (N + 1) j) * Polynomial.X) _ _
      (div_ne_zero (mul_ne_zero (by norm_num) (hd _)) (mul_ne_zero (hd _) (hd _))) (by simp [Sym.code, listLt]) (by omega) (by omega)
      (fun w hw => ?_) ?_
    · rcases Nat.eq_zero_or_pos w with rfl | hw0
      · rw [MQuad_mid_bot hj (by omega), if_neg (by omega), if_neg (by omega)]
      · rcases Nat.lt_or_ge w (2 * N + 3) with h6 | h6
        · rw [MQuad_mid hi (by omega) hj (by omega) hw0 (by omega), if_neg (c := w = j + i) (by omega), zero_add, if_neg h3.ne]
          by_cases h7 : w + (2 * N + 3) = j + i
          · rw [if_pos h7, if_pos (c := w = _) (by omega), show i + j - (2 * N + 3) = w by omega]
          · rw [if_neg h7, if_neg (c := w = _) (by omega)]
        · obtain rfl : w = 2 * N + 3 := by omega
          rw [MQuad_mid_top hj (by omega), if_neg (by omega), if_neg (by omega)]
    · rw [hqc, ← mul_assoc, ← mul_assoc, ← C_mul, div_mul_div_comm, one_mul]; simp [mul_assoc]
  · subst h4
    refine one i (by omega) (Polynomial.C (dbl (N + 1) i) * Polynomial.X) _ _ one_ne_zero (by simp [Sym.code, listLt]) (by omega) (by omega)
      (fun w hw => ?_) ?_
    · rw [MQuad_top hi hw, if_neg (c := w = 0 ∧ _) (by omega), add_zero]
      by_cases h7 : w = i
      · rw [if_pos h7, if_pos ⟨h7.symm, by omega⟩, h7]
      · rw [if_neg h7, if_neg (fun h => h7 h.1.symm)]
    · rw [hqc, ← mul_assoc, ← mul_assoc, ← C_mul, one_div, inv_mul_cancel₀ (hd _)]; simp
  · subst h3
    refine one j (by omega) (Polynomial.C 2 * Polynomial.X) _ _ one_ne_zero (by simp [Sym.code, listLt]) (by omega) (by omega)
      (fun w hw => ?_) ?_
    · rcases Nat.eq_zero_or_pos w with rfl | hw0
      · rw [MQuad_mid_bot hj (by omega), if_neg (by omega), if_neg (by omega)]
      · rcases Nat.lt_or_ge w (2 * N + 3) with h6 | h6
        · rw [MQuad_mid hi (by omega) hj (by omega) hw0 (by omega), if_neg (c := w = _) (by omega), zero_add, if_pos rfl]
          by_cases h7 : w = j
          · rw [if_pos h7, if_pos (c := w + _ = _) (by omega)]
          · rw [if_neg h7, if_neg (c := w + _ = _) (by omega)]
        · obtain rfl : w = 2 * N + 3 := by omega
          rw [MQuad_mid_top hj (by omega), if_neg (by omega), if_neg (by omega)]
    · rw [hqc, ← mul_assoc, ← mul_assoc, ← C_mul, show dbl (N + 1) (2 * N + 3) = 2 by unfold dbl; rw [if_neg (by omega)]]
      norm_num
  · subst h3
    subst h4
    refine one 0 (by omega) (Polynomial.C 2 * Polynomial.X ^ 2) _ _ one_ne_zero (by simp [Sym.code, listLt]) le_rfl le_rfl
      (fun w hw => ?_) ?_
    · rw [MQuad_top hi hw, if_neg (c := _ ∧ w ≠ _) (by omega), zero_add]
      by_cases h7 : w = 0
      · rw [if_pos h7, if_pos ⟨h7, rfl⟩]
      · rw [if_neg h7, if_neg (fun h => h7 h.1)]
    · rw [show inq (Polynomial.C 2 * Polynomial.X ^ 2) = C 2 * (MvPolynomial.X .q * MvPolynomial.X .q) by simp [inq, pow_two],
        ← mul_assoc, ← mul_assoc, ← C_mul, show dbl (N + 1) (2 * N + 3) = 2 by unfold dbl; rw [if_neg (by omega)]]
      norm_num [mul_assoc]; rfl

/-- the quadric `OG(1,5)`: `S[1]^2 = 2*S[2]`, `S[1]*S[2] = S[3] + q`, `S[2]^2 = q*S[1]`, `S[1]*S[3] = q*S[1]`, `S[3]^2 = q^2` -/
example : (Space.mk .B 1 2).qmult id 45 (Poly.sym (.S [1])) (Poly.sym (.S [1])) = .ok [([.S [2]], 2)] ∧
    (Space.mk .B 1 2).qmult id 45 (Poly.sym (.S [1])) (Poly.sym (.S [2])) = .ok [([.S [3]], 1), ([.q, .S []], 1)] ∧
    (Space.mk .B 1 2).qmult id 45 (Poly.sym (.S [2])) (Poly.sym (.S [2])) = .ok [([.q, .S [1]], 1)] ∧
    (Space.mk .B 1 2).qmult id 45 (Poly.sym (.S [1])) (Poly.sym (.S [3])) = .ok [([.q, .S [1]], 1)] ∧
    (Space.mk .B 1 2).qmult id 45 (Poly.sym (.S [3])) (Poly.sym (.S [3])) = .ok [([.q, .q, .S []], 1)] := by
  refine ⟨?_, ?_, ?_, ?_, ?_⟩ <;> decide +kernel

end Verif
