import Verif.Proofs.RelRingD
import Verif.Props.Relations
/-!
# C99: relations between the special classes of the even orthogonal Grassmannians

For `OG(m, 2n+2)` let `k = n+1-m` and `K = 2n+1-m`.  The special classes are `S[1], …, S[K]` and, for `k > 0`, `S[k,0]`.
-/

namespace Verif
open Spec MvPolynomial

section
variable {X : Space} {pieri : Int → List Int → Except PyErr Poly} {n k B : ℕ} {h h' : Polynomial ℚ}
  (hk : k ≤ n) (Z : RingOn X pieri (spcD n k) (clsD n k) B) (ht : Z.Y.t = tDD h h' n k)

theorem Q2 : (Polynomial.C (1 / 2) : Polynomial ℚ) * 2 = 1 := by
  rw [show (2 : Polynomial ℚ) = Polynomial.C 2 from (map_ofNat Polynomial.C 2).symm, ← Polynomial.C_mul]
  norm_num

theorem P4 : (MvPolynomial.C (1 / 4) : P) * 4 = 1 := by
  rw [show (4 : P) = MvPolynomial.C 4 from (map_ofNat MvPolynomial.C 4).symm, ← MvPolynomial.C_mul]
  norm_num

theorem single_two (l : List Int) : (Finsupp.single l 2 : LMod) = (2 : ℤ) • Finsupp.single l 1 := by
  rw [Finsupp.smul_single]
  norm_num

theorem cE_large {a : ℕ} (ha : k < a) : cE k a = (2 : ℤ) • Finsupp.single (rowS a) 1 := by
  unfold cE
  rw [if_neg (by omega), if_neg (by omega), add_zero, single_two]

/-- the product of two operators in terms of the products of special classes -/
theorem ev_cE {a b : ℕ} (ha : k < a) :
    ev (Z.Y.prod (cE k a) (cE k b)) = 2 * ((if b ≤ k then 1 else 2) * ev (Z.Y.prod (Finsupp.single (rowS a) 1) (Finsupp.single (rowS b) 1)) +
      if b = k ∧ 0 < k then ev (Z.Y.prod (Finsupp.single (rowS a) 1) (Finsupp.single [(k : Int), 0] 1)) else 0) := by
  rw [cE_large ha]
  have e2 : (2 : ℤ) • (Finsupp.single (rowS a) 1 : LMod) = Finsupp.single (rowS a) 1 + Finsupp.single (rowS a) 1 := two_zsmul _
  rw [e2, Z.Y.prod_add_left, map_add]
  unfold cE
  rw [Z.Y.prod_add_right, map_add]
  have e3 : ev (Z.Y.prod (Finsupp.single (rowS a) 1) (Finsupp.single (rowS b) (if b ≤ k then 1 else 2))) =
      (if b ≤ k then 1 else 2) * ev (Z.Y.prod (Finsupp.single (rowS a) 1) (Finsupp.single (rowS b) 1)) := by
    split
    · rw [one_mul]
    · rw [single_two, two_zsmul, Z.Y.prod_add_right, map_add, two_mul]
  have e4 : ev (Z.Y.prod (Finsupp.single (rowS a) 1) (if b = k ∧ 0 < k then Finsupp.single [(k : Int), 0] 1 else 0)) =
      if b = k ∧ 0 < k then ev (Z.Y.prod (Finsupp.single (rowS a) 1) (Finsupp.single [(k : Int), 0] 1)) else 0 := by
    split
    · rfl
    · unfold GiamSys.prod
      rw [map_zero, map_zero]
  rw [e3, e4]
  ring

include hk ht

/-- the relations of degree `2r`, `r > k` -/
theorem relD_ev (hk0 : k = 0 → h = 0) (hh : k ≠ 0 → h' = h ^ 2) {r : ℕ} (h1 : k < r) (h2 : r ≤ n + k) :
    ev (Z.Y.prod (Finsupp.single (rowS r) 1) (Finsupp.single (rowS r) 1)) +
      ∑ i ∈ (Finset.Icc 1 r).filter (fun i => r + i ≤ n + k), (-1) ^ i * ((if r - i ≤ k then 1 else 2) *
        ev (Z.Y.prod (Finsupp.single (rowS (r + i)) 1) (Finsupp.single (rowS (r - i)) 1))) +
      (if 0 < k ∧ 2 * r ≤ n + 2 * k then (-1) ^ (r - k) * ev (Z.Y.prod (Finsupp.single (rowS (2 * r - k)) 1) (Finsupp.single [(k : Int), 0] 1)) else 0) =
    if r = n + k then inq h' * MvPolynomial.X (.S []) else 0 := by
  have key := congrArg ev (relation_D hk Z ht hk0 hh h1 h2)
  rw [map_add, ev_zsmul, map_sum, ev_cE Z h1, if_neg (by omega), if_neg (by omega), add_zero] at key
  have e1 : ∀ i ∈ (Finset.Icc 1 r).filter (fun i => r + i ≤ n + k), ev (((-1) ^ i : ℤ) • Z.Y.prod (cE k (r + i)) (cE k (r - i))) =
      2 * ((-1) ^ i * ((if r - i ≤ k then 1 else 2) * ev (Z.Y.prod (Finsupp.single (rowS (r + i)) 1) (Finsupp.single (rowS (r - i)) 1)))) +
      2 * (if i = r - k then (if 0 < k then (-1) ^ (r - k) * ev (Z.Y.prod (Finsupp.single (rowS (2 * r - k)) 1) (Finsupp.single [(k : Int), 0] 1)) else 0) else 0) := by
    intro i hi
    rw [Finset.mem_filter, Finset.mem_Icc] at hi
    rw [ev_zsmul, ev_cE Z (by omega)]
    push_cast
    by_cases c1 : i = r - k
    · subst c1
      rw [if_pos rfl, show r - (r - k) = k by omega, show r + (r - k) = 2 * r - k by omega]
      by_cases c2 : 0 < k
      · rw [if_pos (c := k = k ∧ 0 < k) ⟨rfl, c2⟩, if_pos c2]; ring
      · rw [if_neg (c := k = k ∧ 0 < k) (by omega), if_neg c2]; ring
    · rw [if_neg c1, if_neg (c := r - i = k ∧ 0 < k) (by omega)]; ring
  rw [Finset.sum_congr rfl e1, Finset.sum_add_distrib, ← Finset.mul_sum, ← Finset.mul_sum, Finset.sum_ite_eq'] at key
  have e2 : (if r - k ∈ (Finset.Icc 1 r).filter (fun i => r + i ≤ n + k) then
      (if 0 < k then (-1) ^ (r - k) * ev (Z.Y.prod (Finsupp.single (rowS (2 * r - k)) 1) (Finsupp.single [(k : Int), 0] 1)) else 0) else 0) =
      (if 0 < k ∧ 2 * r ≤ n + 2 * k then (-1) ^ (r - k) * ev (Z.Y.prod (Finsupp.single (rowS (2 * r - k)) 1) (Finsupp.single [(k : Int), 0] 1)) else 0) := by
    simp only [Finset.mem_filter, Finset.mem_Icc]
    by_cases c1 : 0 < k
    · by_cases c2 : 2 * r ≤ n + 2 * k
      · rw [if_pos (by omega), if_pos c1, if_pos ⟨c1, c2⟩]
      · rw [if_neg (by omega), if_neg (by omega)]
    · rw [if_neg c1, ite_self, if_neg (by omega)]
  rw [e2] at key
  have e3 : ev (Finsupp.single [] (if r = n + k then 4 * h' else 0)) = 4 * if r = n + k then inq h' * MvPolynomial.X (.S []) else 0 := by
    split
    · rw [ev_single, show inq (4 * h') = 4 * inq h' by unfold inq; rw [map_mul, map_ofNat], mul_assoc]
    · rw [Finsupp.single_zero, map_zero, mul_zero]
  rw [e3] at key
  push_cast at key
  linear_combination (MvPolynomial.C (1 / 4)) * key - (ev (Z.Y.prod (Finsupp.single (rowS r) 1) (Finsupp.single (rowS r) 1)) +
      ∑ i ∈ (Finset.Icc 1 r).filter (fun i => r + i ≤ n + k), (-1) ^ i * ((if r - i ≤ k then 1 else 2) *
        ev (Z.Y.prod (Finsupp.single (rowS (r + i)) 1) (Finsupp.single (rowS (r - i)) 1))) +
      (if 0 < k ∧ 2 * r ≤ n + 2 * k then (-1) ^ (r - k) * ev (Z.Y.prod (Finsupp.single (rowS (2 * r - k)) 1) (Finsupp.single [(k : Int), 0] 1)) else 0) -
      if r = n + k then inq h' * MvPolynomial.X (.S []) else 0) * P4

/-- the relation of degree `2k` -/
theorem relD_ev' (hk0 : 0 < k) (hh : h' = h ^ 2) :
    ev (Z.Y.prod (Finsupp.single [(k : Int)] 1) (Finsupp.single [(k : Int), 0] 1)) +
      ∑ i ∈ Finset.Icc 1 k, (-1) ^ i * ev (Z.Y.prod (Finsupp.single (rowS (k + i)) 1) (Finsupp.single (rowS (k - i)) 1)) = 0 := by
  have key := congrArg ev (relation_D' hk Z ht hk0 hh)
  rw [map_add, ev_zsmul, map_sum] at key
  have e1 : ∀ i ∈ Finset.Icc 1 k, ev (((-1) ^ i : ℤ) • Z.Y.prod (cE k (k + i)) (cE k (k - i))) =
      2 * ((-1) ^ i * ev (Z.Y.prod (Finsupp.single (rowS (k + i)) 1) (Finsupp.single (rowS (k - i)) 1))) := by
    intro i hi
    rw [Finset.mem_Icc] at hi
    rw [ev_zsmul, ev_cE Z (by omega), if_pos (by omega), if_neg (by omega)]
    push_cast
    ring
  have hrow : rowS k = [(k : Int)] := by unfold Spec.rowS; rw [if_neg (by omega)]
  have hc1 : ∀ l ∈ (Finsupp.single [(k : Int)] 1 : LMod).support, clsD n k l := by
    rw [← hrow]; exact supp_single (clsD_row hk (by omega)) 1
  have hc2 : ∀ l ∈ (Finsupp.single [(k : Int), 0] 1 : LMod).support, clsD n k l := supp_single (clsD_row' hk hk0) 1
  have ec : cE k k = Finsupp.single [(k : Int)] 1 + Finsupp.single [(k : Int), 0] 1 := by
    unfold cE
    rw [if_pos le_rfl, if_pos ⟨rfl, hk0⟩, hrow]
  have ed : dE k = Finsupp.single [(k : Int)] 1 + (-1 : Polynomial ℚ) • Finsupp.single [(k : Int), 0] 1 := by
    unfold dE
    rw [neg_one_smul, sub_eq_add_neg]
  rw [Finset.sum_congr rfl e1, ← Finset.mul_sum, ec, ed] at key
  simp only [Z.Y.prod_add_left, Z.Y.prod_add_right, Z.Y.prod_smul_left, Z.Y.prod_smul_right, map_add, ev_smul, map_neg, map_one] at key
  rw [Z.Y.prod_comm hc2 hc1] at key
  push_cast at key
  linear_combination (MvPolynomial.C (1 / 4)) * key - (ev (Z.Y.prod (Finsupp.single [(k : Int)] 1) (Finsupp.single [(k : Int), 0] 1)) +
      ∑ i ∈ Finset.Icc 1 k, (-1) ^ i * ev (Z.Y.prod (Finsupp.single (rowS (k + i)) 1) (Finsupp.single (rowS (k - i)) 1))) * P4

omit ht in
/-- what `mult` returns on two special classes -/
theorem multD_rows {fuel : ℕ} (hf : B ≤ fuel) {a b : ℕ} (ha : a ≤ n + k) (hb : b ≤ n + k) :
    Returns (gmult X pieri fuel (Poly.sym (.S (rowS a))) (Poly.sym (.S (rowS b))))
      (ev (Z.Y.prod (Finsupp.single (rowS a) 1) (Finsupp.single (rowS b) 1))) :=
  Z.mult hf (wf_sym _) (by simp [inq]) (supp_single (clsD_row hk ha) 1) (wf_sym _) (by simp [inq]) (supp_single (clsD_row hk hb) 1)

omit ht in
theorem multD_row' (hk0 : 0 < k) {fuel : ℕ} (hf : B ≤ fuel) {a : ℕ} (ha : a ≤ n + k) :
    Returns (gmult X pieri fuel (Poly.sym (.S (rowS a))) (Poly.sym (.S [(k : Int), 0])))
      (ev (Z.Y.prod (Finsupp.single (rowS a) 1) (Finsupp.single [(k : Int), 0] 1))) :=
  Z.mult hf (wf_sym _) (by simp [inq]) (supp_single (clsD_row hk ha) 1) (wf_sym _) (by simp [inq]) (supp_single (clsD_row' hk hk0) 1)

end

/-! ### C99 -/

/-- **C99**, quantum. In the quantum ring of `OG(m, 2n+2)`, `m ≠ n`, for `k < r ≤ K`, where `k = n+1-m`, `K = 2n+1-m`:
`S[r]^2 - 2*S[r+1]*S[r-1] + ... ± S[2r-k]*(S[k] + S[k,0]) ∓ S[2r-k+1]*S[k-1] ± ...` is `0` for `r < K`;
for `r = K` it is `q^2` if `k > 0` and `q` if `k = 0`. -/
theorem C99_quantum (ord : List Int → List Int) {m n : Int} (hm : 0 < m) (hmn : m ≤ n + 1) (hne : m ≠ n) {X : Space}
    (hX : mkOG m (2 * n + 2) = .ok X) {fuel : ℕ} (hf : giamBoundD m n ≤ fuel) {r k K : ℕ} (hk : (k : Int) = n + 1 - m)
    (hK : (K : Int) = 2 * n + 1 - m) (h1 : k < r) (h2 : r ≤ K) :
    ∃ (v : ℕ → P) (w : P), (∀ i ≤ r, r + i ≤ K →
        Returns (X.qmult ord fuel (Poly.sym (.S (rowS (r + i)))) (Poly.sym (.S (rowS (r - i))))) (v i)) ∧
      (0 < k → 2 * r - k ≤ K → Returns (X.qmult ord fuel (Poly.sym (.S (rowS (2 * r - k)))) (Poly.sym (.S [(k : Int), 0]))) w) ∧
      v 0 + ∑ i ∈ (Finset.Icc 1 r).filter (fun i => r + i ≤ K), (-1) ^ i * ((if r - i ≤ k then 1 else 2) * v i) +
          (if 0 < k ∧ 2 * r - k ≤ K then (-1) ^ (r - k) * w else 0) =
        if r = K then MvPolynomial.X .q ^ (if k = 0 then 1 else 2) * MvPolynomial.X (.S []) else 0 := by
  obtain ⟨a, b, h, hb, rfl, rfl, rfl⟩ := ogdCase' hm hmn hne hX
  rw [giamBoundD_eq (by omega)] at hf
  obtain rfl : k = b := by omega
  obtain rfl : K = a + k := by omega
  refine ⟨fun i => ev ((ringQD ord a k h hb).Y.prod (Finsupp.single (rowS (r + i)) 1) (Finsupp.single (rowS (r - i)) 1)),
    ev ((ringQD ord a k h hb).Y.prod (Finsupp.single (rowS (2 * r - k)) 1) (Finsupp.single [(k : Int), 0] 1)),
    fun i hi hi' => multD_rows h (ringQD ord a k h hb) hf hi' (by omega),
    fun hk0 hr => multD_row' h (ringQD ord a k h hb) hk0 hf hr, ?_⟩
  have key := relD_ev h (ringQD ord a k h hb) (h := hQ k) (h' := hQ' k) rfl hQ_zero hQ_sq h1 h2
  have e1 : inq (hQ' k) = MvPolynomial.X .q ^ (if k = 0 then 1 else 2) := by
    unfold hQ'
    split <;> simp [inq]
  rw [e1] at key
  simp only [add_zero, Nat.sub_zero]
  refine Eq.trans (congrArg _ ?_) key
  by_cases c : 0 < k ∧ 2 * r - k ≤ a + k
  · rw [if_pos c, if_pos (by omega)]
  · rw [if_neg c, if_neg (by omega)]

/-- **C99**, classical. In the ring of `OG(m, 2n+2)`, for `k < r ≤ K`, where `k = n+1-m`, `K = 2n+1-m`:
`S[r]^2 - 2*S[r+1]*S[r-1] + ... ± S[2r-k]*(S[k] + S[k,0]) ∓ S[2r-k+1]*S[k-1] ± ... = 0`. -/
theorem C99_classical {m n : Int} (hm : 0 < m) (hmn : m ≤ n + 1) {X : Space}
    (hX : mkOG m (2 * n + 2) = .ok X) {fuel : ℕ} (hf : giamBoundD m n ≤ fuel) {r k K : ℕ} (hk : (k : Int) = n + 1 - m)
    (hK : (K : Int) = 2 * n + 1 - m) (h1 : k < r) (h2 : r ≤ K) :
    ∃ (v : ℕ → P) (w : P), (∀ i ≤ r, r + i ≤ K →
        Returns (X.mult fuel (Poly.sym (.S (rowS (r + i)))) (Poly.sym (.S (rowS (r - i))))) (v i)) ∧
      (0 < k → 2 * r - k ≤ K → Returns (X.mult fuel (Poly.sym (.S (rowS (2 * r - k)))) (Poly.sym (.S [(k : Int), 0]))) w) ∧
      v 0 + ∑ i ∈ (Finset.Icc 1 r).filter (fun i => r + i ≤ K), (-1) ^ i * ((if r - i ≤ k then 1 else 2) * v i) +
          (if 0 < k ∧ 2 * r - k ≤ K then (-1) ^ (r - k) * w else 0) = 0 := by
  obtain ⟨a, b, h, rfl, rfl, rfl⟩ := ogdCase (by omega) hmn hX
  rw [giamBoundD_eq (by omega)] at hf
  obtain rfl : k = b := by omega
  obtain rfl : K = a + k := by omega
  have h' : k ≤ a := by omega
  refine ⟨fun i => ev ((ringD a k h).Y.prod (Finsupp.single (rowS (r + i)) 1) (Finsupp.single (rowS (r - i)) 1)),
    ev ((ringD a k h).Y.prod (Finsupp.single (rowS (2 * r - k)) 1) (Finsupp.single [(k : Int), 0] 1)),
    fun i hi hi' => multD_rows h' (ringD a k h) hf hi' (by omega),
    fun hk0 hr => multD_row' h' (ringD a k h) hk0 hf hr, ?_⟩
  have key := relD_ev h' (ringD a k h) (h := 0) (h' := 0) rfl (fun _ => rfl) (fun _ => by simp) h1 h2
  rw [show inq 0 = 0 by simp [inq], zero_mul, ite_self] at key
  simp only [add_zero, Nat.sub_zero]
  refine Eq.trans (congrArg _ ?_) key
  by_cases c : 0 < k ∧ 2 * r - k ≤ a + k
  · rw [if_pos c, if_pos (by omega)]
  · rw [if_neg c, if_neg (by omega)]

example :
    (Space.mk .D 2 3).mult 66 (Poly.sym (.S [3])) (Poly.sym (.S [3])) =
      .ok [([.S [5, 1]], 1), ([.S [4, 2]], 1), ([.S [4, 2, 0]], 1)] ∧
    (Space.mk .D 2 3).mult 66 (Poly.sym (.S [4])) (Poly.sym (.S [2])) = .ok [([.S [5, 1]], 1), ([.S [4, 2]], 1)] ∧
    (Space.mk .D 2 3).mult 66 (Poly.sym (.S [5])) (Poly.sym (.S [1])) = .ok [([.S [5, 1]], 1)] ∧
    (Space.mk .D 2 3).mult 66 (Poly.sym (.S [4])) (Poly.sym (.S [2, 0])) = .ok [([.S [5, 1]], 1), ([.S [4, 2, 0]], 1)] := by
  decide +kernel

/-- **C99**, quantum, the two classes of degree `k = n+1-m`. For `m < n`:
`S[k]*S[k,0] - S[k+1]*S[k-1] + S[k+2]*S[k-2] - ... ± S[2k] = 0`; there are no quantum terms. -/
theorem C99_mid_quantum (ord : List Int → List Int) {m n : Int} (hm : 0 < m) (hmn : m < n) {X : Space}
    (hX : mkOG m (2 * n + 2) = .ok X) {fuel : ℕ} (hf : giamBoundD m n ≤ fuel) {k : ℕ} (hk : (k : Int) = n + 1 - m) :
    ∃ (w : P) (v : ℕ → P), Returns (X.qmult ord fuel (Poly.sym (.S [(k : Int)])) (Poly.sym (.S [(k : Int), 0]))) w ∧
      (∀ i ≤ k, 1 ≤ i → Returns (X.qmult ord fuel (Poly.sym (.S (rowS (k + i)))) (Poly.sym (.S (rowS (k - i))))) (v i)) ∧
      w + ∑ i ∈ Finset.Icc 1 k, (-1) ^ i * v i = 0 := by
  obtain ⟨a, b, h, hb, rfl, rfl, rfl⟩ := ogdCase' hm (by omega) (by omega) hX
  rw [giamBoundD_eq (by omega)] at hf
  obtain rfl : k = b := by omega
  have h' : k ≤ a := by omega
  have hk0 : 0 < k := by omega
  have hrow : rowS k = [(k : Int)] := by unfold Spec.rowS; rw [if_neg (by omega)]
  have h1 := multD_row' h' (ringQD ord a k h hb) hk0 hf (a := k) (by omega)
  rw [hrow] at h1
  exact ⟨_, _, h1, fun i hi _ => multD_rows h' (ringQD ord a k h hb) hf (by omega) (by omega), relD_ev' h' (ringQD ord a k h hb) (h := hQ k) (h' := hQ' k) rfl hk0 (hQ_sq (by omega))⟩

/-- **C99**, classical, the two classes of degree `k = n+1-m > 0`:
`S[k]*S[k,0] - S[k+1]*S[k-1] + S[k+2]*S[k-2] - ... ± S[2k] = 0`. -/
theorem C99_mid_classical {m n : Int} (hm : 0 < m) (hmn : m ≤ n) {X : Space}
    (hX : mkOG m (2 * n + 2) = .ok X) {fuel : ℕ} (hf : giamBoundD m n ≤ fuel) {k : ℕ} (hk : (k : Int) = n + 1 - m) :
    ∃ (w : P) (v : ℕ → P), Returns (X.mult fuel (Poly.sym (.S [(k : Int)])) (Poly.sym (.S [(k : Int), 0]))) w ∧
      (∀ i ≤ k, 1 ≤ i → Returns (X.mult fuel (Poly.sym (.S (rowS (k + i)))) (Poly.sym (.S (rowS (k - i))))) (v i)) ∧
      w + ∑ i ∈ Finset.Icc 1 k, (-1) ^ i * v i = 0 := by
  obtain ⟨a, b, h, rfl, rfl, rfl⟩ := ogdCase (by omega) (by omega) hX
  rw [giamBoundD_eq (by omega)] at hf
  obtain rfl : k = b := by omega
  have h' : k ≤ a := by omega
  have hk0 : 0 < k := by omega
  have hrow : rowS k = [(k : Int)] := by unfold Spec.rowS; rw [if_neg (by omega)]
  have h1 := multD_row' h' (ringD a k h) hk0 hf (a := k) (by omega)
  rw [hrow] at h1
  exact ⟨_, _, h1, fun i hi _ => multD_rows h' (ringD a k h) hf (by omega) (by omega), relD_ev' h' (ringD a k h) (h := 0) (h' := 0) rfl hk0 (by simp)⟩

/-- OG(2,8), `k = 2`, `K = 5`: `S[3]^2 - S[4]*(S[2] + S[2,0]) + S[5]*S[1] = 0`, `S[4]^2 - 2*S[5]*S[3] = 0`, `S[5]^2 = q^2`. -/
example : (do let X ← mkOG 2 8; X.qmult id 60 (Poly.sym (.S [3])) (Poly.sym (.S [3]))) =
      .ok [([.S [5, 1]], 1), ([.S [4, 2]], 1), ([.S [4, 2, 0]], 1)] ∧
    (do let X ← mkOG 2 8; X.qmult id 60 (Poly.sym (.S [4])) (Poly.sym (.S [2]))) = .ok [([.S [5, 1]], 1), ([.S [4, 2]], 1)] ∧
    (do let X ← mkOG 2 8; X.qmult id 60 (Poly.sym (.S [4])) (Poly.sym (.S [2, 0]))) = .ok [([.S [5, 1]], 1), ([.S [4, 2, 0]], 1)] ∧
    (do let X ← mkOG 2 8; X.qmult id 60 (Poly.sym (.S [5])) (Poly.sym (.S [1]))) = .ok [([.S [5, 1]], 1)] ∧
    (do let X ← mkOG 2 8; X.qmult id 60 (Poly.sym (.S [4])) (Poly.sym (.S [4]))) = .ok [([.S [5, 3]], 2)] ∧
    (do let X ← mkOG 2 8; X.qmult id 60 (Poly.sym (.S [5])) (Poly.sym (.S [3]))) = .ok [([.S [5, 3]], 1)] ∧
    (do let X ← mkOG 2 8; X.qmult id 60 (Poly.sym (.S [5])) (Poly.sym (.S [5]))) = .ok [([.q, .q, .S []], 1)] := by
  refine ⟨?_, ?_, ?_, ?_, ?_, ?_, ?_⟩ <;> decide +kernel

/-- OG(2,8): `S[2]*S[2,0] - S[3]*S[1] + S[4] = 0`. -/
example : (do let X ← mkOG 2 8; X.qmult id 60 (Poly.sym (.S [2])) (Poly.sym (.S [2, 0]))) = .ok [([.S [3, 1]], 1)] ∧
    (do let X ← mkOG 2 8; X.qmult id 60 (Poly.sym (.S [3])) (Poly.sym (.S [1]))) = .ok [([.S [4]], 1), ([.S [3, 1]], 1)] := by
  refine ⟨?_, ?_⟩ <;> decide +kernel

/-- OG(4,8), `k = 0`: `S[3]^2 = q`. -/
example : (do let X ← mkOG 4 8; X.qmult id 60 (Poly.sym (.S [3])) (Poly.sym (.S [3]))) = .ok [([.q, .S []], 1)] := by decide +kernel

end Verif
