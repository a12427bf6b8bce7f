import Verif.Proofs.RelRing
import Verif.Props.RingQB
/-!
# C92: relations between the special classes
-/

namespace Verif
open Spec MvPolynomial

section
variable {X : Space} {pieri : Int → List Int → Except PyErr Poly} {n k B : ℕ}

theorem clsBC_row (hk : k < n) {p : ℕ} (h1 : 1 ≤ p) (h2 : p ≤ n + k) : clsBC n k [(p : Int)] := by
  rw [clsBC_eq hk.le]
  refine ⟨⟨List.pairwise_singleton _ _, by simp; omega⟩, List.pairwise_singleton _ _, by simp; omega, ?_⟩
  intro x hx
  rw [List.mem_singleton.1 hx]
  omega

/-- the general form: `cf` are the factors between the operators and the special classes -/
theorem relation_BC (hk : k < n) (Z : RingOn X pieri (stdSpc (n + k)) (clsBC n k) B) (N : ℕ → List L3 → List L3 → Polynomial ℚ)
    (cf : ℕ → Polynomial ℚ) (hcf : cf 0 = 1) (hz : ∀ u ∈ Wd n k, ∀ w ∈ Wd n k, N 0 u w = if u = w then 1 else 0)
    (ht : ∀ p l, 1 ≤ p → p ≤ n + k → tM (Wd n k) labW N p l = cf p • Z.Y.t p l)
    (hcomm : ∀ a b, ∀ u ∈ Wd n k, ∀ v ∈ Wd n k, ∑ w ∈ Wd n k, N a u w * N b w v = ∑ w ∈ Wd n k, N b u w * N a w v)
    {g : Polynomial ℚ} (htop : ∀ u ∈ Wd n k, ∀ w ∈ Wd n k, N (n + k + 1) u w = if u = w then g else 0)
    (hhigh : ∀ p, n + k + 1 < p → ∀ u ∈ Wd n k, ∀ w ∈ Wd n k, N p u w = 0) {r : ℕ} (hr : r ≤ n + k) {e : Polynomial ℚ}
    (h : ∀ u ∈ Wd n k, ∀ v ∈ Wd n k, ∑ ab ∈ Finset.antidiagonal (2 * r), (-1) ^ ab.2 * ∑ w ∈ Wd n k, N ab.1 u w * N ab.2 w v =
      if u = v then (-1) ^ r * e else 0) :
    (cf r * cf r) • Z.Y.prod (Finsupp.single (rowS r) 1) (Finsupp.single (rowS r) 1) + (2 : ℤ) •
      ∑ i ∈ (Finset.Icc 1 r).filter (fun i => r + i ≤ n + k), ((-1) ^ i : ℤ) • (cf (r + i) * cf (r - i)) •
        Z.Y.prod (Finsupp.single (rowS (r + i)) 1) (Finsupp.single (rowS (r - i)) 1) =
    Finsupp.single [] e - (2 : ℤ) • if n + k + 1 ≤ 2 * r then ((-1) ^ (n + k + 1 - r) : ℤ) •
      Finsupp.single (rowS (2 * r - (n + k + 1))) (g * cf (2 * r - (n + k + 1))) else 0 := by
  obtain ⟨u, hu, h0⟩ := (Wd_cls hk.le []).1 (clsBC_nil hk.le)
  have hrow := fun p h1 h2 => clsBC_row (n := n) (k := k) hk (p := p) h1 h2
  have key := tM2_rel (N := N) Wd_inj hu h0 hcomm (h u hu)
  rw [tM2_split Wd_inj hu h0 hr htop hhigh, smul_add, ← add_assoc] at key
  have hp := fun a b (ha : a ≤ n + k) (hb : b ≤ n + k) =>
    tM2_prod (N := N) Z Wd_inj (Wd_cls hk.le) hrow cf hz hcf ht ha hb
  have hA : ∑ i ∈ (Finset.Icc 1 r).filter (fun i => r + i ≤ n + k), ((-1) ^ i : ℤ) • tM2 (Wd n k) labW N (r + i) (r - i) =
      ∑ i ∈ (Finset.Icc 1 r).filter (fun i => r + i ≤ n + k), ((-1) ^ i : ℤ) • (cf (r + i) * cf (r - i)) •
        Z.Y.prod (Finsupp.single (rowS (r + i)) 1) (Finsupp.single (rowS (r - i)) 1) := by
    refine Finset.sum_congr rfl (fun i hi => ?_)
    rw [Finset.mem_filter, Finset.mem_Icc] at hi
    rw [hp _ _ hi.2 (by omega)]
  have hz0 : tM (Wd n k) labW N 0 [] = Finsupp.single [] 1 := by
    rw [← h0, tM_lab N Wd_inj 0 hu, Finset.sum_eq_single u]
    · rw [hz u hu u hu, if_pos rfl]
    · intro w hw hne
      rw [hz u hu w hw, if_neg hne.symm, Finsupp.single_zero]
    · intro h; exact absurd hu h
  have hB : ∀ b, b ≤ n + k → tM (Wd n k) labW N b [] = Finsupp.single (rowS b) (cf b) := by
    intro b hb
    have h1 := hp b 0 hb (by omega)
    rw [hcf, mul_one] at h1
    have hone : tM2 (Wd n k) labW N b 0 = tM (Wd n k) labW N b [] := by
      unfold tM2
      rw [hz0]
      simp [lin]
    have hc : clsBC n k (rowS b) := by
      unfold Spec.rowS
      split
      · exact clsBC_nil hk.le
      · exact hrow _ (by omega) (by omega)
    have h2 : Z.Y.prod (Finsupp.single (rowS b) 1) (Finsupp.single [] 1) = Finsupp.single (rowS b) 1 :=
      Z.Y.prod_one Z.nil (supp_single hc 1)
    have h3 : rowS 0 = [] := rfl
    rw [← hone, h1, h3, h2, Finsupp.smul_single, smul_eq_mul, mul_one]
  rw [hp r r hr hr, hA] at key
  rw [eq_sub_iff_add_eq, ← key]
  congr 2
  split
  · rw [hB _ (by omega)]
    refine congrArg _ ?_
    rw [Finsupp.smul_single, smul_eq_mul]
  · rfl

end

/-- what `mult` returns on two special classes -/
theorem mult_rows {X : Space} {pieri : Int → List Int → Except PyErr Poly} {n k B : ℕ} (hk : k < n)
    (Z : RingOn X pieri (stdSpc (n + k)) (clsBC n k) B) {fuel : ℕ} (hf : B ≤ fuel) {a b : ℕ} (ha : a ≤ n + k) (hb : b ≤ n + k) :
    Returns (gmult X pieri fuel (Poly.sym (.S (rowS a))) (Poly.sym (.S (rowS b))))
      (ev (Z.Y.prod (Finsupp.single (rowS a) 1) (Finsupp.single (rowS b) 1))) := by
  have hc : ∀ p ≤ n + k, clsBC n k (rowS p) := by
    intro p hp
    unfold Spec.rowS
    split
    · exact clsBC_nil hk.le
    · exact clsBC_row hk (by omega) hp
  exact Z.mult hf (wf_sym _) (by simp [inq]) (supp_single (hc a ha) 1) (wf_sym _) (by simp [inq]) (supp_single (hc b hb) 1)

theorem ev_zsmul (z : ℤ) (x : LMod) : ev (z • x) = (z : P) * ev x := by
  rw [map_zsmul, zsmul_eq_mul]

theorem inq_one : inq 1 = 1 := by simp [inq]

theorem relation_ev {ι : Type*} {s : Finset ι} {x : LMod} {y : ι → LMod} {a : Polynomial ℚ} {f : ι → ℤ} {c : ι → Polynomial ℚ} {z : LMod}
    (h : a • x + (2 : ℤ) • ∑ i ∈ s, f i • c i • y i = z) :
    inq a * ev x + 2 * ∑ i ∈ s, (f i : P) * (inq (c i) * ev (y i)) = ev z := by
  rw [← h, map_add, ev_zsmul, ev_smul, map_sum]
  push_cast
  congr 2
  exact Finset.sum_congr rfl (fun i _ => by rw [ev_zsmul, ev_smul])

/-! ### C92 -/

/-- **C92**, quantum, type C. In the quantum ring of `IG(m, 2n)`, for `n - m < r ≤ 2n - m`:
`S[r]^2 + 2 * (-S[r+1]*S[r-1] + S[r+2]*S[r-2] - ...) = ± q * S[2r - (2n-m+1)]`, and `0` if `2r < 2n-m+1`. -/
theorem C92_IG_quantum (ord : List Int → List Int) {m n : Int} (hm : 0 < m) {X : Space} (hX : mkIG m (2 * n) = .ok X) {fuel : ℕ}
    (hf : giamBoundBC m n ≤ fuel) {r K : ℕ} (hK : (K : Int) = 2 * n - m) (h1 : n - m < r) (h2 : r ≤ K) :
    ∃ v : ℕ → P, (∀ i ≤ r, r + i ≤ K →
        Returns (X.qmult ord fuel (Poly.sym (.S (rowS (r + i)))) (Poly.sym (.S (rowS (r - i))))) (v i)) ∧
      v 0 + 2 * ∑ i ∈ (Finset.Icc 1 r).filter (fun i => r + i ≤ K), (-1) ^ i * v i =
        if K + 1 ≤ 2 * r then (-1) ^ (K - r) * (MvPolynomial.X .q * MvPolynomial.X (.S (rowS (2 * r - (K + 1))))) else 0 := by
  obtain ⟨a, b, h, rfl, rfl, rfl⟩ := igCase hX
  rw [giamBoundBC_eq h] at hf
  have hk : b < a := by omega
  obtain rfl : K = a + b := by omega
  refine ⟨fun i => ev ((ringQIG ord a b h).Y.prod (Finsupp.single (rowS (r + i)) 1) (Finsupp.single (rowS (r - i)) 1)),
    fun i hi hi' => mult_rows hk (ringQIG ord a b h) hf hi' (by omega), ?_⟩
  have key := relation_BC hk (ringQIG ord a b h) (MC (Polynomial.C (1 / 2) * Polynomial.X)) (fun _ => 1) rfl
    (fun u hu w hw => opW_zero 1 _ (by rw [mem_Wd] at hu hw; omega)) (fun p l _ _ => by rw [one_smul]; rfl)
    (fun c d => MC_comm _ a b c d) (g := Polynomial.C (1 / 2) * Polynomial.X)
    (fun u hu w hw => by unfold MC; rw [opW_top _ _ hu hw, mul_one]) (fun p hp u hu w hw => opW_high _ _ hu hw hp) h2 (e := 0)
    (fun u hu v hv => by
      have := opW_rel (1 : Polynomial ℚ) (Polynomial.C (1 / 2) * Polynomial.X) (Or.inl rfl) hu hv (d := 2 * r) (by omega) (by omega)
      rw [mul_zero, ite_self]
      exact this)
  have h3 := relation_ev key
  simp only [mul_one, inq_one, one_mul, Finsupp.single_zero, zero_sub] at h3
  push_cast at h3
  simp only [add_zero, Nat.sub_zero]
  rw [h3, map_neg, ev_zsmul]
  split
  · rename_i h4
    rw [ev_zsmul, ev_single, show a + b + 1 - r = a + b - r + 1 by omega]
    have e : inq (Polynomial.C (1 / 2) * Polynomial.X) = C (1 / 2) * X .q := by simp [inq]
    have e2 : (2 : P) * C (1 / 2) = 1 := by
      rw [show (2 : P) = C 2 from (map_ofNat C 2).symm, ← C_mul]
      norm_num
    rw [e, pow_succ]
    push_cast
    linear_combination ((-1) ^ (a + b - r) * (X .q * X (.S (rowS (2 * r - (a + b + 1)))))) * e2
  · simp

/-- **C92**, classical, type C. In the ring of `IG(m, 2n)`, for `n - m < r ≤ 2n - m`:
`S[r]^2 + 2 * (-S[r+1]*S[r-1] + S[r+2]*S[r-2] - ...) = 0`. -/
theorem C92_IG_classical {m n : Int} (hm : 0 < m) {X : Space} (hX : mkIG m (2 * n) = .ok X) {fuel : ℕ}
    (hf : giamBoundBC m n ≤ fuel) {r K : ℕ} (hK : (K : Int) = 2 * n - m) (h1 : n - m < r) (h2 : r ≤ K) :
    ∃ v : ℕ → P, (∀ i ≤ r, r + i ≤ K →
        Returns (X.mult fuel (Poly.sym (.S (rowS (r + i)))) (Poly.sym (.S (rowS (r - i))))) (v i)) ∧
      v 0 + 2 * ∑ i ∈ (Finset.Icc 1 r).filter (fun i => r + i ≤ K), (-1) ^ i * v i = 0 := by
  obtain ⟨a, b, h, rfl, rfl, rfl⟩ := igCase hX
  rw [giamBoundBC_eq h] at hf
  have hk : b < a := by omega
  obtain rfl : K = a + b := by omega
  refine ⟨fun i => ev ((ringIG a b h).Y.prod (Finsupp.single (rowS (r + i)) 1) (Finsupp.single (rowS (r - i)) 1)),
    fun i hi hi' => mult_rows hk (ringIG a b h) hf hi' (by omega), ?_⟩
  have key := relation_BC hk (ringIG a b h) (MC 0) (fun _ => 1) rfl
    (fun u hu w hw => opW_zero 1 _ (by rw [mem_Wd] at hu hw; omega)) (fun p l _ _ => by rw [one_smul]; rfl)
    (fun c d => MC_comm _ a b c d) (g := 0)
    (fun u hu w hw => by unfold MC; rw [opW_top _ _ hu hw, mul_one]) (fun p hp u hu w hw => opW_high _ _ hu hw hp) h2 (e := 0)
    (fun u hu v hv => by
      have := opW_rel (1 : Polynomial ℚ) 0 (Or.inl rfl) hu hv (d := 2 * r) (by omega) (by omega)
      rw [mul_zero, ite_self]
      exact this)
  have h3 := relation_ev key
  simp only [mul_one, inq_one, one_mul, Finsupp.single_zero, zero_sub, smul_zero, ite_self, neg_zero, map_zero] at h3
  push_cast at h3
  simp only [add_zero, Nat.sub_zero]
  exact h3

/-- `IG(2,6)`, `r = 2`: `S[2]^2 - 2*S[3]*S[1] + 2*S[4] = 0` -/
example : (Space.mk .C 1 3).mult 45 (Poly.sym (.S [2])) (Poly.sym (.S [2])) = .ok [([.S [4]], 2), ([.S [3, 1]], 2)] ∧
    (Space.mk .C 1 3).mult 45 (Poly.sym (.S [3])) (Poly.sym (.S [1])) = .ok [([.S [4]], 2), ([.S [3, 1]], 1)] := by
  decide +kernel

/-- the factor between an operator of type B and the special class -/
noncomputable def cfB (k p : ℕ) : Polynomial ℚ := Polynomial.C (if p ≤ k then 1 else 2)

theorem tM_scale {n k : ℕ} {N M : ℕ → List L3 → List L3 → Polynomial ℚ} {p : ℕ} {c : Polynomial ℚ} (h : ∀ u w, N p u w = c * M p u w)
    (l : List Int) : tM (Wd n k) labW N p l = c • tM (Wd n k) labW M p l := by
  unfold tM
  rw [Finset.smul_sum]
  refine Finset.sum_congr rfl (fun u _ => ?_)
  rw [Finset.smul_sum]
  refine Finset.sum_congr rfl (fun w _ => ?_)
  rw [h, Finsupp.smul_single, smul_eq_mul]

theorem cfB_scB (k p : ℕ) : cfB k p * Polynomial.C (scB k p) = 1 := by
  unfold cfB scB
  rw [← Polynomial.C_mul]
  split <;> norm_num

/-- from the relation between operators to that between classes, type B -/
theorem relation_B {k r K : ℕ} (hr : k < r) {v : ℕ → P} {z : P}
    (h : inq (cfB k r * cfB k r) * v 0 + 2 * ∑ i ∈ (Finset.Icc 1 r).filter (fun i => r + i ≤ K),
      (((-1) ^ i : ℤ) : P) * (inq (cfB k (r + i) * cfB k (r - i)) * v i) = 4 * z) :
    v 0 + ∑ i ∈ (Finset.Icc 1 r).filter (fun i => r + i ≤ K), (-1) ^ i * ((if r - i ≤ k then 1 else 2) * v i) = z := by
  have e4 : (4 : P) = C 4 := (map_ofNat C 4).symm
  have h0 : inq (cfB k r * cfB k r) = 4 := by
    unfold cfB
    rw [if_neg (by omega), ← Polynomial.C_mul]
    simp only [inq, Polynomial.aeval_C]
    rw [e4]
    norm_num [MvPolynomial.algebraMap_eq]
  have h1 : ∀ i, inq (cfB k (r + i) * cfB k (r - i)) = 2 * (if r - i ≤ k then 1 else 2) := by
    intro i
    have e2 : (2 : P) = C 2 := (map_ofNat C 2).symm
    unfold cfB
    rw [if_neg (show ¬ r + i ≤ k by omega), ← Polynomial.C_mul]
    split
    · simp [inq, e2]
    · simp only [inq, Polynomial.aeval_C, e2, MvPolynomial.algebraMap_eq, ← C_mul]
  rw [h0] at h
  simp only [h1] at h
  have h4 : (4 : P) ≠ 0 := by rw [e4]; simp
  apply mul_left_cancel₀ h4
  rw [← h, mul_add, Finset.mul_sum, Finset.mul_sum]
  congr 1
  refine Finset.sum_congr rfl (fun i _ => ?_)
  push_cast
  ring

/-- **C92**, classical, type B. In the ring of `OG(m, 2n+1)`, for `k = n - m < r ≤ n + k`:
`S[r]^2 - c(r-1)*S[r+1] + c(r-2)*S[r+2] - ... = 0` where `c(p)` is `S[p]` for `p ≤ k` and `2*S[p]` for `p > k`. -/
theorem C92_OG_classical {m n : Int} (hm : 0 < m) (hmn : m ≤ n) {X : Space} (hX : mkOG m (2 * n + 1) = .ok X) {fuel : ℕ}
    (hf : giamBoundBC m n ≤ fuel) {r k K : ℕ} (hk : (k : Int) = n - m) (hK : (K : Int) = 2 * n - m) (h1 : k < r) (h2 : r ≤ K) :
    ∃ v : ℕ → P, (∀ i ≤ r, r + i ≤ K →
        Returns (X.mult fuel (Poly.sym (.S (rowS (r + i)))) (Poly.sym (.S (rowS (r - i))))) (v i)) ∧
      v 0 + ∑ i ∈ (Finset.Icc 1 r).filter (fun i => r + i ≤ K), (-1) ^ i * ((if r - i ≤ k then 1 else 2) * v i) = 0 := by
  obtain ⟨a, b, h, rfl, rfl, rfl⟩ := ogCase' hm hmn hX
  rw [giamBoundBC_eq h.le] at hf
  obtain rfl : k = b := by omega
  obtain rfl : K = a + k := by omega
  refine ⟨fun i => ev ((ringOG a k h.le).Y.prod (Finsupp.single (rowS (r + i)) 1) (Finsupp.single (rowS (r - i)) 1)),
    fun i hi hi' => mult_rows h (ringOG a k h.le) hf hi' (by omega), ?_⟩
  have key := relation_BC h (ringOG a k h.le)
    (fun p u w => (opW (Polynomial.C (2 : Polynomial ℚ)) (Polynomial.C 0) Polynomial.X u w).coeff p) (cfB k)
    (by simp [cfB]) (fun u hu w hw => opW_zero _ _ (by rw [mem_Wd] at hu hw; omega))
    (fun p l _ _ => tM_scale (M := MB k) (fun u w => by
      unfold MB
      rw [← mul_assoc, show (Polynomial.C (if p ≤ k then 1 else 1 / 2 : ℚ)) = Polynomial.C (scB k p) from rfl, cfB_scB, one_mul]) l)
    (fun c d u hu v hv => coeffW_comm (2 : Polynomial ℚ) 0 c d hu hv) (g := 0)
    (fun u hu w hw => by rw [opW_top _ _ hu hw, zero_mul]) (fun p hp u hu w hw => opW_high _ _ hu hw hp) h2 (e := 0)
    (fun u hu v hv => by
      have := opW_rel (2 : Polynomial ℚ) 0 (Or.inr rfl) hu hv (d := 2 * r) (by omega) (by omega)
      rw [mul_zero, ite_self]
      exact this)
  refine relation_B h1 (v := fun i => ev ((ringOG a k h.le).Y.prod (Finsupp.single (rowS (r + i)) 1) (Finsupp.single (rowS (r - i)) 1))) ?_
  have h3 := relation_ev key
  simp only [Nat.add_zero, Nat.sub_zero]
  rw [h3]
  simp

/-- `OG(2,7)`, `r = 2`: `S[2]^2 - S[3]*S[1] + S[4]*S[0] = 0` -/
example : (Space.mk .B 1 3).mult 45 (Poly.sym (.S [2])) (Poly.sym (.S [2])) = .ok [([.S [4]], 1), ([.S [3, 1]], 1)] ∧
    (Space.mk .B 1 3).mult 45 (Poly.sym (.S [3])) (Poly.sym (.S [1])) = .ok [([.S [4]], 2), ([.S [3, 1]], 1)] := by
  decide +kernel

/-- **C92**, quantum, type B. In the quantum ring of `OG(m, 2n+1)` the same relations hold for `r < n + k`, and `S[n+k]^2 = q^2`
(`q` for `k = 0`). -/
theorem C92_OG_quantum (ord : List Int → List Int) {m n : Int} (hm : 0 < m) (hmn : m ≤ n) {X : Space}
    (hX : mkOG m (2 * n + 1) = .ok X) {fuel : ℕ}
    (hf : giamBoundBC m n ≤ fuel) {r k K : ℕ} (hk : (k : Int) = n - m) (hK : (K : Int) = 2 * n - m) (h1 : k < r) (h2 : r ≤ K) :
    ∃ v : ℕ → P, (∀ i ≤ r, r + i ≤ K →
        Returns (X.qmult ord fuel (Poly.sym (.S (rowS (r + i)))) (Poly.sym (.S (rowS (r - i))))) (v i)) ∧
      v 0 + ∑ i ∈ (Finset.Icc 1 r).filter (fun i => r + i ≤ K), (-1) ^ i * ((if r - i ≤ k then 1 else 2) * v i) =
        if r = K then MvPolynomial.X .q ^ (if k = 0 then 1 else 2) * MvPolynomial.X (.S []) else 0 := by
  obtain ⟨a, b, h, rfl, rfl, rfl⟩ := ogCase' hm hmn hX
  rw [giamBoundBC_eq h.le] at hf
  obtain rfl : k = b := by omega
  obtain rfl : K = a + k := by omega
  refine ⟨fun i => ev ((ringQOG ord a k h).Y.prod (Finsupp.single (rowS (r + i)) 1) (Finsupp.single (rowS (r - i)) 1)),
    fun i hi hi' => mult_rows h (ringQOG ord a k h) hf hi' (by omega), ?_⟩
  have hh : (if k = 0 then Polynomial.X else Polynomial.X ^ 2 : Polynomial ℚ) = Polynomial.X ^ 2 ∨ k = 0 := by
    by_cases h0 : k = 0
    · exact Or.inr h0
    · exact Or.inl (if_neg h0)
  have key := relation_BC h (ringQOG ord a k h)
    (fun p u w => (opQ (Polynomial.C (2 : Polynomial ℚ)) (Polynomial.C Polynomial.X)
      (Polynomial.C (if k = 0 then Polynomial.X else Polynomial.X ^ 2)) Polynomial.X u w).coeff p) (cfB k)
    (by simp [cfB]) (fun u hu w hw => opQ_zero _ _ _ (by rw [mem_Wd] at hu hw; omega))
    (fun p l _ _ => tM_scale (M := MQB k) (fun u w => by
      unfold MQB
      rw [← mul_assoc, cfB_scB, one_mul]) l)
    (fun c d u hu v hv => coeffQ_comm _ _ _ c d hh hu hv) (g := 0)
    (fun u hu w hw => by rw [opQ_high _ _ _ hu hw (by omega), ite_self]) (fun p hp u hu w hw => opQ_high _ _ _ hu hw (by omega)) h2
    (e := if r = a + k then (if k = 0 then Polynomial.X else Polynomial.X ^ 2) * 2 ^ 2 else 0)
    (fun u hu v hv => by
      have := opQ_rel (2 : Polynomial ℚ) Polynomial.X (if k = 0 then Polynomial.X else Polynomial.X ^ 2) (Or.inr rfl) hh (by omega) hu hv
        (d := 2 * r) (by omega)
      rw [this]
      by_cases h3 : r = a + k
      · subst h3
        simp
      · rw [if_neg h3, mul_zero, ite_self, if_neg]
        rintro ⟨h4, -⟩
        omega)
  refine relation_B h1 (v := fun i => ev ((ringQOG ord a k h).Y.prod (Finsupp.single (rowS (r + i)) 1) (Finsupp.single (rowS (r - i)) 1))) ?_
  have h3 := relation_ev key
  simp only [Nat.add_zero, Nat.sub_zero]
  rw [h3]
  by_cases h4 : r = a + k
  · rw [if_pos h4, if_pos h4]
    by_cases h0 : k = 0
    · simp only [h0, if_true, if_false, zero_mul, Finsupp.single_zero, smul_zero, ite_self, sub_zero, ev_single, inq, map_mul, map_pow, Polynomial.aeval_X, map_ofNat]
      ring
    · simp only [h0, if_true, if_false, zero_mul, Finsupp.single_zero, smul_zero, ite_self, sub_zero, ev_single, inq, map_mul, map_pow, Polynomial.aeval_X, map_ofNat]
      ring
  · simp [h4]

/-! ### examples -/

/-- IG(2,8), `k = 2`, `K = 6`, `r = 4`: `S[4]^2 - 2*S[5]*S[3] + 2*S[6]*S[2] = q*S[1]`. -/
example : (do let X ← mkIG 2 8; X.qmult id 60 (Poly.sym (.S [4])) (Poly.sym (.S [4]))) =
      .ok [([.S [5, 3]], 2), ([.S [6, 2]], 2), ([.q, .S [1]], 1)] ∧
    (do let X ← mkIG 2 8; X.qmult id 60 (Poly.sym (.S [5])) (Poly.sym (.S [3]))) =
      .ok [([.S [5, 3]], 1), ([.S [6, 2]], 2), ([.q, .S [1]], 1)] ∧
    (do let X ← mkIG 2 8; X.qmult id 60 (Poly.sym (.S [6])) (Poly.sym (.S [2]))) = .ok [([.S [6, 2]], 1), ([.q, .S [1]], 1)] := by
  refine ⟨?_, ?_, ?_⟩ <;> decide +kernel

/-- OG(2,7), `k = 1`, `K = 4`: `S[2]^2 - S[3]*S[1] + S[4] = 0`, `S[3]^2 - 2*S[4]*S[2] = 0` and `S[4]^2 = q^2`. -/
example : (do let X ← mkOG 2 7; X.qmult id 60 (Poly.sym (.S [2])) (Poly.sym (.S [2]))) = .ok [([.S [4]], 1), ([.S [3, 1]], 1)] ∧
    (do let X ← mkOG 2 7; X.qmult id 60 (Poly.sym (.S [3])) (Poly.sym (.S [1]))) = .ok [([.S [4]], 2), ([.S [3, 1]], 1)] ∧
    (do let X ← mkOG 2 7; X.qmult id 60 (Poly.sym (.S [3])) (Poly.sym (.S [3]))) = .ok [([.S [4, 2]], 2)] ∧
    (do let X ← mkOG 2 7; X.qmult id 60 (Poly.sym (.S [4])) (Poly.sym (.S [2]))) = .ok [([.S [4, 2]], 1)] ∧
    (do let X ← mkOG 2 7; X.qmult id 60 (Poly.sym (.S [4])) (Poly.sym (.S [4]))) = .ok [([.q, .q, .S []], 1)] := by
  refine ⟨?_, ?_, ?_, ?_, ?_⟩ <;> decide +kernel

/-- OG(3,7), `k = 0`: `S[3]^2 = q`. -/
example : (do let X ← mkOG 3 7; X.qmult id 60 (Poly.sym (.S [3])) (Poly.sym (.S [3]))) = .ok [([.q, .S []], 1)] := by decide +kernel

end Verif
