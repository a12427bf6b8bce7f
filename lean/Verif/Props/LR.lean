import Verif.Proofs.LR
import Mathlib.Algebra.Polynomial.Lifts
/-!
# C76, C77: the Littlewood-Richardson rule and positivity on Gr(m,n)
-/

namespace Verif
open Spec SchurSym Cyl Alt

/-- The classical product of two classes, coefficient by coefficient. -/
theorem lr_prod {m K : ℕ} {n : ℤ} (hn : n = m + 1 + K) {l mu nu : List Int} (hl : clsA (m + 1) K l) (hmu : clsA (m + 1) K mu)
    (hnu : clsA (m + 1) K nu) :
    ∃ F : Finset (List (List ℕ)), (∀ T, T ∈ F ↔ LRTableau (m + 1) l mu nu T) ∧
      (sysC m (Int.natCast_nonneg K) hn).prod (Finsupp.single l 1) (Finsupp.single mu 1) nu = (F.card : Polynomial ℚ) := by
  obtain ⟨F, h1, h2⟩ := LR.lr_coeff (m := m) hl.1.isPartition hmu.1.isPartition hnu.1.isPartition
  refine ⟨F, h1, ?_⟩
  rw [← h2]
  have h3 := Psi_prod hn hl hmu (spol_stair hl)
  have h4 := coeff_altP_J (bt_lt (boxV_vec (m := m) (Int.natCast_nonneg K) hnu)) h3
  rw [MvPolynomial.coeff_sub, coeff_Psi ((sysC m (Int.natCast_nonneg K) hn).prod_support _ (clsA_single hmu)) hnu, sub_eq_zero] at h4
  rw [h4, ← spol_stair hmu, ← spol_stair hl]
  congr 1
  ring

/-- C76: the coefficient of `S[nu]` in the classical product of `S[l]` and `S[mu]` on `Gr(m,n)` is the number of
Littlewood-Richardson tableaux, and no power of `q` occurs. -/
theorem C76_littlewood_richardson {m : ℕ} {n : ℤ} {X : Space} (hm : 1 ≤ m) (hX : mkGr m n = .ok X) {fuel : ℕ}
    (hf : giamBound m n ≤ fuel) {l mu : List Int} (hl : GrClass m n l) (hmu : GrClass m n mu) :
    ∃ w, Gr.mult X fuel (Poly.sym (.S l)) (Poly.sym (.S mu)) = .ok w ∧ LinComb (GrClass m n) w ∧
      ∀ nu, GrClass m n nu → (∃ F : Finset (List (List ℕ)), (∀ T, T ∈ F ↔ LRTableau m l mu nu T) ∧
        coeffOf [.S nu] w = F.card) ∧ ∀ d : ℕ, 1 ≤ d → coeffOf (List.replicate d Sym.q ++ [.S nu]) w = 0 := by
  have hX' := hX
  obtain ⟨rfl, h1, h2⟩ := mkGr_ok hX
  have hsing : ∀ {l}, GrClass m n l → ∀ a ∈ (Finsupp.single l (1 : Polynomial ℚ)).support, GrClass m n a := by
    intro l hl a ha
    rw [Finset.mem_singleton.1 (Finsupp.support_single_subset ha)]
    exact hl
  obtain ⟨w, hw, hw1, hw2⟩ := (ringC hm hX').mult hf (wf_sym (.S l)) (x := Finsupp.single l 1) (by simp [inq])
    (hsing hl) (wf_sym (.S mu)) (y := Finsupp.single mu 1) (by simp [inq]) (hsing hmu)
  cases m with
  | zero => omega
  | succ m =>
    obtain ⟨k, hk⟩ : ∃ k : ℕ, (k : ℤ) = n - (m + 1 : ℕ) := ⟨(n - (m + 1 : ℕ)).toNat, by omega⟩
    have hcl : ∀ {l}, GrClass (m + 1) n l → clsA (m + 1) k l := fun h => by rw [hk]; exact h
    have hcl' : ∀ {l}, clsA (m + 1) k l → GrClass (m + 1) n l := fun h => by rw [hk] at h; exact h
    have hn : n = m + 1 + k := by rw [hk]; push_cast; ring
    rw [ringC_prod hm hX' hn] at hw2
    have hsup := (sysC m (Int.natCast_nonneg k) hn).prod_support (Finsupp.single l 1) (clsA_single (hcl hmu))
    refine ⟨w, hw, linComb_of_ev hw1 hw2 (fun l hl => hcl' (hsup l hl)), fun nu hnu => ?_⟩
    obtain ⟨F, hF, he⟩ := lr_prod hn (hcl hl) (hcl hmu) (hcl hnu)
    have key : ∀ d : ℕ, coeffOf (List.replicate d Sym.q ++ [.S nu]) w = (F.card : Polynomial ℚ).coeff d := by
      intro d
      rw [coeffOf_den hw1 (qmono_sorted d _), hw2, expo_qmono, coeff_ev, he]
    refine ⟨⟨F, hF, ?_⟩, fun d hd => ?_⟩
    · have := key 0
      simpa using this
    · rw [key d, Polynomial.coeff_natCast_ite, if_neg (by omega)]
      rfl

/-! ### positivity -/

/-- The coefficients are natural numbers. -/
def NatCoeffs (p : Poly) : Prop := ∀ t ∈ p, ∃ c : ℕ, t.2 = c

theorem natCoeffs_iff {p : Poly} {x : LMod} {cls : List Int → Prop} (hp : LinComb cls p) (hx : den p = ev x) :
    NatCoeffs p ↔ ∀ l, x l ∈ Polynomial.lifts (Nat.castRingHom ℚ) := by
  constructor
  · intro h l
    rw [Polynomial.lifts_iff_coeff_lifts]
    intro d
    have h1 : coeffOf (List.replicate d Sym.q ++ [.S l]) p = (x l).coeff d := by
      rw [coeffOf_den hp.1 (qmono_sorted d _), hx, expo_qmono, coeff_ev]
    rw [← h1]
    by_cases hm : (List.replicate d Sym.q ++ [.S l]) ∈ p.map Prod.fst
    · obtain ⟨t, ht, he⟩ := List.mem_map.1 hm
      obtain ⟨c, hc⟩ := h t ht
      refine ⟨c, ?_⟩
      rw [coeffOf_den hp.1 (qmono_sorted d _), ← he, coeff_den_mem hp.1 (c := t.2) ht, hc]
      simp
    · refine ⟨0, ?_⟩
      rw [coeffOf_den hp.1 (qmono_sorted d _), coeff_den_not_mem hp.1 (qmono_sorted d _) hm]
      simp
  · intro h t ht
    obtain ⟨d, l, he, -⟩ := hp.2 t ht
    have h1 := h l
    rw [Polynomial.lifts_iff_coeff_lifts] at h1
    obtain ⟨c, hc⟩ := h1 d
    refine ⟨c, ?_⟩
    rw [← coeff_ev, ← expo_qmono, ← hx, ← he, coeff_den_mem hp.1 (c := t.2) ht] at hc
    rw [← hc]
    simp

/-- C77: the classical product of combinations of classes of `Gr(m,n)` with natural coefficients has natural coefficients. -/
theorem C77_positive {m : ℕ} {n : ℤ} {X : Space} (hm : 1 ≤ m) (hX : mkGr m n = .ok X) {fuel : ℕ} (hf : giamBound m n ≤ fuel)
    {a b : Poly} (ha : LinComb (GrClass m n) a) (hb : LinComb (GrClass m n) b) (hna : NatCoeffs a) (hnb : NatCoeffs b) :
    ∃ w, Gr.mult X fuel a b = .ok w ∧ LinComb (GrClass m n) w ∧ NatCoeffs w := by
  obtain ⟨u, hu, huc⟩ := linComb_ev ha.2
  obtain ⟨v, hv, hvc⟩ := linComb_ev hb.2
  rw [natCoeffs_iff ha hu] at hna
  rw [natCoeffs_iff hb hv] at hnb
  have hX' := hX
  obtain ⟨rfl, h1, h2⟩ := mkGr_ok hX
  obtain ⟨w, hw, hw1, hw2⟩ := (ringC hm hX').mult hf ha.1 hu huc hb.1 hv hvc
  cases m with
  | zero => omega
  | succ m =>
    obtain ⟨k, hk⟩ : ∃ k : ℕ, (k : ℤ) = n - (m + 1 : ℕ) := ⟨(n - (m + 1 : ℕ)).toNat, by omega⟩
    have hcl : ∀ {l}, GrClass (m + 1) n l → clsA (m + 1) k l := fun h => by rw [hk]; exact h
    have hcl' : ∀ {l}, clsA (m + 1) k l → GrClass (m + 1) n l := fun h => by rw [hk] at h; exact h
    have hn : n = m + 1 + k := by rw [hk]; push_cast; ring
    rw [ringC_prod hm hX' hn] at hw2
    have hsup := (sysC m (Int.natCast_nonneg k) hn).prod_support u (fun l hl => hcl (hvc l hl))
    have hlc := linComb_of_ev hw1 hw2 (fun l hl => hcl' (hsup l hl))
    refine ⟨w, hw, hlc, (natCoeffs_iff hlc hw2).2 (fun nu => ?_)⟩
    by_cases hnu : nu ∈ ((sysC m (Int.natCast_nonneg k) hn).prod u v).support
    · have hcnu := hsup nu hnu
      rw [(sysC m (Int.natCast_nonneg k) hn).prod_expand (fun l hl => hcl (huc l hl)) (fun l hl => hcl (hvc l hl)),
        Finsupp.finsetSum_apply]
      refine sum_mem (fun mu hmu => ?_)
      rw [Finsupp.finsetSum_apply]
      refine sum_mem (fun l hl => ?_)
      obtain ⟨F, -, he⟩ := lr_prod hn (hcl (huc l hl)) (hcl (hvc mu hmu)) hcnu
      rw [Finsupp.smul_apply, he, smul_eq_mul]
      exact mul_mem (mul_mem (hnb mu) (hna l)) (natCast_mem _ _)
    · rw [Finsupp.notMem_support_iff.1 hnu]
      exact zero_mem _

/-! ### examples -/

/-- `S[2,1] * S[2,1]` on `Gr(3,6)` contains `S[3,2,1]` twice. -/
example : (Gr.mult ⟨.A, 3, 6⟩ 40 (Poly.sym (.S [2, 1])) (Poly.sym (.S [2, 1]))).toOption.map (coeffOf [.S [3, 2, 1]]) = some 2 := by
  decide +kernel

theorem lr_example {a b : ℕ} (h : a = 2 ∧ b = 3 ∨ a = 3 ∧ b = 2) : LRTableau 3 [2, 1] [2, 1] [3, 2, 1] [[1, a], [b]] := by
  have hrow : ∀ i, row [[1, a], [b]] (i + 2) = [] := fun i => by simp [row]
  have hpart : ∀ i, part [2, 1] (i + 2) = 0 := fun i => by simp [part]
  refine ⟨⟨rfl, fun i => ?_, fun i => ?_, fun i e he => ?_, fun i j hj => ?_⟩, fun c i hi => ?_, fun i hi => ?_⟩
  · rcases i with _ | _ | i
    · simp [row, part]
    · simp [row, part]
    · rw [hrow, hpart]; rfl
  · rcases i with _ | _ | i
    · simp [row]; omega
    · simp [row]
    · rw [hrow]; simp
  · rcases i with _ | _ | i
    · simp [row] at he; omega
    · simp [row] at he; omega
    · rw [hrow] at he; simp at he
  · rcases i with _ | i
    · have : j = 0 := by simpa [row] using hj
      subst this
      simp [entry, row]; omega
    · rw [hrow] at hj; simp at hj
  · have h2 : i = 0 ∨ i = 1 := by omega
    rcases h with ⟨rfl, rfl⟩ | ⟨rfl, rfl⟩ <;> rcases h2 with rfl | rfl <;> rcases c with _ | _ | c <;>
      simp [colContent, part]
  · have h2 : i = 0 ∨ i = 1 ∨ i = 2 := by omega
    rcases h with ⟨rfl, rfl⟩ | ⟨rfl, rfl⟩ <;> rcases h2 with rfl | rfl | rfl <;> simp [colContent, part]

/-- The two tableaux. -/
example : LRTableau 3 [2, 1] [2, 1] [3, 2, 1] [[1, 2], [3]] ∧ LRTableau 3 [2, 1] [2, 1] [3, 2, 1] [[1, 3], [2]] :=
  ⟨lr_example (by decide), lr_example (by decide)⟩

/-- A tableau that does not count: starting from the empty shape the column content `(0, 0, 1)` is not decreasing. -/
example : ¬ LRTableau 3 [] [2, 1] [1, 1, 1] [[1, 3], [2]] := fun h => by
  have := h.2.1 1 1 (by decide)
  simp [colContent, part] at this

example : NatCoeffs (Poly.sym (.S [2, 1])) := fun t ht => ⟨1, by simp [Poly.sym] at ht; simp [ht]⟩

end Verif
