import Verif.Proofs.PowersQ
import Verif.Props.BruhatQ
/-!
# C145: the powers of q in the quantum products of Gr(m,n)
-/

namespace Verif
open Spec

theorem powersQ_mult {m : ℕ} {n : ℤ} {X : Space} (hm : 1 ≤ m + 1) (hX : mkGr (m + 1 : ℕ) n = .ok X) {fuel : ℕ} (hf : giamBound (m + 1) n ≤ fuel)
    {l mu : List Int} (hl : GrClass (m + 1) n l) (hmu : GrClass (m + 1) n mu) :
    ∃ w, Gr.qmult X fuel (Poly.sym (.S l)) (Poly.sym (.S mu)) = .ok w ∧ ∀ d,
      (∃ nu, coeffOf (List.replicate d .q ++ [.S nu]) w ≠ 0) ↔
        vec m l ≤ (unrot (n - (m + 1 : ℕ)))^[d] (vec m (dualC m (n - (m + 1 : ℕ)) mu)) ∧
        (unrot (n - (m + 1 : ℕ)))^[d] (vec m (dualC m (n - (m + 1 : ℕ)) mu)) ≤ (Cyl.sh (n - (m + 1 : ℕ)))^[m + 1] (vec m l) := by
  obtain ⟨e, h1, h2⟩ := mkGr_ok hX
  have hk : (0 : ℤ) ≤ n - (m + 1 : ℕ) := by omega
  have hp : ∀ d, (∃ nu, ((ringQ hm hX).on.Y.prod (Finsupp.single l 1) (Finsupp.single mu 1) nu).coeff d ≠ 0) ↔
        vec m l ≤ (unrot (n - (m + 1 : ℕ)))^[d] (vec m (dualC m (n - (m + 1 : ℕ)) mu)) ∧
        (unrot (n - (m + 1 : ℕ)))^[d] (vec m (dualC m (n - (m + 1 : ℕ)) mu)) ≤ (Cyl.sh (n - (m + 1 : ℕ)))^[m + 1] (vec m l) := by
    subst e
    have e1 : ∀ p, (ringQ hm hX).on.Y.t p = tq m (n - (m + 1 : ℕ)) p.toNat := fun _ => rfl
    generalize (ringQ hm hX).on.Y = Y at e1 ⊢
    exact powers_iff hk Y e1 hl hmu
  generalize (ringQ hm hX).on = R at hp
  have hs : ∀ l : List Int, den (Poly.sym (.S l)) = ev (Finsupp.single l 1) := by
    intro l
    rw [den_sym, ev_single]
    simp [inq]
  obtain ⟨w, g1, g2, g3⟩ := R.mult hf (wf_sym _) (hs l) (supp_single hl 1) (wf_sym _) (hs mu) (supp_single hmu 1)
  have hc : ∀ d nu, coeffOf (List.replicate d .q ++ [.S nu]) w =
      (R.Y.prod (Finsupp.single l 1) (Finsupp.single mu 1) nu).coeff d := by
    intro d nu
    have := coeffOf_den g2 (qmono_sorted d nu)
    rw [g3, expo_qmono, coeff_ev] at this
    exact this
  refine ⟨w, g1, fun d => ?_⟩
  rw [← hp d]
  simp only [hc]

/-- **C145.** The powers of `q` in the quantum product of two classes of `Gr(m,n)`: `q^d` occurs exactly if `d ≤ m`,
`d ≤ l_i + mu_j ≤ n-m+d` for rows with `i + j = m-1+d`, and `n-m+d ≤ l_i + mu_j` for rows with `i + j = d-1` (rows counted from 0). -/
theorem C145_powers {m : ℕ} {n : ℤ} {X : Space} (hm : 1 ≤ m) (hX : mkGr m n = .ok X) {fuel : ℕ} (hf : giamBound m n ≤ fuel)
    {l mu : List Int} (hl : GrClass m n l) (hmu : GrClass m n mu) :
    ∃ w, Gr.qmult X fuel (Poly.sym (.S l)) (Poly.sym (.S mu)) = .ok w ∧ ∀ d : ℕ,
      (∃ nu, coeffOf (List.replicate d .q ++ [.S nu]) w ≠ 0) ↔
        d ≤ m ∧ (∀ i j, i < m → j < m → i + j + 1 = m + d → d ≤ part l i + part mu j ∧ part l i + part mu j ≤ n - m + d) ∧
        ∀ i j, i + j + 1 = d → n - m + d ≤ part l i + part mu j := by
  cases m with
  | zero => omega
  | succ m =>
    obtain ⟨w, g1, g2⟩ := powersQ_mult hm hX hf hl hmu
    obtain ⟨e, h1, h2⟩ := mkGr_ok hX
    have hk : (0 : ℤ) ≤ n - (m + 1 : ℕ) := by omega
    refine ⟨w, g1, fun d => (g2 d).trans ?_⟩
    have hcd := clsA_dual hk hmu
    have hdp : ∀ i, i < m + 1 → part (dualC m (n - (m + 1 : ℕ)) mu) i = n - (m + 1 : ℕ) - part mu (m - i) := by
      intro i hi
      have e1 : part (dualC m (n - (m + 1 : ℕ)) mu) (⟨i, hi⟩ : Fin (m + 1)).1 = _ := part_lab_lt _ _
      rw [e1]
      simp only [dualV, vec, Fin.val_rev]
      rw [show m + 1 - (i + 1) = m - i by omega]
    have hb := boxV_vec hk hl
    have hbm := boxV_vec hk hmu
    constructor
    · rintro ⟨a1, a2⟩
      have hd := upTo_rows hk hl hcd a2
      refine ⟨hd, fun i j hi hj hij => ?_, fun i j hij => ?_⟩
      · have b1 := a1 ⟨i, hi⟩
        have b2 := a2 ⟨i, hi⟩
        rw [unrotN_vec _ hd, if_pos (show d ≤ i by omega), hdp _ (show i - d < m + 1 by omega), show m - (i - d) = j by omega] at b1 b2
        rw [shN_full] at b2
        have b3 : part l i ≤ n - (m + 1 : ℕ) - part mu j + d := b1
        have b4 : n - (m + 1 : ℕ) - part mu j + d ≤ part l i + (n - (m + 1 : ℕ)) := b2
        omega
      · have b2 := a2 ⟨i, by omega⟩
        rw [unrotN_vec _ hd, if_neg (show ¬ d ≤ i by omega), hdp _ (show m + 1 + i - d < m + 1 by omega),
          show m - (m + 1 + i - d) = j by omega, shN_full] at b2
        have b4 : n - (m + 1 : ℕ) - part mu j + d + (n - (m + 1 : ℕ)) ≤ part l i + (n - (m + 1 : ℕ)) := b2
        omega
    · rintro ⟨hd, a1, a2⟩
      constructor
      · intro i
        rw [unrotN_vec _ hd]
        by_cases hi : d ≤ i.1
        · rw [if_pos hi, hdp _ (by omega)]
          have := (a1 i.1 (m - (i.1 - d)) i.2 (by omega) (by omega)).2
          show part l i.1 ≤ n - (m + 1 : ℕ) - part mu (m - (i.1 - d)) + d
          omega
        · rw [if_neg hi]
          have := hb.le i
          have := hcd.1.isPartition.part_nonneg (m + 1 + i.1 - d)
          show vec m l i ≤ part (dualC m (n - (m + 1 : ℕ)) mu) (m + 1 + i.1 - d) + d + (n - (m + 1 : ℕ))
          omega
      · intro i
        rw [unrotN_vec _ hd, shN_full]
        by_cases hi : d ≤ i.1
        · rw [if_pos hi, hdp _ (by omega)]
          have := (a1 i.1 (m - (i.1 - d)) i.2 (by omega) (by omega)).1
          show n - (m + 1 : ℕ) - part mu (m - (i.1 - d)) + d ≤ part l i.1 + (n - (m + 1 : ℕ))
          omega
        · rw [if_neg hi, hdp _ (by omega)]
          have := a2 i.1 (m - (m + 1 + i.1 - d)) (by omega)
          show n - (m + 1 : ℕ) - part mu (m - (m + 1 + i.1 - d)) + d + (n - (m + 1 : ℕ)) ≤ part l i.1 + (n - (m + 1 : ℕ))
          omega

/-- **C145.** The powers of `q` in the quantum product of two classes have no gaps. -/
theorem C145_no_gaps {m : ℕ} {n : ℤ} {X : Space} (hm : 1 ≤ m) (hX : mkGr m n = .ok X) {fuel : ℕ} (hf : giamBound m n ≤ fuel)
    {l mu : List Int} (hl : GrClass m n l) (hmu : GrClass m n mu) :
    ∃ w, Gr.qmult X fuel (Poly.sym (.S l)) (Poly.sym (.S mu)) = .ok w ∧ ∀ a d b : ℕ, a ≤ d → d ≤ b →
      (∃ nu, coeffOf (List.replicate a .q ++ [.S nu]) w ≠ 0) → (∃ nu, coeffOf (List.replicate b .q ++ [.S nu]) w ≠ 0) →
      ∃ nu, coeffOf (List.replicate d .q ++ [.S nu]) w ≠ 0 := by
  cases m with
  | zero => omega
  | succ m =>
    obtain ⟨w, g1, g2⟩ := powersQ_mult hm hX hf hl hmu
    obtain ⟨e, h1, h2⟩ := mkGr_ok hX
    have hk : (0 : ℤ) ≤ n - (m + 1 : ℕ) := by omega
    refine ⟨w, g1, fun a d b hab hdb ha hb => ?_⟩
    rw [g2] at ha hb ⊢
    have hB := boxV_vec hk (clsA_dual hk hmu)
    exact ⟨ha.1.trans (unrotN_le hk hB hab), (unrotN_le hk hB hdb).trans hb.2⟩

/-- on `Gr(2,5)`: `S[2,1]*S[2,1] = S[3,3] + q*S[1]` has the powers 0 and 1, the square of the point `S[3,3]` only the power 2 -/
example : mkGr 2 5 = .ok ⟨.A, 3, 5⟩ ∧ giamBound 2 5 ≤ 28 ∧
    Gr.qmult ⟨.A, 3, 5⟩ 28 (Poly.sym (.S [2, 1])) (Poly.sym (.S [2, 1])) = .ok [([.q, .S [1]], 1), ([.S [3, 3]], 1)] ∧
    Gr.qmult ⟨.A, 3, 5⟩ 28 (Poly.sym (.S [3, 3])) (Poly.sym (.S [3, 3])) = .ok [([.q, .q, .S [1, 1]], 1)] ∧
    (∀ i < 2, ∀ j < 2, i + j + 1 = 2 + 2 → (2 : ℤ) ≤ part [3, 3] i + part [3, 3] j ∧ part [3, 3] i + part [3, 3] j ≤ 5 - 2 + 2) ∧
    (∀ i < 2, ∀ j < 2, i + j + 1 = 2 → 5 - 2 + 2 ≤ part [3, 3] i + part [3, 3] j) ∧
    ¬ (∀ i < 2, ∀ j < 2, i + j + 1 = 2 + 1 → part [3, 3] i + part [3, 3] j ≤ 5 - 2 + 1) := by
  refine ⟨by decide, by decide +kernel, by decide +kernel, by decide +kernel, by decide, by decide, by decide⟩

end Verif
