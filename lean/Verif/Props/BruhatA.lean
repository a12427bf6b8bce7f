import Verif.Proofs.BruhatA
import Verif.Props.Symm
/-!
# C143: which products of two classes of Gr(m,n) vanish
-/

namespace Verif
open Spec

/-- **C143.** The product of two classes `S[l]`, `S[mu]` of `Gr(m,n)` is not zero exactly if `l` is inside the dual of `mu`, that is, if
`l` and `mu` turned by 180 degrees do not overlap in the rectangle. Every class of the product contains both factors. -/
theorem C143_vanishing {m : ℕ} {n : ℤ} {X : Space} (hm : 1 ≤ m) (hX : mkGr m n = .ok X) {fuel : ℕ} (hf : giamBound m n ≤ fuel)
    {l mu : List Int} (hl : GrClass m n l) (hmu : GrClass m n mu) :
    ∃ w mu', Gr.mult X fuel (Poly.sym (.S l)) (Poly.sym (.S mu)) = .ok w ∧ X.dualize mu = .ok mu' ∧ (w ≠ [] ↔ Inside l mu') ∧
      (w ≠ [] ↔ ∀ i < m, part l i + part mu (m - 1 - i) ≤ n - m) ∧
      ∀ nu, coeffOf [.S nu] w ≠ 0 → GrClass m n nu ∧ Inside l nu ∧ Inside mu nu := by
  cases m with
  | zero => omega
  | succ m =>
    obtain ⟨e, h1, h2⟩ := mkGr_ok hX
    have hk : (0 : ℤ) ≤ n - (m + 1 : ℕ) := by omega
    have hd := dualize_dualC hX hmu
    have hp : ((ringC hm hX).on.Y.prod (Finsupp.single l 1) (Finsupp.single mu 1) ≠ 0 ↔ Inside l (dualC m (n - (m + 1 : ℕ)) mu)) ∧
        ∀ nu, (ringC hm hX).on.Y.prod (Finsupp.single l 1) (Finsupp.single mu 1) nu ≠ 0 →
          clsA (m + 1) (n - (m + 1 : ℕ)) nu ∧ Inside l nu ∧ Inside mu nu := by
      subst e
      have e1 : ∀ p, (ringC hm hX).on.Y.t p = tc m (n - (m + 1 : ℕ)) p.toNat := fun _ => rfl
      generalize (ringC hm hX).on.Y = Y at e1 ⊢
      exact bruhatA_prod hk Y e1 hl hmu
    generalize (ringC hm hX).on = R at hp
    have hs : ∀ l : List Int, den (Poly.sym (.S l)) = ev (Finsupp.single l 1) := by
      intro l
      rw [den_sym, ev_single]
      simp [inq]
    obtain ⟨w, g1, g2, g3⟩ := R.mult hf (wf_sym _) (hs l) (supp_single hl 1) (wf_sym _) (hs mu) (supp_single hmu 1)
    have g4 : w ≠ [] ↔ Inside l (dualC m (n - (m + 1 : ℕ)) mu) := by
      rw [← hp.1, Ne, Ne, not_iff_not]
      constructor
      · intro h
        rw [h] at g3
        ext nu d
        have := congrArg (MvPolynomial.coeff (expo (List.replicate d Sym.q ++ [.S nu]))) g3
        rw [expo_qmono, coeff_ev] at this
        rw [← this]
        simp [den]
      · intro h
        rw [h, map_zero] at g3
        have := perm_of_den_eq g2 (r := []) ⟨by simp, by simp⟩ (by rw [g3]; simp [den])
        exact List.perm_nil.1 this
    refine ⟨w, _, g1, hd, g4, g4.trans ?_, fun nu h => hp.2 nu (fun h0 => h ?_)⟩
    · obtain ⟨l', d1, d2, d3, d4, _, _⟩ := C12_dualize_A _ _ X hX mu hmu.1 (by simpa using hmu.2)
      rw [hd] at d1
      obtain rfl := Except.ok.inj d1
      simp only [Int.toNat_natCast] at d4
      constructor
      · intro h i hi
        have a1 := h i
        rw [d4 i hi] at a1
        omega
      · intro h i
        by_cases hi : i < m + 1
        · have a1 := h i hi
          rw [d4 i hi]
          omega
        · rw [part_of_ge (l := l) (by have := hl.2.1; omega)]
          exact d2.isPartition.part_nonneg i
    · have := coeffOf_den g2 (qmono_sorted 0 nu)
      rw [g3, expo_qmono, coeff_ev, h0] at this
      simpa using this

/-- on `Gr(2,5)`: `S[2,1] * S[2,1]` does not vanish, `S[2,2] * S[2]` does although its codimension 6 is that of the point -/
example : mkGr 2 5 = .ok ⟨.A, 3, 5⟩ ∧ giamBound 2 5 ≤ 28 ∧ (Space.mk .A 3 5).dualize [2, 1] = .ok [2, 1] ∧
    Gr.mult ⟨.A, 3, 5⟩ 28 (Poly.sym (.S [2, 1])) (Poly.sym (.S [2, 1])) = .ok [([.S [3, 3]], 1)] ∧
    (Space.mk .A 3 5).dualize [2] = .ok [3, 1] ∧ Gr.mult ⟨.A, 3, 5⟩ 28 (Poly.sym (.S [2, 2])) (Poly.sym (.S [2])) = .ok [] ∧
    ¬ Inside [2, 2] [3, 1] := by
  refine ⟨by decide, by decide +kernel, by decide +kernel, by decide +kernel, by decide +kernel, by decide +kernel, fun h => ?_⟩
  exact absurd (h 1) (by decide)

end Verif
