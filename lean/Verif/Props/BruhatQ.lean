import Verif.Proofs.BruhatQ
import Verif.Props.BruhatA
/-!
# C144: the smallest power of q in the quantum products of Gr(m,n)
-/

namespace Verif
open Spec

/-- **C144.** The quantum product of two classes `S[l]`, `S[mu]` of `Gr(m,n)` has a term with `q^e` for some `e` up to `d` exactly if `l` without
its first `d` rows and `d` columns is inside the dual of `mu`. If `q^d*S[nu]` occurs, then `l` and `mu` without `d` rows and `d` columns are inside
`nu`. -/
theorem C144_smallest_power {m : ℕ} {n : ℤ} {X : Space} (hm : 1 ≤ m) (hX : mkGr m n = .ok X) {fuel : ℕ} (hf : giamBound m n ≤ fuel)
    {l mu : List Int} (hl : GrClass m n l) (hmu : GrClass m n mu) :
    ∃ w mu', Gr.qmult X fuel (Poly.sym (.S l)) (Poly.sym (.S mu)) = .ok w ∧ X.dualize mu = .ok mu' ∧
      (∀ d, (∃ e ≤ d, ∃ nu, coeffOf (List.replicate e .q ++ [.S nu]) w ≠ 0) ↔ InsideQ d l mu') ∧
      ∀ d nu, coeffOf (List.replicate d .q ++ [.S nu]) w ≠ 0 → GrClass m n nu ∧ InsideQ d l nu ∧ InsideQ d mu nu := by
  cases m with
  | zero => omega
  | succ m =>
    obtain ⟨e, h1, h2⟩ := mkGr_ok hX
    have hk : (0 : ℤ) ≤ n - (m + 1 : ℕ) := by omega
    have hd := dualize_dualC hX hmu
    have hp : (∀ d, (∃ e ≤ d, ∃ nu, ((ringQ hm hX).on.Y.prod (Finsupp.single l 1) (Finsupp.single mu 1) nu).coeff e ≠ 0) ↔
          InsideQ d l (dualC m (n - (m + 1 : ℕ)) mu)) ∧
        ∀ d nu, ((ringQ hm hX).on.Y.prod (Finsupp.single l 1) (Finsupp.single mu 1) nu).coeff d ≠ 0 →
          clsA (m + 1) (n - (m + 1 : ℕ)) nu ∧ InsideQ d l nu ∧ InsideQ d mu nu := by
      subst e
      have e1 : ∀ p, (ringQ hm hX).on.Y.t p = tq m (n - (m + 1 : ℕ)) p.toNat := fun _ => rfl
      generalize (ringQ hm hX).on.Y = Y at e1 ⊢
      exact prodQ_A hk Y e1 hl hmu
    generalize (ringQ hm hX).on = R at hp
    have hs : ∀ l : List Int, den (Poly.sym (.S l)) = ev (Finsupp.single l 1) := by
      intro l
      rw [den_sym, ev_single]
      simp [inq]
    obtain ⟨w, g1, g2, g3⟩ := R.mult hf (wf_sym _) (hs l) (supp_single hl 1) (wf_sym _) (hs mu) (supp_single hmu 1)
    have hc : ∀ d nu, coeffOf (List.replicate d .q ++ [.S nu]) w =
        (R.Y.prod (Finsupp.single l 1) (Finsupp.single mu 1) nu).coeff d := by
      intro d nu
      have := coeffOf_den g2 (qmono_sorted d nu)
      rw [g3, expo_qmono, coeff_ev] at this
      exact this
    refine ⟨w, _, g1, hd, fun d => ?_, fun d nu h => hp.2 d nu (by rwa [hc] at h)⟩
    rw [← hp.1 d]
    simp only [hc]

/-- on `Gr(2,5)`: the point `S[3,3]` times itself is `q^2*S[1,1]`; without one row and one column it is not inside the class `S[]` dual to it, without
two rows and two columns it is -/
example : mkGr 2 5 = .ok ⟨.A, 3, 5⟩ ∧ giamBound 2 5 ≤ 28 ∧ (Space.mk .A 3 5).dualize [3, 3] = .ok [] ∧
    Gr.qmult ⟨.A, 3, 5⟩ 28 (Poly.sym (.S [3, 3])) (Poly.sym (.S [3, 3])) = .ok [([.q, .q, .S [1, 1]], 1)] ∧
    ¬ InsideQ 1 [3, 3] [] ∧ InsideQ 2 [3, 3] [] := by
  refine ⟨by decide, by decide +kernel, by decide +kernel, by decide +kernel, fun h => absurd (h 0) (by decide), fun i => ?_⟩
  rw [part_of_ge (by simp), part_of_ge (by simp)]
  decide

/-- on `Gr(2,5)`: `S[3,1]*S[2,1]` has no classical term, since `[3,1]` is not inside `[2,1]`, but terms with `q` -/
example : (Space.mk .A 3 5).dualize [2, 1] = .ok [2, 1] ∧
    Gr.qmult ⟨.A, 3, 5⟩ 28 (Poly.sym (.S [3, 1])) (Poly.sym (.S [2, 1])) = .ok [([.q, .S [1, 1]], 1), ([.q, .S [2]], 1)] ∧
    ¬ InsideQ 0 [3, 1] [2, 1] :=
  ⟨by decide +kernel, by decide +kernel, fun h => absurd (h 0) (by decide)⟩

end Verif
