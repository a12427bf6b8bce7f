import Verif.Proofs.BruhatQC
import Verif.Props.Bruhat
/-!
# C146: the smallest power of q in the quantum products of IG(m,2n)
-/

namespace Verif
open Spec

/-- **C146.** The quantum product of two classes `S[l]`, `S[mu]` of `IG(m,2n)` has a term with `q^e` for some `e` up to `d` exactly if the parts of `l`
larger than `k = n - m`, without the first `d` ones, are at most those of the dual of `mu`, and the same with `l` and `mu` exchanged. If `q^d*S[nu]`
occurs, then `nu` is above both factors, in the same sense. -/
theorem C146_smallest_power (ord : List Int → List Int) {m n : Int} {X : Space} (hX : mkIG m (2 * n) = .ok X) {fuel : ℕ}
    (hf : giamBoundBC m n ≤ fuel) {l mu : List Int} (hl : BCClass m n l) (hm : BCClass m n mu) :
    ∃ l' mu' w, X.dualize l = .ok l' ∧ X.dualize mu = .ok mu' ∧ X.qmult ord fuel (Poly.sym (.S l)) (Poly.sym (.S mu)) = .ok w ∧
      (∀ d, (∃ e ≤ d, ∃ nu, coeffOf (List.replicate e .q ++ [.S nu]) w ≠ 0) ↔ topLeQ d (n - m) l mu' ∧ topLeQ d (n - m) mu l') ∧
      ∀ d nu, coeffOf (List.replicate d .q ++ [.S nu]) w ≠ 0 → BCClass m n nu ∧ ∃ nu', X.dualize nu = .ok nu' ∧
        topLeQ d (n - m) l nu ∧ topLeQ d (n - m) nu' l' ∧ topLeQ d (n - m) mu nu ∧ topLeQ d (n - m) nu' mu' := by
  obtain ⟨a, k, h, rfl, rfl, rfl⟩ := igCase hX
  rw [giamBoundBC_eq h] at hf
  rw [bcClass_eq h] at hl hm ⊢
  rw [show (a : ℤ) - (a - k) = k by ring]
  have hp := by
    have e1 : ∀ p, (ringQIG ord a k h).Y.t p = tM (Wd a k) labW (MC (Polynomial.C (1 / 2) * Polynomial.X)) p.toNat := fun _ => rfl
    exact prodQ_C h (ringQIG ord a k h).Y e1 hl hm
  have hs : ∀ l : List Int, den (Poly.sym (.S l)) = ev (Finsupp.single l 1) := by
    intro l
    rw [den_sym, ev_single]
    simp [inq]
  obtain ⟨w, g1, g2, g3⟩ := (ringQIG ord a k h).mult hf (wf_sym _) (hs l) (supp_single hl 1) (wf_sym _) (hs mu) (supp_single hm 1)
  have hc : ∀ d nu, coeffOf (List.replicate d .q ++ [.S nu]) w =
      ((ringQIG ord a k h).Y.prod (Finsupp.single l 1) (Finsupp.single mu 1) nu).coeff d := by
    intro d nu
    have := coeffOf_den g2 (qmono_sorted d nu)
    rw [g3, expo_qmono, coeff_ev] at this
    exact this
  refine ⟨dlBC a k l, dlBC a k mu, w, (dualize_dlBC h l hl).1, (dualize_dlBC h mu hm).1, g1, fun d => ?_, fun d nu hnu => ?_⟩
  · rw [← hp.1 d]
    simp only [hc]
  · rw [hc] at hnu
    obtain ⟨c, f, g⟩ := hp.2 d nu hnu
    exact ⟨c, dlBC a k nu, (dualize_dlBC h nu c).1, f.1, f.2, g⟩

/-- on `IG(2,6)`, where `k = 1`: the point `S[4,3]` times itself is `q^2*S[3,1]`; without its first row it has the part 3, larger than 1 and not in the
class `S[]` dual to it -/
example : mkIG 2 (2 * 3) = .ok ⟨.C, 1, 3⟩ ∧ giamBoundBC 2 3 ≤ 60 ∧ BCClass 2 3 [4, 3] ∧ (Space.mk .C 1 3).dualize [4, 3] = .ok [] ∧
    (Space.mk .C 1 3).qmult id 60 (Poly.sym (.S [4, 3])) (Poly.sym (.S [4, 3])) = .ok [([.q, .q, .S [3, 1]], 1)] ∧
    ¬ topLeQ 1 (3 - 2) [4, 3] [] ∧ topLeQ 2 (3 - 2) [4, 3] [] := by
  refine ⟨by decide, by decide +kernel, by decide +kernel, by decide +kernel, by decide +kernel, fun h => absurd (h 0 (by decide)) (by decide),
    fun i hi => ?_⟩
  rw [part_of_ge (by simp)] at hi
  exact absurd hi (by decide)

/-- on `IG(2,6)`: `S[4]*S[1,1]` vanishes in the classical ring and is `q*S[1]` in the quantum ring: the part 4 is larger than the part 3 of the dual
of `[1,1]`, and nothing is left to compare without the first rows -/
example : BCClass 2 3 [4] ∧ BCClass 2 3 [1, 1] ∧ (Space.mk .C 1 3).dualize [1, 1] = .ok [3, 2] ∧ (Space.mk .C 1 3).dualize [4] = .ok [3] ∧
    (Space.mk .C 1 3).qmult id 60 (Poly.sym (.S [4])) (Poly.sym (.S [1, 1])) = .ok [([.q, .S [1]], 1)] ∧
    ¬ topLeQ 0 (3 - 2) [4] [3, 2] ∧ topLeQ 1 (3 - 2) [4] [3, 2] ∧ topLeQ 1 (3 - 2) [1, 1] [3] := by
  refine ⟨by decide +kernel, by decide +kernel, by decide +kernel, by decide +kernel, by decide +kernel,
    fun h => absurd (h 0 (by decide)) (by decide), fun i hi => ?_, fun i hi => ?_⟩
  · rw [part_of_ge (by simp)] at hi
    exact absurd hi (by decide)
  · rcases i with _ | i
    · exact absurd hi (by decide)
    · rw [part_of_ge (by simp)] at hi
      exact absurd hi (by decide)

end Verif
