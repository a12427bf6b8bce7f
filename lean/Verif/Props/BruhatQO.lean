import Verif.Proofs.BruhatQO
import Verif.Props.BruhatQB
/-!
# C148: the smallest power of q in the quantum products of OG(m,2n+1) for m < n
-/

namespace Verif
open Spec

/-- **C148.** The quantum product of two classes `S[l]`, `S[mu]` of `OG(m,2n+1)` for `m < n` has a term with `q^e` for some `e` up to `d` exactly if the
comparisons of C146 hold and, for odd `d`, there is no clash of `l` with the dual of `mu`. If `q^d*S[nu]` occurs, then the same holds for `nu` and
both factors. -/
theorem C148_smallest_power (ord : List Int → List Int) {m n : Int} (h0 : 0 < m) (hmn : m < n) {X : Space} (hX : mkOG m (2 * n + 1) = .ok X) {fuel : ℕ}
    (hf : giamBoundBC m n ≤ fuel) {l mu : List Int} (hl : BCClass m n l) (hm : BCClass m n mu) :
    ∃ l' mu' w, X.dualize l = .ok l' ∧ X.dualize mu = .ok mu' ∧ X.qmult ord fuel (Poly.sym (.S l)) (Poly.sym (.S mu)) = .ok w ∧
      (∀ d, (∃ e ≤ d, ∃ nu, coeffOf (List.replicate e .q ++ [.S nu]) w ≠ 0) ↔
        topLeQ d (n - m) l mu' ∧ topLeQ d (n - m) mu l' ∧ (Odd d → ¬ clashQ (n + (n - m)) (n - m) d l l' mu' mu)) ∧
      ∀ d nu, coeffOf (List.replicate d .q ++ [.S nu]) w ≠ 0 → BCClass m n nu ∧ ∃ nu', X.dualize nu = .ok nu' ∧
        (topLeQ d (n - m) l nu ∧ topLeQ d (n - m) nu' l' ∧ (Odd d → ¬ clashQ (n + (n - m)) (n - m) d l l' nu nu')) ∧
        topLeQ d (n - m) mu nu ∧ topLeQ d (n - m) nu' mu' ∧ (Odd d → ¬ clashQ (n + (n - m)) (n - m) d mu mu' nu nu') := by
  obtain ⟨a, k, h, rfl, rfl, rfl⟩ := ogCase' h0 hmn.le hX
  rw [giamBoundBC_eq h.le] at hf
  rw [bcClass_eq h.le] at hl hm ⊢
  rw [show (a : ℤ) - (a - k) = k by ring]
  have hk0 : k ≠ 0 := by omega
  have hp := by
    have e1 : ∀ p, (ringQOG ord a k h).Y.t p = tM (Wd a k) labW (MQB k) p.toNat := fun _ => rfl
    exact prodQ_O h.le hk0 (ringQOG ord a k h).Y e1 hl hm
  have hs : ∀ l : List Int, den (Poly.sym (.S l)) = ev (Finsupp.single l 1) := by
    intro l
    rw [den_sym, ev_single]
    simp [inq]
  obtain ⟨w, g1, g2, g3⟩ := (ringQOG ord a k h).mult hf (wf_sym _) (hs l) (supp_single hl 1) (wf_sym _) (hs mu) (supp_single hm 1)
  have hc : ∀ d nu, coeffOf (List.replicate d .q ++ [.S nu]) w =
      ((ringQOG ord a k h).Y.prod (Finsupp.single l 1) (Finsupp.single mu 1) nu).coeff d := by
    intro d nu
    have := coeffOf_den g2 (qmono_sorted d nu)
    rw [g3, expo_qmono, coeff_ev] at this
    exact this
  refine ⟨dlBC a k l, dlBC a k mu, w, (dualize_dlBC h.le l hl).2, (dualize_dlBC h.le mu hm).2, g1, fun d => ?_, fun d nu hnu => ?_⟩
  · rw [← hp.1 d]
    simp only [hc]
  · rw [hc] at hnu
    obtain ⟨c, f, g⟩ := hp.2 d nu hnu
    exact ⟨c, dlBC a k nu, (dualize_dlBC h.le nu c).2, f, g⟩

/-- on `OG(2,7)`, where `k = 1`: `S[3]*S[4,3]` is `2*q^2*S[2]`; the comparisons hold for `q`, but there is a clash: `[3]` and its dual `[4]` have
together two parts above 2, the largest possible number, and so have `[4,3]` and its dual `[]`, and `[3]` has one such part more than `[]` -/
example : mkOG 2 (2 * 3 + 1) = .ok ⟨.B, 1, 3⟩ ∧ giamBoundBC 2 3 ≤ 60 ∧ BCClass 2 3 [3] ∧ BCClass 2 3 [4, 3] ∧
    (Space.mk .B 1 3).dualize [3] = .ok [4] ∧ (Space.mk .B 1 3).dualize [4, 3] = .ok [] ∧
    (Space.mk .B 1 3).qmult id 60 (Poly.sym (.S [3])) (Poly.sym (.S [4, 3])) = .ok [([.q, .q, .S [2]], 2)] ∧
    topLeQ 1 (3 - 2) [3] [] ∧ topLeQ 1 (3 - 2) [4, 3] [4] ∧ clashQ (3 + (3 - 2)) (3 - 2) 1 [3] [4] [] [4, 3] := by
  refine ⟨by decide, by decide +kernel, by decide +kernel, by decide +kernel, by decide +kernel, by decide +kernel, by decide +kernel,
    fun i hi => ?_, fun i hi => ?_, 2, by decide, by decide, by decide, by decide, by decide⟩
  · rw [part_of_ge (by simp)] at hi
    exact absurd hi (by decide)
  · rcases i with _ | i
    · decide
    · rw [part_of_ge (by simp)] at hi
      exact absurd hi (by decide)

/-- on `OG(2,7)`: `S[2]*S[4,3]` begins with `q`; there is no clash of `[2]` with the dual `[]` of `[4,3]` -/
example : BCClass 2 3 [2] ∧ (Space.mk .B 1 3).dualize [2] = .ok [4, 1] ∧
    (Space.mk .B 1 3).qmult id 60 (Poly.sym (.S [2])) (Poly.sym (.S [4, 3])) = .ok [([.q, .S [3, 2]], 1), ([.q, .q, .S [1]], 1)] ∧
    ¬ topLeQ 0 (3 - 2) [2] [] ∧ ¬ clashQ (3 + (3 - 2)) (3 - 2) 1 [2] [4, 1] [] [4, 3] := by
  refine ⟨by decide +kernel, by decide +kernel, by decide +kernel, fun h => absurd (h 0 (by decide)) (by decide), ?_⟩
  rintro ⟨t, h1, h2, h3, h4, h5⟩
  have : t = 1 ∨ t = 2 ∨ t = 3 ∨ t = 4 := by omega
  rcases this with rfl | rfl | rfl | rfl
  · revert h3; decide
  · revert h3; decide
  · revert h5; decide
  · revert h5; decide

end Verif
