import Verif.Proofs.BruhatDRing
import Verif.Props.Bruhat
/-!
# C142: which products of two classes of OG(m,2n+2) vanish

With `k = n + 1 - m`, the parts larger than `k` are compared as for `OG(m,2n+1)`. For classes of the two different types a second condition is added.
-/

namespace Verif
open Spec

theorem bruhatD_mult {n k : ℕ} {X : Space} {pieri : Int → List Int → Except PyErr Poly} {B : ℕ} {P : Prop} {Q : List Int → Prop}
    (R : RingOn X pieri (spcD n k) (clsD n k) B) {l mu : List Int} (hl : clsD n k l) (hm : clsD n k mu)
    (hp : (R.Y.prod (Finsupp.single l 1) (Finsupp.single mu 1) ≠ 0 ↔ P) ∧ ∀ nu, R.Y.prod (Finsupp.single l 1) (Finsupp.single mu 1) nu ≠ 0 → Q nu)
    {fuel : ℕ} (hf : B ≤ fuel) :
    ∃ w, gmult X pieri fuel (Poly.sym (.S l)) (Poly.sym (.S mu)) = .ok w ∧ (w ≠ [] ↔ P) ∧ ∀ nu, coeffOf [.S nu] w ≠ 0 → Q nu := by
  have hs : ∀ l : List Int, den (Poly.sym (.S l)) = ev (Finsupp.single l 1) := by
    intro l
    rw [den_sym, ev_single]
    simp [inq]
  obtain ⟨w, h1, h2, h3⟩ := R.mult hf (wf_sym _) (hs l) (supp_single hl 1) (wf_sym _) (hs mu) (supp_single hm 1)
  refine ⟨w, h1, ?_, fun nu h => hp.2 nu ?_⟩
  · rw [← hp.1, Ne, Ne, not_iff_not]
    constructor
    · intro h
      rw [h] at h3
      ext nu d
      have := congrArg (MvPolynomial.coeff (expo (List.replicate d Sym.q ++ [.S nu]))) h3
      rw [expo_qmono, coeff_ev] at this
      rw [← this]
      simp [den]
    · intro h
      rw [h, map_zero] at h3
      have := perm_of_den_eq h2 (r := []) ⟨by simp, by simp⟩ (by rw [h3]; simp [den])
      exact List.perm_nil.1 this
  · intro h0
    apply h
    have := coeffOf_den h2 (qmono_sorted 0 nu)
    rw [h3, expo_qmono, coeff_ev, h0] at this
    simpa using this

/-- **C142.** The product of two classes `S[l]`, `S[mu]` of `OG(m,2n+2)` is not zero exactly if the parts of `l` larger than `k = n + 1 - m` are at
most those of the dual of `mu`, the parts of `mu` larger than `k` are at most those of the dual of `l`, and the following does not happen: `S[l]` and
the dual of `S[mu]` have the types 1 and 2, and for some `v` they have equally many parts larger than `k + v`, their duals as well, and these two
numbers add up to `m - 1 - v`. Every class of the product is above both factors, in the same sense. -/
theorem C142_vanishing {m n : Int} (hn : 0 ≤ n) (hmn : m ≤ n + 1) {X : Space} (hX : mkOG m (2 * n + 2) = .ok X) {fuel : Nat}
    (hf : giamBoundD m n ≤ fuel) {l mu : List Int} (hl : DClass m n l) (hm : DClass m n mu) :
    ∃ l' mu' w, X.dualize l = .ok l' ∧ X.dualize mu = .ok mu' ∧ X.mult fuel (Poly.sym (.S l)) (Poly.sym (.S mu)) = .ok w ∧
      (w ≠ [] ↔ topLe (n + 1 - m) l mu' ∧ topLe (n + 1 - m) mu l' ∧ ¬ ClashD (n + 1 - m) m l l' mu' mu) ∧
      ∀ nu, coeffOf [.S nu] w ≠ 0 → DClass m n nu ∧ ∃ nu', X.dualize nu = .ok nu' ∧ LeD (n + 1 - m) m l l' nu nu' ∧ LeD (n + 1 - m) m mu mu' nu nu' := by
  obtain ⟨a, k, h, rfl, rfl, rfl⟩ := ogdCase hn hmn hX
  rw [giamBoundD_eq h] at hf
  rw [dClass_eq h] at hl hm ⊢
  rw [show (a : ℤ) + 1 - (a + 1 - k) = k by ring]
  have key : ∃ w, gmult _ _ fuel (Poly.sym (.S l)) (Poly.sym (.S mu)) = .ok w ∧ _ := bruhatD_mult (ringD a k h) hl hm (by
    have e1 : ∀ p, (ringD a k h).Y.t p = tDD 0 0 a k p := fun _ => rfl
    generalize (ringD a k h).Y = Y at e1 ⊢
    exact bruhatD_prod h Y e1 hl hm) hf
  obtain ⟨w, h1, h2, h3⟩ := key
  refine ⟨dlD a k l, dlD a k mu, w, dualize_dlD h l hl, dualize_dlD h mu hm, h1, h2, fun nu hnu => ?_⟩
  obtain ⟨c, d, f⟩ := h3 nu hnu
  exact ⟨c, dlD a k nu, dualize_dlD h nu c, d, f⟩

/-! ### examples -/

/-- `S[2] * S[3,2,0]` on `OG(2,8)` vanishes only because of the types, `S[2] * S[3,2]` does not -/
example : mkOG 2 (2 * 3 + 2) = .ok ⟨.D, 2, 3⟩ ∧ giamBoundD 2 3 ≤ 66 ∧ DClass 2 3 [2] ∧ DClass 2 3 [3, 2, 0] ∧ DClass 2 3 [3, 2] ∧
    (Space.mk .D 2 3).dualize [2] = .ok [5, 2] ∧ (Space.mk .D 2 3).dualize [3, 2, 0] = .ok [2, 2, 0] ∧
    (Space.mk .D 2 3).mult 66 (Poly.sym (.S [2])) (Poly.sym (.S [3, 2, 0])) = .ok [] ∧
    (Space.mk .D 2 3).mult 66 (Poly.sym (.S [2])) (Poly.sym (.S [3, 2])) = .ok [([.S [5, 2]], 1)] ∧
    topLe (3 + 1 - 2) [2] [2, 2, 0] ∧ topLe (3 + 1 - 2) [3, 2, 0] [5, 2] ∧ ClashD (3 + 1 - 2) 2 [2] [5, 2] [2, 2, 0] [3, 2, 0] := by
  refine ⟨by decide, by decide +kernel, by decide +kernel, by decide +kernel, by decide +kernel, by decide +kernel, by decide +kernel,
    by decide +kernel, by decide +kernel, fun i hi => ?_, fun i hi => ?_, by decide +kernel, 0, by decide +kernel⟩
  · rcases i with _ | _ | _ | i <;> simp [part] at hi ⊢
  · rcases i with _ | _ | _ | i <;> simp [part] at hi ⊢

/-- `S[2] * S[2,0]` on `OG(2,8)` does not vanish, although `S[2]` and the dual `[5,2,0]` of the second factor have different types -/
example : (Space.mk .D 2 3).dualize [2, 0] = .ok [5, 2, 0] ∧ clsType 2 [2] + clsType 2 [5, 2, 0] = 3 ∧
    (Space.mk .D 2 3).mult 66 (Poly.sym (.S [2])) (Poly.sym (.S [2, 0])) = .ok [([.S [3, 1]], 1)] ∧ ¬ ClashD (3 + 1 - 2) 2 [2] [5, 2] [5, 2, 0] [2, 0] := by
  refine ⟨by decide +kernel, by decide +kernel, by decide +kernel, ?_⟩
  rintro ⟨_, v, h1, h2, h3⟩
  have hv : v = 0 ∨ v = 1 := by omega
  rcases hv with rfl | rfl
  · exact absurd h1 (by decide)
  · exact absurd h1 (by decide)

end Verif
