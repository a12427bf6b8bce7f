import Verif.Proofs.BruhatBC
import Verif.Props.StableBC
/-!
# C141: which products of two classes of IG(m,2n) and OG(m,2n+1) vanish

With `k = n - m`, only the parts larger than `k` are compared, of the shapes and of their duals.
-/

namespace Verif
open Spec

theorem bruhat_mult {n k : ℕ} {X : Space} {pieri : Int → List Int → Except PyErr Poly} {B : ℕ}
    (R : RingOn X pieri (stdSpc (n + k)) (clsBC n k) B)
    {l mu : List Int} (hl : clsBC n k l) (hm : clsBC n k mu)
    (hp : (R.Y.prod (Finsupp.single l 1) (Finsupp.single mu 1) ≠ 0 ↔ topLe k l (dlBC n k mu) ∧ topLe k mu (dlBC n k l)) ∧
      ∀ nu, R.Y.prod (Finsupp.single l 1) (Finsupp.single mu 1) nu ≠ 0 → clsBC n k nu ∧
        (topLe k l nu ∧ topLe k (dlBC n k nu) (dlBC n k l)) ∧ topLe k mu nu ∧ topLe k (dlBC n k nu) (dlBC n k mu))
    {fuel : ℕ} (hf : B ≤ fuel) :
    ∃ w, gmult X pieri fuel (Poly.sym (.S l)) (Poly.sym (.S mu)) = .ok w ∧
      (w ≠ [] ↔ topLe k l (dlBC n k mu) ∧ topLe k mu (dlBC n k l)) ∧
      ∀ nu, coeffOf [.S nu] w ≠ 0 → clsBC n k nu ∧
        (topLe k l nu ∧ topLe k (dlBC n k nu) (dlBC n k l)) ∧ topLe k mu nu ∧ topLe k (dlBC n k nu) (dlBC n k mu) := by
  have hs : ∀ l : List Int, den (Poly.sym (.S l)) = ev (Finsupp.single l 1) := by
    intro l
    rw [den_sym, ev_single]
    simp [inq]
  obtain ⟨w, h1, h2, h3⟩ := R.mult hf (wf_sym _) (hs l) (supp_single hl 1) (wf_sym _) (hs mu) (supp_single hm 1)
  refine ⟨w, h1, ?_, fun nu h => hp.2 nu ?_⟩
  · rw [← hp.1, Ne, Ne, not_iff_not]
    constructor
    · intro h
      rw [h] at h3
      ext nu d
      have := congrArg (MvPolynomial.coeff (expo (List.replicate d Sym.q ++ [.S nu]))) h3
      rw [expo_qmono, coeff_ev] at this
      rw [← this]
      simp [den]
    · intro h
      rw [h, map_zero] at h3
      have := perm_of_den_eq h2 (r := []) ⟨by simp, by simp⟩ (by rw [h3]; simp [den])
      exact List.perm_nil.1 this
  · intro h0
    apply h
    have := coeffOf_den h2 (qmono_sorted 0 nu)
    rw [h3, expo_qmono, coeff_ev, h0] at this
    simpa using this

/-- **C141**, type C: the product of two classes `S[l]`, `S[mu]` of `IG(m,2n)` is not zero exactly if the parts of `l` larger than `k = n - m`
are at most those of the dual of `mu`, and the parts of `mu` larger than `k` are at most those of the dual of `l`. Every class of the product
is above both factors, in the same sense. -/
theorem C141_IG {m n : Int} {X : Space} (hX : mkIG m (2 * n) = .ok X) {fuel : ℕ} (hf : giamBoundBC m n ≤ fuel) {l mu : List Int}
    (hl : BCClass m n l) (hm : BCClass m n mu) :
    ∃ l' mu' w, X.dualize l = .ok l' ∧ X.dualize mu = .ok mu' ∧ X.mult fuel (Poly.sym (.S l)) (Poly.sym (.S mu)) = .ok w ∧
      (w ≠ [] ↔ topLe (n - m) l mu' ∧ topLe (n - m) mu l') ∧
      ∀ nu, coeffOf [.S nu] w ≠ 0 → BCClass m n nu ∧ ∃ nu', X.dualize nu = .ok nu' ∧ topLe (n - m) l nu ∧ topLe (n - m) nu' l' ∧
        topLe (n - m) mu nu ∧ topLe (n - m) nu' mu' := by
  obtain ⟨a, k, h, rfl, rfl, rfl⟩ := igCase hX
  rw [giamBoundBC_eq h] at hf
  rw [bcClass_eq h] at hl hm ⊢
  rw [show (a : ℤ) - (a - k) = k by ring]
  have key : ∃ w, gmult _ _ fuel (Poly.sym (.S l)) (Poly.sym (.S mu)) = .ok w ∧ _ := bruhat_mult (ringIG a k h) hl hm (by
    have e1 : ∀ p, (ringIG a k h).Y.t p = tM (Wd a k) labW (MC 0) p.toNat := fun _ => rfl
    generalize (ringIG a k h).Y = Y at e1 ⊢
    exact bruhat_prod h Y (pieriM_C a k) e1 (fun p u w => MC_dual 0 p u w) hl hm) hf
  obtain ⟨w, h1, h2, h3⟩ := key
  refine ⟨dlBC a k l, dlBC a k mu, w, (dualize_dlBC h l hl).1, (dualize_dlBC h mu hm).1, h1, h2, fun nu hnu => ?_⟩
  obtain ⟨c, d, f, g⟩ := h3 nu hnu
  exact ⟨c, dlBC a k nu, (dualize_dlBC h nu c).1, d.1, d.2, f, g⟩

/-- **C141**, type B: the same for the classes of `OG(m,2n+1)`. -/
theorem C141_OG_odd {m n : Int} {X : Space} (hmn : m ≤ n) (hX : mkOG m (2 * n + 1) = .ok X) {fuel : ℕ} (hf : giamBoundBC m n ≤ fuel)
    {l mu : List Int} (hl : BCClass m n l) (hm : BCClass m n mu) :
    ∃ l' mu' w, X.dualize l = .ok l' ∧ X.dualize mu = .ok mu' ∧ X.mult fuel (Poly.sym (.S l)) (Poly.sym (.S mu)) = .ok w ∧
      (w ≠ [] ↔ topLe (n - m) l mu' ∧ topLe (n - m) mu l') ∧
      ∀ nu, coeffOf [.S nu] w ≠ 0 → BCClass m n nu ∧ ∃ nu', X.dualize nu = .ok nu' ∧ topLe (n - m) l nu ∧ topLe (n - m) nu' l' ∧
        topLe (n - m) mu nu ∧ topLe (n - m) nu' mu' := by
  obtain ⟨a, k, h, rfl, rfl, rfl⟩ := ogCase hmn hX
  rw [giamBoundBC_eq h] at hf
  rw [bcClass_eq h] at hl hm ⊢
  rw [show (a : ℤ) - (a - k) = k by ring]
  have key : ∃ w, gmult _ _ fuel (Poly.sym (.S l)) (Poly.sym (.S mu)) = .ok w ∧ _ := bruhat_mult (ringOG a k h) hl hm (by
    have e1 : ∀ p, (ringOG a k h).Y.t p = tM (Wd a k) labW (MB k) p.toNat := fun _ => rfl
    generalize (ringOG a k h).Y = Y at e1 ⊢
    exact bruhat_prod h Y (pieriM_B a k) e1 (fun p u w => MB_dual k p u w) hl hm) hf
  obtain ⟨w, h1, h2, h3⟩ := key
  refine ⟨dlBC a k l, dlBC a k mu, w, (dualize_dlBC h l hl).2, (dualize_dlBC h mu hm).2, h1, h2, fun nu hnu => ?_⟩
  obtain ⟨c, d, f, g⟩ := h3 nu hnu
  exact ⟨c, dlBC a k nu, (dualize_dlBC h nu c).2, d.1, d.2, f, g⟩

/-! ### examples -/

/-- `S[3] * S[1,1]` on `IG(2,6)` is not zero, although `[1,1]` is not contained in the dual `[4]` of `[3]`: with `k = 1` only the part 3 counts -/
example : mkIG 2 (2 * 3) = .ok ⟨.C, 1, 3⟩ ∧ giamBoundBC 2 3 ≤ 60 ∧ BCClass 2 3 [3] ∧ BCClass 2 3 [1, 1] ∧
    (Space.mk .C 1 3).dualize [3] = .ok [4] ∧ (Space.mk .C 1 3).dualize [1, 1] = .ok [3, 2] ∧
    (Space.mk .C 1 3).mult 60 (Poly.sym (.S [3])) (Poly.sym (.S [1, 1])) = .ok [([.S [4, 1]], 1)] ∧
    topLe (3 - 2) [3] [3, 2] ∧ topLe (3 - 2) [1, 1] [4] := by
  refine ⟨by decide, by decide +kernel, by decide +kernel, by decide +kernel, by decide +kernel, by decide +kernel, by decide +kernel,
    fun i hi => ?_, fun i hi => ?_⟩
  · rcases i with _ | _ | i <;> simp [part] at hi ⊢
  · rcases i with _ | _ | i <;> simp [part] at hi ⊢

/-- `S[4] * S[1,1]` on `IG(2,6)` vanishes, although the dimension 7 is not exceeded: the part 4 is larger than the part 3 of the dual of `[1,1]` -/
example : BCClass 2 3 [4] ∧ (Space.mk .C 1 3).mult 60 (Poly.sym (.S [4])) (Poly.sym (.S [1, 1])) = .ok [] ∧ ¬ topLe (3 - 2) [4] [3, 2] :=
  ⟨by decide +kernel, by decide +kernel, fun h => absurd (h 0 (by decide)) (by decide)⟩

/-- `S[2] * S[1,1]` and `S[4] * S[1,1]` on `OG(2,7)` -/
example : mkOG 2 (2 * 3 + 1) = .ok ⟨.B, 1, 3⟩ ∧ BCClass 2 3 [2] ∧
    (Space.mk .B 1 3).dualize [2] = .ok [4, 1] ∧ (Space.mk .B 1 3).dualize [1, 1] = .ok [3, 2] ∧
    (Space.mk .B 1 3).mult 60 (Poly.sym (.S [2])) (Poly.sym (.S [1, 1])) = .ok [([.S [4]], 1), ([.S [3, 1]], 1)] ∧
    (Space.mk .B 1 3).mult 60 (Poly.sym (.S [4])) (Poly.sym (.S [1, 1])) = .ok [] ∧ topLe (3 - 2) [2] [3, 2] ∧ topLe (3 - 2) [1, 1] [4, 1] := by
  refine ⟨by decide, by decide +kernel, by decide +kernel, by decide +kernel, by decide +kernel, by decide +kernel, fun i hi => ?_, fun i hi => ?_⟩
  · rcases i with _ | _ | i <;> simp [part] at hi ⊢
  · rcases i with _ | _ | i <;> simp [part] at hi ⊢

end Verif
