import Verif.Proofs.WordDual
import Verif.Props.RingBC
/-!
# C58: Poincaré duality of `IG(m, 2n)` and `OG(m, 2n+1)`
-/

namespace Verif
open Spec

theorem pointClass_BC {a b : Nat} (h : b ≤ a) : dlBC a b [] = (Space.mk .C b a).pointClass ∧
    dlBC a b [] = (Space.mk .B b a).pointClass := by
  obtain ⟨d1, d2⟩ := dualize_dlBC h [] (clsBC_nil h)
  have p1 := (C37_point_C _ _ _ (mkIG_nat a b h)).2.2.1
  have p2 := (C37_point_B _ _ (by omega) _ (mkOG_nat a b h)).2.2.1
  rw [d1] at p1
  rw [d2] at p2
  exact ⟨Except.ok.inj p1, Except.ok.inj p2⟩

/-- **C58**, type C, classical. The coefficient of the point class in `S[l] * S[mu]` is `1` if `mu = dualize(l)` and `0`
otherwise. -/
theorem C58_duality_IG {m n : Int} {X : Space} (hX : mkIG m (2 * n) = .ok X) {fuel : Nat} (hf : giamBoundBC m n ≤ fuel)
    {l mu : List Int} (hl : BCClass m n l) (hmu : BCClass m n mu) :
    ∃ w l', X.mult fuel (Poly.sym (.S l)) (Poly.sym (.S mu)) = .ok w ∧ X.dualize l = .ok l' ∧
      coeffOf [.S X.pointClass] w = if mu = l' then 1 else 0 := by
  obtain ⟨a, b, h, rfl, rfl, rfl⟩ := igCase hX
  rw [bcClass_eq h] at hl hmu
  rw [giamBoundBC_eq h] at hf
  obtain ⟨w, h1, h2⟩ := (ringIG a b h).gdual (dlBC a b) (dlBC_cls h) (dlBC_dlBC h)
    (fun p l nu _ hl hn => tM_dual h (MC 0) (MC_dual 0) p.toNat hl hn) hf hl hmu
  refine ⟨w, dlBC a b l, h1, (dualize_dlBC h l hl).1, ?_⟩
  rw [← (pointClass_BC h).1]
  simpa using h2 0

example : (Space.mk .C 1 3).dualize [3, 1] = .ok [2, 1] ∧
    (Space.mk .C 1 3).mult 45 (Poly.sym (.S [3, 1])) (Poly.sym (.S [3])) = .ok [] ∧
    (Space.mk .C 1 3).mult 45 (Poly.sym (.S [3, 1])) (Poly.sym (.S [2, 1])) = .ok [([.S [4, 3]], 1)] := by decide +kernel

/-- **C58**, type C, quantum. The same for the quantum product, and no multiple of the point class by a positive power of `q`
occurs: the quantum product is a Frobenius algebra for the classical pairing. -/
theorem C58_qduality_IG (ord : List Int → List Int) {m n : Int} {X : Space} (hX : mkIG m (2 * n) = .ok X) {fuel : Nat}
    (hf : giamBoundBC m n ≤ fuel) {l mu : List Int} (hl : BCClass m n l) (hmu : BCClass m n mu) :
    ∃ w l', X.qmult ord fuel (Poly.sym (.S l)) (Poly.sym (.S mu)) = .ok w ∧ X.dualize l = .ok l' ∧
      ∀ d, coeffOf (List.replicate d .q ++ [.S X.pointClass]) w = if mu = l' ∧ d = 0 then 1 else 0 := by
  obtain ⟨a, b, h, rfl, rfl, rfl⟩ := igCase hX
  rw [bcClass_eq h] at hl hmu
  rw [giamBoundBC_eq h] at hf
  obtain ⟨w, h1, h2⟩ := (ringQIG ord a b h).gdual (dlBC a b) (dlBC_cls h) (dlBC_dlBC h)
    (fun p l nu _ hl hn => tM_dual h (MC _) (MC_dual _) p.toNat hl hn) hf hl hmu
  refine ⟨w, dlBC a b l, h1, (dualize_dlBC h l hl).1, fun d => ?_⟩
  rw [← (pointClass_BC h).1]
  exact h2 d

example :
    (Space.mk .C 1 3).qmult id 45 (Poly.sym (.S [3, 1])) (Poly.sym (.S [3])) =
      .ok [([.q, .S [2]], 1), ([.q, .S [1, 1]], 1)] ∧
    (Space.mk .C 1 3).qmult id 45 (Poly.sym (.S [3, 1])) (Poly.sym (.S [4, 3])) = .ok [([.q, .q, .S [1]], 1)] := by
  decide +kernel

/-- **C58**, type B, classical. -/
theorem C58_duality_OG {m n : Int} (hmn : m ≤ n) {X : Space} (hX : mkOG m (2 * n + 1) = .ok X) {fuel : Nat}
    (hf : giamBoundBC m n ≤ fuel) {l mu : List Int} (hl : BCClass m n l) (hmu : BCClass m n mu) :
    ∃ w l', X.mult fuel (Poly.sym (.S l)) (Poly.sym (.S mu)) = .ok w ∧ X.dualize l = .ok l' ∧
      coeffOf [.S X.pointClass] w = if mu = l' then 1 else 0 := by
  obtain ⟨a, b, h, rfl, rfl, rfl⟩ := ogCase hmn hX
  rw [bcClass_eq h] at hl hmu
  rw [giamBoundBC_eq h] at hf
  obtain ⟨w, h1, h2⟩ := (ringOG a b h).gdual (dlBC a b) (dlBC_cls h) (dlBC_dlBC h)
    (fun p l nu _ hl hn => tM_dual h (MB b) (MB_dual b) p.toNat hl hn) hf hl hmu
  refine ⟨w, dlBC a b l, h1, (dualize_dlBC h l hl).2, ?_⟩
  rw [← (pointClass_BC h).2]
  simpa using h2 0

/-- in `IG(2, 6)` the dual of `S[3]` is `S[4]`, not `S[3,1]`; the point class is `S[4,3]` -/
example : BCClass 2 3 [3] ∧ BCClass 2 3 [4] ∧ (Space.mk .C 1 3).dualize [3] = .ok [4] ∧ (Space.mk .C 1 3).pointClass = [4, 3] ∧
    (Space.mk .C 1 3).mult 45 (Poly.sym (.S [3])) (Poly.sym (.S [4])) = .ok [([.S [4, 3]], 1)] ∧
    (Space.mk .C 1 3).mult 45 (Poly.sym (.S [3])) (Poly.sym (.S [3, 1])) = .ok [] := by
  refine ⟨⟨⟨by decide, by decide⟩, by unfold KStrict; decide, by decide, by decide⟩,
    ⟨⟨by decide, by decide⟩, by unfold KStrict; decide, by decide, by decide⟩, ?_, ?_, ?_, ?_⟩ <;> decide +kernel

end Verif
