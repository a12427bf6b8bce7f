import Verif.Spec.Dec
import Verif.Proofs.DualQA
import Verif.Props.DualD
import Verif.Props.RingQB
/-!
# C78, C79: quantum Poincaré duality of Gr(m,n); symmetry of the structure constants on all spaces
-/

namespace Verif
open Spec

/-- The coefficient of `q^d S[nu]` in `S[l] * S[mu]` is the coefficient of `q^d S[l']` in `S[mu] * S[nu']`, where `'` is the dual. -/
def Spec.DualSymmetric (cls : List Int → Prop) (mult : Poly → Poly → Except PyErr Poly) (dual : List Int → Except PyErr (List Int)) :
    Prop :=
  ∀ l mu nu, cls l → cls mu → cls nu → ∃ l' nu' w w', dual l = .ok l' ∧ dual nu = .ok nu' ∧ cls l' ∧ cls nu' ∧
    mult (Poly.sym (.S l)) (Poly.sym (.S mu)) = .ok w ∧ mult (Poly.sym (.S mu)) (Poly.sym (.S nu')) = .ok w' ∧
    ∀ d, coeffOf (List.replicate d Sym.q ++ [.S nu]) w = coeffOf (List.replicate d Sym.q ++ [.S l']) w'

theorem RingOn.dualSymmetric {X : Space} {pieri : Int → List Int → Except PyErr Poly} {spc : Int → Prop} {cls : List Int → Prop}
    {B : Nat} (R : RingOn X pieri spc cls B) (dl : List Int → List Int) (hcl : ∀ l, cls l → cls (dl l))
    (hdd : ∀ l, cls l → dl (dl l) = l) (hadj : ∀ p l nu, spc p → cls l → cls nu → R.Y.t p l (dl nu) = R.Y.t p nu (dl l))
    {fuel : Nat} (hf : B ≤ fuel) {dual : List Int → Except PyErr (List Int)} (hd : ∀ l, cls l → dual l = .ok (dl l)) :
    DualSymmetric cls (gmult X pieri fuel) dual := by
  intro l mu nu hl hmu hnu
  obtain ⟨w, w', h1, h2, h3⟩ := R.gsym dl hcl hdd hadj hf hl hmu hnu
  exact ⟨dl l, dl nu, w, w', hd l hl, hd nu hnu, hcl l hl, hcl nu hnu, h1, h2, h3⟩

section
variable {m : ℕ} {n : ℤ} {X : Space} (hm : 1 ≤ m) (hX : mkGr m n = .ok X) {fuel : ℕ} (hf : giamBound m n ≤ fuel)
include hm hX hf

/-- **C78**. In the quantum product `S[l] * S[mu]` on `Gr(m,n)` the point class occurs with coefficient `1` if `mu = dualize(l)`
and not at all otherwise, also not with a positive power of `q`. -/
theorem C78_qduality {l mu : List Int} (hl : GrClass m n l) (hmu : GrClass m n mu) :
    ∃ w l', Gr.qmult X fuel (Poly.sym (.S l)) (Poly.sym (.S mu)) = .ok w ∧ X.dualize l = .ok l' ∧
      ∀ d, coeffOf (List.replicate d .q ++ [.S X.pointClass]) w = if mu = l' ∧ d = 0 then 1 else 0 := by
  cases m with
  | zero => omega
  | succ m =>
    obtain ⟨-, h1, h2⟩ := mkGr_ok hX
    have hk : (0 : ℤ) ≤ n - (m + 1 : ℕ) := by omega
    obtain ⟨w, h3, h4⟩ := (ringQ hm hX).on.gdual (dualC m (n - (m + 1 : ℕ))) (fun l hl => clsA_dual hk hl)
      (fun l hl => dualC_dualC hl) (fun p l nu _ hl hn => ringQ_adj hm hX hl hn) hf hl hmu
    refine ⟨w, _, h3, dualize_dualC hX hl, fun d => ?_⟩
    rw [pointClass_A hX]
    exact h4 d

/-- `Gr(2,5)`: only the dual class gives the point class, and never with a power of `q`. -/
example : (Space.mk .A 3 5).dualize [3, 1] = .ok [2] ∧
    Gr.qmult ⟨.A, 3, 5⟩ 28 (Poly.sym (.S [3, 1])) (Poly.sym (.S [2])) = .ok [([.S [3, 3]], 1), ([.q, .S [1]], 1)] ∧
    Gr.qmult ⟨.A, 3, 5⟩ 28 (Poly.sym (.S [3, 1])) (Poly.sym (.S [3, 2])) =
      .ok [([.q, .S [3, 1]], 1), ([.q, .S [2, 2]], 1)] := by decide +kernel

/-- **C79**, `Gr(m,n)`, classical and quantum. -/
theorem C79_symmetric_Gr : DualSymmetric (GrClass m n) (Gr.mult X fuel) X.dualize ∧
    DualSymmetric (GrClass m n) (Gr.qmult X fuel) X.dualize := by
  cases m with
  | zero => omega
  | succ m =>
    obtain ⟨-, h1, h2⟩ := mkGr_ok hX
    have hk : (0 : ℤ) ≤ n - (m + 1 : ℕ) := by omega
    exact ⟨(ringC hm hX).on.dualSymmetric (dualC m (n - (m + 1 : ℕ))) (fun l hl => clsA_dual hk hl)
        (fun l hl => dualC_dualC hl) (fun p l nu _ hl hn => ringC_adj hm hX hl hn) hf (fun l hl => dualize_dualC hX hl),
      (ringQ hm hX).on.dualSymmetric (dualC m (n - (m + 1 : ℕ))) (fun l hl => clsA_dual hk hl)
        (fun l hl => dualC_dualC hl) (fun p l nu _ hl hn => ringQ_adj hm hX hl hn) hf (fun l hl => dualize_dualC hX hl)⟩

/-- coefficient of `S[3,1]` in `S[2]*S[1,1]`, and of the dual of `S[1,1]` in `S[2]` times the dual of `S[3,1]` -/
example : Gr.mult ⟨.A, 3, 5⟩ 28 (Poly.sym (.S [2])) (Poly.sym (.S [1, 1])) = .ok [([.S [3, 1]], 1)] ∧
    (Space.mk .A 3 5).dualize [3, 1] = .ok [2] ∧ (Space.mk .A 3 5).dualize [1, 1] = .ok [2, 2] ∧
    Gr.mult ⟨.A, 3, 5⟩ 28 (Poly.sym (.S [2])) (Poly.sym (.S [2])) = .ok [([.S [2, 2]], 1), ([.S [3, 1]], 1)] := by
  decide +kernel

end

/-- **C79**, `IG(m,2n)`, classical and quantum. -/
theorem C79_symmetric_IG (ord : List Int → List Int) {m n : Int} {X : Space} (hX : mkIG m (2 * n) = .ok X) {fuel : Nat}
    (hf : giamBoundBC m n ≤ fuel) :
    DualSymmetric (BCClass m n) (X.mult fuel) X.dualize ∧ DualSymmetric (BCClass m n) (X.qmult ord fuel) X.dualize := by
  obtain ⟨a, b, h, rfl, rfl, rfl⟩ := igCase hX
  rw [giamBoundBC_eq h] at hf
  rw [bcClass_eq h]
  exact ⟨(ringIG a b h).dualSymmetric (dlBC a b) (dlBC_cls h) (dlBC_dlBC h)
      (fun p l nu _ hl hn => tM_dual h (MC 0) (MC_dual 0) p.toNat hl hn) hf (fun l hl => (dualize_dlBC h l hl).1),
    (ringQIG ord a b h).dualSymmetric (dlBC a b) (dlBC_cls h) (dlBC_dlBC h)
      (fun p l nu _ hl hn => tM_dual h (MC _) (MC_dual _) p.toNat hl hn) hf (fun l hl => (dualize_dlBC h l hl).1)⟩

example : (Space.mk .C 1 3).mult 45 (Poly.sym (.S [2])) (Poly.sym (.S [1])) = .ok [([.S [3]], 1), ([.S [2, 1]], 1)] ∧
    (Space.mk .C 1 3).dualize [3] = .ok [4] ∧ (Space.mk .C 1 3).dualize [1] = .ok [4, 2] ∧
    (Space.mk .C 1 3).mult 45 (Poly.sym (.S [2])) (Poly.sym (.S [4])) = .ok [([.S [4, 2]], 1)] := by decide +kernel

/-- **C79**, `OG(m,2n+1)`, classical. -/
theorem C79_symmetric_OG {m n : Int} (hmn : m ≤ n) {X : Space} (hX : mkOG m (2 * n + 1) = .ok X) {fuel : Nat}
    (hf : giamBoundBC m n ≤ fuel) : DualSymmetric (BCClass m n) (X.mult fuel) X.dualize := by
  obtain ⟨a, b, h, rfl, rfl, rfl⟩ := ogCase hmn hX
  rw [giamBoundBC_eq h] at hf
  rw [bcClass_eq h]
  exact (ringOG a b h).dualSymmetric (dlBC a b) (dlBC_cls h) (dlBC_dlBC h)
    (fun p l nu _ hl hn => tM_dual h (MB b) (MB_dual b) p.toNat hl hn) hf (fun l hl => (dualize_dlBC h l hl).2)

example : (Space.mk .B 1 3).mult 45 (Poly.sym (.S [2])) (Poly.sym (.S [1])) = .ok [([.S [3]], 1), ([.S [2, 1]], 1)] ∧
    (Space.mk .B 1 3).dualize [3] = .ok [4] ∧ (Space.mk .B 1 3).dualize [1] = .ok [4, 2] ∧
    (Space.mk .B 1 3).mult 45 (Poly.sym (.S [2])) (Poly.sym (.S [4])) = .ok [([.S [4, 2]], 1)] := by decide +kernel

/-- **C79**, `OG(m,2n+1)`, quantum. -/
theorem C79_qsymmetric_OG (ord : List Int → List Int) {m n : Int} (hm : 0 < m) (hmn : m ≤ n) {X : Space}
    (hX : mkOG m (2 * n + 1) = .ok X) {fuel : Nat} (hf : giamBoundBC m n ≤ fuel) :
    DualSymmetric (BCClass m n) (X.qmult ord fuel) X.dualize := by
  obtain ⟨a, b, h, rfl, rfl, rfl⟩ := ogCase' hm hmn hX
  rw [giamBoundBC_eq h.le] at hf
  rw [bcClass_eq h.le]
  exact (ringQOG ord a b h).dualSymmetric (dlBC a b) (dlBC_cls h.le) (dlBC_dlBC h.le)
    (fun p l nu _ hl hn => tM_dual h.le (MQB b) (MQB_dual b) p.toNat hl hn) hf (fun l hl => (dualize_dlBC h.le l hl).2)

example : (Space.mk .B 1 3).qmult id 45 (Poly.sym (.S [4])) (Poly.sym (.S [1])) = .ok [([.S [4, 1]], 1)] ∧
    (Space.mk .B 1 3).qmult id 45 (Poly.sym (.S [4])) (Poly.sym (.S [4, 3])) = .ok [([.q, .q, .S [3]], 1)] ∧
    (Space.mk .B 1 3).dualize [1] = .ok [4, 2] ∧ (Space.mk .B 1 3).dualize [] = .ok [4, 3] ∧
    (Space.mk .B 1 3).qmult id 45 (Poly.sym (.S [4])) (Poly.sym (.S [4, 2])) = .ok [([.q, .q, .S [2]], 1)] := by
  decide +kernel

/-- **C79**, `OG(m,2n+2)`, classical. -/
theorem C79_symmetric_OGeven {m n : Int} (hn : 0 ≤ n) (hmn : m ≤ n + 1) {X : Space} (hX : mkOG m (2 * n + 2) = .ok X) {fuel : Nat}
    (hf : giamBoundD m n ≤ fuel) : DualSymmetric (DClass m n) (X.mult fuel) X.dualize := by
  obtain ⟨a, b, h, rfl, rfl, rfl⟩ := ogdCase hn hmn hX
  rw [giamBoundD_eq h] at hf
  rw [dClass_eq h]
  exact (ringD a b h).dualSymmetric (dlD a b) (dlD_cls h) (dlD_dlD h)
    (fun p l nu _ hl hn => tDD_dual 0 0 h p hl hn) hf (fun l hl => dualize_dlD h l hl)

example :
    (Space.mk .D 2 3).mult 66 (Poly.sym (.S [2, 0])) (Poly.sym (.S [1])) = .ok [([.S [3]], 1), ([.S [2, 1, 0]], 1)] ∧
    (Space.mk .D 2 3).dualize [3] = .ok [5, 1] ∧ (Space.mk .D 2 3).dualize [1] = .ok [5, 3] ∧
    (Space.mk .D 2 3).mult 66 (Poly.sym (.S [2, 0])) (Poly.sym (.S [5, 1])) = .ok [([.S [5, 3]], 1)] := by decide +kernel

/-- **C79**, `OG(m,2n+2)`, quantum. -/
theorem C79_qsymmetric_OGeven (ord : List Int → List Int) {m n : Int} (hm : 0 < m) (hmn : m ≤ n + 1) (hne : m ≠ n) {X : Space}
    (hX : mkOG m (2 * n + 2) = .ok X) {fuel : Nat} (hf : giamBoundD m n ≤ fuel) :
    DualSymmetric (DClass m n) (X.qmult ord fuel) X.dualize := by
  obtain ⟨a, b, h, hb1, rfl, rfl, rfl⟩ := ogdCase' hm hmn hne hX
  have h' : b ≤ a + 1 := by omega
  rw [giamBoundD_eq h'] at hf
  rw [dClass_eq h']
  exact (ringQD ord a b h hb1).dualSymmetric (dlD a b) (dlD_cls h') (dlD_dlD h')
    (fun p l nu _ hl hn => tDD_dual _ _ h' p hl hn) hf (fun l hl => dualize_dlD h' l hl)

/-! ### examples -/

/-- on `Gr(2,4)`: `S[1] * S[2,1] = S[2,2] + q`, and the coefficient of `q` at the dual of `S[1]`, `S[2,1]`, in
`S[2,1] * S[2,2]` (`[2,2]` is dual to `[]`) -/
example : GrClass 2 4 [1] ∧ GrClass 2 4 [2, 1] ∧
    Gr.qmult ⟨.A, 2, 4⟩ 20 (Poly.sym (.S [1])) (Poly.sym (.S [2, 1])) = .ok [([.S [2, 2]], 1), ([.q, .S []], 1)] ∧
    (Space.mk .A 2 4).dualize [1] = .ok [2, 1] ∧ (Space.mk .A 2 4).dualize [] = .ok [2, 2] ∧
    Gr.qmult ⟨.A, 2, 4⟩ 20 (Poly.sym (.S [2, 1])) (Poly.sym (.S [2, 2])) = .ok [([.q, .S [2, 1]], 1)] := by
  refine ⟨by unfold GrClass ReducedPart InRect; decide, by unfold GrClass ReducedPart InRect; decide, ?_, ?_, ?_, ?_⟩ <;> decide +kernel

/-- on `IG(2,6)`: the coefficient of `S[4,1]` in `S[3] * S[2]` is the coefficient of `S[4] = S[3]'` in `S[2] * S[2]`, as
`S[4,1]' = S[2]` -/
example : BCClass 2 3 [3] ∧ BCClass 2 3 [2] ∧ (Space.mk .C 1 3).dualize [3] = .ok [4] ∧ (Space.mk .C 1 3).dualize [4, 1] = .ok [2] ∧
    (Space.mk .C 1 3).mult 45 (Poly.sym (.S [3])) (Poly.sym (.S [2])) = .ok [([.S [4, 1]], 2), ([.S [3, 2]], 1)] ∧
    (Space.mk .C 1 3).mult 45 (Poly.sym (.S [2])) (Poly.sym (.S [2])) = .ok [([.S [4]], 2), ([.S [3, 1]], 2)] := by
  refine ⟨⟨⟨by decide, by decide⟩, by unfold KStrict; decide, by decide, by decide⟩,
    ⟨⟨by decide, by decide⟩, by unfold KStrict; decide, by decide, by decide⟩, ?_, ?_, ?_, ?_⟩ <;> decide +kernel

end Verif
