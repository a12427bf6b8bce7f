import Verif.Proofs.RingHom
import Verif.Props.RingD
import Verif.Props.Maps
/-!
# C82: exchanging the types is an automorphism of the rings of OG(m,2n+2)
-/

namespace Verif
open Spec

section
variable {n k : ℕ}

theorem swD_mem (hk : 0 < k) {U : WordD} (hU : U ∈ WdD n k) : swD U ∈ WdD n k := by
  rw [mem_WdD] at hU ⊢
  exact ⟨hU.1, by rw [colsD_sw]; exact hU.2.1, fun h => by omega⟩

theorem typeSwap_labD (hk : 0 < k) {U : WordD} (hU : U ∈ WdD n k) : typeSwap (labD U) k = labD (swD U) := by
  rw [mem_WdD] at hU
  have h1 := mem_clD (U := U) (by omega)
  rw [hU.2.1] at h1
  have hred := clD_reduced U
  have e1 : labD (swD U) = clD U ++ if U.2.sw = .b then [0] else [] := by rw [labD, clD_sw]; rfl
  rw [e1]
  unfold labD
  cases hi : U.2 with
  | o =>
    simp only [hi, L3.sw, reduceCtorEq, if_false, List.append_nil]
    rw [hi] at h1
    unfold typeSwap
    split
    · rename_i h; rw [List.length_eq_zero_iff] at h; exact h.symm
    · rename_i h
      rw [if_pos (by simpa using h1), if_neg (last'_reduced hred (by omega))]
  | a =>
    simp only [hi, L3.sw, reduceCtorEq, if_false, if_true, List.append_nil]
    have h2 := h1.2 (by rw [hi]; simp)
    have hl : (clD U).length > 0 := List.length_pos_of_mem h2
    unfold typeSwap
    rw [if_neg (by omega), if_neg (by simpa using h2), if_neg (last'_reduced hred hl)]
  | b =>
    simp only [hi, L3.sw, reduceCtorEq, if_false, if_true, List.append_nil]
    have h2 := h1.2 (by rw [hi]; simp)
    unfold typeSwap
    rw [if_neg (by simp), if_neg (by simp [h2]), if_pos (by simp [last']), dropLast_append_zero]

/-- the number of the exchanged special class -/
def swP (k : ℕ) (p : Int) : Int := if p.natAbs = k then -p else p

theorem swP_spc {p : Int} (hp : spcD n k p) (hk : 0 < k) (hn : k ≤ n + 1) : spcD n k (swP k p) := by
  unfold swP spcD at *
  split
  · push_cast at *; omega
  · exact hp

theorem MDg_sw (h h' : Polynomial ℚ) {p : Int} (hp : p ≠ 0) (U W : WordD) : MDg h h' k (swP k p) (swD U) (swD W) = MDg h h' k p U W := by
  have e1 : (swP k p).natAbs = p.natAbs := by unfold swP; split <;> simp
  have e2 : alD k (swP k p) = alD k p := by unfold alD; rw [e1]
  have e3 : beD k (swP k p) = -beD k p := by
    unfold beD
    rw [e1]
    by_cases h : p.natAbs = k
    · rw [if_pos h, if_pos h, swP, if_pos h]
      unfold sgD
      split <;> split <;> first | omega | simp
    · rw [if_neg h, if_neg h, neg_zero]
  have g : ∀ {R : Type} [CommRing R] (a b x : R), opG a b x (swD U) (swD W) = opG a b x U W := by
    intro R _ a b x
    unfold opG
    rw [opGE_sw, opGO_sw, one_mul, one_mul]
  have s : opS h (swD U) (swD W) = -opS h U W := by
    unfold opS
    rw [opSE_sw, opSO_sw]
    ring
  unfold MDg
  rw [e1, e2, e3, g, s]
  simp

/-- the map on linear combinations -/
noncomputable def phiSw (k : ℕ) : LMod →ₗ[Polynomial ℚ] LMod := lin (fun l => Finsupp.single (typeSwap l k) 1)

theorem phiSw_single (l : List Int) (a : Polynomial ℚ) : phiSw k (Finsupp.single l a) = Finsupp.single (typeSwap l k) a := by
  simp [phiSw, lin]

theorem swapD_hom {κ : ℤ} {pieri : Int → List Int → Except PyErr Poly} (h h' : Polynomial ℚ) (hk : 0 < k) (hn : k ≤ n + 1)
    (Y : GiamSys κ pieri (spcD n k) (clsD n k)) (ht : Y.t = tDD h h' n k) {x y : LMod}
    (hx : ∀ l ∈ x.support, clsD n k l) (hy : ∀ l ∈ y.support, clsD n k l) : phiSw k (Y.prod x y) = Y.prod (phiSw k x) (phiSw k y) := by
  have hc : ∀ l, clsD n k l → clsD n k (typeSwap l k) := by
    intro l hl
    obtain ⟨U, hU, rfl⟩ := (WdD_cls hn l).1 hl
    rw [typeSwap_labD hk hU]
    exact clsD_labD (swD_mem hk hU)
  refine GiamSys.hom Y Y (phiSw k) (fun l hl => ?_) ?_ (fun p hp => ?_) hx hy
  · rw [phiSw_single]
    exact supp_single (hc l hl) _
  · rw [phiSw_single]
    rfl
  · refine ⟨Y.t (swP k p) [], Y.closed _ _, fun l hl => ?_⟩
    have e1 : Y.t (swP k p) [] = lin (Y.t (swP k p)) (Finsupp.single [] 1) := by simp [lin]
    rw [e1, phiSw_single, GiamSys.prod_lin _ (swP_spc hp hk hn) (supp_single (clsD_nil hn) 1) (supp_single (hc l hl) _), GiamSys.one_prod]
    obtain ⟨U, hU, rfl⟩ := (WdD_cls hn l).1 hl
    rw [ht, typeSwap_labD hk hU, tDD_lab h h' p hU, map_sum,
      show lin (tDD h h' n k (swP k p)) (Finsupp.single (labD (swD U)) 1) = tDD h h' n k (swP k p) (labD (swD U)) by simp [lin],
      tDD_lab h h' _ (swD_mem hk hU)]
    refine Finset.sum_bij' (fun W _ => swD W) (fun W _ => swD W) (fun W hW => swD_mem hk hW) (fun W hW => swD_mem hk hW)
      (fun W _ => swD_swD W) (fun W _ => swD_swD W) (fun W hW => ?_)
    rw [phiSw_single, typeSwap_labD hk hW, MDg_sw h h' (spcD_nz p hp)]

theorem phiSw_apply (hk : 0 < k) (hn : k ≤ n + 1) {x : LMod} (hx : ∀ l ∈ x.support, clsD n k l) {nu : List Int} (hnu : clsD n k nu) :
    phiSw k x (typeSwap nu k) = x nu := by
  conv_lhs => rw [lmod_sum x]
  rw [map_sum, Finsupp.finsetSum_apply]
  have h2 : ∀ l ∈ x.support, phiSw k (x l • Finsupp.single l 1) (typeSwap nu k) = if l = nu then x nu else 0 := by
    intro l hl
    rw [map_smul, phiSw_single, Finsupp.smul_apply, Finsupp.single_apply]
    obtain ⟨U, hU, e1⟩ := (WdD_cls hn l).1 (hx l hl)
    obtain ⟨W, hW, e2⟩ := (WdD_cls hn nu).1 hnu
    by_cases h : l = nu
    · subst h; simp
    · rw [if_neg h, if_neg, smul_zero]
      rw [← e1, ← e2, typeSwap_labD hk hU, typeSwap_labD hk hW]
      intro h'
      have := WdD_inj _ (swD_mem hk hU) _ (swD_mem hk hW) h'
      apply h
      rw [← e1, ← e2, ← swD_swD U, this, swD_swD]
  rw [Finset.sum_congr rfl h2, Finset.sum_ite_eq']
  split
  · rfl
  · rename_i h
    rw [Finsupp.notMem_support_iff.1 h]

theorem typeSwap_zero {l : List Int} (hl : clsD n 0 l) : typeSwap l 0 = l := by
  obtain ⟨mu, h1, -, h2⟩ := hl
  have h0 : (0 : ℤ) ∉ mu := fun h => by have := h1.2 0 h; omega
  rcases h2 with rfl | ⟨h2, -⟩
  · unfold typeSwap
    split
    · rename_i h; rw [List.length_eq_zero_iff] at h; exact h.symm
    · rename_i h
      rw [if_neg (last'_reduced h1 (by omega))]
  · exact absurd h2 h0

/-- `f` respects the product `mult` of classes. -/
def Spec.ClassSymmetry (cls : List Int → Prop) (mult : Poly → Poly → Except PyErr Poly) (f : List Int → List Int) : Prop :=
  ∀ l mu, cls l → cls mu → cls (f l) ∧ f (f l) = l ∧ ∃ w w', mult (Poly.sym (.S l)) (Poly.sym (.S mu)) = .ok w ∧
    mult (Poly.sym (.S (f l))) (Poly.sym (.S (f mu))) = .ok w' ∧
    ∀ nu, cls nu → ∀ d, coeffOf (List.replicate d Sym.q ++ [.S (f nu)]) w' = coeffOf (List.replicate d Sym.q ++ [.S nu]) w

theorem swapD_symm {pieri : Int → List Int → Except PyErr Poly} (h h' : Polynomial ℚ) (hn : k ≤ n + 1)
    (R : RingOn ⟨.D, k, n⟩ pieri (spcD n k) (clsD n k) (boundD n k)) (ht : R.Y.t = tDD h h' n k) {fuel : ℕ} (hf : boundD n k ≤ fuel) :
    ClassSymmetry (clsD n k) (gmult ⟨.D, k, n⟩ pieri fuel) (Space.typeSwap ⟨.D, k, n⟩) := by
  intro l mu hl hmu
  obtain ⟨w, h1, h2, h3⟩ := R.mult hf (wf_sym (.S l)) (x := Finsupp.single l 1) (by simp [inq])
      (supp_single hl 1) (wf_sym (.S mu)) (y := Finsupp.single mu 1) (by simp [inq]) (supp_single hmu 1)
  simp only [Space.typeSwap, if_true]
  rcases Nat.eq_zero_or_pos k with rfl | hk
  · have e : ∀ l, clsD n 0 l → typeSwap l (0 : ℕ) = l := fun l hl => typeSwap_zero hl
    refine ⟨by rw [e l hl]; exact hl, by rw [e l hl, e l hl], w, w, h1, by rw [e l hl, e mu hmu]; exact h1, fun nu hnu d => by rw [e nu hnu]⟩
  · have hc : ∀ l, clsD n k l → clsD n k (typeSwap l k) ∧ typeSwap (typeSwap l k) k = l := by
      intro l hl
      obtain ⟨U, hU, rfl⟩ := (WdD_cls hn l).1 hl
      rw [typeSwap_labD hk hU, typeSwap_labD hk (swD_mem hk hU), swD_swD]
      exact ⟨clsD_labD (swD_mem hk hU), rfl⟩
    obtain ⟨w', h1', h2', h3'⟩ := R.mult hf (wf_sym (.S (typeSwap l k))) (x := Finsupp.single (typeSwap l k) 1) (by simp [inq])
      (supp_single (hc l hl).1 1) (wf_sym (.S (typeSwap mu k))) (y := Finsupp.single (typeSwap mu k) 1) (by simp [inq]) (supp_single (hc mu hmu).1 1)
    refine ⟨(hc l hl).1, (hc l hl).2, w, w', h1, h1', fun nu hnu d => ?_⟩
    rw [coeffOf_den h2 (qmono_sorted d _), h3, expo_qmono, coeff_ev, coeffOf_den h2' (qmono_sorted d _), h3', expo_qmono, coeff_ev]
    have key := swapD_hom h h' hk hn R.Y ht (supp_single hl 1) (supp_single hmu 1)
    rw [phiSw_single, phiSw_single] at key
    rw [← key, phiSw_apply hk hn (R.Y.prod_support _ (supp_single hmu 1)) hnu]

end

/-- **C82**: on `OG(m,2n+2)` exchanging the types of all classes respects `mult`. -/
theorem C82_swap {m n : Int} (hn : 0 ≤ n) (hmn : m ≤ n + 1) {X : Space} (hX : mkOG m (2 * n + 2) = .ok X) {fuel : Nat}
    (hf : giamBoundD m n ≤ fuel) : ClassSymmetry (DClass m n) (X.mult fuel) X.typeSwap := by
  obtain ⟨a, b, h, rfl, rfl, rfl⟩ := ogdCase hn hmn hX
  rw [giamBoundD_eq h] at hf
  rw [dClass_eq h]
  exact swapD_symm 0 0 h (ringD a b h) rfl hf

/-- `OG(2,8)` -/
example :
    (Space.mk .D 2 3).mult 66 (Poly.sym (.S [2, 0])) (Poly.sym (.S [2, 1])) = .ok [([.S [4, 1]], 1), ([.S [3, 2]], 1)] ∧
    (Space.mk .D 2 3).mult 66 (Poly.sym (.S [2])) (Poly.sym (.S [2, 1, 0])) =
      .ok [([.S [4, 1]], 1), ([.S [3, 2, 0]], 1)] := by decide +kernel

/-- **C82**: and `qmult`. -/
theorem C82_qswap (ord : List Int → List Int) {m n : Int} (hm : 0 < m) (hmn : m ≤ n + 1) (hne : m ≠ n) {X : Space}
    (hX : mkOG m (2 * n + 2) = .ok X) {fuel : Nat} (hf : giamBoundD m n ≤ fuel) :
    ClassSymmetry (DClass m n) (X.qmult ord fuel) X.typeSwap := by
  obtain ⟨a, b, h, hb1, rfl, rfl, rfl⟩ := ogdCase' hm hmn hne hX
  have h' : b ≤ a + 1 := by omega
  rw [giamBoundD_eq h'] at hf
  rw [dClass_eq h']
  exact swapD_symm _ _ h' (ringQD ord a b h hb1) rfl hf

/-- On `OG(2,8)`: `S[2]^2` and `S[2,0]^2`. -/
example : (do let X ← mkOG 2 8; .ok (X.typeSwap [2, 2])) = .ok [2, 2, 0] ∧
    (do let X ← mkOG 2 8; X.qmult id 20 (Poly.sym (.S [2])) (Poly.sym (.S [2]))) = .ok [([.S [4]], 1), ([.S [2, 2]], 1)] ∧
    (do let X ← mkOG 2 8; X.qmult id 20 (Poly.sym (.S [2, 0])) (Poly.sym (.S [2, 0]))) =
      .ok [([.S [4]], 1), ([.S [2, 2, 0]], 1)] := by decide +kernel

end Verif
