import Verif.Proofs.SpinPull
import Verif.Props.SwapD
/-!
# C140: the rings of OG(n+1,2n+2) and OG(n,2n+2)

An isotropic subspace of dimension `n` of an even orthogonal space of dimension `2n+2` lies in exactly one maximal isotropic subspace of each
of the two families. Both maps from `OG(n,2n+2)` to `OG(n+1,2n+2)` give homomorphisms of the cohomology rings. On classes they exchange the
first row by a first column.
-/

namespace Verif
open Spec

/-- `f` embeds the classes of one space into the classes of another space and respects the products. -/
def Spec.ClassEmbedding (cls cls' : List Int → Prop) (mult mult' : Poly → Poly → Except PyErr Poly) (f : List Int → List Int) : Prop :=
  (∀ l, cls l → cls' (f l)) ∧ (∀ l mu, cls l → cls mu → f l = f mu → l = mu) ∧
  ∀ l mu, cls l → cls mu → ∃ w w', mult (Poly.sym (.S l)) (Poly.sym (.S mu)) = .ok w ∧
    mult' (Poly.sym (.S (f l))) (Poly.sym (.S (f mu))) = .ok w' ∧ LinComb cls w ∧ LinComb cls' w' ∧
    (∀ nu, cls nu → ∀ d, coeffOf (List.replicate d Sym.q ++ [.S (f nu)]) w' = coeffOf (List.replicate d Sym.q ++ [.S nu]) w) ∧
    ∀ nu', cls' nu' → (∀ nu, cls nu → f nu ≠ nu') → ∀ d, coeffOf (List.replicate d Sym.q ++ [.S nu']) w' = 0

theorem embedding_of_hom {X X' : Space} {pieri pieri' : Int → List Int → Except PyErr Poly} {spc spc' : Int → Prop} {cls cls' : List Int → Prop}
    {B B' : Nat} (R : RingOn X pieri spc cls B) (R' : RingOn X' pieri' spc' cls' B') {f : List Int → List Int}
    (hc : ∀ l, cls l → cls' (f l)) (hi : ∀ l mu, cls l → cls mu → f l = f mu → l = mu)
    (φ : LMod →ₗ[Polynomial ℚ] LMod) (hφ : ∀ l, cls l → φ (Finsupp.single l 1) = Finsupp.single (f l) 1)
    (hm : ∀ x y : LMod, (∀ l ∈ x.support, cls l) → (∀ l ∈ y.support, cls l) → φ (R.Y.prod x y) = R'.Y.prod (φ x) (φ y))
    {fuel fuel' : ℕ} (hf : B ≤ fuel) (hf' : B' ≤ fuel') : ClassEmbedding cls cls' (gmult X pieri fuel) (gmult X' pieri' fuel') f := by
  refine ⟨hc, hi, fun l mu hl hmu => ?_⟩
  obtain ⟨w, h1, h2, h3⟩ := R.mult hf (wf_sym (.S l)) (x := Finsupp.single l 1) (by simp [inq])
      (supp_single hl 1) (wf_sym (.S mu)) (y := Finsupp.single mu 1) (by simp [inq]) (supp_single hmu 1)
  obtain ⟨w', h1', h2', h3'⟩ := R'.mult hf' (wf_sym (.S (f l))) (x := Finsupp.single (f l) 1) (by simp [inq])
      (supp_single (hc l hl) 1) (wf_sym (.S (f mu))) (y := Finsupp.single (f mu) 1) (by simp [inq]) (supp_single (hc mu hmu) 1)
  have hx := R.Y.prod_support (Finsupp.single l 1) (supp_single hmu 1)
  have hx' := R'.Y.prod_support (Finsupp.single (f l) 1) (supp_single (hc mu hmu) 1)
  have key := hm _ _ (supp_single hl 1) (supp_single hmu 1)
  rw [hφ l hl, hφ mu hmu] at key
  have e : ∀ nu', R'.Y.prod (Finsupp.single (f l) 1) (Finsupp.single (f mu) 1) nu' =
      ∑ nu ∈ (R.Y.prod (Finsupp.single l 1) (Finsupp.single mu 1)).support,
        if f nu = nu' then R.Y.prod (Finsupp.single l 1) (Finsupp.single mu 1) nu else 0 := by
    intro nu'
    rw [← key]
    conv_lhs => rw [lmod_sum (R.Y.prod (Finsupp.single l 1) (Finsupp.single mu 1))]
    rw [map_sum, Finsupp.finsetSum_apply]
    refine Finset.sum_congr rfl (fun nu hnu => ?_)
    rw [map_smul, hφ nu (hx nu hnu), Finsupp.smul_apply, Finsupp.single_apply]
    split <;> simp
  refine ⟨w, w', h1, h1', linComb_of_ev h2 h3 hx, linComb_of_ev h2' h3' hx', fun nu hnu d => ?_, fun nu' _ hne d => ?_⟩
  · rw [coeffOf_den h2 (qmono_sorted d _), h3, expo_qmono, coeff_ev, coeffOf_den h2' (qmono_sorted d _), h3', expo_qmono, coeff_ev, e]
    rw [Finset.sum_congr rfl (fun nu2 hnu2 => show _ = if nu2 = nu then R.Y.prod (Finsupp.single l 1) (Finsupp.single mu 1) nu else 0 by
      by_cases h : nu2 = nu
      · subst h; simp
      · rw [if_neg h, if_neg (fun h' => h (hi _ _ (hx _ hnu2) hnu h'))]), Finset.sum_ite_eq']
    split
    · rfl
    · rename_i h
      rw [Finsupp.notMem_support_iff.1 h]
  · rw [coeffOf_den h2' (qmono_sorted d _), h3', expo_qmono, coeff_ev, e, Finset.sum_eq_zero (fun nu hnu => if_neg (hne nu (hx nu hnu)))]
    simp

section
variable {n : ℕ}

theorem phiCol_max {x y : LMod} (hx : ∀ l ∈ x.support, clsD n 0 l) (hy : ∀ l ∈ y.support, clsD n 0 l) :
    phiCol ((ringD n 0 (by omega)).Y.prod x y) = (ringD n 1 (by omega)).Y.prod (phiCol x) (phiCol y) := by
  have hx' : ∀ l ∈ x.support, clsBC n 0 l := fun l hl => (cls_BD l).2 (hx l hl)
  have hy' : ∀ l ∈ y.support, clsBC n 0 l := fun l hl => (cls_BD l).2 (hy l hl)
  rw [← phiCol_prod hx' hy']
  refine congrArg phiCol (same_prod (ringOG n 0 (Nat.zero_le n)).Y (ringD n 0 (by omega)).Y (fun p hp l hl => ?_) hx' hy').symm
  obtain ⟨p, rfl⟩ : ∃ p' : ℕ, p = p' := ⟨p.toNat, by have := hp.1; omega⟩
  exact tBD (fun u hu w hw => MD_MB (by have := hp.1; omega) hu hw) hl

theorem phiCol_supp {x : LMod} (hx : ∀ l ∈ x.support, clsD n 0 l) : ∀ l ∈ (phiCol x).support, clsD n 1 l := by
  rw [lmod_sum x, map_sum]
  refine supp_sum _ _ (fun l hl nu hnu => ?_)
  rw [map_smul, phiCol_single] at hnu
  exact supp_single (cls_col ((cls_BD l).2 (hx l hl))) 1 nu (Finsupp.support_smul hnu)

theorem typeTwo_col {l : List Int} (hl : clsD n 0 l) : typeTwo 1 (rowToColumn l) = typeSwap (rowToColumn l) (1 : ℕ) := by
  obtain ⟨u, hu, rfl⟩ := (Wd_cls (Nat.zero_le n) l).1 ((cls_BD l).2 hl)
  rw [← labD_phiU (mem_Wd.1 hu).2, typeSwap_labD one_pos (phiU_mem hu)]
  have hb : ∀ u : List L3, (phiU u).2 ≠ .b := by
    intro u
    induction u with
    | nil => simp [phiU]
    | cons p u ih => cases p <;> simp_all [phiU, bD]
  have h1 := mem_clD (U := phiU u) (by rw [(mem_WdD.1 (phiU_mem hu)).2.1]; exact one_pos)
  rw [(mem_WdD.1 (phiU_mem hu)).2.1] at h1
  have e1 : labD (swD (phiU u)) = clD (phiU u) ++ if (phiU u).2.sw = .b then [0] else [] := by rw [labD, clD_sw]; rfl
  rw [e1]
  unfold labD typeTwo
  rw [if_neg (hb u), List.append_nil]
  cases hi : (phiU u).2 with
  | o => rw [hi] at h1; rw [if_neg (by simpa using h1)]; simp [L3.sw]
  | a => rw [if_pos (by simpa using h1.2 (by rw [hi]; simp))]; simp [L3.sw]
  | b => exact absurd hi (hb u)

end

/-- **C140**: `OG(n,2n+1)` and `OG(n,2n+2)`. -/
theorem C140_odd {n : Int} (hn : 0 ≤ n) {X X' : Space} (hX : mkOG n (2 * n + 1) = .ok X) (hX' : mkOG n (2 * n + 2) = .ok X') {fuel fuel' : Nat}
    (hf : giamBoundBC n n ≤ fuel) (hf' : giamBoundD n n ≤ fuel') :
    ClassEmbedding (BCClass n n) (DClass n n) (X.mult fuel) (X'.mult fuel') rowToColumn := by
  obtain ⟨a, b, h, rfl, h1, rfl⟩ := ogCase le_rfl hX
  obtain ⟨a', b', h', e1, e2, rfl⟩ := ogdCase hn (by omega) hX'
  obtain rfl : a = a' := by omega
  obtain rfl : b = 0 := by omega
  obtain rfl : b' = 1 := by omega
  have e1 := bcClass_eq (Nat.zero_le a)
  have e2 := giamBoundBC_eq (Nat.zero_le a)
  have e3 := giamBoundD_eq h'
  have e4 := dClass_eq h'
  simp only [Nat.cast_zero, sub_zero, Nat.cast_one, add_sub_cancel_right] at e1 e2 e3 e4
  rw [e2] at hf
  rw [e3] at hf'
  rw [e1, e4]
  exact embedding_of_hom (ringOG a 0 h) (ringD a 1 h') (fun l hl => cls_col hl) (fun l mu hl hmu he => col_inj hl hmu he) phiCol
    (fun l _ => phiCol_single l 1) (fun x y hx hy => phiCol_prod hx hy) hf hf'

/-- `S[2,1] * S[2]` on `OG(3,7)` and `S[2,1] * S[1,1]` on `OG(3,8)` -/
example : mkOG 3 (2 * 3 + 1) = .ok ⟨.B, 0, 3⟩ ∧ mkOG 3 (2 * 3 + 2) = .ok ⟨.D, 1, 3⟩ ∧ rowToColumn [2, 1] = [2, 1] ∧ rowToColumn [2] = [1, 1] ∧
    rowToColumn [3, 2] = [3, 1, 1] ∧
    (Space.mk .B 0 3).mult 40 (Poly.sym (.S [2, 1])) (Poly.sym (.S [2])) = .ok [([.S [3, 2]], 1)] ∧
    (Space.mk .D 1 3).mult 65 (Poly.sym (.S [2, 1])) (Poly.sym (.S [1, 1])) = .ok [([.S [3, 1, 1]], 1)] := by
  refine ⟨by decide, by decide, by decide, by decide, by decide, by decide +kernel, by decide +kernel⟩

/-- **C140**: the first map from `OG(n,2n+2)` to `OG(n+1,2n+2)`. -/
theorem C140_one {n : Int} (hn : 0 ≤ n) {X X' : Space} (hX : mkOG (n + 1) (2 * n + 2) = .ok X) (hX' : mkOG n (2 * n + 2) = .ok X') {fuel fuel' : Nat}
    (hf : giamBoundD (n + 1) n ≤ fuel) (hf' : giamBoundD n n ≤ fuel') :
    ClassEmbedding (DClass (n + 1) n) (DClass n n) (X.mult fuel) (X'.mult fuel') rowToColumn := by
  obtain ⟨a, b, h, e1, e2, rfl⟩ := ogdCase hn le_rfl hX
  obtain ⟨a', b', h', e3, e4, rfl⟩ := ogdCase hn (by omega) hX'
  obtain rfl : a = a' := by omega
  obtain rfl : b = 0 := by omega
  obtain rfl : b' = 1 := by omega
  subst e1
  have e1 := giamBoundD_eq h
  have e2 := dClass_eq h
  have e3 := giamBoundD_eq h'
  have e4 := dClass_eq h'
  simp only [Nat.cast_zero, sub_zero, Nat.cast_one, add_sub_cancel_right] at e1 e2 e3 e4
  rw [e1] at hf
  rw [e3] at hf'
  rw [e2, e4]
  exact embedding_of_hom (ringD a 0 h) (ringD a 1 h') (fun l hl => cls_col ((cls_BD l).2 hl))
    (fun l mu hl hmu he => col_inj ((cls_BD l).2 hl) ((cls_BD mu).2 hmu) he) phiCol
    (fun l _ => phiCol_single l 1) (fun x y hx hy => phiCol_max hx hy) hf hf'

/-- `S[2] * S[2]` on `OG(4,8)` and `S[1,1] * S[1,1]` on `OG(3,8)` -/
example : mkOG (3 + 1) (2 * 3 + 2) = .ok ⟨.D, 0, 3⟩ ∧ rowToColumn [3, 1] = [2, 1, 1] ∧
    (Space.mk .D 0 3).mult 52 (Poly.sym (.S [2])) (Poly.sym (.S [2])) = .ok [([.S [3, 1]], 2)] ∧
    (Space.mk .D 1 3).mult 65 (Poly.sym (.S [1, 1])) (Poly.sym (.S [1, 1])) = .ok [([.S [2, 1, 1]], 2)] := by
  refine ⟨by decide, by decide, by decide +kernel, by decide +kernel⟩

/-- **C140**: the second map from `OG(n,2n+2)` to `OG(n+1,2n+2)`. -/
theorem C140_two {n : Int} (hn : 0 ≤ n) {X X' : Space} (hX : mkOG (n + 1) (2 * n + 2) = .ok X) (hX' : mkOG n (2 * n + 2) = .ok X') {fuel fuel' : Nat}
    (hf : giamBoundD (n + 1) n ≤ fuel) (hf' : giamBoundD n n ≤ fuel') :
    ClassEmbedding (DClass (n + 1) n) (DClass n n) (X.mult fuel) (X'.mult fuel') (fun l => typeTwo 1 (rowToColumn l)) := by
  obtain ⟨a, b, h, e1, e2, rfl⟩ := ogdCase hn le_rfl hX
  obtain ⟨a', b', h', e3, e4, rfl⟩ := ogdCase hn (by omega) hX'
  obtain rfl : a = a' := by omega
  obtain rfl : b = 0 := by omega
  obtain rfl : b' = 1 := by omega
  subst e1
  have e1 := giamBoundD_eq h
  have e2 := dClass_eq h
  have e3 := giamBoundD_eq h'
  have e4 := dClass_eq h'
  simp only [Nat.cast_zero, sub_zero, Nat.cast_one, add_sub_cancel_right] at e1 e2 e3 e4
  rw [e1] at hf
  rw [e3] at hf'
  rw [e2, e4]
  have sw : ∀ l, clsD a 1 l → clsD a 1 (typeSwap l (1 : ℕ)) ∧ typeSwap (typeSwap l (1 : ℕ)) (1 : ℕ) = l := by
    intro l hl
    obtain ⟨U, hU, rfl⟩ := (WdD_cls h' l).1 hl
    rw [typeSwap_labD one_pos hU, typeSwap_labD one_pos (swD_mem one_pos hU), swD_swD]
    exact ⟨clsD_labD (swD_mem one_pos hU), rfl⟩
  refine embedding_of_hom (ringD a 0 h) (ringD a 1 h') (fun l hl => ?_) (fun l mu hl hmu he => ?_) (phiSw 1 ∘ₗ phiCol)
    (fun l hl => ?_) (fun x y hx hy => ?_) hf hf'
  · rw [typeTwo_col hl]
    exact (sw _ (cls_col ((cls_BD l).2 hl))).1
  · rw [typeTwo_col hl, typeTwo_col hmu] at he
    refine col_inj ((cls_BD l).2 hl) ((cls_BD mu).2 hmu) ?_
    rw [← (sw _ (cls_col ((cls_BD l).2 hl))).2, he, (sw _ (cls_col ((cls_BD mu).2 hmu))).2]
  · rw [LinearMap.comp_apply, phiCol_single, phiSw_single, typeTwo_col hl]
  · rw [LinearMap.comp_apply, phiCol_max hx hy]
    exact swapD_hom 0 0 one_pos h' (ringD a 1 h').Y rfl (phiCol_supp hx) (phiCol_supp hy)

/-- `S[2,1] * S[2]` on `OG(4,8)` and `S[2,1,0] * S[1,1,0]` on `OG(3,8)` -/
example : typeTwo 1 (rowToColumn [2, 1]) = [2, 1, 0] ∧ typeTwo 1 (rowToColumn [2]) = [1, 1, 0] ∧ typeTwo 1 (rowToColumn [3, 2]) = [3, 1, 1, 0] ∧
    (Space.mk .D 0 3).mult 52 (Poly.sym (.S [2, 1])) (Poly.sym (.S [2])) = .ok [([.S [3, 2]], 1)] ∧
    (Space.mk .D 1 3).mult 65 (Poly.sym (.S [2, 1, 0])) (Poly.sym (.S [1, 1, 0])) = .ok [([.S [3, 1, 1, 0]], 1)] := by
  refine ⟨by decide, by decide, by decide, by decide +kernel, by decide +kernel⟩

/-- a product of classes from the two maps: `S[1,1,0] * S[1]` has a term `S[3]`, of no type -/
example : (Space.mk .D 1 3).mult 65 (Poly.sym (.S [1, 1, 0])) (Poly.sym (.S [1])) = .ok [([.S [3]], 1), ([.S [2, 1, 0]], 1)] := by decide +kernel

end Verif
