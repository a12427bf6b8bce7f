import Verif.Proofs.Transpose
import Verif.Proofs.AltA
import Verif.Props.RimProd
/-!
# C88, C89: transposing diagrams, Gr(m,n) and Gr(n-m,n); the Pieri rule for columns
-/

namespace Verif
open Spec Cyl Finset Alt

namespace GiamSys
variable {k : ℤ} {pieri : Int → List Int → Except PyErr Poly} {spc : Int → Prop} {cls : List Int → Prop} (Z : GiamSys k pieri spc cls)

/-- An operator that commutes with the special operators is a multiplication. -/
theorem operator_prod (hnil : cls []) (E : LMod →ₗ[Polynomial ℚ] LMod) (hE : ∀ x, ∀ l ∈ (E x).support, cls l)
    (hc : ∀ p, spc p → ∀ x : LMod, (∀ l ∈ x.support, cls l) → E (lin (Z.t p) x) = lin (Z.t p) (E x))
    {y : LMod} (hy : ∀ l ∈ y.support, cls l) : E y = Z.prod (E (Finsupp.single [] 1)) y := by
  have h1 := supp_single hnil (1 : Polynomial ℚ)
  have key : ∀ l, cls l → ∀ y : LMod, (∀ l ∈ y.support, cls l) → E (Z.prod (Finsupp.single l 1) y) = Z.prod (Finsupp.single l 1) (E y) := by
    refine Z.G_induction (Q := fun l => ∀ y : LMod, (∀ l ∈ y.support, cls l) →
      E (Z.prod (Finsupp.single l 1) y) = Z.prod (Finsupp.single l 1) (E y)) ?_ ?_
    · intro _ y _
      rw [one_prod, one_prod]
    · intro l hl h0 hp ht ih ihr y hy
      have e : Finsupp.single l 1 = lin (Z.t (hdK k l)) (Finsupp.single (tlK k l) 1) - Z.rest l := by
        rw [rest]
        simp [lin]
      have hr : E (Z.prod (Z.rest l) y) = Z.prod (Z.rest l) (E y) := by
        rw [lmod_sum (Z.rest l), prod_sum_left, map_sum, prod_sum_left]
        refine Finset.sum_congr rfl (fun mu hmu => ?_)
        rw [Z.prod_smul_left, map_smul, Z.prod_smul_left, (ihr mu hmu).2 y hy]
      have hst := supp_single (cls := cls) ht 1
      rw [e, prod_sub_left, map_sub, prod_sub_left, hr, Z.prod_lin hp hst hy, hc _ hp _ (Z.prod_support _ hy), ih y hy,
        Z.prod_lin hp hst (hE y)]
  have hsingle : ∀ l, cls l → E (Finsupp.single l 1) = Z.prod (E (Finsupp.single [] 1)) (Finsupp.single l 1) := by
    intro l hl
    have := key l hl _ h1
    rw [Z.prod_comm (supp_single hl 1) h1, one_prod, Z.prod_comm (supp_single hl 1) (hE _)] at this
    exact this
  rw [lmod_sum y, map_sum]
  unfold prod at hsingle ⊢
  rw [map_sum]
  refine Finset.sum_congr rfl (fun l hl => ?_)
  rw [map_smul, map_smul, hsingle l (hy l hl)]

end GiamSys

section
variable {m c : ℕ}

/-- transposing the classes of a linear combination -/
noncomputable def phiT : LMod →ₗ[Polynomial ℚ] LMod := lin (fun l => Finsupp.single (partConj l) 1)

theorem phiT_single (l : List Int) (a : Polynomial ℚ) : phiT (Finsupp.single l a) = Finsupp.single (partConj l) a := by
  simp [phiT, lin]

theorem phiT_apply {x : LMod} (hx : ∀ l ∈ x.support, ReducedPart l) {nu : List Int} (hnu : ReducedPart nu) :
    phiT x (partConj nu) = x nu := by
  conv_lhs => rw [lmod_sum x]
  rw [map_sum, Finsupp.finsetSum_apply]
  have h2 : ∀ l ∈ x.support, phiT (x l • Finsupp.single l 1) (partConj nu) = if l = nu then x nu else 0 := by
    intro l hl
    rw [map_smul, phiT_single, Finsupp.smul_apply, Finsupp.single_apply]
    by_cases h : l = nu
    · subst h; simp
    · rw [if_neg h, if_neg, smul_zero]
      intro h'
      apply h
      rw [← conj_conj' (hx l hl), h', conj_conj' hnu]
  rw [Finset.sum_congr rfl h2, Finset.sum_ite_eq']
  split
  · rfl
  · rename_i h
    rw [Finsupp.notMem_support_iff.1 h]

theorem phiT_support {cls : List Int → Prop} {x : LMod} (hx : ∀ l ∈ x.support, cls (partConj l)) : ∀ l ∈ (phiT x).support, cls l := by
  rw [lmod_sum x, map_sum]
  refine supp_sum _ _ (fun l hl nu hnu => ?_)
  rw [map_smul, phiT_single] at hnu
  exact supp_single (hx l hl) 1 nu (Finsupp.support_smul hnu)

theorem conj_mem {l : List Int} (hl : clsA (c + 1) (m + 1 : ℕ) l) : clsA (m + 1) (c + 1 : ℕ) (partConj l) := clsA_conj hl

theorem phiT_tq {l : List Int} (hl : clsA (c + 1) (m + 1 : ℕ) l) (p : ℕ) :
    phiT (tq c (m + 1 : ℕ) p l) = Ecol m (c + 1) p (Finsupp.single (partConj l) 1) := by
  have hcl := tq_closed (m := c) (k := ((m + 1 : ℕ) : ℤ)) (Int.natCast_nonneg _) p l
  ext nu : 1
  by_cases hnu : clsA (m + 1) (c + 1 : ℕ) nu
  · have e := phiT_apply (x := tq c (m + 1 : ℕ) p l) (fun l hl => (hcl l hl).1) (nu := partConj nu) (partConj_reduced hnu.1.isPartition)
    rw [conj_conj' hnu.1] at e
    rw [e, ← tq_conj (conj_mem hl) hnu, conj_conj' hl.1]
  · have h1 : nu ∉ (phiT (tq c (m + 1 : ℕ) p l)).support := fun h =>
      hnu (phiT_support (cls := clsA (m + 1) (c + 1 : ℕ)) (fun l hl => conj_mem (hcl l hl)) nu h)
    have h2 : nu ∉ (Ecol m (c + 1) p (Finsupp.single (partConj l) 1)).support := fun h => hnu (Ecol_support _ _ _ _ nu h)
    rw [Finsupp.notMem_support_iff.1 h1, Finsupp.notMem_support_iff.1 h2]

theorem clsA_nil' {a : ℕ} {b : ℤ} : clsA a b [] := ⟨⟨List.Pairwise.nil, by simp⟩, by simp [InRect]⟩

/-- The column operators are multiplications. -/
theorem Ecol_prod {κ : ℤ} {pieri : Int → List Int → Except PyErr Poly} {K : ℕ} {cls : List Int → Prop}
    (Z : GiamSys κ pieri (stdSpc K) cls) (hc : cls = clsA (m + 1) (c + 1 : ℕ)) (hK : K ≤ c + 1)
    (ht : ∀ p l, Z.t p l = tq m (c + 1 : ℕ) p.toNat l) (p : ℕ) {y : LMod} (hy : ∀ l ∈ y.support, cls l) :
    Ecol m (c + 1) p y = Z.prod (Ecol m (c + 1) p (Finsupp.single [] 1)) y := by
  subst hc
  have e : ∀ p, Z.t p = tq m (c + 1 : ℕ) p.toNat := fun p => funext (ht p)
  refine Z.operator_prod clsA_nil' _ (Ecol_support _ _ _) (fun p hp x hx => ?_) hy
  have hp' : p.toNat < c + 1 + m + 1 := by have := hp.2; omega
  rw [e, ← Tq_lin hp' hx, ← Tq_lin hp' (Ecol_support _ _ _ _), Ecol_Tq _ _ _ _ hx]

theorem transpose_hom {κ κ' : ℤ} {pieri pieri' : Int → List Int → Except PyErr Poly} {K K' : ℕ} {cls cls' : List Int → Prop}
    (Y : GiamSys κ pieri (stdSpc K) cls) (Z : GiamSys κ' pieri' (stdSpc K') cls')
    (hc : cls = clsA (c + 1) (m + 1 : ℕ)) (hc' : cls' = clsA (m + 1) (c + 1 : ℕ)) (hK' : K' ≤ c + 1)
    (ht : ∀ p l, Y.t p l = tq c (m + 1 : ℕ) p.toNat l) (ht' : ∀ p l, Z.t p l = tq m (c + 1 : ℕ) p.toNat l)
    {x y : LMod} (hx : ∀ l ∈ x.support, cls l) (hy : ∀ l ∈ y.support, cls l) : phiT (Y.prod x y) = Z.prod (phiT x) (phiT y) := by
  have hcc : ∀ l, cls l → cls' (partConj l) := fun l hl => by
    rw [hc] at hl; rw [hc']; exact conj_mem hl
  refine GiamSys.hom Y Z phiT (fun l hl => ?_) ?_ (fun p hp => ?_) hx hy
  · rw [phiT_single]
    exact supp_single (hcc l hl) 1
  · rw [phiT_single]
    rfl
  · refine ⟨Ecol m (c + 1) p.toNat (Finsupp.single [] 1), ?_, fun l hl => ?_⟩
    · rw [hc']; exact Ecol_support _ _ _ _
    · rw [ht, phiT_tq (by rw [← hc]; exact hl), phiT_single, Ecol_prod Z hc' hK' ht' p.toNat (supp_single (hcc l hl) 1)]

end

theorem grClass_clsA {m k : ℕ} {n : ℤ} (hn : n = m + k) : GrClass m n = clsA m k := by
  funext l
  unfold GrClass clsA
  rw [show n - (m : ℤ) = k by omega]

theorem ringQ_t {m : ℕ} {n : ℤ} {X : Space} (hm : 1 ≤ m + 1) (hX : mkGr (m + 1 : ℕ) n = .ok X) {c : ℕ} (hn : n = (m + 1 : ℕ) + (c + 1 : ℕ))
    (p : Int) (l : List Int) : (ringQ hm hX).on.Y.t p l = tq m (c + 1 : ℕ) p.toNat l := by
  obtain ⟨rfl, h1, h2⟩ := mkGr_ok hX
  show tq m (n - (m + 1 : ℕ)) p.toNat l = _
  rw [show n - ((m + 1 : ℕ) : ℤ) = (c + 1 : ℕ) by omega]

/-- The product with transposed arguments is the transposed product. -/
def Spec.TransposeSymmetric (cls : List Int → Prop) (mult mult' : Poly → Poly → Except PyErr Poly) : Prop :=
  ∀ l mu l' mu', cls l → cls mu → ReducedPart l' → IsConjugate l l' → ReducedPart mu' → IsConjugate mu mu' →
    ∃ w w', mult (Poly.sym (.S l)) (Poly.sym (.S mu)) = .ok w ∧ mult' (Poly.sym (.S l')) (Poly.sym (.S mu')) = .ok w' ∧
      ∀ nu nu', cls nu → ReducedPart nu' → IsConjugate nu nu' → ∀ d,
        coeffOf (List.replicate d Sym.q ++ [.S nu]) w = coeffOf (List.replicate d Sym.q ++ [.S nu']) w'

theorem conj_unique {l l' : List Int} (h : IsPartition l) (hr : ReducedPart l') (hc : IsConjugate l l') : l' = partConj l := by
  refine eq_of_part_eq hr.noTrailing (partConj_reduced h).noTrailing (fun i => ?_)
  rw [hc i, partConj_isConjugate h i]

/-- **C88**: transposing the diagrams is an isomorphism of the quantum ring of `Gr(m,n)` onto the one of `Gr(n-m,n)`. -/
theorem C88_qtranspose {m : ℕ} {n : ℤ} (hm : 1 ≤ m) (hmn : m < n) {X X' : Space} (hX : mkGr m n = .ok X) (hX' : mkGr (n - m) n = .ok X')
    {fuel : ℕ} (hf : giamBound m n ≤ fuel) (hf' : giamBound (n - m).toNat n ≤ fuel) :
    TransposeSymmetric (GrClass m n) (Gr.qmult X fuel) (Gr.qmult X' fuel) := by
  obtain ⟨m, rfl⟩ : ∃ a, m = a + 1 := ⟨m - 1, by omega⟩
  obtain ⟨c, hc⟩ : ∃ c : ℕ, n = (m + 1 : ℕ) + (c + 1 : ℕ) := ⟨(n - (m + 1 : ℕ)).toNat - 1, by omega⟩
  have hc' : n = (c + 1 : ℕ) + (m + 1 : ℕ) := by omega
  rw [show n - ((m + 1 : ℕ) : ℤ) = (c + 1 : ℕ) by omega] at hX' hf'
  rw [Int.toNat_natCast] at hf'
  have e1 := grClass_clsA (m := m + 1) (k := c + 1) hc
  have e2 := grClass_clsA (m := c + 1) (k := m + 1) hc'
  have hm' : 1 ≤ c + 1 := by omega
  intro l mu l' mu' hl hmu h1 h2 h3 h4
  obtain rfl := conj_unique hl.1.isPartition h1 h2
  obtain rfl := conj_unique hmu.1.isPartition h3 h4
  have hcl : ∀ l, GrClass (m + 1 : ℕ) n l → GrClass (c + 1 : ℕ) n (partConj l) := fun l hl => by
    rw [e1] at hl; rw [e2]; exact conj_mem hl
  obtain ⟨w, a1, a2, a3⟩ := (ringQ hm hX).on.mult hf (wf_sym (.S l)) (x := Finsupp.single l 1) (by simp [inq])
      (supp_single hl 1) (wf_sym (.S mu)) (y := Finsupp.single mu 1) (by simp [inq]) (supp_single hmu 1)
  obtain ⟨w', b1, b2, b3⟩ := (ringQ hm' hX').on.mult hf' (wf_sym (.S (partConj l))) (x := Finsupp.single (partConj l) 1) (by simp [inq])
      (supp_single (hcl l hl) 1) (wf_sym (.S (partConj mu))) (y := Finsupp.single (partConj mu) 1) (by simp [inq]) (supp_single (hcl mu hmu) 1)
  refine ⟨w, w', a1, b1, fun nu nu' hnu h5 h6 d => ?_⟩
  obtain rfl := conj_unique hnu.1.isPartition h5 h6
  have hK : (ringQ hm' hX').K ≤ m + 1 := by have := (ringQ hm' hX').hK; omega
  have key := transpose_hom (m := c) (c := m) (ringQ hm hX).on.Y (ringQ hm' hX').on.Y e1 e2 hK (ringQ_t hm hX hc) (ringQ_t hm' hX' hc')
    (supp_single hl 1) (supp_single hmu 1)
  rw [phiT_single, phiT_single] at key
  rw [coeffOf_den a2 (qmono_sorted d _), a3, expo_qmono, coeff_ev, coeffOf_den b2 (qmono_sorted d _), b3, expo_qmono, coeff_ev, ← key,
    phiT_apply (fun l hl => ((ringQ hm hX).on.Y.prod_support _ (supp_single hmu 1) l hl).1) hnu.1]


/-- The classical product of two classes is the `q`-free part of the quantum product. -/
theorem ringC_q0 {m : ℕ} {n : ℤ} {X : Space} (hm : 1 ≤ m) (hX : mkGr m n = .ok X) {l mu : List Int} (hl : GrClass m n l) (hmu : GrClass m n mu) :
    (ringC hm hX).Y.prod (Finsupp.single l 1) (Finsupp.single mu 1) = q0 ((ringQ hm hX).Y.prod (Finsupp.single l 1) (Finsupp.single mu 1)) := by
  have hone : ∀ l : List Int, q0 (Finsupp.single l 1) = Finsupp.single l 1 := fun l => by rw [q0_single]; simp
  cases m with
  | zero => omega
  | succ m =>
    obtain ⟨rfl, _, h⟩ := mkGr_ok hX
    have := q0_prod (m := m) (k := n - (m + 1 : ℕ)) (n := n) (by push_cast at *; omega) (by push_cast; ring) (supp_single hl 1) (Finsupp.single mu 1)
    rw [hone, hone] at this
    exact this.symm

/-- What `mult` and `qmult` return on two classes. -/
theorem gr_products {m : ℕ} {n : ℤ} {X : Space} (hm : 1 ≤ m) (hX : mkGr m n = .ok X) {fuel : ℕ} (hf : giamBound m n ≤ fuel)
    {l mu : List Int} (hl : GrClass m n l) (hmu : GrClass m n mu) :
    ∃ w wq, Gr.mult X fuel (Poly.sym (.S l)) (Poly.sym (.S mu)) = .ok w ∧ Gr.qmult X fuel (Poly.sym (.S l)) (Poly.sym (.S mu)) = .ok wq ∧
      ∀ nu d, coeffOf (List.replicate d Sym.q ++ [.S nu]) wq =
          ((ringQ hm hX).on.Y.prod (Finsupp.single l 1) (Finsupp.single mu 1) nu).coeff d ∧
        coeffOf (List.replicate d Sym.q ++ [.S nu]) w =
          if d = 0 then ((ringQ hm hX).on.Y.prod (Finsupp.single l 1) (Finsupp.single mu 1) nu).coeff 0 else 0 := by
  obtain ⟨w, a1, a2, a3⟩ := (ringC hm hX).mult hf (wf_sym (.S l)) (x := Finsupp.single l 1) (by simp [inq])
      (supp_single hl 1) (wf_sym (.S mu)) (y := Finsupp.single mu 1) (by simp [inq]) (supp_single hmu 1)
  obtain ⟨w', b1, b2, b3⟩ := (ringQ hm hX).on.mult hf (wf_sym (.S l)) (x := Finsupp.single l 1) (by simp [inq])
      (supp_single hl 1) (wf_sym (.S mu)) (y := Finsupp.single mu 1) (by simp [inq]) (supp_single hmu 1)
  refine ⟨w, w', a1, b1, fun nu d => ⟨?_, ?_⟩⟩
  · rw [coeffOf_den b2 (qmono_sorted d _), b3, expo_qmono, coeff_ev]
  · rw [coeffOf_den a2 (qmono_sorted d _), a3, expo_qmono, coeff_ev, ringC_q0 hm hX hl hmu, q0_apply, Polynomial.coeff_C]
    obtain ⟨w'', c1, c2, c3⟩ := (ringQ hm hX).mult hf (wf_sym (.S l)) (x := Finsupp.single l 1) (by simp [inq])
      (supp_single hl 1) (wf_sym (.S mu)) (y := Finsupp.single mu 1) (by simp [inq]) (supp_single hmu 1)
    obtain rfl : w' = w'' := Except.ok.inj (b1.symm.trans c1)
    refine if_congr Iff.rfl ?_ rfl
    rw [← coeff_ev, ← coeff_ev, ← c3, ← b3]

/-- **C88**, classical products. -/
theorem C88_transpose {m : ℕ} {n : ℤ} (hm : 1 ≤ m) (hmn : m < n) {X X' : Space} (hX : mkGr m n = .ok X) (hX' : mkGr (n - m) n = .ok X')
    {fuel : ℕ} (hf : giamBound m n ≤ fuel) (hf' : giamBound (n - m).toNat n ≤ fuel) :
    TransposeSymmetric (GrClass m n) (Gr.mult X fuel) (Gr.mult X' fuel) := by
  have hq := C88_qtranspose hm hmn hX hX' hf hf'
  obtain ⟨c, hc⟩ : ∃ c : ℕ, n - m = c := ⟨(n - m).toNat, by omega⟩
  have hm' : 1 ≤ c := by omega
  intro l mu l' mu' hl hmu h1 h2 h3 h4
  have hcl : ∀ l l', GrClass m n l → ReducedPart l' → IsConjugate l l' → GrClass c n l' := fun l l' hl hr hi => by
    obtain rfl := conj_unique hl.1.isPartition hr hi
    rw [grClass_clsA (m := m) (k := c) (by omega)] at hl
    rw [grClass_clsA (m := c) (k := m) (by omega)]
    obtain ⟨m, rfl⟩ : ∃ a, m = a + 1 := ⟨m - 1, by omega⟩
    exact clsA_conj hl
  rw [hc] at hX' hf'
  rw [Int.toNat_natCast] at hf'
  obtain ⟨w, wq, a1, a2, a3⟩ := gr_products hm hX hf hl hmu
  obtain ⟨w', wq', b1, b2, b3⟩ := gr_products hm' hX' hf' (hcl l l' hl h1 h2) (hcl mu mu' hmu h3 h4)
  obtain ⟨v, v', c1, c2, c3⟩ := hq l mu l' mu' hl hmu h1 h2 h3 h4
  obtain rfl : wq = v := Except.ok.inj (a2.symm.trans c1)
  obtain rfl : wq' = v' := Except.ok.inj (b2.symm.trans c2)
  refine ⟨w, w', a1, b1, fun nu nu' hnu h5 h6 d => ?_⟩
  rw [(a3 nu d).2, (b3 nu' d).2, ← (a3 nu 0).1, ← (b3 nu' 0).1, c3 nu nu' hnu h5 h6 0]

/-! ### C89: the Pieri rule for columns -/

/-- `nu` is obtained from `l` by adding `p` boxes, at most one in each row. -/
def Spec.VertStrip (p : ℤ) (l nu : List Int) : Prop :=
  (∀ i, part l i ≤ part nu i ∧ part nu i ≤ part l i + 1) ∧ nu.sum = l.sum + p

/-- The first row of `l` is full, `nu` is obtained from the other rows by removing at most one box in each row, and the sizes differ
by `n - p`. -/
def Spec.QVertStrip (m n p : ℤ) (l nu : List Int) : Prop :=
  (part l 0 = n - m ∧ ∀ i, part nu i ≤ part l (i + 1) ∧ part l (i + 1) ≤ part nu i + 1) ∧ nu.sum + n = l.sum + p

/-- The coefficients of the product of a class with a column. -/
def Spec.ColumnPieri (cls : List Int → Prop) (m n : ℤ) (quantum : Prop) (mult : Poly → Poly → Except PyErr Poly) : Prop :=
  ∀ (p : ℕ) (l : List Int), (p : ℤ) ≤ m → cls l →
    ∃ w, mult (Poly.sym (.S (List.replicate p 1))) (Poly.sym (.S l)) = .ok w ∧
      ∀ nu d, cls nu → (coeffOf (List.replicate d Sym.q ++ [.S nu]) w : ℚ) = open Classical in
        if (d = 0 ∧ VertStrip p l nu) ∨ (d = 1 ∧ quantum ∧ QVertStrip m n p l nu) then 1 else 0

theorem clsA_ones {m p : ℕ} {k : ℕ} (hp : p ≤ m + 1) (hk : 1 ≤ k) : clsA (m + 1) k (List.replicate p 1) := by
  refine ⟨⟨List.pairwise_replicate.2 (Or.inr le_rfl), fun x hx => ?_⟩, by simpa using hp, fun x hx => ?_⟩
  · rw [List.eq_of_mem_replicate hx]; omega
  · rw [List.eq_of_mem_replicate hx]; omega

theorem part_ones (p i : ℕ) : part (List.replicate p 1) i = if i < p then 1 else 0 := by
  unfold part
  split
  · rw [List.getD_eq_getElem _ _ (by simpa using ‹i < p›)]; simp
  · rw [List.getD_eq_default _ _ (by simp; omega)]

theorem eq_ones {p : ℕ} {mu : List Int} (hmu : ReducedPart mu) (h1 : ∀ x ∈ mu, x ≤ 1) (hs : mu.sum = p) : mu = List.replicate p 1 := by
  have h : ∀ x ∈ mu, x = 1 := fun x hx => by
    have := hmu.2 x hx; have := h1 x hx; omega
  have e := List.eq_replicate_of_mem h
  rw [e, List.sum_replicate] at hs
  simp at hs
  rw [e, hs]

theorem Ecol_nil {m c p : ℕ} (hp : p ≤ m + 1) : Ecol m (c + 1) p (Finsupp.single [] 1) = Finsupp.single (List.replicate p 1) 1 := by
  classical
  have hn : clsA (m + 1) (c + 1 : ℕ) [] := clsA_nil'
  have h1 := clsA_ones (k := c + 1) hp (by omega)
  ext nu : 1
  by_cases hnu : clsA (m + 1) (c + 1 : ℕ) nu
  · have e := Ecol_coeff (p := p) hn (boxV_vec (m := m) (Int.natCast_nonneg (c + 1)) hnu)
    rw [lab_vec' hnu] at e
    have h0 : ¬ unrot (c + 1 : ℕ) (vec m nu) ∈ Vm (p : ℤ) (vec m []) := by
      rw [memVQ hn hnu]
      rintro ⟨⟨h2, -⟩, -⟩
      simp [part] at h2
      omega
    rw [e, if_neg h0, add_zero, Finsupp.single_apply]
    · refine if_congr ?_ rfl rfl
      rw [memV hn hnu]
      constructor
      · rintro ⟨h2, h3⟩
        refine (eq_ones hnu.1 (fun x hx => ?_) (by simpa using h3)).symm
        obtain ⟨i, hi, rfl⟩ := List.getElem_of_mem hx
        have := (h2 i).2
        unfold part at this
        rw [List.getD_eq_getElem _ _ hi] at this
        simpa using this
      · rintro rfl
        refine ⟨fun i => ?_, by simp⟩
        rw [part_ones]
        simp [part]
        split <;> omega
  · have h2 : nu ∉ (Ecol m (c + 1) p (Finsupp.single [] 1)).support := fun h => hnu (Ecol_support _ _ _ _ nu h)
    rw [Finsupp.notMem_support_iff.1 h2, Finsupp.single_apply, if_neg]
    rintro rfl
    exact hnu h1

theorem column_coeff {m : ℕ} {n : ℤ} {X : Space} (hm : 1 ≤ m) (hmn : m < n) (hX : mkGr m n = .ok X) {p : ℕ} (hp : p ≤ m) {l nu : List Int}
    (hl : GrClass m n l) (hnu : GrClass m n nu) :
    (ringQ hm hX).on.Y.prod (Finsupp.single (List.replicate p 1) 1) (Finsupp.single l 1) nu = open Classical in
      (if VertStrip p l nu then 1 else 0) + if QVertStrip m n p l nu then Polynomial.X else 0 := by
  classical
  obtain ⟨m, rfl⟩ : ∃ a, m = a + 1 := ⟨m - 1, by omega⟩
  obtain ⟨c, hc⟩ : ∃ c : ℕ, n = (m + 1 : ℕ) + (c + 1 : ℕ) := ⟨(n - (m + 1 : ℕ)).toNat - 1, by omega⟩
  have e1 := grClass_clsA (m := m + 1) (k := c + 1) hc
  have hK : (ringQ hm hX).K ≤ c + 1 := by have := (ringQ hm hX).hK; omega
  rw [← Ecol_nil (c := c) hp, ← Ecol_prod (ringQ hm hX).on.Y e1 hK (ringQ_t hm hX hc) p (supp_single hl 1)]
  rw [e1] at hl hnu
  have e := Ecol_coeff (p := p) hl (boxV_vec (m := m) (Int.natCast_nonneg (c + 1)) hnu)
  rw [lab_vec' hnu] at e
  rw [e]
  refine congrArg₂ (· + ·) (if_congr (memV hl hnu p) rfl rfl) (if_congr ?_ rfl rfl)
  rw [memVQ hl hnu p]
  unfold QVertStrip
  rw [show n - ((m + 1 : ℕ) : ℤ) = (c + 1 : ℕ) by omega]
  refine and_congr (and_congr Iff.rfl (forall_congr' fun i => and_comm)) ?_
  push_cast at hc ⊢
  omega

/-- **C89**: the quantum Pieri rule for the classes of columns `S[1,...,1]`. -/
theorem C89_qcolumn {m : ℕ} {n : ℤ} (hm : 1 ≤ m) (hmn : m < n) {X : Space} (hX : mkGr m n = .ok X) {fuel : ℕ} (hf : giamBound m n ≤ fuel) :
    ColumnPieri (GrClass m n) m n True (Gr.qmult X fuel) := by
  classical
  intro p l hp hl
  have hp' : p ≤ m := by omega
  have h1 : GrClass m n (List.replicate p 1) := by
    obtain ⟨m, rfl⟩ : ∃ a, m = a + 1 := ⟨m - 1, by omega⟩
    rw [grClass_clsA (k := (n - (m + 1 : ℕ)).toNat) (by omega)]
    exact clsA_ones hp' (by omega)
  obtain ⟨w, wq, a1, a2, a3⟩ := gr_products hm hX hf h1 hl
  refine ⟨wq, a2, fun nu d hnu => ?_⟩
  rw [(a3 nu d).1, column_coeff hm hmn hX hp' hl hnu, Polynomial.coeff_add]
  by_cases hv : VertStrip p l nu
  · have hq : ¬ QVertStrip m n p l nu := fun h => by have := hv.2; have := h.2; omega
    simp only [hv, hq, if_true, if_false, Polynomial.coeff_zero, add_zero, Polynomial.coeff_one, and_true, and_false, or_false]
  · by_cases hq : QVertStrip m n p l nu
    · simp only [hv, hq, if_true, if_false, Polynomial.coeff_zero, zero_add, Polynomial.coeff_X, and_true, and_false, false_or]
      exact if_congr eq_comm rfl rfl
    · simp [hv, hq]

/-- **C89**: the classical Pieri rule for columns. -/
theorem C89_column {m : ℕ} {n : ℤ} (hm : 1 ≤ m) (hmn : m < n) {X : Space} (hX : mkGr m n = .ok X) {fuel : ℕ} (hf : giamBound m n ≤ fuel) :
    ColumnPieri (GrClass m n) m n False (Gr.mult X fuel) := by
  classical
  intro p l hp hl
  have hp' : p ≤ m := by omega
  have h1 : GrClass m n (List.replicate p 1) := by
    obtain ⟨m, rfl⟩ : ∃ a, m = a + 1 := ⟨m - 1, by omega⟩
    rw [grClass_clsA (k := (n - (m + 1 : ℕ)).toNat) (by omega)]
    exact clsA_ones hp' (by omega)
  obtain ⟨w, wq, a1, a2, a3⟩ := gr_products hm hX hf h1 hl
  refine ⟨w, a1, fun nu d hnu => ?_⟩
  rw [(a3 nu d).2, column_coeff hm hmn hX hp' hl hnu, Polynomial.coeff_add]
  by_cases h0 : d = 0
  · subst h0
    by_cases hv : VertStrip p l nu <;> by_cases hq : QVertStrip m n p l nu <;> simp [hv, hq]
  · simp [h0]

/-! ### examples -/

/-- Transposed products in Gr(2,5) and Gr(3,5). -/
example : (do let X ← mkGr 2 5; Gr.qmult X 20 (Poly.sym (.S [3, 1])) (Poly.sym (.S [2, 1]))) =
      .ok [([.q, .S [1, 1]], 1), ([.q, .S [2]], 1)] ∧
    (do let X ← mkGr 3 5; Gr.qmult X 20 (Poly.sym (.S [2, 1, 1])) (Poly.sym (.S [2, 1]))) =
      .ok [([.q, .S [1, 1]], 1), ([.q, .S [2]], 1)] := by
  constructor <;> decide +kernel

example : GrClass 2 5 [3, 1] ∧ ReducedPart [2, 1, 1] := by unfold GrClass ReducedPart InRect; decide

example : partConj [3, 1] = [2, 1, 1] := by decide

/-- A product with a column in Gr(3,5): one vertical strip, one term with `q`. -/
example : (do let X ← mkGr 3 5; Gr.qmult X 20 (Poly.sym (.S (List.replicate 2 1))) (Poly.sym (.S [2, 1]))) =
      .ok [([.S [2, 2, 1]], 1), ([.q, .S []], 1)] := by decide +kernel

example : VertStrip 2 [2, 1] [2, 2, 1] := by
  refine ⟨fun i => ?_, by decide⟩
  match i with
  | 0 => decide
  | 1 => decide
  | 2 => decide
  | i + 3 => simp [part]

example : QVertStrip 3 5 2 [2, 1] [] := by
  refine ⟨⟨by decide, fun i => ?_⟩, by decide⟩
  match i with
  | 0 => decide
  | i + 1 => simp [part]

end Verif
