import Verif.Props.RimProd
import Verif.Proofs.RingOps
/-!
# The quantum Pieri operators of Gr(m,n) are self-adjoint
-/

namespace Verif
open Spec MvPolynomial Cyl

variable {m : ℕ} {k : ℤ}

/-- The strip with a removed rim hook, from the class. -/
def unrot (k : ℤ) (h : Fin (m + 1) → ℤ) : Fin (m + 1) → ℤ := sh k (fun i => h i + 1)

theorem rot_unrot (h : Fin (m + 1) → ℤ) : rot k (unrot k h) = h := by
  funext i
  show dn k (sh k fun i => h i + 1) i - 1 = h i
  rw [dn_sh]
  simp

theorem unrot_rot (g : Fin (m + 1) → ℤ) : unrot k (rot k g) = g := by
  have : (fun i => rot k g i + 1) = dn k g := by funext i; simp [rot]
  rw [unrot, this, sh_dn]

theorem unrot_zero (h : Fin (m + 1) → ℤ) : unrot k h 0 = h (Fin.last m) + 1 + k := by
  rw [unrot, sh_zero]

theorem tq_coeff {p : Nat} {l : List Int} (hl : clsA (m + 1) k l) {h : Fin (m + 1) → ℤ} (hh : BoxV k h) :
    tq m k p l (lab h) = open Classical in
      (if h ∈ Om k p (vec m l) then 1 else 0) + if unrot k h ∈ Om k p (vec m l) then Polynomial.X else 0 := by
  classical
  have hz := unrot_zero (k := k) h
  have hlast := hh.last
  have hfirst := hh.first
  have hne : h ≠ unrot k h := fun e => by rw [← e] at hz; omega
  have key : ∀ g, Pi1 k g (lab h) = (if g = h then 1 else 0) + if g = unrot k h then (Polynomial.X : Polynomial ℚ) else 0 := by
    intro g
    unfold Pi1
    by_cases hg : g 0 ≤ k
    · rw [if_pos hg, Finsupp.single_apply, if_neg (show ¬ g = unrot k h from fun e => by rw [e] at hg; omega), add_zero]
      by_cases e : g = h
      · rw [if_pos e, if_pos (by rw [e])]
      · rw [if_neg e, if_neg (fun h' => e (lab_inj h'))]
    · rw [if_neg hg, Finsupp.single_apply, if_neg (show ¬ g = h from fun e => by rw [e] at hg; omega), zero_add]
      by_cases e : g = unrot k h
      · rw [if_pos e, if_pos (by rw [e, rot_unrot])]
      · rw [if_neg e, if_neg]
        intro h'
        have := lab_inj h'
        rw [← this, unrot_rot] at e
        exact e rfl
  rw [tq, if_pos hl, Finsupp.finsetSum_apply, Finset.sum_congr rfl (fun g _ => key g), Finset.sum_add_distrib]
  simp only [Finset.sum_ite_eq']

theorem dual_memQ {p : ℤ} {f h : Fin (m + 1) → ℤ} (hf : BoxV k f) (hh : BoxV k h) (hm : unrot k h ∈ Om k p f) :
    unrot k (dualV k f) ∈ Om k p (dualV k h) := by
  have e : ∀ f : Fin (m + 1) → ℤ, ∑ i, dualV k f i = (m + 1) * k - ∑ i, f i := by
    intro f
    have h := Equiv.sum_comp Fin.revPerm f
    simp only [Fin.revPerm_apply] at h
    simp only [dualV]
    rw [Finset.sum_sub_distrib, h]
    simp
  have e2 : ∀ f : Fin (m + 1) → ℤ, ∑ i, unrot k f i = ∑ i, f i + (m + 1) + k := by
    intro f
    rw [unrot, sum_sh, Finset.sum_add_distrib]
    simp
  rw [mem_Om] at hm ⊢
  obtain ⟨h1, h2, h3⟩ := hm
  have a2 : ∀ i, h i + 1 ≤ f i := by
    have := dn_mono (k := k) h2
    rw [dn_sh, unrot, dn_sh] at this
    exact this
  have a1 : ∀ i : Fin m, f i.succ ≤ h i.castSucc + 1 := by
    intro i
    have := h1 i.succ
    rw [unrot, sh_succ] at this
    exact this
  refine ⟨fun i => ?_, ?_, ?_⟩
  · refine Fin.cases ?_ (fun j => ?_) i
    · show dualV k h 0 ≤ unrot k (dualV k f) 0
      rw [unrot_zero]
      have := hf.dual.last
      have := hh.dual.first
      omega
    · rw [unrot, sh_succ]
      simp only [dualV, Fin.rev_succ, Fin.rev_castSucc]
      have := a1 j.rev
      omega
  · rw [unrot]
    apply sh_mono
    intro i
    simp only [dualV]
    have := a2 i.rev
    omega
  · rw [e2, e, e]
    rw [e2] at h3
    linarith

theorem tq_adjoint (hk : 0 ≤ k) (p : Nat) {l l' : List Int} (hl : clsA (m + 1) k l) (hl' : clsA (m + 1) k l') :
    tq m k p l' (dualC m k l) = tq m k p l (dualC m k l') := by
  have hB := boxV_vec hk hl
  have hB' := boxV_vec hk hl'
  unfold dualC
  rw [tq_coeff hl' hB.dual, tq_coeff hl hB'.dual]
  congr 1
  · congr 1
    apply propext
    constructor
    · intro h
      have := dual_mem hB' hB.dual h
      rwa [dualV_dualV] at this
    · intro h
      have := dual_mem hB hB'.dual h
      rwa [dualV_dualV] at this
  · congr 1
    apply propext
    constructor
    · intro h
      have := dual_memQ hB' hB.dual h
      rwa [dualV_dualV] at this
    · intro h
      have := dual_memQ hB hB'.dual h
      rwa [dualV_dualV] at this

/-- The rings of `Gr(m,n)` in the general setting. -/
noncomputable def RingSys.on {m : Nat} {n : Int} {X : Space} {pieri : Int → List Int → Except PyErr Poly} (R : RingSys m n X pieri) :
    RingOn X pieri (stdSpc R.K) (GrClass m n) (giamBound m n) where
  Y := R.Y.toGiam X.k
  fuel := R.fuel
  spec p h := by
    have := R.spec p.toNat (by have := h.1; omega) (by have := h.2; omega)
    rw [num2spec_pos h.1]
    rwa [show ((p.toNat : Nat) : Int) = p by have := h.1; omega] at this
  nil := grClass_nil
  unit p h _ := by
    have := R.unit p.toNat (by have := h.1; omega) (by have := h.2; omega)
    rw [num2spec_pos h.1]
    rwa [show ((p.toNat : Nat) : Int) = p by have := h.1; omega] at this

theorem ringC_adj {m : Nat} {n : Int} {X : Space} (hm : 1 ≤ m + 1) (hX : mkGr (m + 1 : Nat) n = .ok X) {p : Int} {l nu : List Int}
    (hl : GrClass (m + 1) n l) (hnu : GrClass (m + 1) n nu) :
    (ringC hm hX).on.Y.t p l (dualC m (n - (m + 1 : Nat)) nu) = (ringC hm hX).on.Y.t p nu (dualC m (n - (m + 1 : Nat)) l) := by
  obtain ⟨rfl, h1, h2⟩ := mkGr_ok hX
  exact tc_adjoint (k := n - (m + 1 : Nat)) (by omega) p.toNat hnu hl

theorem ringQ_adj {m : Nat} {n : Int} {X : Space} (hm : 1 ≤ m + 1) (hX : mkGr (m + 1 : Nat) n = .ok X) {p : Int} {l nu : List Int}
    (hl : GrClass (m + 1) n l) (hnu : GrClass (m + 1) n nu) :
    (ringQ hm hX).on.Y.t p l (dualC m (n - (m + 1 : Nat)) nu) = (ringQ hm hX).on.Y.t p nu (dualC m (n - (m + 1 : Nat)) l) := by
  obtain ⟨rfl, h1, h2⟩ := mkGr_ok hX
  exact tq_adjoint (k := n - (m + 1 : Nat)) (by omega) p.toNat hnu hl

theorem dualize_dualC {m : Nat} {n : Int} {X : Space} (hX : mkGr (m + 1 : Nat) n = .ok X) {l : List Int} (hl : GrClass (m + 1) n l) :
    X.dualize l = .ok (dualC m (n - (m + 1 : Nat)) l) := by
  obtain ⟨l', d1, d2, d3, d4, _, _⟩ := C12_dualize_A _ _ X hX l hl.1 (by simpa using hl.2)
  rw [d1]
  congr 1
  rw [dualC, ← lab_vec (m := m) d2 (by simpa using d3.1)]
  congr 1
  funext i
  have := d4 i (by rw [Int.toNat_natCast]; exact i.2)
  simp only [vec, dualV]
  rw [this]
  congr 2
  simp only [Int.toNat_natCast, Fin.val_rev]
  omega

theorem pointClass_A {m : Nat} {n : Int} {X : Space} (hX : mkGr (m + 1 : Nat) n = .ok X) :
    X.pointClass = dualC m (n - (m + 1 : Nat)) [] := by
  have h1 := dualize_dualC hX (grClass_nil (m := m + 1) (n := n))
  have := (C37_point_A _ n X hX).2.2.2.1
  rw [this] at h1
  exact Except.ok.inj h1

namespace RingOn
variable {X : Space} {pieri : Int → List Int → Except PyErr Poly} {spc : Int → Prop} {cls : List Int → Prop} {B : Nat}
variable (R : RingOn X pieri spc cls B)
include R

/-- Symmetry of the structure constants. -/
theorem gsym (dl : List Int → List Int) (hcl : ∀ l, cls l → cls (dl l))
    (hdd : ∀ l, cls l → dl (dl l) = l) (hadj : ∀ p l nu, spc p → cls l → cls nu → R.Y.t p l (dl nu) = R.Y.t p nu (dl l))
    {fuel : Nat} (hf : B ≤ fuel) {l mu nu : List Int} (hl : cls l) (hmu : cls mu) (hnu : cls nu) :
    ∃ w w', gmult X pieri fuel (Poly.sym (.S l)) (Poly.sym (.S mu)) = .ok w ∧
      gmult X pieri fuel (Poly.sym (.S mu)) (Poly.sym (.S (dl nu))) = .ok w' ∧
      ∀ d, coeffOf (List.replicate d Sym.q ++ [.S nu]) w = coeffOf (List.replicate d Sym.q ++ [.S (dl l)]) w' := by
  have hs : ∀ l', cls l' → ∀ nu ∈ (Finsupp.single l' (1 : Polynomial ℚ)).support, cls nu := by
    intro l' hl' nu hnu
    rw [Finset.mem_singleton.1 (Finsupp.support_single_subset hnu)]; exact hl'
  obtain ⟨w, h1, h2, h3⟩ := R.mult hf (wf_sym (.S l)) (x := Finsupp.single l 1) (by simp [inq]) (hs l hl)
    (wf_sym (.S mu)) (y := Finsupp.single mu 1) (by simp [inq]) (hs mu hmu)
  obtain ⟨w', h1', h2', h3'⟩ := R.mult hf (wf_sym (.S mu)) (x := Finsupp.single mu 1) (by simp [inq]) (hs mu hmu)
    (wf_sym (.S (dl nu))) (y := Finsupp.single (dl nu) 1) (by simp [inq]) (hs _ (hcl nu hnu))
  refine ⟨w, w', h1, h1', fun d => ?_⟩
  rw [coeffOf_den h2 (qmono_sorted d _), coeffOf_den h2' (qmono_sorted d _), h3, h3', expo_qmono, expo_qmono, coeff_ev, coeff_ev]
  congr 1
  have hp1 := R.Y.prod_support (Finsupp.single l 1) (hs mu hmu)
  have hp2 := R.Y.prod_support (Finsupp.single mu 1) (hs (dl nu) (hcl nu hnu))
  have e1 := R.Y.dual_coeff dl hcl hdd hadj (dl nu) (hcl nu hnu) _ hp1
  have e2 := R.Y.dual_coeff dl hcl hdd hadj l hl _ hp2
  rw [hdd nu hnu] at e1
  rw [← e1, ← e2, ← R.Y.prod_single, ← R.Y.prod_single, R.Y.prod_comm (hs _ (hcl nu hnu)) hp1, R.Y.prod_assoc _ (hs mu hmu) (hs _ (hcl nu hnu))]

end RingOn

end Verif
