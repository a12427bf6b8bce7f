import Verif.Proofs.RingHom
import Verif.Proofs.RingBC
import Verif.Proofs.RingD
/-!
# The classical rings for n and n+1, k fixed

A class of `(n, k)` is a class of `(n+1, k)`; its word begins with the letter `b`. Forgetting the other classes is a map of rings.
-/

namespace Verif
open Spec

/-! ### Forgetting classes -/

open Classical in
/-- keep the classes with a property -/
noncomputable def keep (P : List Int → Prop) : LMod →ₗ[Polynomial ℚ] LMod := lin (fun l => if P l then Finsupp.single l 1 else 0)

open Classical in
theorem keep_single (P : List Int → Prop) (l : List Int) (a : Polynomial ℚ) :
    keep P (Finsupp.single l a) = if P l then Finsupp.single l a else 0 := by
  unfold keep lin
  rw [Finsupp.linearCombination_single]
  split <;> simp

open Classical in
theorem keep_apply (P : List Int → Prop) (x : LMod) (l : List Int) : keep P x l = if P l then x l else 0 := by
  induction x using Finsupp.induction_linear with
  | zero => simp
  | add x y hx hy => rw [map_add, Finsupp.add_apply, hx, hy, Finsupp.add_apply]; split <;> simp
  | single l' a =>
    rw [keep_single]
    by_cases h : l' = l
    · subst h; split <;> simp
    · by_cases h1 : P l' <;> by_cases h2 : P l <;> simp [h1, h2, Finsupp.single_eq_of_ne (Ne.symm h)]

theorem keep_support (P : List Int → Prop) (x : LMod) : ∀ l ∈ (keep P x).support, P l := by
  intro l hl
  by_contra hc
  rw [Finsupp.mem_support_iff, keep_apply, if_neg hc] at hl
  exact hl rfl

theorem keep_self {P : List Int → Prop} {x : LMod} (h : ∀ l ∈ x.support, P l) : keep P x = x := by
  ext1 l
  rw [keep_apply]
  split
  · rfl
  · rename_i hl
    by_contra hc
    exact hl (h l (Finsupp.mem_support_iff.2 (Ne.symm hc)))

theorem keep_keep {P Q : List Int → Prop} (h : ∀ l, P l → Q l) (x : LMod) : keep P (keep Q x) = keep P x := by
  ext1 l
  rw [keep_apply, keep_apply, keep_apply]
  split
  · rename_i hl; rw [if_pos (h l hl)]
  · rfl

/-! ### Operators -/

theorem keep_tM {ι ι' : Type*} [DecidableEq ι] [DecidableEq ι'] {W : Finset ι} {W' : Finset ι'} {lab : ι → List Int} {lab' : ι' → List Int}
    (hinj : ∀ u ∈ W, ∀ w ∈ W, lab u = lab w → u = w) (hinj' : ∀ u ∈ W', ∀ w ∈ W', lab' u = lab' w → u = w)
    {M : Nat → ι → ι → Polynomial ℚ} {M' : Nat → ι' → ι' → Polynomial ℚ} {P : List Int → Prop} (hP : ∀ l, P l ↔ ∃ u ∈ W, lab u = l)
    (f : ι → ι') (hf : ∀ u ∈ W, f u ∈ W') (hl : ∀ u ∈ W, lab' (f u) = lab u) {p : Nat} 
    (hM : ∀ u ∈ W, ∀ w ∈ W, M' p (f u) (f w) = M p u w) (h0 : ∀ u ∈ W', (∀ v ∈ W, f v ≠ u) → ∀ w ∈ W, M' p u (f w) = 0)
    {u : ι'} (hu : u ∈ W') : keep P (tM W' lab' M' p (lab' u)) = lin (tM W lab M p) (keep P (Finsupp.single (lab' u) 1)) := by
  have hc : ∀ {v : ι'}, v ∈ W' → P (lab' v) → ∃ w ∈ W, f w = v := by
    intro v hv h
    obtain ⟨w, hw, e⟩ := (hP _).1 h
    exact ⟨w, hw, hinj' _ (hf w hw) _ hv (by rw [hl w hw, e])⟩
  ext1 m
  rw [keep_apply, keep_single]
  by_cases hm : P m
  · rw [if_pos hm]
    obtain ⟨w, hw, rfl⟩ := (hP m).1 hm
    conv_lhs => rw [← hl w hw]
    rw [tM_apply M' hinj' p hu (hf w hw)]
    by_cases h : P (lab' u)
    · obtain ⟨v, hv, rfl⟩ := hc hu h
      rw [if_pos h, hM v hv w hw, hl v hv, lin, Finsupp.linearCombination_single, one_smul, tM_apply M hinj p hv hw]
    · rw [if_neg h, map_zero, Finsupp.zero_apply]
      exact h0 u hu (fun v hv e => h (by rw [← e, hl v hv]; exact (hP _).2 ⟨v, hv, rfl⟩)) w hw
  · rw [if_neg hm]
    symm
    by_contra hne
    split at hne
    · rw [lin, Finsupp.linearCombination_single, one_smul] at hne
      exact hm ((hP m).2 (tM_support M p _ m (Finsupp.mem_support_iff.2 hne)))
    · exact hne (by simp)

/-! ### Systems -/

namespace GiamSys

theorem keep_prod {k : ℤ} {pieri pieri' : Int → List Int → Except PyErr Poly} {spc spc' : Int → Prop} {cls cls' : List Int → Prop}
    (Y : GiamSys k pieri spc cls) (Z : GiamSys k pieri' spc' cls') (hnil : cls' [])
    (h1 : ∀ p, spc p → spc' p → ∀ l, cls l → keep cls' (Y.t p l) = lin (Z.t p) (keep cls' (Finsupp.single l 1)))
    (h2 : ∀ p, spc p → ¬ spc' p → ∀ l, cls l → keep cls' (Y.t p l) = 0)
    {x y : LMod} (hx : ∀ l ∈ x.support, cls l) (hy : ∀ l ∈ y.support, cls l) :
    keep cls' (Y.prod x y) = Z.prod (keep cls' x) (keep cls' y) := by
  refine GiamSys.hom Y Z (keep cls') (fun l _ => keep_support _ _) ?_ (fun p hp => ?_) hx hy
  · rw [keep_single, if_pos hnil]
  · by_cases hp' : spc' p
    · refine ⟨Z.t p [], Z.closed p [], fun l hl => ?_⟩
      have e1 : Z.t p [] = lin (Z.t p) (Finsupp.single [] 1) := by simp [lin]
      rw [e1, GiamSys.prod_lin _ hp' (supp_single hnil 1) (keep_support _ _), GiamSys.one_prod, h1 p hp hp' l hl]
    · refine ⟨0, by simp, fun l hl => ?_⟩
      rw [h2 p hp hp' l hl]
      simp [prod, GL]

end GiamSys

/-! ### Types B and C -/

theorem clsBC_succ {n k : Nat} {l : List Int} (h : clsBC n k l) : clsBC (n + 1) k l := by
  refine ⟨h.1, h.2.isPart, h.2.kstrict, fun r hr => h.2.rows r (by push_cast at hr; omega), ?_⟩
  have := h.2.cols
  push_cast
  omega

theorem wt_bb {R : Type*} [CommRing R] (c x : R) (u w : List L3) : wt c x .z (.b :: u) (.b :: w) = wt c x .z u w := by
  simp [wt, step]

theorem wt_pb {R : Type*} [CommRing R] (c x : R) {p : L3} (hp : p ≠ .b) (u w : List L3) : wt c x .z (p :: u) (.b :: w) = 0 := by
  cases p
  · simp [wt, step]
  · simp [wt, step]
  · exact absurd rfl hp

theorem b_mem {n k : Nat} {u : List L3} (h : u ∈ Wd n k) : L3.b :: u ∈ Wd (n + 1) k := by
  rw [mem_Wd] at h ⊢
  simp [colsW, h]

theorem not_b {n k : Nat} {u : List L3} (hu : u ∈ Wd (n + 1) k) (h : ∀ v ∈ Wd n k, L3.b :: v ≠ u) : ∃ p u', u = p :: u' ∧ p ≠ L3.b := by
  cases u with
  | nil => simp [mem_Wd] at hu
  | cons p u =>
    refine ⟨p, u, rfl, ?_⟩
    rintro rfl
    refine h u ?_ rfl
    rw [mem_Wd] at hu ⊢
    simpa [colsW] using hu

theorem MC_bb (p : Nat) (u w : List L3) : MC 0 p (.b :: u) (.b :: w) = MC 0 p u w := by
  simp [MC, opW, wt_bb]

theorem MB_bb (k p : Nat) (u w : List L3) : MB k p (.b :: u) (.b :: w) = MB k p u w := by
  simp [MB, opW, wt_bb]

theorem MC_pb (p : Nat) {q : L3} (hq : q ≠ .b) (u w : List L3) : MC 0 p (q :: u) (.b :: w) = 0 := by
  simp [MC, opW, wt_pb _ _ hq]

theorem MB_pb (k p : Nat) {q : L3} (hq : q ≠ .b) (u w : List L3) : MB k p (q :: u) (.b :: w) = 0 := by
  simp [MB, opW, wt_pb _ _ hq]

theorem arrow_le {k : Nat} {d : Int} {l mu : List Int} (h : PieriArrow k d l mu) : mu.sum ≤ l.sum + part mu 0 := by
  obtain ⟨nu, hnu, h1, h2⟩ := h.strips
  have hle : ∀ r, part mu (r + 1) ≤ part l r := fun r => le_trans (h2 r).2 (h1 r).1
  set L := l.length + mu.length with hL
  have e1 := SchurSym.sum_eq_range l L (by omega)
  have e2 := SchurSym.sum_eq_range mu (L + 1) (by omega)
  rw [Finset.sum_range_succ'] at e2
  have hsum : ∑ i ∈ Finset.range L, part mu (i + 1) ≤ ∑ i ∈ Finset.range L, part l i := Finset.sum_le_sum (fun i _ => hle i)
  omega

theorem gcf_big {n k : Nat} (hk : k ≤ n) {skip : Bool} {p : Nat} {l mu : List Int} (hl : clsBC n k l) (hm : clsBC n k mu) (hp : n + k < p) :
    gcf skip k p l mu = 0 := by
  by_contra hc
  obtain ⟨h1, h2⟩ := gcf_ne hk hl.2 hm.2 hc
  have h3 := arrow_le h1
  have h4 := hm.2.cols
  omega

theorem MC_big {n k : Nat} (hk : k ≤ n) {p : Nat} (hp : n + k < p) {u w : List L3} (hu : u ∈ Wd n k) (hw : w ∈ Wd n k) : MC 0 p u w = 0 := by
  rw [MC_eq 0 p hu hw, gcf_big hk ((Wd_cls hk _).2 ⟨u, hu, rfl⟩) ((Wd_cls hk _).2 ⟨w, hw, rfl⟩) hp]
  simp

theorem MB_big {n k : Nat} (hk : k ≤ n) {p : Nat} (hp : n + k < p) {u w : List L3} (hu : u ∈ Wd n k) (hw : w ∈ Wd n k) : MB k p u w = 0 := by
  rw [MB_eq p hu hw, gcf_big hk ((Wd_cls hk _).2 ⟨u, hu, rfl⟩) ((Wd_cls hk _).2 ⟨w, hw, rfl⟩) hp]
  simp

theorem keepBC {n k : Nat} (hk : k ≤ n) {M : Nat → List L3 → List L3 → Polynomial ℚ} (hbb : ∀ p u w, M p (.b :: u) (.b :: w) = M p u w)
    (hpb : ∀ p q, q ≠ L3.b → ∀ u w, M p (q :: u) (.b :: w) = 0) (p : Nat) {l : List Int} (hl : clsBC (n + 1) k l) :
    keep (clsBC n k) (tM (Wd (n + 1) k) labW M p l) = lin (tM (Wd n k) labW M p) (keep (clsBC n k) (Finsupp.single l 1)) := by
  obtain ⟨u, hu, rfl⟩ := (Wd_cls (by omega) l).1 hl
  refine keep_tM Wd_inj Wd_inj (Wd_cls hk) (fun u => L3.b :: u) (fun u hu => b_mem hu) (fun u _ => labW_b u) (fun u _ w _ => hbb p u w) ?_ hu
  intro u hu h w _
  obtain ⟨q, u', rfl, hq⟩ := not_b hu h
  exact hpb p q hq u' w

theorem lin_tM_zero {n k : Nat} {M : Nat → List L3 → List L3 → Polynomial ℚ} {p : Nat} (h : ∀ u ∈ Wd n k, ∀ w ∈ Wd n k, M p u w = 0) (x : LMod) :
    lin (tM (Wd n k) labW M p) x = 0 := by
  have : tM (Wd n k) labW M p = fun _ => 0 := by
    funext l
    unfold tM
    refine Finset.sum_eq_zero (fun u hu => Finset.sum_eq_zero (fun w hw => ?_))
    rw [h u (Finset.mem_filter.1 hu).1 w hw, Finsupp.single_zero]
  rw [this]
  simp [lin, Finsupp.linearCombination_apply]

theorem stableIG {n k : Nat} (hk : k ≤ n) (hk' : k ≤ n + 1) {x y : LMod} (hx : ∀ l ∈ x.support, clsBC (n + 1) k l)
    (hy : ∀ l ∈ y.support, clsBC (n + 1) k l) :
    keep (clsBC n k) ((ringIG (n + 1) k hk').Y.prod x y) = (ringIG n k hk).Y.prod (keep (clsBC n k) x) (keep (clsBC n k) y) := by
  have e1 : ∀ p l, (ringIG (n + 1) k hk').Y.t p l = tM (Wd (n + 1) k) labW (MC 0) p.toNat l := fun _ _ => rfl
  have e2 : ∀ p, (ringIG n k hk).Y.t p = tM (Wd n k) labW (MC 0) p.toNat := fun _ => rfl
  have e3 := fun (p : Int) (l : List Int) (hl : clsBC (n + 1) k l) => keepBC hk MC_bb (fun p q hq => MC_pb p hq) p.toNat hl
  generalize (ringIG (n + 1) k hk').Y = Y at e1 ⊢
  generalize (ringIG n k hk).Y = Z at e2 ⊢
  refine GiamSys.keep_prod Y Z (clsBC_nil hk) (fun p _ _ l hl => ?_) (fun p hp hp' l hl => ?_) hx hy
  · rw [e1, e2, e3 p l hl]
  rw [e1, e3 p l hl]
  refine lin_tM_zero (fun u hu w hw => MC_big hk ?_ hu hw) _
  unfold stdSpc at hp hp'
  push_cast at *
  omega

theorem stableOG {n k : Nat} (hk : k ≤ n) (hk' : k ≤ n + 1) {x y : LMod} (hx : ∀ l ∈ x.support, clsBC (n + 1) k l)
    (hy : ∀ l ∈ y.support, clsBC (n + 1) k l) :
    keep (clsBC n k) ((ringOG (n + 1) k hk').Y.prod x y) = (ringOG n k hk).Y.prod (keep (clsBC n k) x) (keep (clsBC n k) y) := by
  have e1 : ∀ p l, (ringOG (n + 1) k hk').Y.t p l = tM (Wd (n + 1) k) labW (MB k) p.toNat l := fun _ _ => rfl
  have e2 : ∀ p, (ringOG n k hk).Y.t p = tM (Wd n k) labW (MB k) p.toNat := fun _ => rfl
  have e3 := fun (p : Int) (l : List Int) (hl : clsBC (n + 1) k l) => keepBC hk (MB_bb k) (fun p q hq => MB_pb k p hq) p.toNat hl
  generalize (ringOG (n + 1) k hk').Y = Y at e1 ⊢
  generalize (ringOG n k hk).Y = Z at e2 ⊢
  refine GiamSys.keep_prod Y Z (clsBC_nil hk) (fun p _ _ l hl => ?_) (fun p hp hp' l hl => ?_) hx hy
  · rw [e1, e2, e3 p l hl]
  rw [e1, e3 p l hl]
  refine lin_tM_zero (fun u hu w hw => MB_big hk ?_ hu hw) _
  unfold stdSpc at hp hp'
  push_cast at *
  omega

/-! ### Type D -/

theorem clsD_succ {n k : Nat} {l : List Int} (h : clsD n k l) : clsD (n + 1) k l := by
  obtain ⟨mu, h1, h2, h3⟩ := h
  refine ⟨mu, h1, ⟨h2.isPart, h2.kstrict, fun r hr => h2.rows r (by push_cast at hr; omega), ?_⟩, h3⟩
  have := h2.cols
  push_cast
  omega

theorem gD_bb {R : Type*} [CommRing R] (x : R) (u w : List L3) (i j : L3) : gD x .z (.b :: u, i) (.b :: w, j) = gD x .z (u, i) (w, j) := by
  simp [gD, wtE, step]

theorem gD_pb {R : Type*} [CommRing R] (x : R) {p : L3} (hp : p ≠ .b) (u w : List L3) (i j : L3) : gD x .z (p :: u, i) (.b :: w, j) = 0 := by
  cases p
  · simp [gD, wtE, step]
  · simp [gD, wtE, step]
  · exact absurd rfl hp

theorem sD_bb {R : Type*} [CommRing R] (u w : List L3) (i j : L3) : (sD .z (.b :: u, i) (.b :: w, j) : R) = sD .z (u, i) (w, j) := by
  simp [sD, wtS, stepSg]

theorem sD_pb {R : Type*} [CommRing R] {p : L3} (hp : p ≠ .b) (u w : List L3) (i j : L3) : (sD .z (p :: u, i) (.b :: w, j) : R) = 0 := by
  cases p
  · simp [sD, wtS, stepSg]
  · simp [sD, wtS, stepSg]
  · exact absurd rfl hp

/-- put the letter `b` before a word -/
def bD (U : WordD) : WordD := (.b :: U.1, U.2)

theorem bD_mem {n k : Nat} {U : WordD} (h : U ∈ WdD n k) : bD U ∈ WdD (n + 1) k := by
  rw [mem_WdD] at h ⊢
  refine ⟨by simp [bD, h.1], ?_, h.2.2⟩
  simpa [bD, colsD, colsW] using h.2.1

theorem labD_bD (U : WordD) : labD (bD U) = labD U := by
  unfold labD clD shD bD
  simp only
  congr 1
  rw [partClip_eq_iff]
  intro i
  exact part_append_zeros _ 1 i

theorem not_bD {n k : Nat} {U : WordD} (hU : U ∈ WdD (n + 1) k) (h : ∀ V ∈ WdD n k, bD V ≠ U) : ∃ p u i, U = (p :: u, i) ∧ p ≠ L3.b := by
  obtain ⟨u, i⟩ := U
  cases u with
  | nil => simp [mem_WdD] at hU
  | cons p u =>
    refine ⟨p, u, i, rfl, ?_⟩
    rintro rfl
    refine h (u, i) ?_ rfl
    rw [mem_WdD] at hU ⊢
    refine ⟨by simpa using hU.1, ?_, hU.2.2⟩
    simpa [colsD, colsW] using hU.2.1

theorem gcD_coeff {n k : Nat} (p : Nat) {U W : WordD} (hU : U ∈ WdD n k) (hW : W ∈ WdD n k) :
    Polynomial.C (gcD k p U W) = (gD (Polynomial.X : Polynomial (Polynomial ℚ)) .z U W).coeff p := by
  rw [mem_WdD] at hU hW
  rw [coeff_gD p (by omega) (by omega), hU.2.1]

theorem cfD_bb {n k : Nat} (p : Int) {U W : WordD} (hU : U ∈ WdD n k) (hW : W ∈ WdD n k) : cfD k p (bD U) (bD W) = cfD k p U W := by
  have h : gcD k p.natAbs (bD U) (bD W) = gcD k p.natAbs U W := by
    apply Polynomial.C_injective
    rw [gcD_coeff _ hU hW, gcD_coeff _ (bD_mem hU) (bD_mem hW)]
    exact congrArg (fun f => Polynomial.coeff f _) (gD_bb _ U.1 W.1 U.2 W.2)
  have h' : (sD .z (bD U) (bD W) : ℚ) = sD .z U W := sD_bb U.1 W.1 U.2 W.2
  rw [cfD_eq, cfD_eq, h, h']

theorem cfD_pb {n k : Nat} (p : Int) {q : L3} (hq : q ≠ .b) {u : List L3} {i : L3} {W : WordD} (hU : (q :: u, i) ∈ WdD (n + 1) k) (hW : W ∈ WdD n k) :
    cfD k p (q :: u, i) (bD W) = 0 := by
  have h : gcD k p.natAbs (q :: u, i) (bD W) = 0 := by
    apply Polynomial.C_injective
    rw [gcD_coeff _ hU (bD_mem hW), show gD (Polynomial.X : Polynomial (Polynomial ℚ)) .z (q :: u, i) (bD W) = 0 from gD_pb _ hq u W.1 i W.2]
    simp
  have h' : (sD .z (q :: u, i) (bD W) : ℚ) = 0 := sD_pb hq u W.1 i W.2
  rw [cfD_eq, h, h']
  simp

theorem cfD_big {n k : Nat} (hk : k ≤ n + 1) {p : Int} (hp : k = 0 → p ≠ 0) (hb : n + k < p.natAbs) {U W : WordD} (hU : U ∈ WdD n k) (hW : W ∈ WdD n k) :
    cfD k p U W = 0 := by
  by_contra hc
  obtain ⟨h1, h2, -⟩ := cfD_ne hk hp hU hW hc
  have h3 := arrow_le h1
  have h4 := (inBox_shD W).cols
  rw [← part_labD, (mem_WdD.1 hW).1, (mem_WdD.1 hW).2.1] at h4
  omega

theorem keepD {n k : Nat} (hk : k ≤ n + 1) (p : Int) {l : List Int} (hl : clsD (n + 1) k l) :
    keep (clsD n k) (tDD 0 0 (n + 1) k p l) = lin (tDD 0 0 n k p) (keep (clsD n k) (Finsupp.single l 1)) := by
  obtain ⟨U, hU, rfl⟩ := (WdD_cls (by omega) l).1 hl
  refine keep_tM WdD_inj WdD_inj (WdD_cls hk) bD (fun U hU => bD_mem hU) (fun U _ => labD_bD U) (fun U hU W hW => ?_) ?_ hU
  · rw [MDc_eq p (bD_mem hU) (bD_mem hW), MDc_eq p hU hW, cfD_bb p hU hW]
  · intro U hU h W hW
    obtain ⟨q, u, i, rfl, hq⟩ := not_bD hU h
    rw [MDc_eq p hU (bD_mem hW), cfD_pb p hq hU hW, Polynomial.C_0]

theorem stableD {n k : Nat} (hk : k ≤ n + 1) (hk' : k ≤ n + 1 + 1) {x y : LMod} (hx : ∀ l ∈ x.support, clsD (n + 1) k l)
    (hy : ∀ l ∈ y.support, clsD (n + 1) k l) :
    keep (clsD n k) ((ringD (n + 1) k hk').Y.prod x y) = (ringD n k hk).Y.prod (keep (clsD n k) x) (keep (clsD n k) y) := by
  have e1 : ∀ p l, (ringD (n + 1) k hk').Y.t p l = tDD 0 0 (n + 1) k p l := fun _ _ => rfl
  have e2 : ∀ p, (ringD n k hk).Y.t p = tDD 0 0 n k p := fun _ => rfl
  generalize (ringD (n + 1) k hk').Y = Y at e1 ⊢
  generalize (ringD n k hk).Y = Z at e2 ⊢
  refine GiamSys.keep_prod Y Z (clsD_nil hk) (fun p _ _ l hl => ?_) (fun p hp hp' l hl => ?_) hx hy
  · rw [e1, e2, keepD hk p hl]
  rw [e1, keepD hk p hl]
  have hz : tDD 0 0 n k p = fun _ => 0 := by
    funext l
    unfold tDD tM
    refine Finset.sum_eq_zero (fun U hU => Finset.sum_eq_zero (fun W hW => ?_))
    have hU := (Finset.mem_filter.1 hU).1
    show Finsupp.single (labD W) (MDg 0 0 k p U W) = 0
    rw [MDc_eq p hU hW, cfD_big hk (fun _ => spcD_nz p hp) ?_ hU hW, Polynomial.C_0, Finsupp.single_zero]
    unfold spcD at hp hp'
    push_cast at *
    omega
  rw [hz]
  simp [lin, Finsupp.linearCombination_apply]

end Verif
