import Verif.Proofs.PfaffRing
import Verif.Spec.QTilde
import Verif.Props.PresentationBC
import Verif.Props.SchurRing
/-!
# Ring homomorphisms from the rings of the maximal isotropic Grassmannians
-/

namespace Verif
open Spec MvPolynomial

namespace GiamSys
variable {k : Int} {pieri : Int → List Int → Except PyErr Poly} {spc : Int → Prop} {cls : List Int → Prop} (Y : GiamSys k pieri spc cls)

theorem GL_smul (a : Polynomial ℚ) (x : LMod) : Y.GL (a • x) = inq a * Y.GL x := by
  rw [GL, ev_smul, map_mul, subst_inq]; rfl

theorem GL_zero : Y.GL 0 = 0 := by rw [GL, map_zero, map_zero]

theorem GL_sum {ι : Type*} (s : Finset ι) (F : ι → LMod) : Y.GL (∑ i ∈ s, F i) = ∑ i ∈ s, Y.GL (F i) := by
  rw [GL, map_sum, map_sum]; rfl

theorem GL_one : Y.GL (Finsupp.single [] 1) = 1 := by
  rw [GL, ev_single, map_mul, subst_inq, subst_S, G_nil, inq_one, mul_one]

end GiamSys

section
variable {X : Space} {pieri : Int → List Int → Except PyErr Poly} {n B : ℕ} {Op : List L3 → List L3 → Polynomial (Polynomial ℚ)}
  {c : Polynomial ℚ}

theorem word_of_cls {l : List Int} (hl : clsBC n 0 l) : ∃ u ∈ Wd n 0, labW u = l ∧ (labN u).length = l.length ∧
    ∀ j, (((labN u).getD j 0 : ℕ) : Int) = l.getD j 0 := by
  obtain ⟨u, hu, rfl⟩ := (Wd_cls (Nat.zero_le n) l).1 hl
  refine ⟨u, hu, rfl, ?_, ?_⟩
  · rw [labW_labN _ (mem_Wd.1 hu).2, List.length_map]
  · intro j
    rw [labW_labN _ (mem_Wd.1 hu).2]
    rcases lt_or_ge j (labN u).length with h | h
    · rw [List.getD_eq_getElem _ _ h, List.getD_eq_getElem _ _ (by simpa using h), List.getElem_map]
    · rw [List.getD_eq_default _ _ h, List.getD_eq_default _ _ (by simpa using h)]
      rfl

theorem cls_erase {l : List Int} (hl : clsBC n 0 l) (j : ℕ) : clsBC n 0 (l.eraseIdx j) := by
  obtain ⟨u, hu, rfl⟩ := (Wd_cls (Nat.zero_le n) l).1 hl
  rw [← labW_remA hu]
  exact (Wd_cls (Nat.zero_le n) _).2 ⟨_, remA_mem hu, rfl⟩

/-- the value of a linear combination through its Giambelli polynomial -/
noncomputable def phi {R : Type} [CommRing R] [Algebra ℚ R] (Z : RingOn X pieri (stdSpc n) (clsBC n 0) B) (f : Sym → R) (x : LMod) : R :=
  aeval f (Z.Y.GL x)

variable {R : Type} [CommRing R] [Algebra ℚ R] (Z : RingOn X pieri (stdSpc n) (clsBC n 0) B) (f : Sym → R)

theorem phi_sum {ι : Type*} (s : Finset ι) (F : ι → LMod) : phi Z f (∑ i ∈ s, F i) = ∑ i ∈ s, phi Z f (F i) := by
  unfold phi; rw [Z.Y.GL_sum, map_sum]

theorem phi_smul (a : Polynomial ℚ) (x : LMod) : phi Z f (a • x) = aeval f (inq a) * phi Z f x := by
  unfold phi; rw [Z.Y.GL_smul, map_mul]

theorem phi_zero : phi Z f 0 = 0 := by unfold phi; rw [Z.Y.GL_zero, map_zero]

theorem phi_one : phi Z f (Finsupp.single [] 1) = 1 := by unfold phi; rw [Z.Y.GL_one, map_one]

theorem aeval_sign (j : ℕ) : aeval f (inq ((-1) ^ j)) = (-1) ^ j := by simp [inq]

variable {Z f}
variable (hI : ∀ e ∈ supported ℚ (specialSet (stdSpc n)), Z.Y.act e (Finsupp.single [] 1) = 0 → aeval f e = 0)
include hI

theorem phi_prod {x y : LMod} (hx : ∀ l ∈ x.support, clsBC n 0 l) (hy : ∀ l ∈ y.support, clsBC n 0 l) :
    phi Z f (Z.Y.prod x y) = phi Z f x * phi Z f y := by
  have h := hI (Z.Y.GL (Z.Y.prod x y) - Z.Y.GL x * Z.Y.GL y)
    (Subalgebra.sub_mem _ (Z.Y.GL_supported (Z.Y.prod_support x hy)) (Subalgebra.mul_mem _ (Z.Y.GL_supported hx) (Z.Y.GL_supported hy))) (by
      rw [map_sub, LinearMap.sub_apply, Z.Y.act_GL (Z.Y.prod_support x hy), map_mul, Module.End.mul_apply, Z.Y.act_GL hy]
      exact sub_self _)
  rw [map_sub, map_mul, sub_eq_zero] at h
  exact h

theorem phi_row (hn : 0 < n) {p : ℕ} (h1 : 1 ≤ p) (h2 : p ≤ n) : phi Z f (Finsupp.single [(p : Int)] 1) = f (.S [(p : Int)]) := by
  have hs := supp_single (clsBC_row0 (n := n) h1 h2) 1
  have hv : hvar n (p : ℕ) = MvPolynomial.X (.S [(p : Int)]) := by
    unfold hvar
    rw [if_neg (by omega), if_pos (by omega)]
  have hsp : (MvPolynomial.X (.S [(p : Int)]) : P) ∈ supported ℚ (specialSet (stdSpc n)) := by
    refine X_mem_supported.2 (Or.inr ⟨p, ⟨by omega, by omega⟩, ?_⟩)
    rw [num2spec_pos (by omega)]
  have h3 : Z.Y.act (MvPolynomial.X (.S [(p : Int)])) (Finsupp.single [] 1) = Finsupp.single [(p : Int)] 1 := by
    have := act_hvar hn Z h2
    rw [hv] at this
    rw [this]
    unfold Spec.rowS
    rw [if_neg (by omega)]
  have h4 : Z.Y.act (Z.Y.GL (Finsupp.single [(p : Int)] 1) - MvPolynomial.X (.S [(p : Int)])) (Finsupp.single [] 1) = 0 := by
    rw [map_sub, LinearMap.sub_apply, Z.Y.act_GL hs, h3]
    exact sub_self _
  have h := hI _ (Subalgebra.sub_mem _ (Z.Y.GL_supported hs) hsp) h4
  rw [map_sub, aeval_X, sub_eq_zero] at h
  exact h

variable (hn : 0 < n) (H : PfOp n c Op) (hc : c ≠ 0)
    (hz : ∀ u ∈ Wd n 0, ∀ w ∈ Wd n 0, (Op u w).coeff 0 = if u = w then 1 else 0)
    (ht : ∀ p l, 1 ≤ p → p ≤ n → tM (Wd n 0) labW (fun p u w => (Op u w).coeff p) p l = c • Z.Y.t p l)
    {g : Polynomial ℚ} (htop : ∀ u ∈ Wd n 0, ∀ w ∈ Wd n 0, (Op u w).coeff (n + 1) = if u = w then g else 0)
    (hhigh : ∀ p, n + 1 < p → ∀ u ∈ Wd n 0, ∀ w ∈ Wd n 0, (Op u w).coeff p = 0)
    {e : ℕ → R} (e0 : e 0 = 1) (e1 : ∀ p : ℕ, 1 ≤ p → p ≤ n → aeval f (inq c) * f (.S [(p : Int)]) = e p)
    (e2 : e (n + 1) = aeval f (inq g)) (e3 : ∀ p, n + 1 < p → e p = 0)
include hn H hz ht htop hhigh e0 e1 e2 e3

theorem phi_tM (p : ℕ) : phi Z f (tM (Wd n 0) labW (fun p u w => (Op u w).coeff p) p []) = e p := by
  have hdiag : ∀ a, (∀ u ∈ Wd n 0, ∀ w ∈ Wd n 0, (Op u w).coeff p = if u = w then a else 0) →
      phi Z f (tM (Wd n 0) labW (fun p u w => (Op u w).coeff p) p []) = aeval f (inq a) := by
    intro a he
    obtain ⟨u, hu, hl⟩ := (Wd_cls (Nat.zero_le n) []).1 (clsBC_nil (Nat.zero_le n))
    have : tM (Wd n 0) labW (fun p u w => (Op u w).coeff p) p [] = a • Finsupp.single [] 1 := by
      rw [← hl, tM_lab _ Wd_inj p hu, Finset.sum_eq_single u]
      · rw [he u hu u hu, if_pos rfl, Finsupp.smul_single, smul_eq_mul, mul_one]
      · intro w hw hne
        rw [he u hu w hw, if_neg hne.symm, Finsupp.single_zero]
      · intro h; exact absurd hu h
    rw [this, phi_smul, phi_one, mul_one]
  rcases Nat.eq_zero_or_pos p with rfl | h1
  · rw [hdiag 1 hz, e0, inq_one, map_one]
  · rcases le_or_gt p n with h2 | h2
    · rw [tM_row Z ht h1 h2 (clsBC_nil (Nat.zero_le n)), phi_smul]
      have := Z.Y.prod_one Z.nil (supp_single (clsBC_row0 (n := n) h1 h2) 1)
      unfold Verif.e1 at this
      rw [this, phi_row hI hn h1 h2, e1 p h1 h2]
    · rcases Nat.eq_or_lt_of_le (show n + 1 ≤ p from h2) with rfl | h3
      · rw [hdiag g htop, e2]
      · rw [hdiag 0 (fun u hu w hw => by rw [hhigh p h3 u hu w hw, ite_self]), e3 p h3]
        simp [inq]

theorem phi_two {a b : ℕ} (h1 : 1 ≤ a) (h2 : a < b) (hbn : b ≤ n) :
    aeval f (inq c) ^ 2 * phi Z f (Finsupp.single [(b : Int), (a : Int)] 1) = rowPair e b a := by
  have hT := phi_tM hI hn H hz ht htop hhigh e0 e1 e2 e3
  have key := congrArg (phi Z f) (twoRow_eq hn H Z hz ht htop hhigh h1 h2 hbn)
  have e4 : (Finsupp.single [(b : Int), (a : Int)] (c ^ 2) : LMod) = c ^ 2 • Finsupp.single [(b : Int), (a : Int)] 1 := by simp
  rw [e4, phi_smul] at key
  have e5 : aeval f (inq (c ^ 2)) = aeval f (inq c) ^ 2 := by
    rw [← map_pow]
    congr 1
    simp [inq]
  rw [← e5, ← key]
  unfold Verif.twoRow rowPair
  rw [phi_sum]
  have hle : a + 1 ≤ n + 1 := by omega
  rw [← Finset.sum_subset (Finset.range_subset_range.2 hle)]
  · refine Finset.sum_congr rfl (fun i hi => ?_)
    rw [Finset.mem_range] at hi
    rw [phi_smul, if_pos (by omega), phi_prod hI (tM_supp _ _ _) (tM_supp _ _ _), hT, hT]
    congr 1
    unfold eFac
    split
    · simp [inq]
    · rw [show inq ((-1) ^ i * 2) = inq ((-1) ^ i) * inq 2 from map_mul _ _ _, map_mul, aeval_sign]
      congr 1
      unfold inq
      rw [map_ofNat, map_ofNat]
  · intro i _ hi
    rw [Finset.mem_range] at hi
    rw [if_neg (by omega), smul_zero, phi_zero]

include hc

/-- The value of every class is its polynomial `Q̃`, up to a power of the factor `c`. -/
theorem phi_qtil : ∀ (r : ℕ) (l : List Int), l.length = r → clsBC n 0 l →
    aeval f (inq c) ^ r * phi Z f (Finsupp.single l 1) = qtil e r l := by
  intro r
  induction r using Nat.strong_induction_on with
  | _ r ih =>
    intro l hlen hl
    have hpos : ∀ j < l.length, 1 ≤ (l.getD j 0).toNat ∧ (l.getD j 0).toNat ≤ n ∧ (((l.getD j 0).toNat : ℕ) : Int) = l.getD j 0 := by
      intro j hj
      obtain ⟨u, hu, -, h2, h3⟩ := word_of_cls hl
      rw [← h3 j, Int.toNat_natCast]
      have := labN_getD_le u j
      rw [(mem_Wd.1 hu).1] at this
      exact ⟨labN_getD_pos u (by omega), by omega, rfl⟩
    have hrow : ∀ j < l.length, aeval f (inq c) * phi Z f (Finsupp.single [l.getD j 0] 1) = e (l.getD j 0).toNat := by
      intro j hj
      obtain ⟨h1, h2, h3⟩ := hpos j hj
      rw [← e1 _ h1 h2, h3]
      congr 1
      rw [← h3]
      exact phi_row hI hn h1 h2
    have hcr : ∀ j < l.length, clsBC n 0 [l.getD j 0] := fun j hj => by
      obtain ⟨h1, h2, h3⟩ := hpos j hj
      rw [← h3]; exact clsBC_row0 h1 h2
    match r, ih, hlen with
    | 0, _, hlen =>
      rw [List.length_eq_zero_iff.1 hlen, phi_one]
      simp [qtil]
    | 1, _, hlen =>
      obtain ⟨a, rfl⟩ := List.length_eq_one_iff.1 hlen
      have := hrow 0 (by simp)
      rw [pow_one]
      exact this
    | r + 2, ih, hlen =>
      rw [qtil]
      by_cases hr : r % 2 = 0
      · rw [if_pos hr]
        obtain ⟨b, l, rfl⟩ : ∃ b l', l = b :: l' := by
          cases l with
          | nil => simp at hlen
          | cons b l => exact ⟨b, l, rfl⟩
        rw [List.length_cons] at hlen
        obtain ⟨hb1, hb2, hb3⟩ := hpos 0 (by simp)
        simp only [List.getD_cons_zero] at hb1 hb2 hb3
        have htail := (cls_tail hl).2.2
        obtain ⟨u, hu, rfl, h2, h3⟩ := word_of_cls htail
        have hlt : ∀ p ∈ labN u, p < b.toNat := by
          intro p hp
          have hk := ((clsBC_eq (Nat.zero_le n) _).1 hl).2.1
          have := (List.pairwise_cons.1 hk).1 (p : Int) (by
            rw [labW_labN _ (mem_Wd.1 hu).2]
            exact List.mem_map.2 ⟨p, hp, rfl⟩) (by push_cast; omega)
          omega
        have key := pfaff_even hn H hc Z hz ht htop hhigh hu (by omega) hlt (by rw [hb3]; exact hl)
        rw [hb3, h2] at key
        rw [key, phi_sum, Finset.mul_sum]
        have hl' : (labW u).length = r + 1 := by omega
        rw [hl']
        refine Finset.sum_congr rfl (fun j hj => ?_)
        rw [Finset.mem_range] at hj
        have hg1 := labN_getD_pos u (j := j) (by omega)
        have hg2 := hlt ((labN u).getD j 0) (by rw [List.getD_eq_getElem _ _ (by omega)]; exact List.getElem_mem _)
        have e5 := phi_two hI hn H hz ht htop hhigh e0 e1 e2 e3 hg1 hg2 hb2
        rw [hb3] at e5
        have e6 := ih r (by omega) ((labW u).eraseIdx j) (by rw [List.length_eraseIdx_of_lt (by omega)]; omega) (cls_erase htail j)
        have hc2 : clsBC n 0 [b, (((labN u).getD j 0 : ℕ) : Int)] := by
          rw [← hb3]
          generalize (labN u).getD j 0 = a at hg1 hg2
          rw [clsBC_eq (Nat.zero_le n)]
          refine ⟨⟨by simp; omega, by simp; omega⟩, by unfold KStrict; simp; omega, by simp; omega, ?_⟩
          intro x hx
          simp only [List.mem_cons, List.not_mem_nil, or_false] at hx
          rcases hx with rfl | rfl <;> push_cast <;> omega
        rw [phi_smul, aeval_sign, phi_prod hI (supp_single hc2 1) (supp_single (cls_erase htail j) 1), List.tail_cons, List.getD_cons_zero,
          ← e6, ← h3 j, Int.toNat_natCast, ← e5]
        ring
      · rw [if_neg hr]
        obtain ⟨u, hu, rfl, h2, h3⟩ := word_of_cls hl
        have key := pfaff_odd H hc Z ht hu
        rw [if_pos (by omega)] at key
        rw [← key, phi_sum, Finset.mul_sum, h2, hlen]
        refine Finset.sum_congr rfl (fun j hj => ?_)
        rw [Finset.mem_range] at hj
        have e6 := ih (r + 1) (by omega) ((labW u).eraseIdx j) (by rw [List.length_eraseIdx_of_lt (by omega)]; omega) (cls_erase hl j)
        rw [h3, phi_smul, aeval_sign, phi_prod hI (supp_single (hcr j (by omega)) 1) (supp_single (cls_erase hl j) 1), ← e6, ← hrow j (by omega)]
        ring

/-- The value of a combination of classes is that of its Giambelli polynomial. -/
theorem value_phi (hu : IsUnit (aeval f (inq c))) (hf : ∀ l, clsBC n 0 l → aeval f (inq c) ^ l.length * f (.S l) = qTilde e l)
    {z : LMod} (hzc : ∀ l ∈ z.support, clsBC n 0 l) : aeval f (ev z) = phi Z f z := by
  have hS : ∀ l, clsBC n 0 l → f (.S l) = phi Z f (Finsupp.single l 1) := fun l hl => by
    have h1 := phi_qtil hI hn H hc hz ht htop hhigh e0 e1 e2 e3 _ l rfl hl
    exact (hu.pow l.length).mul_left_cancel ((hf l hl).trans h1.symm)
  conv_rhs => rw [lmod_sum z, phi_sum]
  rw [aeval_ev, Finsupp.sum]
  refine Finset.sum_congr rfl (fun l hl => ?_)
  rw [phi_smul, hS l (hzc l hl)]
  congr 1
  unfold inq
  rw [← Polynomial.aeval_algHom_apply, aeval_X]

/-- **Values of products.** -/
theorem value_prod (hu : IsUnit (aeval f (inq c))) (hf : ∀ l, clsBC n 0 l → aeval f (inq c) ^ l.length * f (.S l) = qTilde e l)
    {x y : LMod} (hx : ∀ l ∈ x.support, clsBC n 0 l) (hy : ∀ l ∈ y.support, clsBC n 0 l) :
    aeval f (ev (Z.Y.prod x y)) = aeval f (ev x) * aeval f (ev y) := by
  have hv : ∀ z : LMod, (∀ l ∈ z.support, clsBC n 0 l) → aeval f (ev z) = phi Z f z := fun z h =>
    value_phi hI hn H hc hz ht htop hhigh e0 e1 e2 e3 hu hf h
  rw [hv _ (Z.Y.prod_support x hy), hv x hx, hv y hy, phi_prod hI hx hy]

end

end Verif
