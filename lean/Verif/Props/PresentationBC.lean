import Verif.Proofs.PresMax
import Verif.Props.Relations
import Verif.Props.CountBC
import Verif.Props.RelationsD
/-!
# C104: presentations of the rings of `IG(n, 2n)`, `OG(n, 2n+1)` and `OG(n+1, 2n+2)`
-/

namespace Verif
open Spec MvPolynomial

section
variable {X : Space} {pieri : Int → List Int → Except PyErr Poly} {spc : Int → Prop} {cls : List Int → Prop} {B : ℕ}

/-- Results of `act` on `S[]`, through the ring homomorphism. -/
theorem same_act_iffR (R : RingOn X pieri spc cls B) {e f : Poly} (he : SpecIn spc e) (hf : SpecIn spc f) :
    SameResult (X.actLc pieri e (Poly.sym (.S []))) (X.actLc pieri f (Poly.sym (.S []))) ↔
      R.Y.act (den e - den f) (Finsupp.single [] 1) = 0 := by
  have h1 : ∀ {g : Poly}, SpecIn spc g → Returns (X.actLc pieri g (Poly.sym (.S []))) (ev (R.Y.act (den g) e1)) :=
    fun hg => R.act hg (wf_sym _) (y := e1) (by simp [e1, inq]) (GSys.one_cls R.nil)
  obtain ⟨u, u1, u2, u3⟩ := h1 he
  obtain ⟨v, v1, v2, v3⟩ := h1 hf
  rw [map_sub, LinearMap.sub_apply, sub_eq_zero]
  constructor
  · rintro ⟨w, w', h2, h3, h4⟩
    rw [u1] at h2
    rw [v1] at h3
    cases h2
    cases h3
    apply ev_injective
    show ev (R.Y.act (den e) e1) = ev (R.Y.act (den f) e1)
    rw [← u3, ← v3]
    unfold den
    exact (h4.map _).sum_eq
  · intro h
    refine same_of_returns ⟨u, u1, u2, u3⟩ ⟨v, v1, v2, ?_⟩
    rw [v3]
    congr 1
    exact h.symm

/-- What acts as zero on `S[]` acts as zero on everything. -/
theorem same_act_allR (R : RingOn X pieri spc cls B) {e f x : Poly} (he : SpecIn spc e) (hf : SpecIn spc f)
    (hx : LinComb cls x) (h : R.Y.act (den e - den f) (Finsupp.single [] 1) = 0) :
    SameResult (X.actLc pieri e x) (X.actLc pieri f x) := by
  obtain ⟨v, hv, hvc⟩ := linComb_ev hx.2
  refine same_of_returns (R.act he hx.1 hv hvc) ?_
  obtain ⟨w, w1, w2, w3⟩ := R.act hf hx.1 hv hvc
  refine ⟨w, w1, w2, ?_⟩
  rw [w3]
  congr 1
  have h2 : R.Y.act (den e - den f) v = 0 := by
    conv_lhs => rw [← R.Y.act_GL hvc]
    rw [R.Y.act_comm, h, map_zero]
  rw [map_sub, LinearMap.sub_apply, sub_eq_zero] at h2
  exact h2.symm

theorem returns_unique {r : Except PyErr Poly} {a b : P} (h : Returns r a) (h' : Returns r b) : a = b := by
  obtain ⟨w, h1, -, h2⟩ := h
  obtain ⟨w', h3, -, h4⟩ := h'
  rw [h1] at h3
  cases h3
  rw [← h2, h4]

end

section
variable {X : Space} {pieri : Int → List Int → Except PyErr Poly} {n B : ℕ}

theorem act_hvar (hn : 0 < n) (Z : RingOn X pieri (stdSpc (n + 0)) (clsBC n 0) B) {a : ℕ} (ha : a ≤ n) :
    Z.Y.act (hvar n a) (Finsupp.single [] 1) = Finsupp.single (rowS a) 1 := by
  unfold hvar rowS
  by_cases h : a = 0
  · subst h
    simp
  · have hs : stdSpc (n + 0) (a : ℤ) := ⟨by omega, by push_cast; omega⟩
    have h1 := Z.Y.act_special hs (Finsupp.single [] 1)
    rw [num2spec_pos (by omega)] at h1
    have h2 := Z.unit _ hs (by rw [num2spec_pos (by omega)]; exact clsBC_row hn (by omega) (by omega))
    rw [num2spec_pos (by omega)] at h2
    rw [if_neg (by omega), if_pos (by omega), if_neg (by omega), h1]
    simp [lin, h2]

theorem prod_hvar (hn : 0 < n) (Z : RingOn X pieri (stdSpc (n + 0)) (clsBC n 0) B) {a b : ℕ} (ha : a ≤ n) (hb : b ≤ n) :
    Z.Y.act (hvar n a * hvar n b) (Finsupp.single [] 1) = Z.Y.prod (Finsupp.single (rowS a) 1) (Finsupp.single (rowS b) 1) := by
  have hc : ∀ p ≤ n, clsBC n 0 (rowS p) := by
    intro p hp
    unfold Spec.rowS
    split
    · exact clsBC_nil (by omega)
    · exact clsBC_row hn (by omega) (by omega)
  have h1 : ∀ x : LMod, (∀ l ∈ x.support, clsBC n 0 l) → Z.Y.prod x (Finsupp.single [] 1) = x := fun x hx => Z.Y.prod_one Z.nil hx
  rw [map_mul, Module.End.mul_apply, act_hvar hn Z hb]
  conv_lhs => rw [← h1 _ (supp_single (hc b hb) 1)]
  unfold GiamSys.prod
  rw [Z.Y.act_comm, act_hvar hn Z ha]
  exact Z.Y.prod_comm (supp_single (hc b hb) 1) (supp_single (hc a ha) 1)

/-- From a relation between the products of two special classes to one between operators. -/
theorem act_rel (hn : 0 < n) (Z : RingOn X pieri (stdSpc (n + 0)) (clsBC n 0) B) {r : ℕ} (hr : r ≤ n) (c : ℕ → ℚ) {x : P}
    {v : ℕ → P} (hv : ∀ i ≤ r, r + i ≤ n →
      Returns (gmult X pieri B (Poly.sym (.S (rowS (r + i)))) (Poly.sym (.S (rowS (r - i))))) (v i))
    (h : v 0 - ∑ i ∈ (Finset.Icc 1 r).filter (fun i => r + i ≤ n), C (c i) * v i = ev (Z.Y.act x (Finsupp.single [] 1))) :
    Z.Y.act (hvar n (r : ℕ) ^ 2 - (∑ i ∈ Finset.Icc 1 r, C (c i) * (hvar n ((r + i : ℕ) : ℤ) * hvar n ((r - i : ℕ) : ℤ)) + x))
      (Finsupp.single [] 1) = 0 := by
  have hv' : ∀ i ≤ r, r + i ≤ n → v i = ev (Z.Y.act (hvar n ((r + i : ℕ) : ℤ) * hvar n ((r - i : ℕ) : ℤ)) (Finsupp.single [] 1)) := by
    intro i h1 h2
    rw [prod_hvar hn Z h2 (by omega)]
    exact returns_unique (hv i h1 h2) (mult_rows (k := 0) hn Z le_rfl (by omega) (by omega))
  apply ev_injective
  rw [map_sub, map_add, LinearMap.sub_apply, LinearMap.add_apply, map_sub, map_add, ← h, pow_two]
  have h0 := hv' 0 (by omega) (by omega)
  simp only [Nat.add_zero, Nat.sub_zero] at h0
  rw [← h0, map_sum, LinearMap.sum_apply, map_sum, Finset.sum_filter, map_zero]
  rw [sub_eq_zero, ← sub_eq_iff_eq_add']
  congr 1
  refine Finset.sum_congr rfl fun i hi => ?_
  rw [Finset.mem_Icc] at hi
  rw [map_mul, Module.End.mul_apply, Z.Y.act_C, ev_smul, show inq (Polynomial.C (c i)) = C (c i) by simp [inq]]
  split
  · rename_i h2
    rw [hv' i hi.2 h2]
  · rw [hvar_big (by omega) _ (by push_cast; omega)]
    simp

/-- The presentation by quadratic relations. -/
theorem pres_max (hn : 0 < n) (Z : RingOn X pieri (stdSpc (n + 0)) (clsBC n 0) B) {c : ℕ → ℕ → ℚ} {a : ℕ → Polynomial ℚ} {d : ℕ → ℕ}
    (hd : ∀ r, 1 ≤ r → r ≤ n → a r ≠ 0 → d r < 2 * r) {S : Set P}
    (hS : ∀ x, x ∈ S ↔ ∃ r : ℕ, 1 ≤ r ∧ r ≤ n ∧ x = hvar n (r : ℕ) ^ 2 -
      (∑ i ∈ Finset.Icc 1 r, C (c r i) * (hvar n ((r + i : ℕ) : ℤ) * hvar n ((r - i : ℕ) : ℤ)) + inq (a r) * hvar n ((d r : ℕ) : ℤ)))
    (h : ∀ x ∈ S, Z.Y.act x (Finsupp.single [] 1) = 0) {e : P} (he : e ∈ supported ℚ (specialSet (stdSpc (n + 0)))) :
    Z.Y.act e (Finsupp.single [] 1) = 0 ↔ e ∈ Ideal.span S := by
  have h0 : ∀ x ∈ Ideal.span S, Z.Y.act x (Finsupp.single [] 1) = 0 := by
    intro x hx
    induction hx using Submodule.span_induction with
    | mem x hx => exact h x hx
    | zero => simp
    | add x y _ _ hx hy => rw [map_add, LinearMap.add_apply, hx, hy, add_zero]
    | smul a x _ hx => rw [smul_eq_mul, map_mul, Module.End.mul_apply, hx, map_zero]
  refine ⟨fun hz => ?_, h0 e⟩
  have hcard : Fintype.card (Wd n 0) = 2 ^ (n + 0) := by
    rw [Fintype.card_coe, card_Wd (by omega)]
    simp
  refine zero_of_red Z (fun u : Wd n 0 => labW u) (fun l => ?_) (fun u w hu => Subtype.ext (Wd_inj _ u.2 _ w.2 hu)) hcard
    (fun f hf => red_supported (fun L => red_hmono (c := c) (a := a) (d := d) hd ?_ _ _ L rfl rfl) hf) h0 he hz
  · rw [Wd_cls (by omega)]
    exact ⟨fun ⟨u, hu, h⟩ => ⟨⟨u, hu⟩, h⟩, fun ⟨u, h⟩ => ⟨u, u.2, h⟩⟩
  · intro r h1 h2
    exact Ideal.subset_span ((hS _).2 ⟨r, h1, h2, rfl⟩)

end

theorem neg_one_C (i : ℕ) : (C ((-1) ^ i) : P) = (-1) ^ i := by simp

theorem lg_sum (n r : ℕ) : 2 * ∑ i ∈ Finset.Icc 1 r, (-1) ^ i * (hvar n (r + i) * hvar n (r - i)) =
    -∑ i ∈ Finset.Icc 1 r, C (-2 * (-1) ^ i) * (hvar n ((r + i : ℕ) : ℤ) * hvar n ((r - i : ℕ) : ℤ)) := by
  rw [Finset.mul_sum, ← Finset.sum_neg_distrib]
  refine Finset.sum_congr rfl fun i hi => ?_
  rw [Finset.mem_Icc] at hi
  rw [Nat.cast_sub hi.2, C_mul, neg_one_C, show (C (-2) : P) = -2 by rw [C_neg]; rfl]
  push_cast
  ring

theorem og_sum (n : ℕ) {r : ℕ} (hr : 1 ≤ r) :
    2 * ∑ i ∈ Finset.Icc 1 (r - 1), (-1) ^ i * (hvar n (r + i) * hvar n (r - i)) + (-1) ^ r * hvar n (2 * r) =
    -∑ i ∈ Finset.Icc 1 r, C (-(-1) ^ i * if r - i ≤ 0 then 1 else 2) * (hvar n ((r + i : ℕ) : ℤ) * hvar n ((r - i : ℕ) : ℤ)) := by
  obtain ⟨r, rfl⟩ : ∃ s, r = s + 1 := ⟨r - 1, by omega⟩
  rw [Finset.sum_Icc_succ_top (by omega), Nat.add_sub_cancel, Finset.mul_sum, neg_add, ← Finset.sum_neg_distrib]
  congr 1
  · refine Finset.sum_congr rfl fun i hi => ?_
    rw [Finset.mem_Icc] at hi
    rw [Nat.cast_sub (by omega), if_neg (by omega), C_mul, C_neg, neg_one_C, show (C 2 : P) = 2 from rfl]
    push_cast
    ring
  · rw [Nat.sub_self, if_pos le_rfl, mul_one, C_neg, neg_one_C, hvar_zero', mul_one]
    push_cast
    rw [two_mul]
    ring

/-- the coefficient of `q` in the relations of `IG(n, 2n)` -/
noncomputable def aLG (n r : ℕ) : Polynomial ℚ := if n + 1 ≤ 2 * r then Polynomial.C ((-1) ^ (n - r)) * Polynomial.X else 0

theorem relLG_iff (n : ℕ) (x : P) : x ∈ relLG n ↔ ∃ r : ℕ, 1 ≤ r ∧ r ≤ n ∧ x = hvar n (r : ℕ) ^ 2 -
    (∑ i ∈ Finset.Icc 1 r, C (-2 * (-1) ^ i) * (hvar n ((r + i : ℕ) : ℤ) * hvar n ((r - i : ℕ) : ℤ)) + inq 0 * hvar n ((0 : ℕ) : ℤ)) := by
  unfold relLG
  rw [Set.mem_ofPred_eq]
  refine exists_congr fun r => and_congr_right fun _ => and_congr_right fun _ => ?_
  rw [lg_sum, show inq 0 = 0 by simp [inq], zero_mul, add_zero, sub_eq_add_neg]

theorem relQLG_iff (n : ℕ) (x : P) : x ∈ relQLG n ↔ ∃ r : ℕ, 1 ≤ r ∧ r ≤ n ∧ x = hvar n (r : ℕ) ^ 2 -
    (∑ i ∈ Finset.Icc 1 r, C (-2 * (-1) ^ i) * (hvar n ((r + i : ℕ) : ℤ) * hvar n ((r - i : ℕ) : ℤ)) +
      inq (aLG n r) * hvar n ((2 * r - (n + 1) : ℕ) : ℤ)) := by
  unfold relQLG
  rw [Set.mem_ofPred_eq]
  refine exists_congr fun r => and_congr_right fun _ => and_congr_right fun _ => ?_
  have : inq (aLG n r) * hvar n ((2 * r - (n + 1) : ℕ) : ℤ) = (-1) ^ (n - r) * (MvPolynomial.X .q * hvar n (2 * r - n - 1)) := by
    unfold aLG
    split
    · rename_i h
      rw [Nat.cast_sub h]
      push_cast
      rw [sub_add_eq_sub_sub]
      simp [inq]
      ring
    · have : hvar n (2 * (r : ℤ) - n - 1) = 0 := by
        unfold hvar
        rw [if_neg (by omega), if_neg (by omega)]
      rw [this]
      simp [inq]
  rw [lg_sum, this, sub_add_eq_sub_sub, ← sub_eq_add_neg]

theorem relOGm_iff (n : ℕ) (x : P) : x ∈ relOGm n ↔ ∃ r : ℕ, 1 ≤ r ∧ r ≤ n ∧ x = hvar n (r : ℕ) ^ 2 -
    (∑ i ∈ Finset.Icc 1 r, C (-(-1) ^ i * if r - i ≤ 0 then 1 else 2) * (hvar n ((r + i : ℕ) : ℤ) * hvar n ((r - i : ℕ) : ℤ)) +
      inq 0 * hvar n ((0 : ℕ) : ℤ)) := by
  unfold relOGm
  rw [Set.mem_ofPred_eq]
  refine exists_congr fun r => and_congr_right fun h => and_congr_right fun _ => ?_
  rw [add_assoc, og_sum n h, show inq 0 = 0 by simp [inq], zero_mul, add_zero, sub_eq_add_neg]

theorem relQOGm_iff (n : ℕ) (x : P) : x ∈ relQOGm n ↔ ∃ r : ℕ, 1 ≤ r ∧ r ≤ n ∧ x = hvar n (r : ℕ) ^ 2 -
    (∑ i ∈ Finset.Icc 1 r, C (-(-1) ^ i * if r - i ≤ 0 then 1 else 2) * (hvar n ((r + i : ℕ) : ℤ) * hvar n ((r - i : ℕ) : ℤ)) +
      inq (if r = n then Polynomial.X else 0) * hvar n ((0 : ℕ) : ℤ)) := by
  unfold relQOGm
  rw [Set.mem_ofPred_eq]
  refine exists_congr fun r => and_congr_right fun h => and_congr_right fun _ => ?_
  have : inq (if r = n then Polynomial.X else 0) = if r = n then (MvPolynomial.X .q : P) else 0 := by
    split <;> simp [inq]
  rw [add_assoc, og_sum n h, this, hvar_zero', mul_one, sub_add_eq_sub_sub, ← sub_eq_add_neg]


theorem ev_inq_hvar {X : Space} {pieri : Int → List Int → Except PyErr Poly} {n B : ℕ} (hn : 0 < n)
    (Z : RingOn X pieri (stdSpc (n + 0)) (clsBC n 0) B) (a : Polynomial ℚ) {d : ℕ} (hd : d ≤ n) :
    ev (Z.Y.act (inq a * hvar n (d : ℕ)) (Finsupp.single [] 1)) = inq a * MvPolynomial.X (.S (rowS d)) := by
  rw [map_mul, Module.End.mul_apply, act_hvar hn Z hd, Z.Y.act_inq, ev_smul, ev_single, inq_one, one_mul]

theorem lg_lhs (s : Finset ℕ) (v : ℕ → P) :
    v 0 - ∑ i ∈ s, C (-2 * (-1) ^ i) * v i = v 0 + 2 * ∑ i ∈ s, (-1) ^ i * v i := by
  rw [sub_eq_add_neg, ← Finset.sum_neg_distrib, Finset.mul_sum]
  congr 1
  refine Finset.sum_congr rfl fun i _ => ?_
  rw [C_mul, neg_one_C, show (C (-2) : P) = -2 by rw [C_neg]; rfl]
  ring

theorem og_lhs (s : Finset ℕ) (r : ℕ) (v : ℕ → P) :
    v 0 - ∑ i ∈ s, C (-(-1) ^ i * if r - i ≤ 0 then 1 else 2) * v i =
      v 0 + ∑ i ∈ s, (-1) ^ i * ((if r - i ≤ 0 then 1 else 2) * v i) := by
  rw [sub_eq_add_neg, ← Finset.sum_neg_distrib]
  congr 1
  refine Finset.sum_congr rfl fun i _ => ?_
  rw [C_mul, C_neg, neg_one_C]
  split
  · rw [C_1]; ring
  · rw [show (C 2 : P) = 2 from rfl]; ring

theorem mkIG_max {n : ℕ} : mkIG n (2 * n) = .ok ⟨.C, (0 : ℕ), n⟩ := by simp [mkIG]

theorem mkOG_max {n : ℕ} : mkOG n (2 * n + 1) = .ok ⟨.B, (0 : ℕ), n⟩ := by
  unfold mkOG
  rw [if_neg (by omega), if_pos (by omega), show (2 * (n : ℤ) + 1 - 1) / 2 = n by omega, sub_self]
  rfl

section
variable {n : ℕ} (hn : 0 < n)
include hn

theorem ringIG_zero {e : P} (he : e ∈ supported ℚ (specialSet (stdSpc (n + 0)))) :
    (ringIG n 0 hn.le).Y.act e (Finsupp.single [] 1) = 0 ↔ e ∈ Ideal.span (relLG n) := by
  refine pres_max hn _ (c := fun _ i => -2 * (-1) ^ i) (a := fun _ => 0) (d := fun _ => 0) (fun r _ _ h => absurd rfl h)
    (relLG_iff n) ?_ he
  intro x hx
  obtain ⟨r, h1, h2, rfl⟩ := (relLG_iff n x).1 hx
  obtain ⟨v, hv, h⟩ := C92_IG_classical (m := n) (n := n) (by omega) mkIG_max (fuel := boundBC n 0)
    (by rw [← giamBoundBC_eq hn.le]; simp) (r := r) (K := n) (by omega) (by omega) h2
  refine act_rel hn _ h2 _ hv ?_
  rw [lg_lhs, h, ev_inq_hvar hn _ _ (by omega)]
  simp [inq]

theorem ringQIG_zero (ord : List Int → List Int) {e : P} (he : e ∈ supported ℚ (specialSet (stdSpc (n + 0)))) :
    (ringQIG ord n 0 hn.le).Y.act e (Finsupp.single [] 1) = 0 ↔ e ∈ Ideal.span (relQLG n) := by
  refine pres_max hn _ (c := fun _ i => -2 * (-1) ^ i) (a := aLG n) (d := fun r => 2 * r - (n + 1)) (fun r _ _ _ => by omega)
    (relQLG_iff n) ?_ he
  intro x hx
  obtain ⟨r, h1, h2, rfl⟩ := (relQLG_iff n x).1 hx
  obtain ⟨v, hv, h⟩ := C92_IG_quantum ord (m := n) (n := n) (by omega) mkIG_max (fuel := boundBC n 0)
    (by rw [← giamBoundBC_eq hn.le]; simp) (r := r) (K := n) (by omega) (by omega) h2
  refine act_rel hn _ h2 _ hv ?_
  rw [lg_lhs, h, ev_inq_hvar hn _ _ (by omega)]
  unfold aLG
  split
  · simp [inq]
    ring
  · simp [inq]

theorem gen_OG_zero {X : Space} {pieri : Int → List Int → Except PyErr Poly} {B : ℕ}
    (Z : RingOn X pieri (stdSpc (n + 0)) (clsBC n 0) B)
    (h : ∀ r : ℕ, 0 < r → r ≤ n → ∃ v : ℕ → P, (∀ i ≤ r, r + i ≤ n →
        Returns (gmult X pieri B (Poly.sym (.S (rowS (r + i)))) (Poly.sym (.S (rowS (r - i))))) (v i)) ∧
      v 0 + ∑ i ∈ (Finset.Icc 1 r).filter (fun i => r + i ≤ n), (-1) ^ i * ((if r - i ≤ 0 then 1 else 2) * v i) = 0)
    {e : P} (he : e ∈ supported ℚ (specialSet (stdSpc (n + 0)))) :
    Z.Y.act e (Finsupp.single [] 1) = 0 ↔ e ∈ Ideal.span (relOGm n) := by
  refine pres_max hn _ (c := fun r i => -(-1) ^ i * if r - i ≤ 0 then 1 else 2) (a := fun _ => 0) (d := fun _ => 0)
    (fun r _ _ h => absurd rfl h) (relOGm_iff n) ?_ he
  intro x hx
  obtain ⟨r, h1, h2, rfl⟩ := (relOGm_iff n x).1 hx
  obtain ⟨v, hv, h⟩ := h r h1 h2
  refine act_rel hn _ h2 _ hv ?_
  rw [og_lhs, h, ev_inq_hvar hn _ _ (by omega)]
  simp [inq]

theorem gen_QOG_zero {X : Space} {pieri : Int → List Int → Except PyErr Poly} {B : ℕ}
    (Z : RingOn X pieri (stdSpc (n + 0)) (clsBC n 0) B)
    (h : ∀ r : ℕ, 0 < r → r ≤ n → ∃ v : ℕ → P, (∀ i ≤ r, r + i ≤ n →
        Returns (gmult X pieri B (Poly.sym (.S (rowS (r + i)))) (Poly.sym (.S (rowS (r - i))))) (v i)) ∧
      v 0 + ∑ i ∈ (Finset.Icc 1 r).filter (fun i => r + i ≤ n), (-1) ^ i * ((if r - i ≤ 0 then 1 else 2) * v i) =
        if r = n then MvPolynomial.X .q ^ (if 0 = 0 then 1 else 2) * MvPolynomial.X (.S []) else 0)
    {e : P} (he : e ∈ supported ℚ (specialSet (stdSpc (n + 0)))) :
    Z.Y.act e (Finsupp.single [] 1) = 0 ↔ e ∈ Ideal.span (relQOGm n) := by
  refine pres_max hn _ (c := fun r i => -(-1) ^ i * if r - i ≤ 0 then 1 else 2) (a := fun r => if r = n then Polynomial.X else 0)
    (d := fun _ => 0) (fun r _ _ h => by omega) (relQOGm_iff n) ?_ he
  intro x hx
  obtain ⟨r, h1, h2, rfl⟩ := (relQOGm_iff n x).1 hx
  obtain ⟨v, hv, h⟩ := h r h1 h2
  refine act_rel hn _ h2 _ hv ?_
  rw [og_lhs, h, ev_inq_hvar hn _ _ (by omega)]
  split <;> simp [inq, rowS]

theorem ringOG_zero {e : P} (he : e ∈ supported ℚ (specialSet (stdSpc (n + 0)))) :
    (ringOG n 0 hn.le).Y.act e (Finsupp.single [] 1) = 0 ↔ e ∈ Ideal.span (relOGm n) :=
  gen_OG_zero hn _ (fun r h1 h2 => C92_OG_classical (m := n) (n := n) (by omega) le_rfl mkOG_max (fuel := boundBC n 0)
    (by rw [← giamBoundBC_eq hn.le]; simp) (r := r) (k := 0) (K := n) (by omega) (by omega) (by omega) h2) he

theorem ringQOG_zero (ord : List Int → List Int) {e : P} (he : e ∈ supported ℚ (specialSet (stdSpc (n + 0)))) :
    (ringQOG ord n 0 hn).Y.act e (Finsupp.single [] 1) = 0 ↔ e ∈ Ideal.span (relQOGm n) :=
  gen_QOG_zero hn _ (fun r h1 h2 => C92_OG_quantum ord (m := n) (n := n) (by omega) le_rfl mkOG_max (fuel := boundBC n 0)
    (by rw [← giamBoundBC_eq hn.le]; simp) (r := r) (k := 0) (K := n) (by omega) (by omega) (by omega) h2) he

end

/-! ### C104 -/

section
variable {n : ℕ} {X : Space} {e f : Poly}

theorem bcClass_max (n : ℕ) : BCClass n n = clsBC n 0 := by
  have := bcClass_eq (n := n) (k := 0) (by omega)
  rwa [Nat.cast_zero, sub_zero] at this

/-- **C104**, type C. For polynomials in `q` and the special classes: `act(e, S[]) = act(f, S[])` on `IG(n, 2n)` if and only if
`e - f` lies in the ideal of the relations, and then `e` and `f` act in the same way on all linear combinations. -/
theorem C104_IG_classical (hn : 0 < n) (hX : mkIG n (2 * n) = .ok X) (he : SpecialPoly n e) (hf : SpecialPoly n f) :
    (SameResult (X.act e (Poly.sym (.S []))) (X.act f (Poly.sym (.S []))) ↔ den e - den f ∈ Ideal.span (relLG n)) ∧
    (den e - den f ∈ Ideal.span (relLG n) → ∀ x, LinComb (BCClass n n) x → SameResult (X.act e x) (X.act f x)) := by
  rw [mkIG_max] at hX
  cases hX
  have he' : SpecIn (stdSpc (n + 0)) e := (specIn_iff _ _).2 he
  have hf' : SpecIn (stdSpc (n + 0)) f := (specIn_iff _ _).2 hf
  have hs := ringIG_zero hn (Subalgebra.sub_mem _ (specIn_supported he') (specIn_supported hf'))
  exact ⟨(same_act_iffR (ringIG n 0 hn.le) he' hf').trans hs,
    fun h x hx => same_act_allR (ringIG n 0 hn.le) he' hf' (by rwa [bcClass_max] at hx) (hs.2 h)⟩

/-- **C104**, type C, quantum. -/
theorem C104_IG_quantum (ord : List Int → List Int) (hn : 0 < n) (hX : mkIG n (2 * n) = .ok X) (he : SpecialPoly n e)
    (hf : SpecialPoly n f) :
    (SameResult (X.qact ord e (Poly.sym (.S []))) (X.qact ord f (Poly.sym (.S []))) ↔ den e - den f ∈ Ideal.span (relQLG n)) ∧
    (den e - den f ∈ Ideal.span (relQLG n) → ∀ x, LinComb (BCClass n n) x → SameResult (X.qact ord e x) (X.qact ord f x)) := by
  rw [mkIG_max] at hX
  cases hX
  have he' : SpecIn (stdSpc (n + 0)) e := (specIn_iff _ _).2 he
  have hf' : SpecIn (stdSpc (n + 0)) f := (specIn_iff _ _).2 hf
  have hs := ringQIG_zero hn ord (Subalgebra.sub_mem _ (specIn_supported he') (specIn_supported hf'))
  exact ⟨(same_act_iffR (ringQIG ord n 0 hn.le) he' hf').trans hs,
    fun h x hx => same_act_allR (ringQIG ord n 0 hn.le) he' hf' (by rwa [bcClass_max] at hx) (hs.2 h)⟩

/-- **C104**, type B. -/
theorem C104_OG_classical (hn : 0 < n) (hX : mkOG n (2 * n + 1) = .ok X) (he : SpecialPoly n e) (hf : SpecialPoly n f) :
    (SameResult (X.act e (Poly.sym (.S []))) (X.act f (Poly.sym (.S []))) ↔ den e - den f ∈ Ideal.span (relOGm n)) ∧
    (den e - den f ∈ Ideal.span (relOGm n) → ∀ x, LinComb (BCClass n n) x → SameResult (X.act e x) (X.act f x)) := by
  rw [mkOG_max] at hX
  cases hX
  have he' : SpecIn (stdSpc (n + 0)) e := (specIn_iff _ _).2 he
  have hf' : SpecIn (stdSpc (n + 0)) f := (specIn_iff _ _).2 hf
  have hs := ringOG_zero hn (Subalgebra.sub_mem _ (specIn_supported he') (specIn_supported hf'))
  exact ⟨(same_act_iffR (ringOG n 0 hn.le) he' hf').trans hs,
    fun h x hx => same_act_allR (ringOG n 0 hn.le) he' hf' (by rwa [bcClass_max] at hx) (hs.2 h)⟩

/-- **C104**, type B, quantum. -/
theorem C104_OG_quantum (ord : List Int → List Int) (hn : 0 < n) (hX : mkOG n (2 * n + 1) = .ok X) (he : SpecialPoly n e)
    (hf : SpecialPoly n f) :
    (SameResult (X.qact ord e (Poly.sym (.S []))) (X.qact ord f (Poly.sym (.S []))) ↔ den e - den f ∈ Ideal.span (relQOGm n)) ∧
    (den e - den f ∈ Ideal.span (relQOGm n) → ∀ x, LinComb (BCClass n n) x → SameResult (X.qact ord e x) (X.qact ord f x)) := by
  rw [mkOG_max] at hX
  cases hX
  have he' : SpecIn (stdSpc (n + 0)) e := (specIn_iff _ _).2 he
  have hf' : SpecIn (stdSpc (n + 0)) f := (specIn_iff _ _).2 hf
  have hs := ringQOG_zero hn ord (Subalgebra.sub_mem _ (specIn_supported he') (specIn_supported hf'))
  exact ⟨(same_act_iffR (ringQOG ord n 0 hn) he' hf').trans hs,
    fun h x hx => same_act_allR (ringQOG ord n 0 hn) he' hf' (by rwa [bcClass_max] at hx) (hs.2 h)⟩

theorem strict_len_le : ∀ (l : List Int) (c : ℕ), l.Pairwise (fun a b => b < a) → (∀ x ∈ l, 0 < x ∧ x ≤ c) → l.length ≤ c
  | [], _, _, _ => by simp
  | a :: l, c, h, h' => by
    have ha := h' a (by simp)
    have := strict_len_le l (a.toNat - 1) (List.pairwise_cons.1 h).2 (fun x hx => by
      have h1 := (List.pairwise_cons.1 h).1 x hx
      have h2 := h' x (by simp [hx])
      omega)
    rw [List.length_cons]
    omega

theorem clsD_zero (n : ℕ) : clsD n 0 = clsBC n 0 := by
  funext l
  rw [propext (clsD_iff (by omega) l), propext (clsBC_eq (by omega) l)]
  refine propext ⟨?_, ?_⟩
  · rintro ⟨mu, h1, h2, h3, h4⟩
    obtain rfl : l = mu := by
      rcases h4 with h4 | ⟨h4, -⟩
      · exact h4
      · exact absurd (h1.2 _ h4) (by simp)
    refine ⟨h1, by simpa using h2, ?_, fun x hx => by have := h3.2 x hx; push_cast at this; omega⟩
    have := strict_len_le l n (List.Pairwise.imp_of_mem (fun {a b} ha _ h => h (by have := h1.2 a ha; omega)) h2)
      (fun x hx => ⟨h1.2 x hx, by have := h3.2 x hx; push_cast at this; omega⟩)
    omega
  · rintro ⟨h1, h2, h3⟩
    exact ⟨l, h1, by simpa using h2, ⟨by have := h3.1; omega, fun x hx => by have := h3.2 x hx; push_cast; omega⟩, Or.inl rfl⟩

theorem spcD_zero (n : ℕ) : spcD n 0 = stdSpc (n + 0) := by
  funext p
  unfold spcD stdSpc
  simp

theorem mkOGD_max {n : ℕ} : mkOG (n + 1) (2 * n + 2) = .ok ⟨.D, (0 : ℕ), n⟩ := by
  unfold mkOG
  rw [if_neg (by omega), if_neg (by omega), show (2 * (n : ℤ) + 2) / 2 = n + 1 by omega, sub_self, Int.add_sub_cancel]
  rfl

theorem dClass_max (n : ℕ) : DClass (n + 1) n = clsBC n 0 := by
  have := dClass_eq (n := n) (k := 0) (by omega)
  rw [Nat.cast_zero, sub_zero] at this
  rw [this, clsD_zero]

/-- **C104**, type D. The rings of `OG(n+1, 2n+2)` have the presentations of those of `OG(n, 2n+1)`. -/
theorem C104_OGD_classical (hn : 0 < n) (hX : mkOG (n + 1) (2 * n + 2) = .ok X) (he : SpecialPoly n e) (hf : SpecialPoly n f) :
    (SameResult (X.act e (Poly.sym (.S []))) (X.act f (Poly.sym (.S []))) ↔ den e - den f ∈ Ideal.span (relOGm n)) ∧
    (den e - den f ∈ Ideal.span (relOGm n) → ∀ x, LinComb (DClass (n + 1) n) x → SameResult (X.act e x) (X.act f x)) := by
  rw [mkOGD_max] at hX
  cases hX
  have he' : SpecIn (stdSpc (n + 0)) e := (specIn_iff _ _).2 he
  have hf' : SpecIn (stdSpc (n + 0)) f := (specIn_iff _ _).2 hf
  have Z := ringD n 0 (by omega)
  rw [spcD_zero, clsD_zero] at Z
  have hs := gen_OG_zero hn Z (fun r h1 h2 => by
    obtain ⟨v, w, hv, -, h⟩ := C99_classical (m := n + 1) (n := n) (by omega) le_rfl mkOGD_max (fuel := boundD n 0)
      (by rw [← giamBoundD_eq (by omega)]; simp) (r := r) (k := 0) (K := n) (by omega) (by omega) (by omega) h2
    refine ⟨v, hv, ?_⟩
    rwa [if_neg (c := 0 < 0 ∧ _) (by omega), add_zero] at h)
    (Subalgebra.sub_mem _ (specIn_supported he') (specIn_supported hf'))
  exact ⟨(same_act_iffR Z he' hf').trans hs,
    fun h x hx => same_act_allR Z he' hf' (by rwa [dClass_max] at hx) (hs.2 h)⟩

/-- **C104**, type D, quantum. -/
theorem C104_OGD_quantum (ord : List Int → List Int) (hn : 0 < n) (hX : mkOG (n + 1) (2 * n + 2) = .ok X) (he : SpecialPoly n e)
    (hf : SpecialPoly n f) :
    (SameResult (X.qact ord e (Poly.sym (.S []))) (X.qact ord f (Poly.sym (.S []))) ↔ den e - den f ∈ Ideal.span (relQOGm n)) ∧
    (den e - den f ∈ Ideal.span (relQOGm n) → ∀ x, LinComb (DClass (n + 1) n) x → SameResult (X.qact ord e x) (X.qact ord f x)) := by
  rw [mkOGD_max] at hX
  cases hX
  have he' : SpecIn (stdSpc (n + 0)) e := (specIn_iff _ _).2 he
  have hf' : SpecIn (stdSpc (n + 0)) f := (specIn_iff _ _).2 hf
  have Z := ringQD ord n 0 (by omega) (by omega)
  rw [spcD_zero, clsD_zero] at Z
  have hs := gen_QOG_zero hn Z (fun r h1 h2 => by
    obtain ⟨v, w, hv, -, h⟩ := C99_quantum ord (m := n + 1) (n := n) (by omega) le_rfl (by omega) mkOGD_max (fuel := boundD n 0)
      (by rw [← giamBoundD_eq (by omega)]; simp) (r := r) (k := 0) (K := n) (by omega) (by omega) (by omega) h2
    refine ⟨v, hv, ?_⟩
    rwa [if_neg (c := 0 < 0 ∧ _) (by omega), add_zero] at h)
    (Subalgebra.sub_mem _ (specIn_supported he') (specIn_supported hf'))
  exact ⟨(same_act_iffR Z he' hf').trans hs,
    fun h x hx => same_act_allR Z he' hf' (by rwa [dClass_max] at hx) (hs.2 h)⟩

end

/-- `IG(3, 6)`: `S[2]^2 = 2*S[3]*S[1]` and in the quantum ring `S[2]^2 = 2*S[3]*S[1] - q`; the two sides act in the same way. -/
example : mkIG 3 6 = .ok ⟨.C, 0, 3⟩ ∧ SpecialPoly 3 [([.S [2], .S [2]], 1)] ∧ SpecialPoly 3 [([.S [1], .S [3]], 2), ([.q], -1)] ∧
    den [([.S [2], .S [2]], 1)] - den [([.S [1], .S [3]], 2), ([.q], -1)] ∈ relQLG 3 ∧
    (Space.mk .C 0 3).qact id [([.S [2], .S [2]], 1)] (Poly.sym (.S [])) = .ok [([.S [3, 1]], 2), ([.q, .S []], 1)] ∧
    (Space.mk .C 0 3).qact id [([.S [1], .S [3]], 2), ([.q], -1)] (Poly.sym (.S [])) = .ok [([.q, .S []], 1), ([.S [3, 1]], 2)] ∧
    (Space.mk .C 0 3).act [([.S [2], .S [2]], 1)] (Poly.sym (.S [2])) = .ok [([.S [3, 2, 1]], 2)] ∧
    (Space.mk .C 0 3).act [([.S [1], .S [3]], 2)] (Poly.sym (.S [2])) = .ok [([.S [3, 2, 1]], 2)] := by
  refine ⟨by decide, by decide, by decide, ⟨2, by decide, by decide, ?_⟩, by decide +kernel, by decide +kernel, by decide +kernel,
    by decide +kernel⟩
  have h : ∀ p : ℤ, hvar 3 p = if p = 0 then 1 else if 0 < p ∧ p ≤ 3 then MvPolynomial.X (.S [p]) else 0 := fun _ => rfl
  have h2 : (C 2 : P) = 2 := rfl
  rw [show Finset.Icc 1 2 = {1, 2} from rfl, Finset.sum_pair (by decide)]
  simp [h, den, monoDen, h2]
  ring

/-- `OG(3, 7)`: `S[3]^2 = q` in the quantum ring and `S[3]^2 = 0` in the classical ring; `S[1]^2 = S[2]` in both. -/
example : mkOG 3 7 = .ok ⟨.B, 0, 3⟩ ∧ SpecialPoly 3 [([.S [3], .S [3]], 1)] ∧ SpecialPoly 3 [([.q], 1)] ∧
    den [([.S [3], .S [3]], 1)] - den [([.q], 1)] ∈ relQOGm 3 ∧
    (Space.mk .B 0 3).qact id [([.S [3], .S [3]], 1)] (Poly.sym (.S [2, 1])) = .ok [([.q, .S [2, 1]], 1)] ∧
    (Space.mk .B 0 3).act [([.S [3], .S [3]], 1)] (Poly.sym (.S [2, 1])) = .ok [] ∧
    den [([.S [1], .S [1]], 1)] - den [([.S [2]], 1)] ∈ relOGm 3 ∧
    (Space.mk .B 0 3).act [([.S [1], .S [1]], 1)] (Poly.sym (.S [2])) = .ok [([.S [3, 1]], 2)] ∧
    (Space.mk .B 0 3).act [([.S [2]], 1)] (Poly.sym (.S [2])) = .ok [([.S [3, 1]], 2)] := by
  have h : ∀ p : ℤ, hvar 3 p = if p = 0 then 1 else if 0 < p ∧ p ≤ 3 then MvPolynomial.X (.S [p]) else 0 := fun _ => rfl
  refine ⟨by decide, by decide, by decide, ⟨3, by decide, by decide, ?_⟩, by decide +kernel, by decide +kernel,
    ⟨1, by decide, by decide, ?_⟩, by decide +kernel, by decide +kernel⟩
  · rw [show Finset.Icc 1 (3 - 1) = {1, 2} from rfl, Finset.sum_pair (by decide)]
    simp [h, den, monoDen]
    ring
  · simp [h, den, monoDen]
    ring

/-- `OG(4, 8)`: the same relations as for `OG(3, 7)`. -/
example : mkOG 4 8 = .ok ⟨.D, 0, 3⟩ ∧ LinComb (DClass 4 3) (Poly.sym (.S [2, 1])) ∧
    (Space.mk .D 0 3).qact id [([.S [3], .S [3]], 1)] (Poly.sym (.S [2, 1])) = .ok [([.q, .S [2, 1]], 1)] ∧
    (Space.mk .D 0 3).act [([.S [3], .S [3]], 1)] (Poly.sym (.S [2, 1])) = .ok [] ∧
    (Space.mk .D 0 3).act [([.S [1], .S [1]], 1)] (Poly.sym (.S [2])) = .ok [([.S [3, 1]], 2)] ∧
    (Space.mk .D 0 3).act [([.S [2]], 1)] (Poly.sym (.S [2])) = .ok [([.S [3, 1]], 2)] := by decide +kernel

end Verif
