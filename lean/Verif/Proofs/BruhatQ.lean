import Verif.Proofs.BruhatA
/-!
# Powers of q in quantum products

The support of a product with the powers of `q`, for rings where the special classes lead upwards in a relation graded by the power of `q`; the
relation of type A.
-/

namespace Verif
open Spec Cyl

/-- all coefficients are nonnegative -/
def PosQ (x : LMod) : Prop := ∀ l d, 0 ≤ (x l).coeff d

theorem coeff_mul_nonneg {a b : Polynomial ℚ} (ha : ∀ d, 0 ≤ a.coeff d) (hb : ∀ d, 0 ≤ b.coeff d) (d : ℕ) : 0 ≤ (a * b).coeff d := by
  rw [Polynomial.coeff_mul]
  exact Finset.sum_nonneg (fun x _ => mul_nonneg (ha _) (hb _))

theorem coeff_mul_pos {a b : Polynomial ℚ} (ha : ∀ d, 0 ≤ a.coeff d) (hb : ∀ d, 0 ≤ b.coeff d) {d e : ℕ} (h1 : 0 < a.coeff d)
    (h2 : 0 < b.coeff e) : 0 < (a * b).coeff (d + e) := by
  rw [Polynomial.coeff_mul]
  exact lt_of_lt_of_le (mul_pos h1 h2) (Finset.single_le_sum (f := fun x : ℕ × ℕ => a.coeff x.1 * b.coeff x.2)
    (fun x _ => mul_nonneg (ha _) (hb _)) (Finset.mem_antidiagonal.2 (rfl : (d, e).1 + (d, e).2 = d + e)))

theorem posQ_single (l : List Int) : PosQ (Finsupp.single l 1) := by
  classical
  intro m d
  rw [Finsupp.single_apply]
  split
  · rw [Polynomial.coeff_one]; split <;> norm_num
  · simp

theorem posQ_lin {t : List Int → LMod} {cls : List Int → Prop} (ht : ∀ l, cls l → PosQ (t l)) {x : LMod} (hx : PosQ x)
    (hc : ∀ l ∈ x.support, cls l) : PosQ (lin t x) := by
  intro m d
  rw [lin_apply_sum, Polynomial.finset_sum_coeff]
  exact Finset.sum_nonneg (fun l hl => coeff_mul_nonneg (hx l) (ht l (hc l hl) m) d)

/-- the terms `q^d S[m]` of `x` are classes and lie in `Q d` -/
def InQ (cls : List Int → Prop) (Q : ℕ → List Int → Prop) (x : LMod) : Prop := ∀ m d, (x m).coeff d ≠ 0 → cls m ∧ Q d m

section
variable {cls : List Int → Prop} {Q : ℕ → List Int → Prop}

theorem InQ.supp {x : LMod} (h : InQ cls Q x) : ∀ m ∈ x.support, cls m := by
  intro m hm
  obtain ⟨d, hd⟩ : ∃ d, (x m).coeff d ≠ 0 := by
    by_contra hc
    push Not at hc
    exact Finsupp.mem_support_iff.1 hm (Polynomial.ext (by simpa using hc))
  exact (h m d hd).1

theorem inQ_sub {x y : LMod} (hx : InQ cls Q x) (hy : InQ cls Q y) : InQ cls Q (x - y) := by
  intro m d h
  rw [Finsupp.sub_apply, Polynomial.coeff_sub] at h
  by_cases h1 : (x m).coeff d = 0
  · exact hy m d (fun h2 => h (by rw [h1, h2, sub_zero]))
  · exact hx m d h1

theorem inQ_sum {ι : Type*} (s : Finset ι) (f : ι → LMod) (h : ∀ i ∈ s, InQ cls Q (f i)) : InQ cls Q (∑ i ∈ s, f i) := by
  intro m d hd
  rw [Finsupp.finsetSum_apply, Polynomial.finset_sum_coeff] at hd
  obtain ⟨i, hi, h1⟩ := Finset.exists_ne_zero_of_sum_ne_zero hd
  exact h i hi m d h1

theorem inQ_smul (hmono : ∀ a b m, cls m → Q a m → Q (a + b) m) (c : Polynomial ℚ) {x : LMod} (hx : InQ cls Q x) : InQ cls Q (c • x) := by
  intro m d h
  rw [Finsupp.smul_apply, smul_eq_mul, Polynomial.coeff_mul] at h
  obtain ⟨⟨a, b⟩, hi, h1⟩ := Finset.exists_ne_zero_of_sum_ne_zero h
  have := hx m b (right_ne_zero_of_mul h1)
  rw [Finset.mem_antidiagonal] at hi
  refine ⟨this.1, ?_⟩
  rw [← hi, Nat.add_comm]
  exact hmono b a m this.1 this.2

theorem inQ_lin {t : List Int → LMod} (ht : ∀ l, cls l → ∀ m ∈ (t l).support, cls m)
    (hQ : ∀ a l, cls l → Q a l → ∀ b m, (t l m).coeff b ≠ 0 → Q (a + b) m) {x : LMod} (hx : InQ cls Q x) : InQ cls Q (lin t x) := by
  intro m d h
  rw [lin_apply_sum, Polynomial.finset_sum_coeff] at h
  obtain ⟨l, hl, h1⟩ := Finset.exists_ne_zero_of_sum_ne_zero h
  rw [Polynomial.coeff_mul] at h1
  obtain ⟨⟨a, b⟩, hi, h2⟩ := Finset.exists_ne_zero_of_sum_ne_zero h1
  have h3 := hx l a (left_ne_zero_of_mul h2)
  have h4 := right_ne_zero_of_mul h2
  rw [Finset.mem_antidiagonal] at hi
  refine ⟨ht l h3.1 m (Finsupp.mem_support_iff.2 (fun h0 => h4 (by rw [h0, Polynomial.coeff_zero]))), ?_⟩
  rw [← hi]
  exact hQ a l h3.1 h3.2 b m h4

theorem inQ_single {l : List Int} (hl : cls l) (h : Q 0 l) : InQ cls Q (Finsupp.single l 1) := by
  classical
  intro m d hd
  rw [Finsupp.single_apply] at hd
  split at hd
  · rename_i e
    subst e
    rw [Polynomial.coeff_one] at hd
    split at hd
    · rename_i e; subst e; exact ⟨hl, h⟩
    · exact absurd rfl hd
  · exact absurd (Polynomial.coeff_zero d) hd

end

namespace GiamSys
variable {k : ℤ} {pieri : Int → List Int → Except PyErr Poly} {spc : Int → Prop} {cls : List Int → Prop} (Y : GiamSys k pieri spc cls)

theorem prod_inQ {Q : ℕ → List Int → Prop} (hmono : ∀ a b m, cls m → Q a m → Q (a + b) m)
    (hQ : ∀ p, spc p → ∀ a l, cls l → Q a l → ∀ b m, (Y.t p l m).coeff b ≠ 0 → Q (a + b) m) :
    ∀ l, cls l → ∀ y : LMod, InQ cls Q y → InQ cls Q (Y.prod (Finsupp.single l 1) y) := by
  refine Y.G_induction (Q := fun l => ∀ y : LMod, InQ cls Q y → InQ cls Q (Y.prod (Finsupp.single l 1) y)) ?_ ?_
  · intro _ y hy
    rw [one_prod]
    exact hy
  · intro l hl h0 hp ht ih ihr y hy
    have e : Finsupp.single l 1 = lin (Y.t (hdK k l)) (Finsupp.single (tlK k l) 1) - Y.rest l := by
      rw [rest]
      simp [lin]
    have hst := supp_single (cls := cls) ht 1
    rw [e, prod_sub_left, Y.prod_lin hp hst hy.supp]
    refine inQ_sub (inQ_lin (fun l _ => Y.closed _ l) (hQ _ hp) (ih y hy)) ?_
    rw [lmod_sum (Y.rest l), prod_sum_left]
    refine inQ_sum _ _ (fun mu hmu => ?_)
    rw [Y.prod_smul_left]
    exact inQ_smul hmono _ ((ihr mu hmu).2 y hy)

variable {Le : ℕ → List Int → List Int → Prop}

theorem support_leQ (hrefl : ∀ l, cls l → Le 0 l l) (htr : ∀ d e a b c, Le d a b → Le e b c → Le (d + e) a c)
    (hmono : ∀ d e a b, cls a → cls b → Le d a b → Le (d + e) a b)
    (hup : ∀ p, spc p → ∀ l, cls l → ∀ m d, (Y.t p l m).coeff d ≠ 0 → Le d l m) {l mu nu : List Int} (hl : cls l) (hmu : cls mu) {d : ℕ}
    (h : (Y.prod (Finsupp.single l 1) (Finsupp.single mu 1) nu).coeff d ≠ 0) : Le d l nu ∧ Le d mu nu := by
  have key : ∀ {l mu : List Int}, cls l → cls mu → (Y.prod (Finsupp.single l 1) (Finsupp.single mu 1) nu).coeff d ≠ 0 → Le d mu nu := by
    intro l mu hl hmu h
    exact (Y.prod_inQ (Q := fun d m => Le d mu m) (fun a b m hm h => hmono a b mu m hmu hm h)
      (fun p hp a l hl hle b m hm => htr a b mu l m hle (hup p hp l hl m b hm)) l hl _ (inQ_single hmu (hrefl mu hmu)) nu d h).2
  refine ⟨key hmu hl ?_, key hl hmu h⟩
  rwa [Y.prod_comm (supp_single hmu 1) (supp_single hl 1)]

/-- a composite of multiplications with special classes that leads from one class to another one -/
theorem reachQ (hpos : ∀ p, spc p → ∀ l, cls l → PosQ (Y.t p l))
    (hstep : ∀ d l nu, cls l → cls nu → Le d l nu → l ≠ nu →
      (∃ p m a e, spc p ∧ cls m ∧ a + e ≤ d ∧ (a = 0 → l.sum < m.sum) ∧ (Y.t p l m).coeff a ≠ 0 ∧ Le e m nu) ∨
      ∃ p m a e, spc p ∧ cls m ∧ a + e ≤ d ∧ (a = 0 → m.sum < nu.sum) ∧ (Y.t p m nu).coeff a ≠ 0 ∧ Le e l m) {N : ℕ} (hN : ∀ l, cls l → 0 ≤ l.sum ∧ l.sum ≤ N) :
    ∀ (j d : ℕ) (l nu : List Int), cls l → cls nu → Le d l nu → d * (2 * N + 1) + nu.sum + N - l.sum < j →
      ∃ (T : LMod →ₗ[Polynomial ℚ] LMod) (e : ℕ), e ≤ d ∧
        (∀ x y : LMod, (∀ l ∈ x.support, cls l) → (∀ l ∈ y.support, cls l) → T (Y.prod x y) = Y.prod (T x) y) ∧
        (∀ x : LMod, (∀ l ∈ x.support, cls l) → ∀ l ∈ (T x).support, cls l) ∧
        (∀ x : LMod, (∀ l ∈ x.support, cls l) → PosQ x → PosQ (T x)) ∧ (T (Finsupp.single l 1) nu).coeff e ≠ 0 := by
  classical
  intro j
  induction j with
  | zero =>
    intro d l nu hl hnu _ h
    have := hN l hl
    have := hN nu hnu
    have : (0 : ℤ) ≤ d * (2 * N + 1) := by positivity
    push_cast at h
    omega
  | succ j ih =>
    intro d l nu hl hnu hle hj
    push_cast at hj
    by_cases hne : l = nu
    · subst hne
      exact ⟨LinearMap.id, 0, Nat.zero_le _, fun _ _ _ _ => rfl, fun _ h => h, fun _ _ h => h, by simp⟩
    have hlt : ∀ a e : ℕ, a + e ≤ d → ∀ x : ℤ, (a = 0 → 1 ≤ x) → -(2 * N : ℤ) ≤ x → (e : ℤ) * (2 * N + 1) + 1 ≤ d * (2 * N + 1) + x := by
      intro a e hae x h0 hx
      rcases Nat.eq_zero_or_pos a with ha | ha
      · have := h0 ha
        have : (e : ℤ) * (2 * N + 1) ≤ d * (2 * N + 1) := by
          apply mul_le_mul_of_nonneg_right _ (by positivity)
          exact_mod_cast (by omega : e ≤ d)
        omega
      · have : ((e : ℤ) + 1) * (2 * N + 1) ≤ d * (2 * N + 1) := by
          apply mul_le_mul_of_nonneg_right _ (by positivity)
          exact_mod_cast (by omega : e + 1 ≤ d)
        rw [add_mul, one_mul] at this
        omega
    have n1 := hN l hl
    have n2 := hN nu hnu
    rcases hstep d l nu hl hnu hle hne with ⟨p, m, a, e, hp, hm, hae, hs, ht, hmn⟩ | ⟨p, m, a, e, hp, hm, hae, hs, ht, hmn⟩
    · have n3 := hN m hm
      obtain ⟨T, e', he', h1, h2, h3, h4⟩ := ih e m nu hm hnu hmn (by
        have := hlt a e hae (m.sum - l.sum) (fun h => by have := hs h; omega) (by omega)
        omega)
      refine ⟨T ∘ₗ lin (Y.t p), a + e', by omega, fun x y hx hy => ?_, fun x hx => h2 _ (lin_support (Y.closed _) x),
        fun x hx hxp => h3 _ (lin_support (Y.closed _) x) (posQ_lin (hpos p hp) hxp hx), ?_⟩
      · rw [LinearMap.comp_apply, LinearMap.comp_apply, ← Y.prod_lin hp hx hy, h1 _ _ (lin_support (Y.closed _) x) hy]
      · have e : lin (Y.t p) (Finsupp.single l 1) = Y.t p l m • Finsupp.single m 1 + (Y.t p l).erase m := by
          rw [show lin (Y.t p) (Finsupp.single l 1) = Y.t p l by simp [lin]]
          conv_lhs => rw [← Finsupp.single_add_erase m (Y.t p l)]
          simp
        have pe : PosQ ((Y.t p l).erase m) := by
          intro a
          rw [Finsupp.erase_apply]
          split
          · intro d; simp
          · exact hpos p hp l hl a
        have f1 := hpos p hp l hl m
        have s1 := supp_single (cls := cls) hm 1
        have s2 : ∀ a ∈ ((Y.t p l).erase m).support, cls a := by
          intro a ha
          rw [Finsupp.support_erase] at ha
          exact Y.closed p l a (Finset.mem_of_mem_erase ha)
        have f2 := h3 _ s1 (posQ_single m) nu
        have f3 := h3 _ s2 pe nu (a + e')
        rw [LinearMap.comp_apply, e, map_add, map_smul, Finsupp.add_apply, Finsupp.smul_apply, smul_eq_mul, Polynomial.coeff_add]
        have := coeff_mul_pos f1 f2 (lt_of_le_of_ne (f1 a) (Ne.symm ht)) (lt_of_le_of_ne (f2 e') (Ne.symm h4))
        exact ne_of_gt (add_pos_of_pos_of_nonneg this f3)
    · have n3 := hN m hm
      obtain ⟨T, e', he', h1, h2, h3, h4⟩ := ih e l m hl hm hmn (by
        have := hlt a e hae (nu.sum - m.sum) (fun h => by have := hs h; omega) (by omega)
        omega)
      have s1 := supp_single (cls := cls) hl 1
      refine ⟨lin (Y.t p) ∘ₗ T, e' + a, by omega, fun x y hx hy => ?_, fun x hx => ?_, fun x hx hxp => ?_, ?_⟩
      · rw [LinearMap.comp_apply, LinearMap.comp_apply, h1 _ _ hx hy, Y.prod_lin hp (h2 x hx) hy]
      · rw [LinearMap.comp_apply]
        exact lin_support (Y.closed _) (T x)
      · rw [LinearMap.comp_apply]
        exact posQ_lin (hpos p hp) (h3 x hx hxp) (h2 x hx)
      · have f1 := h3 _ s1 (posQ_single l)
        have f2 := hpos p hp
        rw [LinearMap.comp_apply, lin_apply_sum, Polynomial.finset_sum_coeff]
        have s3 := h2 _ s1
        generalize T (Finsupp.single l 1) = z at f1 h4 s3 ⊢
        have hz : m ∈ z.support := Finsupp.mem_support_iff.2 (fun h0 => h4 (by rw [h0, Polynomial.coeff_zero]))
        have g1 := coeff_mul_pos (f1 m) (f2 m hm nu) (lt_of_le_of_ne (f1 m e') (Ne.symm h4)) (lt_of_le_of_ne (f2 m hm nu a) (Ne.symm ht))
        have g2 := Finset.single_le_sum (f := fun i => (z i * Y.t p i nu).coeff (e' + a))
          (fun i hi => coeff_mul_nonneg (f1 i) (f2 i (s3 i hi) nu) _) hz
        exact ne_of_gt (lt_of_lt_of_le g1 g2)

/-- the smallest power of `q` in a product -/
theorem prod_leQ (hrefl : ∀ l, cls l → Le 0 l l) (htr : ∀ d e a b c, Le d a b → Le e b c → Le (d + e) a c)
    (hmono : ∀ d e a b, cls a → cls b → Le d a b → Le (d + e) a b)
    (hup : ∀ p, spc p → ∀ l, cls l → ∀ m d, (Y.t p l m).coeff d ≠ 0 → Le d l m) (hpos : ∀ p, spc p → ∀ l, cls l → PosQ (Y.t p l))
    (hstep : ∀ d l nu, cls l → cls nu → Le d l nu → l ≠ nu →
      (∃ p m a e, spc p ∧ cls m ∧ a + e ≤ d ∧ (a = 0 → l.sum < m.sum) ∧ (Y.t p l m).coeff a ≠ 0 ∧ Le e m nu) ∨
      ∃ p m a e, spc p ∧ cls m ∧ a + e ≤ d ∧ (a = 0 → m.sum < nu.sum) ∧ (Y.t p m nu).coeff a ≠ 0 ∧ Le e l m) {N : ℕ} (hN : ∀ l, cls l → 0 ≤ l.sum ∧ l.sum ≤ N)
    (dl : List Int → List Int) (hcl : ∀ l, cls l → cls (dl l)) (hdd : ∀ l, cls l → dl (dl l) = l)
    (hadj : ∀ p l nu, spc p → cls l → cls nu → Y.t p l (dl nu) = Y.t p nu (dl l)) {l mu : List Int} (hl : cls l) (hmu : cls mu) (d : ℕ) :
    (∃ e ≤ d, ∃ nu, (Y.prod (Finsupp.single l 1) (Finsupp.single mu 1) nu).coeff e ≠ 0) ↔ Le d l (dl mu) := by
  have hpt : ∀ {l : List Int}, cls l → ∀ y : LMod, (∀ l ∈ y.support, cls l) → Y.prod (Finsupp.single l 1) y (dl []) = y (dl l) := by
    intro l hl y hy
    rw [prod_single]
    exact Y.dual_coeff dl hcl hdd hadj l hl y hy
  have s1 := supp_single (cls := cls) hl 1
  have s2 := supp_single (cls := cls) hmu 1
  constructor
  · rintro ⟨e, he, nu, hnu⟩
    have hc : cls nu := Y.prod_support _ s2 nu (Finsupp.mem_support_iff.2 (fun h0 => hnu (by rw [h0, Polynomial.coeff_zero])))
    have s3 := supp_single (cls := cls) (hcl nu hc) 1
    have eq := hpt (hcl nu hc) _ (Y.prod_support (Finsupp.single l 1) s2)
    rw [hdd nu hc, ← Y.prod_assoc _ s1 s2, Y.prod_comm (Y.prod_support _ s1) s2, hpt hmu _ (Y.prod_support _ s1)] at eq
    rw [← eq] at hnu
    have := hmono e (d - e) _ _ hl (hcl mu hmu) (Y.support_leQ hrefl htr hmono hup (hcl nu hc) hl hnu).2
    rwa [Nat.add_sub_cancel' he] at this
  · intro h
    obtain ⟨T, e, he, h1, h2, h3, h4⟩ := Y.reachQ hpos hstep hN ((d * (2 * N + 1) + (dl mu).sum + N - l.sum + 1).toNat) d l (dl mu) hl (hcl mu hmu) h (by omega)
    have eq := h1 _ _ s1 s2
    rw [Y.prod_comm (h2 _ s1) s2] at eq
    have e2 := hpt hmu _ (h2 _ s1)
    rw [← eq] at e2
    rw [← e2] at h4
    by_contra hc
    push Not at hc
    apply h4
    have hT : T (Y.prod (Finsupp.single l 1) (Finsupp.single mu 1)) =
        (Polynomial.X ^ (d + 1) : Polynomial ℚ) • T (Finsupp.mapRange (fun f : Polynomial ℚ => Polynomial.divX^[d + 1] f) (Function.iterate_fixed Polynomial.divX_zero _) (Y.prod (Finsupp.single l 1) (Finsupp.single mu 1))) := by
      rw [← map_smul]
      congr 1
      ext nu i
      rw [Finsupp.smul_apply, smul_eq_mul, Polynomial.coeff_X_pow_mul', Finsupp.mapRange_apply]
      have hx : ∀ (j i : ℕ) (f : Polynomial ℚ), (Polynomial.divX^[j] f).coeff i = f.coeff (i + j) := by
        intro j
        induction j with
        | zero => intro i f; rfl
        | succ j ih =>
          intro i f
          rw [Function.iterate_succ_apply', Polynomial.coeff_divX, ih]
          congr 1
          omega
      split
      · rw [hx, Nat.sub_add_cancel (by assumption)]
      · exact hc i (by omega) nu
    rw [hT, Finsupp.smul_apply, smul_eq_mul, Polynomial.coeff_X_pow_mul', if_neg (by omega)]

end GiamSys

/-- `l` without its first `d` rows and its first `d` columns is inside `mu` -/
def Spec.InsideQ (d : ℕ) (l mu : List Int) : Prop := ∀ i, part l (i + d) ≤ part mu i + d

theorem insideQ_trans (d e : ℕ) (a b c : List Int) (h1 : InsideQ d a b) (h2 : InsideQ e b c) : InsideQ (d + e) a c := by
  intro i
  have a1 := h1 (i + e)
  have a2 := h2 i
  rw [show i + e + d = i + (d + e) by omega] at a1
  push_cast
  omega

section
variable {m : ℕ} {k : ℤ}

theorem insideQ_mono {l mu : List Int} (hl : clsA (m + 1) k l) (d e : ℕ) (h : InsideQ d l mu) : InsideQ (d + e) l mu := by
  intro i
  have h1 := h i
  have h2 : part l (i + (d + e)) ≤ part l (i + d) := hl.1.isPartition.part_anti (by omega)
  push_cast
  omega

/-- for classes, the first rows decide -/
theorem insideQ_iff {l mu : List Int} (hl : clsA (m + 1) k l) (hm : clsA (m + 1) k mu) {d : ℕ} :
    InsideQ d l mu ↔ ∀ i, i + d < m + 1 → part l (i + d) ≤ part mu i + d := by
  refine ⟨fun h i _ => h i, fun h i => ?_⟩
  by_cases hi : i + d < m + 1
  · exact h i hi
  · rw [part_of_ge (by have := hl.2.1; omega)]
    have := hm.1.isPartition.part_nonneg i
    omega

variable (hk : 0 ≤ k) {pieri : Int → List Int → Except PyErr Poly} {K : ℤ}
  (Y : GiamSys K pieri (stdSpc k.toNat) (clsA (m + 1) k)) (hY : ∀ p, Y.t p = tq m k p.toNat)
include hk hY

theorem leQ_term {p : ℤ} {l mu : List Int} (hl : clsA (m + 1) k l) {d : ℕ} (h : (Y.t p l mu).coeff d ≠ 0) :
    clsA (m + 1) k mu ∧ (d = 0 ∧ vec m mu ∈ Om k p.toNat (vec m l) ∨ d = 1 ∧ unrot k (vec m mu) ∈ Om k p.toNat (vec m l)) := by
  classical
  have hm := Y.closed p l mu (Finsupp.mem_support_iff.2 (fun h0 => h (by rw [h0, Polynomial.coeff_zero])))
  refine ⟨hm, ?_⟩
  rw [hY, ← lab_vec' hm, tq_coeff hl (boxV_vec hk hm), Polynomial.coeff_add] at h
  by_contra hc
  push Not at hc
  apply h
  have h1 : (if vec m mu ∈ Om k p.toNat (vec m l) then (1 : Polynomial ℚ) else 0).coeff d = 0 := by
    split
    · rename_i h'
      rw [Polynomial.coeff_one, if_neg (fun e => hc.1 e h')]
    · exact Polynomial.coeff_zero d
  have h2 : (if unrot k (vec m mu) ∈ Om k p.toNat (vec m l) then (Polynomial.X : Polynomial ℚ) else 0).coeff d = 0 := by
    split
    · rename_i h'
      rw [Polynomial.coeff_X, if_neg (fun e => hc.2 e.symm h')]
    · exact Polynomial.coeff_zero d
  rw [h1, h2, add_zero]

theorem leQ_up {p : ℤ} {l mu : List Int} (hl : clsA (m + 1) k l) {d : ℕ} (h : (Y.t p l mu).coeff d ≠ 0) : InsideQ d l mu := by
  obtain ⟨hm, ⟨rfl, h1⟩ | ⟨rfl, h1⟩⟩ := leQ_term hk Y hY hl h
  · rw [insideQ_iff hl hm]
    intro i hi
    have := (mem_Om.1 h1).1 ⟨i, by omega⟩
    simpa [vec] using this
  · rw [insideQ_iff hl hm]
    intro i hi
    have := (mem_Om.1 h1).1 (Fin.succ ⟨i, by omega⟩)
    rw [unrot, sh_succ] at this
    simpa [vec] using this

theorem posQ_tq {p : ℤ} {l : List Int} (hl : clsA (m + 1) k l) : PosQ (Y.t p l) := by
  classical
  intro mu d
  by_cases h : (Y.t p l mu).coeff d = 0
  · rw [h]
  obtain ⟨hm, _⟩ := leQ_term hk Y hY hl h
  rw [hY, ← lab_vec' hm, tq_coeff hl (boxV_vec hk hm), Polynomial.coeff_add]
  refine add_nonneg ?_ ?_
  · split
    · rw [Polynomial.coeff_one]; split <;> norm_num
    · simp
  · split
    · rw [Polynomial.coeff_X]; split <;> norm_num
    · simp

theorem tq_ne {p : ℕ} {l : List Int} (hl : clsA (m + 1) k l) {g : Fin (m + 1) → ℤ} (hg : BoxV k g) :
    (g ∈ Om k p (vec m l) → (Y.t p l (lab g)).coeff 0 ≠ 0) ∧ (unrot k g ∈ Om k p (vec m l) → (Y.t p l (lab g)).coeff 1 ≠ 0) := by
  classical
  rw [hY, Int.toNat_natCast, tq_coeff hl hg]
  constructor
  · intro h
    rw [if_pos h]
    split <;> simp
  · intro h
    rw [if_pos h]
    split <;> simp [Polynomial.coeff_one]

/-- a step towards a larger class -/
theorem leQ_step0 {l : List Int} (hl : clsA (m + 1) k l) {h : Fin (m + 1) → ℤ} (hh : BoxV k h) (hle : vec m l ≤ h) (hne : vec m l ≠ h) :
    ∃ p g, stdSpc k.toNat p ∧ BoxV k g ∧ l.sum < (lab g).sum ∧ (Y.t p l (lab g)).coeff 0 ≠ 0 ∧ g ≤ h := by
  obtain ⟨p, g, h1, h2, h3, h4, h5⟩ := strip_toward (boxV_vec hk hl) hh hle hne
  refine ⟨p, g, ⟨by omega, by omega⟩, h4, ?_, (tq_ne hk Y hY hl h4).1 h3, h5⟩
  have e1 := (mem_Om.1 h3).2.2
  rw [vec_sum hl.1 hl.2.1, ← lab_sum] at e1
  omega

/-- removal of the first row and the first column of a class with `m` rows -/
theorem leQ_step1 {l : List Int} (hl : clsA (m + 1) k l) (h1 : 1 ≤ part l m) :
    ∃ p g, stdSpc k.toNat p ∧ clsA (m + 1) k g ∧ (Y.t p l g).coeff 1 ≠ 0 ∧ ∀ i, part g i = max (part l (i + 1) - 1) 0 := by
  have hb := boxV_vec hk hl
  have hp : ∀ i ≤ m, 1 ≤ part l i := fun i hi => h1.trans (hl.1.isPartition.part_anti hi)
  have hm1 : part l (m + 1) = 0 := part_of_ge (by have := hl.2.1; omega)
  let g : Fin (m + 1) → ℤ := fun i => max (part l (i + 1) - 1) 0
  have hfirst : part l 0 ≤ k := hb.first
  have hg : BoxV k g := by
    refine ⟨fun i => ?_, ?_, ?_⟩
    · have : part l (i + 1 + 1) ≤ part l (i + 1) := hl.1.isPartition.part_anti (by omega)
      simp only [g, Fin.val_succ, Fin.val_castSucc]
      omega
    · simp only [g]; omega
    · have : part l (0 + 1) ≤ part l 0 := hl.1.isPartition.part_anti (by omega)
      simp only [g, Fin.val_zero]
      omega
  have hlast : g (Fin.last m) = 0 := by
    simp only [g, Fin.val_last, hm1]
    rfl
  have hsucc : ∀ i : Fin m, g i.castSucc = vec m l i.succ - 1 := by
    intro i
    have := hp (i + 1) (by omega)
    simp only [g, vec, Fin.val_succ, Fin.val_castSucc]
    omega
  have hom : unrot k g ∈ Om k (k + 1 - part l 0).toNat (vec m l) := by
    rw [mem_Om]
    refine ⟨fun i => ?_, ?_, ?_⟩
    · refine Fin.cases ?_ (fun i => ?_) i
      · rw [unrot_zero, hlast]
        show part l 0 ≤ _
        omega
      · rw [unrot, sh_succ]
        have := hsucc i
        show vec m l i.succ ≤ g i.castSucc + 1
        omega
    · rw [unrot]
      apply sh_mono
      intro i
      refine Fin.lastCases ?_ (fun i => ?_) i
      · show g (Fin.last m) + 1 ≤ part l (Fin.last m)
        rw [hlast, Fin.val_last]
        omega
      · show g i.castSucc + 1 ≤ _
        rw [hsucc]
        have := hb.anti i
        omega
    · rw [Fin.sum_univ_succ, Fin.sum_univ_succ (f := vec m l), unrot_zero, hlast]
      rw [Finset.sum_congr rfl (fun i _ => show unrot k g i.succ = vec m l i.succ by rw [unrot, sh_succ, hsucc]; omega)]
      have : vec m l 0 = part l 0 := rfl
      omega
  refine ⟨((k + 1 - part l 0).toNat : ℕ), lab g, ⟨?_, ?_⟩, clsA_lab hg, (tq_ne hk Y hY hl hg).2 hom, fun i => ?_⟩
  · omega
  · have := hp 0 (Nat.zero_le _)
    omega
  · by_cases hi : i < m + 1
    · exact part_lab_lt g ⟨i, hi⟩
    · rw [part_lab_ge g (by omega), part_of_ge (l := l) (by have := hl.2.1; omega)]
      rfl

theorem leQ_step (d : ℕ) (l nu : List Int) (hl : clsA (m + 1) k l) (hn : clsA (m + 1) k nu) (h : InsideQ d l nu) (hne : l ≠ nu) :
    ∃ p mu a e, stdSpc k.toNat p ∧ clsA (m + 1) k mu ∧ a + e ≤ d ∧ (a = 0 → l.sum < mu.sum) ∧ (Y.t p l mu).coeff a ≠ 0 ∧ InsideQ e mu nu := by
  have hb := boxV_vec hk hl
  have hbn := boxV_vec hk hn
  have hvne : vec m l ≠ vec m nu := fun e => hne (by rw [← lab_vec' hl, ← lab_vec' hn, e])
  have hkp : 1 ≤ k := by
    by_contra hk0
    apply hvne
    funext i
    have := hb.le i; have := hb.nonneg i; have := hbn.le i; have := hbn.nonneg i
    omega
  cases d with
  | zero =>
    have hle : vec m l ≤ vec m nu := fun i => by simpa [vec] using h i
    obtain ⟨p, g, h1, h2, h3, h4, h5⟩ := leQ_step0 hk Y hY hl hbn hle hvne
    refine ⟨p, lab g, 0, 0, h1, clsA_lab h2, by omega, fun _ => h3, h4, ?_⟩
    rw [insideQ_iff (clsA_lab h2) hn]
    intro i hi
    have := h5 ⟨i, hi⟩
    rw [← part_lab_lt g ⟨i, hi⟩] at this
    simpa [vec] using this
  | succ d =>
    by_cases hf : 1 ≤ part l m
    · obtain ⟨p, g, h1, h2, h3, h4⟩ := leQ_step1 hk Y hY hl hf
      refine ⟨p, g, 1, d, h1, h2, by omega, by omega, h3, fun i => ?_⟩
      rw [h4]
      have := h i
      have := hn.1.isPartition.part_nonneg i
      rw [show i + d + 1 = i + (d + 1) by omega]
      push_cast at *
      omega
    · have hB : BoxV k (fun i => max (vec m l i) 1) := by
        refine ⟨fun i => ?_, ?_, ?_⟩
        · have := hb.anti i
          show max _ _ ≤ max _ _
          omega
        · show 0 ≤ max _ _
          omega
        · have := hb.first
          show max _ _ ≤ k
          omega
      obtain ⟨p, g, h1, h2, h3, h4, h5⟩ := leQ_step0 hk Y hY hl hB (fun i => le_max_left _ _) (fun e => hf (by
        have := congrFun e (Fin.last m)
        have h0 : vec m l (Fin.last m) = part l m := rfl
        rw [h0] at this
        omega))
      refine ⟨p, lab g, 0, d + 1, h1, clsA_lab h2, by omega, fun _ => h3, h4, ?_⟩
      rw [insideQ_iff (clsA_lab h2) hn]
      intro i hi
      have a1 := h5 ⟨i + (d + 1), hi⟩
      rw [← part_lab_lt g ⟨i + (d + 1), hi⟩] at a1
      have a2 : part (lab g) (i + (d + 1)) ≤ max (part l (i + (d + 1))) 1 := a1
      have := h i
      have := hn.1.isPartition.part_nonneg i
      push_cast at *
      omega

theorem prodQ_A {l mu : List Int} (hl : clsA (m + 1) k l) (hm : clsA (m + 1) k mu) :
    (∀ d, (∃ e ≤ d, ∃ nu, (Y.prod (Finsupp.single l 1) (Finsupp.single mu 1) nu).coeff e ≠ 0) ↔ InsideQ d l (dualC m k mu)) ∧
    ∀ d nu, (Y.prod (Finsupp.single l 1) (Finsupp.single mu 1) nu).coeff d ≠ 0 → clsA (m + 1) k nu ∧ InsideQ d l nu ∧ InsideQ d mu nu := by
  have hrefl : ∀ l, clsA (m + 1) k l → InsideQ 0 l l := fun l _ i => by simp
  have hmono : ∀ d e a b, clsA (m + 1) k a → clsA (m + 1) k b → InsideQ d a b → InsideQ (d + e) a b := fun d e a b ha _ h => insideQ_mono ha d e h
  have hup : ∀ p, stdSpc k.toNat p → ∀ l, clsA (m + 1) k l → ∀ mu d, (Y.t p l mu).coeff d ≠ 0 → InsideQ d l mu :=
    fun p _ l hl mu d h => leQ_up hk Y hY hl h
  refine ⟨fun d => Y.prod_leQ hrefl insideQ_trans hmono hup (fun p _ l hl => posQ_tq hk Y hY hl)
    (fun d l nu hl hn h hne => Or.inl (leQ_step hk Y hY d l nu hl hn h hne))
    (N := ((m + 1) * k).toNat) ?_ (dualC m k) (fun l hl => clsA_dual hk hl) (fun l hl => dualC_dualC hl) ?_ hl hm d, fun d nu h => ⟨?_, ?_⟩⟩
  · intro l hl
    have e := vec_sum (m := m) hl.1 hl.2.1
    have hb := boxV_vec hk hl
    have s1 : ∑ i, vec m l i ≤ ∑ _i : Fin (m + 1), k := Finset.sum_le_sum (fun i _ => hb.le i)
    rw [e] at s1
    simp only [Finset.sum_const, Finset.card_univ, Fintype.card_fin, nsmul_eq_mul] at s1
    push_cast at s1
    exact ⟨isPartition_sum_nonneg hl.1.isPartition, s1.trans (Int.self_le_toNat _)⟩
  · intro p l nu _ hl hn
    rw [hY]
    exact tq_adjoint hk p.toNat hn hl
  · exact Y.prod_support _ (supp_single hm 1) nu (Finsupp.mem_support_iff.2 (fun h0 => h (by rw [h0, Polynomial.coeff_zero])))
  · exact Y.support_leQ hrefl insideQ_trans hmono hup hl hm h

end

end Verif
