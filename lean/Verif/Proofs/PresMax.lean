import Mathlib.RingTheory.FiniteType
import Mathlib.Tactic.LinearCombination
import Verif.Proofs.PresA
import Verif.Proofs.RingOps
/-!
# Presentation of rings with quadratic relations

Modulo relations `S[r]^2 = (products of two special classes further apart) + q-multiple of one class` every polynomial in the
special classes is a combination of products of distinct special classes.
-/

namespace Verif
open Spec MvPolynomial

/-- the product of special classes -/
noncomputable def hmono (K : ℕ) (L : List ℕ) : P := (L.map (fun p : ℕ => hvar K p)).prod

/-- `x` is modulo `I` a combination of products of distinct special classes -/
def Red (K : ℕ) (I : Ideal P) (x : P) : Prop :=
  ∃ a : Finset ℕ → Polynomial ℚ, x - ∑ T ∈ (Finset.Icc 1 K).powerset, inq (a T) * ∏ i ∈ T, hvar K (i : ℕ) ∈ I

section
variable {K : ℕ} {I : Ideal P}

theorem Red.add {x y : P} (hx : Red K I x) (hy : Red K I y) : Red K I (x + y) := by
  obtain ⟨a, ha⟩ := hx
  obtain ⟨b, hb⟩ := hy
  refine ⟨fun T => a T + b T, ?_⟩
  have := I.add_mem ha hb
  convert this using 1
  simp only [map_add, add_mul, Finset.sum_add_distrib]
  ring

theorem Red.inq_mul {x : P} (g : Polynomial ℚ) (hx : Red K I x) : Red K I (inq g * x) := by
  obtain ⟨a, ha⟩ := hx
  refine ⟨fun T => g * a T, ?_⟩
  have := I.mul_mem_left (inq g) ha
  convert this using 1
  rw [mul_sub, Finset.mul_sum]
  congr 1
  exact Finset.sum_congr rfl fun T _ => by rw [← mul_assoc, ← map_mul]

theorem Red.zero : Red K I 0 := ⟨fun _ => 0, by simp⟩

theorem Red.congr {x y : P} (h : x - y ∈ I) (hy : Red K I y) : Red K I x := by
  obtain ⟨a, ha⟩ := hy
  refine ⟨a, ?_⟩
  have := I.add_mem h ha
  convert this using 1
  ring

theorem Red.sum {ι : Type*} (s : Finset ι) {f : ι → P} (h : ∀ i ∈ s, Red K I (f i)) : Red K I (∑ i ∈ s, f i) := by
  classical
  induction s using Finset.induction_on with
  | empty => exact Red.zero
  | insert i s hi ih =>
    rw [Finset.sum_insert hi]
    exact (h i (by simp)).add (ih fun j hj => h j (by simp [hj]))

theorem hmono_cons (p : ℕ) (L : List ℕ) : hmono K (p :: L) = hvar K p * hmono K L := by simp [hmono]

theorem hmono_perm {L M : List ℕ} (h : L.Perm M) : hmono K L = hmono K M := (h.map _).prod_eq

theorem hvar_zero' (K : ℤ) : hvar K ((0 : ℕ) : ℤ) = 1 := by simp [hvar]

theorem hmono_filter (L : List ℕ) : hmono K L = hmono K (L.filter (0 < ·)) := by
  induction L with
  | nil => rfl
  | cons p L ih =>
    by_cases h : 0 < p
    · rw [List.filter_cons_of_pos (by simpa using h), hmono_cons, hmono_cons, ih]
    · obtain rfl : p = 0 := by omega
      rw [List.filter_cons_of_neg (by simp), hmono_cons, hvar_zero', one_mul, ih]

theorem sum_filter_pos (L : List ℕ) : (L.filter (0 < ·)).sum = L.sum := by
  induction L with
  | nil => rfl
  | cons p L ih =>
    by_cases h : 0 < p
    · rw [List.filter_cons_of_pos (by simpa using h), List.sum_cons, List.sum_cons, ih]
    · obtain rfl : p = 0 := by omega
      rw [List.filter_cons_of_neg (by simp), List.sum_cons, zero_add, ih]

theorem sq_filter_pos (L : List ℕ) : ((L.filter (0 < ·)).map (· ^ 2)).sum = (L.map (· ^ 2)).sum := by
  induction L with
  | nil => rfl
  | cons p L ih =>
    by_cases h : 0 < p
    · rw [List.filter_cons_of_pos (by simpa using h), List.map_cons, List.map_cons, List.sum_cons, List.sum_cons, ih]
    · obtain rfl : p = 0 := by omega
      rw [List.filter_cons_of_neg (by simp), List.map_cons, List.sum_cons, ih]
      simp

theorem sq_le (L : List ℕ) : (L.map (· ^ 2)).sum ≤ L.sum ^ 2 := by
  induction L with
  | nil => simp
  | cons p L ih =>
    rw [List.map_cons, List.sum_cons, List.sum_cons, add_pow_two]
    have := Nat.zero_le (2 * p * L.sum)
    omega

theorem Red.distinct {L : List ℕ} (h : L.Nodup) (h1 : ∀ p ∈ L, 1 ≤ p ∧ p ≤ K) : Red K I (hmono K L) := by
  classical
  refine ⟨fun T => if T = L.toFinset then 1 else 0, ?_⟩
  rw [Finset.sum_eq_single L.toFinset]
  · simp only [if_true, map_one, one_mul]
    rw [List.prod_toFinset _ h]
    simp [hmono]
  · intro T _ hT
    simp only [if_neg hT, map_zero, zero_mul]
  · intro h'
    exact absurd (Finset.mem_powerset.2 fun p hp => Finset.mem_Icc.2 (h1 p (List.mem_toFinset.1 hp))) h'

/-- All products of special classes reduce. -/
theorem red_hmono {c : ℕ → ℕ → ℚ} {a : ℕ → Polynomial ℚ} {d : ℕ → ℕ} (hd : ∀ r, 1 ≤ r → r ≤ K → a r ≠ 0 → d r < 2 * r)
    (hrel : ∀ r : ℕ, 1 ≤ r → r ≤ K → hvar K (r : ℕ) ^ 2 -
      (∑ i ∈ Finset.Icc 1 r, C (c r i) * (hvar K ((r + i : ℕ) : ℤ) * hvar K ((r - i : ℕ) : ℤ)) + inq (a r) * hvar K ((d r : ℕ) : ℤ)) ∈ I) :
    ∀ (D E : ℕ) (L : List ℕ), L.sum = D → D ^ 2 - (L.map (· ^ 2)).sum = E → Red K I (hmono K L) := by
  intro D
  induction D using Nat.strong_induction_on with
  | _ D ihD =>
    intro E
    induction E using Nat.strong_induction_on with
    | _ E ihE =>
      intro L hL hE
      rw [hmono_filter]
      by_cases hb : ∃ p ∈ L.filter (0 < ·), K < p
      · obtain ⟨p, hp, h⟩ := hb
        have : hmono K (L.filter (0 < ·)) = 0 := by
          unfold hmono
          rw [List.prod_eq_zero_iff, List.mem_map]
          exact ⟨p, hp, hvar_big (by omega) _ (by omega)⟩
        rw [this]
        exact Red.zero
      · push Not at hb
        have hr : ∀ p ∈ L.filter (0 < ·), 1 ≤ p ∧ p ≤ K := fun p hp => ⟨by have := (List.mem_filter.1 hp).2; simp at this; omega, hb p hp⟩
        by_cases hn : (L.filter (0 < ·)).Nodup
        · exact Red.distinct hn hr
        · obtain ⟨p, hp⟩ := List.exists_duplicate_iff_not_nodup.2 hn
          obtain ⟨M, hM⟩ := (List.duplicate_iff_sublist.1 hp).exists_perm_append
          have hM' : (L.filter (0 < ·)).Perm (p :: p :: M) := hM
          obtain ⟨h1, h2⟩ := hr p (hM'.mem_iff.2 (by simp))
          have hs : L.sum = p + (p + M.sum) := by rw [← sum_filter_pos, hM'.sum_eq]; simp
          have hq : (L.map (· ^ 2)).sum = p ^ 2 + (p ^ 2 + (M.map (· ^ 2)).sum) := by
            rw [← sq_filter_pos, (hM'.map _).sum_eq]; simp
          rw [hmono_perm hM', hmono_cons, hmono_cons]
          refine Red.congr (y := ∑ i ∈ Finset.Icc 1 p, inq (Polynomial.C (c p i)) * hmono K ((p + i) :: (p - i) :: M) +
            inq (a p) * hmono K (d p :: M)) ?_ ?_
          · have := I.mul_mem_right (hmono K M) (hrel p h1 h2)
            convert this using 1
            have e : ∑ i ∈ Finset.Icc 1 p, inq (Polynomial.C (c p i)) * hmono K ((p + i) :: (p - i) :: M) =
                (∑ i ∈ Finset.Icc 1 p, C (c p i) * (hvar K ((p + i : ℕ) : ℤ) * hvar K ((p - i : ℕ) : ℤ))) * hmono K M := by
              rw [Finset.sum_mul]
              refine Finset.sum_congr rfl fun i _ => ?_
              rw [hmono_cons, hmono_cons, show inq (Polynomial.C (c p i)) = C (c p i) by simp [inq]]
              ring
            rw [e, hmono_cons]
            ring
          · refine Red.add (Red.sum _ fun i hi => Red.inq_mul _ ?_) ?_
            · rw [Finset.mem_Icc] at hi
              have hs' : ((p + i) :: (p - i) :: M).sum = D := by simp only [List.sum_cons]; omega
              have hq' : (((p + i) :: (p - i) :: M).map (· ^ 2)).sum = 2 * p ^ 2 + 2 * i ^ 2 + (M.map (· ^ 2)).sum := by
                simp only [List.map_cons, List.sum_cons]
                obtain ⟨j, rfl⟩ : ∃ j, p = i + j := ⟨p - i, by omega⟩
                rw [Nat.add_sub_cancel_left]
                ring
              have hle := sq_le ((p + i) :: (p - i) :: M)
              rw [hs'] at hle
              have hi2 : 1 ≤ i ^ 2 := Nat.one_le_pow _ _ hi.1
              exact ihE _ (by omega) _ hs' rfl
            · by_cases ha : a p = 0
              · simp only [ha, map_zero, zero_mul]
                exact Red.zero
              · have := hd p h1 h2 ha
                exact Red.inq_mul _ (ihD (d p + M.sum) (by omega) _ _ (by simp) rfl)

/-- Every polynomial in the special classes reduces. -/
theorem red_supported (h : ∀ L, Red K I (hmono K L)) {e : P} (he : e ∈ supported ℚ (specialSet (stdSpc K))) : Red K I e := by
  have key : ∀ L, Red K I (e * hmono K L) := by
    replace he : e ∈ Algebra.adjoin ℚ ((MvPolynomial.X : Sym → P) '' specialSet (stdSpc K)) := he
    induction he using Algebra.adjoin_induction with
    | mem s hs =>
      intro L
      obtain ⟨t, ht, rfl⟩ := hs
      rcases ht with rfl | ⟨p, ⟨h1, h2⟩, rfl⟩
      · have : (X Sym.q : P) = inq Polynomial.X := by simp [inq]
        rw [this]
        exact (h L).inq_mul _
      · rw [num2spec_pos h1]
        have := h (p.toNat :: L)
        rw [hmono_cons] at this
        unfold hvar at this
        rw [if_neg (by omega), if_pos (by omega), Int.toNat_of_nonneg (by omega)] at this
        exact this
    | algebraMap c =>
      intro L
      have : algebraMap ℚ P c = inq (Polynomial.C c) := by simp [inq]
      rw [this]
      exact (h L).inq_mul _
    | add a b _ _ ha hb =>
      intro L
      rw [add_mul]
      exact (ha L).add (hb L)
    | mul a b _ _ ha hb =>
      intro L
      obtain ⟨g, hg⟩ := hb L
      refine Red.congr (y := ∑ T ∈ (Finset.Icc 1 K).powerset, inq (g T) * (a * hmono K T.toList)) ?_
        (Red.sum _ fun T _ => (ha _).inq_mul _)
      have := I.mul_mem_left a hg
      convert this using 1
      rw [mul_sub, Finset.mul_sum, mul_assoc]
      congr 1
      refine Finset.sum_congr rfl fun T _ => ?_
      rw [hmono, Finset.prod_map_toList]
      ring
  have := key []
  simpa [hmono] using this

end

section
variable {X : Space} {pieri : Int → List Int → Except PyErr Poly} {cls : List Int → Prop} {K B : ℕ}

/-- In a ring with `2^K` classes and such relations, what acts as zero is in the ideal of the relations. -/
theorem zero_of_red (Z : RingOn X pieri (stdSpc K) cls B) {ι : Type*} [Fintype ι] (lab : ι → List Int)
    (hlab : ∀ l, cls l ↔ ∃ u, lab u = l) (hinj : Function.Injective lab) (hcard : Fintype.card ι = 2 ^ K) {I : Ideal P}
    (h : ∀ e ∈ supported ℚ (specialSet (stdSpc K)), Red K I e) (h0 : ∀ x ∈ I, Z.Y.act x (Finsupp.single [] 1) = 0) {e : P}
    (he : e ∈ supported ℚ (specialSet (stdSpc K))) (hz : Z.Y.act e (Finsupp.single [] 1) = 0) : e ∈ I := by
  classical
  let τ := {T // T ∈ (Finset.Icc 1 K).powerset}
  let _ : Fintype τ := inferInstanceAs (Fintype (Finset.Icc 1 K).powerset)
  let v : Finset ℕ → LMod := fun T => Z.Y.act (∏ i ∈ T, hvar K (i : ℕ)) (Finsupp.single [] 1)
  let φ : (τ → Polynomial ℚ) →ₗ[Polynomial ℚ] (ι → Polynomial ℚ) :=
    { toFun := fun a u => (∑ T : τ, a T • v T) (lab u)
      map_add' := fun a b => by
        funext u
        simp [add_smul, Finset.sum_add_distrib]
      map_smul' := fun c a => by
        funext u
        simp [mul_smul, Finset.mul_sum] }
  have hred : ∀ (x : P) (a : Finset ℕ → Polynomial ℚ),
      x - ∑ T ∈ (Finset.Icc 1 K).powerset, inq (a T) * ∏ i ∈ T, hvar K (i : ℕ) ∈ I →
      Z.Y.act x (Finsupp.single [] 1) = ∑ T : τ, a T • v T := by
    intro x a hx
    have := h0 _ hx
    rw [map_sub, LinearMap.sub_apply, sub_eq_zero] at this
    rw [this, map_sum, LinearMap.sum_apply, ← Finset.sum_coe_sort]
    refine Finset.sum_congr rfl fun T _ => ?_
    rw [map_mul, Module.End.mul_apply, Z.Y.act_inq]
  have hsurj : Function.Surjective φ := by
    rw [← LinearMap.range_eq_top, eq_top_iff, ← (Pi.basisFun (Polynomial ℚ) ι).span_eq, Submodule.span_le]
    rintro _ ⟨u, rfl⟩
    have hc : cls (lab u) := (hlab _).2 ⟨u, rfl⟩
    obtain ⟨a, ha⟩ := h _ (Z.Y.G_supported _ hc)
    refine ⟨fun T => a T, ?_⟩
    funext u'
    show (∑ T : τ, a T • v T) (lab u') = _
    rw [← hred _ _ ha, Z.Y.act_G _ hc, Pi.basisFun_apply, Finsupp.single_apply, Pi.single_apply]
    congr 1
    exact propext ⟨fun h => (hinj h).symm, fun h => by rw [h]⟩
  have hinj' : Function.Injective φ := by
    have hct : Fintype.card τ = Fintype.card ι := by
      rw [hcard, Fintype.card_coe, Finset.card_powerset, Nat.card_Icc, Nat.add_sub_cancel]
    let i := LinearEquiv.funCongrLeft (Polynomial ℚ) (Polynomial ℚ) (Fintype.equivOfCardEq hct).symm
    exact OrzechProperty.injective_of_surjective_of_injective i.toLinearMap φ i.injective hsurj
  obtain ⟨a, ha⟩ := h e he
  have h1 := hred _ _ ha
  rw [hz] at h1
  have h2 : φ (fun T => a T) = 0 := by
    funext u
    show (∑ T : τ, a T • v T) (lab u) = 0
    rw [← h1]
    rfl
  have h3 : (fun T : τ => a T) = 0 := hinj' (h2.trans (map_zero φ).symm)
  have h4 : ∑ T ∈ (Finset.Icc 1 K).powerset, inq (a T) * ∏ i ∈ T, hvar K (i : ℕ) = 0 := by
    refine Finset.sum_eq_zero fun T hT => ?_
    have := congrFun h3 ⟨T, hT⟩
    simp only [Pi.zero_apply] at this
    simp only [this, map_zero, zero_mul]
  rwa [h4, sub_zero] at ha

end

end Verif
