import Verif.Proofs.SchurSym
import Mathlib.RingTheory.MvPolynomial.Homogeneous
import Mathlib.RingTheory.MvPolynomial.Symmetric.Defs
/-!
# C36: Schur polynomials

`SchurPol(n, l)` is the generating function of the semistandard tableaux of shape `l`; it is symmetric,
homogeneous of degree `|l|`, and zero exactly if `l` has more than `n` parts.
-/

namespace Verif
open Spec SchurSym

section
variable {R : Type} [CommSemiring R]

theorem partClip_eq_filter {l : List Int} (h : IsPartition l) : partClip l = l.filter (· ≠ 0) := by
  obtain ⟨c, hc⟩ := partClip_append l
  have hr := h.partClip
  conv_rhs => rw [hc]
  rw [List.filter_append]
  have h1 : (partClip l).filter (· ≠ 0) = partClip l := by
    rw [List.filter_eq_self]
    intro a ha
    have := hr.2 a ha
    simp; omega
  have h2 : (List.replicate c (0 : Int)).filter (· ≠ 0) = [] := by
    rw [List.filter_eq_nil_iff]
    intro a ha
    simp [(List.mem_replicate.1 ha).2]
  rw [h1, h2, List.append_nil]

theorem isPartition_of_clip {l : List Int} (h : (partClip l ++ [0]).Pairwise (· ≥ ·)) : IsPartition l := by
  obtain ⟨c, hc⟩ := partClip_append l
  rw [List.pairwise_append] at h
  have hpos : ∀ a ∈ partClip l, 0 ≤ a := fun a ha => h.2.2 a ha 0 (by simp)
  rw [hc]
  constructor
  · rw [List.pairwise_append]
    refine ⟨h.1, List.pairwise_replicate.2 (Or.inr (le_refl _)), ?_⟩
    intro a ha b hb
    rw [(List.mem_replicate.1 hb).2]
    exact hpos a ha
  · intro a ha
    rcases List.mem_append.1 ha with ha | ha
    · exact hpos a ha
    · rw [(List.mem_replicate.1 ha).2]

theorem makePartition_ok {l : List Int} (h : IsPartition l) : makePartition l = .ok (l.filter (· ≠ 0)) := by
  unfold makePartition
  have : isNonIncreasing (partClip l ++ [0]) = true := by
    rw [isNonIncreasing_iff, List.pairwise_append]
    refine ⟨h.partClip.1, by simp, ?_⟩
    intro a ha b hb
    simp at hb; subst hb
    exact le_of_lt (h.partClip.2 a ha)
  simp only [this]
  rw [partClip_eq_filter h]; rfl

theorem makePartition_error {l : List Int} (h : ¬ IsPartition l) : makePartition l = .error .valueError := by
  unfold makePartition
  have : isNonIncreasing (partClip l ++ [0]) = false := by
    rw [← Bool.not_eq_true, isNonIncreasing_iff]
    exact fun h' => h (isPartition_of_clip h')
  simp only [this]; rfl

theorem isPartition_filter {l : List Int} (h : IsPartition l) : IsPartition (l.filter (· ≠ 0)) :=
  ⟨h.1.filter _, fun a ha => h.2 a (List.mem_filter.1 ha).1⟩

theorem sum_nonneg_of {l : List Int} (h : ∀ x ∈ l, 0 ≤ x) : 0 ≤ l.sum := by
  induction l with
  | nil => simp
  | cons a l ih =>
    have := ih (fun x hx => h x (by simp [hx]))
    have := h a (by simp)
    rw [List.sum_cons]; omega

theorem schurPol_eq (x : Nat → R) (n : Int) (hn : 1 ≤ n) (l : List Int) (hl : IsPartition l) :
    schurPol x n l = .ok (tabSum x n.toNat (l.filter (· ≠ 0))) := by
  have hp := isPartition_filter hl
  have hs := sum_nonneg_of hp.2
  obtain ⟨v, hv, hg⟩ := sch_gen (x := x) (n.toNat + (l.filter (· ≠ 0)).sum.toNat + 1) n.toNat 1 _ hp
    (by omega) (le_refl _) (fun _ => rfl) (by push_cast; omega)
  have hg' : Gen x (Tableau n.toNat (l.filter (· ≠ 0))) v :=
    hg.congr (fun T => ⟨fun h => h.1, fun h => ⟨h, fun i hi => by omega⟩⟩)
  unfold schurPol
  rw [if_neg (by omega), makePartition_ok hl]
  simp only
  rw [hv]
  rw [hg'.unique (tabSum_gen hp)]

/-- C36: the value is the sum of the monomials of all semistandard tableaux of that shape with entries `1..n`. -/
theorem C36_tableaux (x : Nat → R) (n : Int) (hn : 1 ≤ n) (l : List Int) (hl : IsPartition l) :
    ∃ F : Finset (List (List Nat)), (∀ T, T ∈ F ↔ Tableau n.toNat (l.filter (· ≠ 0)) T) ∧
      schurPol x n l = .ok (∑ T ∈ F, weight x T) := by
  obtain ⟨F, h1, h2⟩ := tabSum_gen (x := x) (m := n.toNat) (isPartition_filter hl)
  exact ⟨F, h1, by rw [schurPol_eq x n hn l hl, h2]⟩

/-- C36: everything else is rejected. -/
theorem C36_errors (x : Nat → R) (n : Int) (l : List Int) (h : n < 1 ∨ ¬ IsPartition l) :
    schurPol x n l = .error .valueError := by
  unfold schurPol
  split
  · rfl
  · rename_i hn
    rcases h with h | h
    · exact absurd h hn
    · rw [makePartition_error h]

/-- C36: rearranging the values of the variables does not change the value. -/
theorem C36_symmetric_values (x : Nat → R) (n : Nat) (l : List Int) (s : Equiv.Perm (Fin n)) :
    schurPol (fun i => if h : i < n then x (s ⟨i, h⟩) else x i) n l = schurPol x n l := by
  by_cases hn : (n : Int) < 1
  · rw [C36_errors _ _ _ (Or.inl hn), C36_errors _ _ _ (Or.inl hn)]
  · by_cases hl : IsPartition l
    · rw [schurPol_eq _ _ (by omega) _ hl, schurPol_eq _ _ (by omega) _ hl]
      have := tabSum_perm s (isPartition_filter hl) x
      unfold permute at this
      rw [Int.toNat_natCast]
      rw [this]
    · rw [C36_errors _ _ _ (Or.inr hl), C36_errors _ _ _ (Or.inr hl)]

end

open MvPolynomial

/-- The variables `x_1, …, x_n` of the polynomial. -/
noncomputable def schurVars (n : Nat) (i : Nat) : MvPolynomial (Fin n) ℤ := if h : i < n then X ⟨i, h⟩ else 0

theorem map_weight {R S : Type} [CommSemiring R] [CommSemiring S] (f : R →+* S) (x : Nat → R) (T : List (List Nat)) :
    f (weight x T) = weight (fun i => f (x i)) T := by
  unfold weight
  rw [map_list_prod, List.map_map]
  congr 1
  apply List.map_congr_left
  intro r _
  simp only [Function.comp_apply]
  rw [map_list_prod, List.map_map]
  rfl

theorem map_tabSum {R S : Type} [CommSemiring R] [CommSemiring S] (f : R →+* S) (x : Nat → R) (m : Nat)
    {nu : List Int} (hnu : IsPartition nu) : f (tabSum x m nu) = tabSum (fun i => f (x i)) m nu := by
  obtain ⟨F, h1, h2⟩ := tabSum_gen (x := x) (m := m) hnu
  refine Gen.unique (x := fun i => f (x i)) (P := Tableau m nu) ⟨F, h1, ?_⟩ (tabSum_gen hnu)
  rw [h2, map_sum]
  exact Finset.sum_congr rfl (fun T _ => map_weight f x T)

/-- C36: the polynomial is symmetric. -/
theorem C36_symmetric (n : Nat) (hn : 1 ≤ n) (l : List Int) (hl : IsPartition l) :
    ∃ v : MvPolynomial (Fin n) ℤ, schurPol (schurVars n) n l = .ok v ∧ v.IsSymmetric := by
  refine ⟨_, schurPol_eq _ _ (by omega) _ hl, ?_⟩
  intro s
  rw [Int.toNat_natCast]
  have h1 := map_tabSum (rename s : MvPolynomial (Fin n) ℤ →ₐ[ℤ] _).toRingHom (schurVars n) n (isPartition_filter hl)
  have h2 := tabSum_perm s (isPartition_filter hl) (schurVars n)
  have h3 : tabSum (fun i => (rename s : MvPolynomial (Fin n) ℤ →ₐ[ℤ] _).toRingHom (schurVars n i)) n
      (l.filter (· ≠ 0)) = tabSum (permute s (schurVars n)) n (l.filter (· ≠ 0)) := by
    apply tabSum_congr (isPartition_filter hl)
    intro i hi
    simp [permute, schurVars, hi]
  rw [h3, h2] at h1
  exact h1

theorem homogeneous_row (n : Nat) (r : List Nat) (h : ∀ e ∈ r, 1 ≤ e ∧ e ≤ n) :
    (r.map (fun e => schurVars n (e - 1))).prod.IsHomogeneous r.length := by
  induction r with
  | nil => simpa using isHomogeneous_one (Fin n) ℤ
  | cons a r ih =>
    rw [List.map_cons, List.prod_cons, List.length_cons, add_comm]
    have ha := h a (by simp)
    refine IsHomogeneous.mul ?_ (ih (fun e he => h e (by simp [he])))
    rw [schurVars, dif_pos (by omega)]
    exact isHomogeneous_X _ _

/-- C36: the polynomial is homogeneous of degree `|l|`. -/
theorem C36_homogeneous (n : Nat) (hn : 1 ≤ n) (l : List Int) (hl : IsPartition l) :
    ∃ v : MvPolynomial (Fin n) ℤ, schurPol (schurVars n) n l = .ok v ∧ v.IsHomogeneous l.sum.toNat := by
  obtain ⟨F, h1, h2⟩ := C36_tableaux (schurVars n) n (by omega) l hl
  refine ⟨_, h2, IsHomogeneous.sum _ _ _ (fun T hT => ?_)⟩
  have hT' := (h1 T).1 hT
  rw [weight_eq T T.length (le_refl _)]
  have hsum : l.sum = ((∑ i ∈ Finset.range T.length, (row T i).length : Nat) : Int) := by
    rw [← partClip_sum l, partClip_eq_filter hl, sum_eq_range _ T.length (by rw [hT'.1])]
    push_cast
    exact Finset.sum_congr rfl (fun i _ => (hT'.2.1 i).symm)
  rw [hsum, Int.toNat_natCast]
  exact IsHomogeneous.prod _ _ _ (fun i _ => homogeneous_row n _ (fun e he => by
    have := hT'.2.2.2.1 i e he; omega))

/-- The tableau whose row `i` contains only `i + 1`. -/
theorem superstandard {n : Nat} {l : List Int} (hl : IsPartition l) (hn : l.length ≤ n) :
    Tableau n l ((List.range l.length).map (fun i => List.replicate (part l i).toNat (i + 1))) := by
  have hrow : ∀ i, row ((List.range l.length).map (fun i => List.replicate (part l i).toNat (i + 1))) i =
      List.replicate (part l i).toNat (i + 1) := by
    intro i
    by_cases hi : i < l.length
    · rw [row_of_lt (by simpa using hi)]; simp
    · rw [row_of_ge (by simp; omega), part_of_ge (by omega)]; rfl
  refine ⟨by simp, ?_, ?_, ?_, ?_⟩
  · intro i; rw [hrow, List.length_replicate]
    have := hl.part_nonneg i; omega
  · intro i; rw [hrow]; exact List.pairwise_replicate.2 (Or.inr (le_refl _))
  · intro i e he
    rw [hrow] at he
    obtain ⟨h1, h2⟩ := List.mem_replicate.1 he
    by_cases hi : i < l.length
    · omega
    · rw [part_of_ge (by omega)] at h1; simp at h1
  · intro i j hj
    rw [hrow, List.length_replicate] at hj
    have := hl.part_anti (i := i) (j := i + 1) (by omega)
    have := hl.part_nonneg (i + 1)
    unfold entry
    rw [hrow, hrow, List.getD_eq_getElem _ _ (by rw [List.length_replicate]; omega),
      List.getD_eq_getElem _ _ (by rw [List.length_replicate]; omega)]
    simp

/-- C36: the polynomial is zero exactly if `l` has more than `n` (non-zero) parts. -/
theorem C36_zero (n : Nat) (hn : 1 ≤ n) (l : List Int) (hl : IsPartition l) :
    schurPol (schurVars n) n l = .ok 0 ↔ n < (l.filter (· ≠ 0)).length := by
  obtain ⟨F, h1, h2⟩ := C36_tableaux (schurVars n) n (by omega) l hl
  rw [Int.toNat_natCast] at h1
  have hp := isPartition_filter hl
  rw [h2]
  constructor
  · intro h
    by_contra hc
    have h0 : ∑ T ∈ F, weight (schurVars n) T = 0 := by injection h
    have h3 := congrArg (MvPolynomial.eval₂Hom (Int.castRingHom ℤ) (fun _ => (1 : ℤ))) h0
    rw [map_sum, map_zero] at h3
    have h4 : ∀ T ∈ F, MvPolynomial.eval₂Hom (Int.castRingHom ℤ) (fun _ : Fin n => (1 : ℤ))
        (weight (schurVars n) T) = 1 := by
      intro T hT
      have hT' := (h1 T).1 hT
      rw [map_weight, weight_eq T _ (le_refl _)]
      refine Finset.prod_eq_one (fun i _ => List.prod_eq_one (fun a ha => ?_))
      obtain ⟨e, he, rfl⟩ := List.mem_map.1 ha
      have := hT'.2.2.2.1 i e he
      rw [schurVars, dif_pos (by omega)]
      simp
    rw [Finset.sum_congr rfl h4] at h3
    simp at h3
    have := (h1 _).2 (superstandard (n := n) hp (by omega))
    rw [h3] at this
    simp at this
  · intro h
    have : F = ∅ := by
      rw [Finset.eq_empty_iff_forall_notMem]
      intro T hT
      have hT' := (h1 T).1 hT
      have hpos : 0 < part (l.filter (· ≠ 0)) n := by
        have h5 := List.getElem_mem h
        have h6 := hp.2 _ h5
        have h7 := of_decide_eq_true (List.mem_filter.1 h5).2
        unfold part
        rw [List.getD_eq_getElem _ _ h]
        omega
      have h5 := tableau_first_col hT' hp n hpos
      have hl := hT'.2.1 n
      have hjl : 0 < (row T n).length := by omega
      rw [entry_lt hjl] at h5
      have := (hT'.2.2.2.1 n _ (List.getElem_mem hjl)).2
      omega
    rw [this]; simp

-- S[2,1] in three variables: 8 tableaux; value at (1,2,3): h_2 h_1 - h_3 = 25*6 - 90 = 60
example : (schurPol (fun _ => (1 : Int)) 3 [2, 1, 0]).toOption = some 8 := by decide +kernel
example : (schurPol (fun i => (i + 1 : Int)) 3 [2, 1]).toOption = some 60 := by decide +kernel
example : (schurPol (fun i => (i + 1 : Int)) 2 [1, 1, 1]).toOption = some 0 := by decide +kernel
example : IsPartition [2, 1, 0] ∧ Tableau 3 [2, 1] [[1, 3], [2]] := by
  refine ⟨by constructor <;> decide, by decide, ?_, ?_, ?_, ?_⟩
  · rintro (_ | _ | i) <;> simp [row, part]
  · rintro (_ | _ | i) <;> simp [row]
  · rintro (_ | _ | i) <;> simp [row]
  · rintro (_ | i) j
    · simp [row, entry]; rintro rfl; simp
    · simp [row]

end Verif
