import Verif.Proofs.LRTab
import Verif.Props.SchurRing
/-!
# A Schur polynomial times an alternating polynomial

All tableaux, then cancellation of the ones with a bad column.
-/

namespace Verif.LR
open Finset Spec SchurSym Alt Cyl

variable {m : ℕ}

/-- The content of a tableau. -/
def wtT (m : ℕ) (T : List (List ℕ)) : Fin (m + 1) → ℕ := fun i => colContent T 0 (i + 1)

theorem ex_zero : exM (0 : Fin (m + 1) → ℕ) = 0 := by ext i; rfl

theorem row_mono (r : List ℕ) (hr : ∀ e ∈ r, 1 ≤ e ∧ e ≤ m + 1) :
    (r.map (fun e => vpVars m (e - 1))).prod = MvPolynomial.monomial (exM (fun i : Fin (m + 1) => r.count ((i : ℕ) + 1))) 1 := by
  induction r with
  | nil =>
    have : (fun i : Fin (m + 1) => ([] : List ℕ).count ((i : ℕ) + 1)) = 0 := by funext i; simp
    rw [this, ex_zero]
    simp
  | cons a r ih =>
    have ha := hr a (by simp)
    have hlt : a - 1 < m + 1 := by omega
    rw [List.map_cons, List.prod_cons, ih (fun e he => hr e (by simp [he]))]
    have e1 : vpVars m (a - 1) = MvPolynomial.monomial (Finsupp.single ⟨a - 1, hlt⟩ 1) (1 : Polynomial ℚ) := by
      simp only [vpVars, dif_pos hlt]; rfl
    rw [e1, MvPolynomial.monomial_mul, mul_one]
    refine congrArg (fun s => MvPolynomial.monomial s (1 : Polynomial ℚ)) ?_
    ext i
    rw [Finsupp.add_apply, ex_apply, ex_apply, List.count_cons, Finsupp.single_apply, add_comm]
    congr 1
    have := i.2
    simp only [Fin.ext_iff, beq_iff_eq]
    by_cases h : a - 1 = i
    · rw [if_pos h, if_pos (by omega)]
    · rw [if_neg h, if_neg (by omega)]

theorem weight_mono (T : List (List ℕ)) (hT : ∀ r ∈ T, ∀ e ∈ r, 1 ≤ e ∧ e ≤ m + 1) :
    weight (vpVars m) T = MvPolynomial.monomial (exM (wtT m T)) 1 := by
  induction T with
  | nil =>
    have : wtT m [] = 0 := by funext i; simp [wtT, colContent]
    rw [this, ex_zero]
    simp [weight]
  | cons a T ih =>
    have h1 : weight (vpVars m) (a :: T) = (a.map (fun e => vpVars m (e - 1))).prod * weight (vpVars m) T := by
      simp [weight]
    rw [h1, ih (fun r hr => hT r (by simp [hr])), row_mono a (hT a (by simp)), MvPolynomial.monomial_mul, mul_one, ← ex_add]
    rfl

theorem tab_weight {mu : List Int} {T : List (List ℕ)} (hT : Tableau (m + 1) mu T) :
    weight (vpVars m) T = MvPolynomial.monomial (exM (wtT m T)) 1 := by
  apply weight_mono
  intro r hr e he
  obtain ⟨s, hs, rfl⟩ := List.mem_iff_getElem.1 hr
  apply hT.2.2.2.1 s e
  unfold row
  rw [List.getD_eq_getElem _ _ hs]
  exact he

theorem spol_rename {mu : List Int} (hmu : IsPartition mu) (σ : Equiv.Perm (Fin (m + 1))) :
    MvPolynomial.rename σ (spol m mu) = spol m mu := by
  have h1 := map_tabSum (MvPolynomial.rename σ : VP m →ₐ[Polynomial ℚ] VP m).toRingHom (vpVars m) (m + 1) hmu
  have h2 := tabSum_perm σ hmu (vpVars m)
  unfold spol
  rw [← h2]
  refine Eq.trans (congrArg _ h2) (h1.trans ?_)
  apply tabSum_congr hmu
  intro i hi
  have := (σ ⟨i, hi⟩).2
  simp only [vpVars, permute, dif_pos hi, dif_pos this]
  simp

theorem spol_altP {mu : List Int} (hmu : IsPartition mu) {F : Finset (List (List ℕ))} (hF : ∀ T, T ∈ F ↔ Tableau (m + 1) mu T)
    (γ : Fin (m + 1) → ℕ) : spol m mu * altP γ = ∑ T ∈ F, altP (γ + wtT m T) := by
  obtain ⟨F', hF', he⟩ := tabSum_gen (x := vpVars m) (m := m + 1) hmu
  have : F' = F := by ext T; rw [hF, hF']
  subst this
  have h1 : spol m mu = ∑ T ∈ F', MvPolynomial.monomial (exM (wtT m T)) 1 := by
    unfold spol
    rw [he]
    exact Finset.sum_congr rfl (fun T hT => tab_weight ((hF T).1 hT))
  simp only [altP_eq]
  rw [Finset.sum_comm, Finset.mul_sum]
  apply Finset.sum_congr rfl
  intro σ _
  rw [mul_smul_comm, ← Finset.smul_sum, ← spol_rename hmu σ.symm, h1, map_sum, Finset.sum_mul]
  congr 1
  apply Finset.sum_congr rfl
  intro T _
  rw [MvPolynomial.rename_monomial, MvPolynomial.monomial_mul, mul_one]
  refine congrArg (fun s => MvPolynomial.monomial s (1 : Polynomial ℚ)) ?_
  ext i
  rw [Finsupp.add_apply, ex_apply, ex_apply]
  have : i = σ.symm (σ i) := by simp
  conv_lhs => rw [this]
  rw [Finsupp.mapDomain_apply σ.symm.injective]
  simp [add_comm]

/-! ### cancellation -/

section
variable {l mu : List Int} (hl : IsPartition l) (hl0 : part l (m + 1) = 0) (hmu : IsPartition mu)

/-- No column of `T` is bad. -/
def Good (m : ℕ) (l : List Int) (T : List (List ℕ)) : Prop := ∀ c k, ¬ Bad (m + 1) (part l) (patT T) c k

include hl hmu

theorem exists_mirror {T : List (List ℕ)} (hT : Tableau (m + 1) mu T) (hb : ¬ Good m l T) :
    ∃ c k r, Sel (m + 1) (part l) (patT T) c k r := by
  apply exists_sel (patT_pat hmu hT) (fun k _ => hl.part_anti (Nat.le_succ k))
  unfold Good at hb
  push Not at hb
  exact hb

theorem flip_top {T : List (List ℕ)} (hT : Tableau (m + 1) mu T) {c k r : ℕ} (hs : Sel (m + 1) (part l) (patT T) c k r) (s : ℕ) :
    (flip (patT T) c k r (m + 1) s : ℤ) = part mu s := by
  have := hs.bad.1
  rw [flip_ne (by omega), patT_top hT]

theorem mirror_wt {T : List (List ℕ)} (hT : Tableau (m + 1) mu T) {c k r : ℕ} (hs : Sel (m + 1) (part l) (patT T) c k r)
    (hk : k < m) :
    bt (vec m l) + wtT m (tabOf (m + 1) mu.length (flip (patT T) c k r)) =
      (bt (vec m l) + wtT m T) ∘ Equiv.swap ⟨k, by omega⟩ ⟨k + 1, by omega⟩ := by
  have hP := patT_pat hmu hT
  have hP' := flip_pat hP (hs.sel0 hP)
  have ht := flip_top hl hmu hT hs
  have hT' := tabOf_tableau hP' ht
  obtain ⟨w1, w2, w3⟩ := flip_weight hP (hs.sel0 hP) (hs.eq hP)
  have key : ∀ i, (colContent (tabOf (m + 1) mu.length (flip (patT T) c k r)) 0 (i + 1) : ℤ) =
      W (m + 1) (flip (patT T) c k r) 0 i := by
    intro i
    rw [colContent_W hmu hT', patT_tabOf hP' ht]
  have key' : ∀ i, (colContent T 0 (i + 1) : ℤ) = W (m + 1) (patT T) 0 i := fun i => colContent_W hmu hT 0 i
  funext i
  have hi := i.2
  simp only [Pi.add_apply, Function.comp_apply, wtT, bt, vec]
  have hn := fun i => hl.part_nonneg i
  rw [Equiv.swap_apply_def]
  simp only [Fin.ext_iff]
  split
  · rename_i h
    rw [h]
    have a1 := key k
    have a2 := key' (k + 1)
    have := hn k
    have := hn (k + 1)
    simp only
    omega
  · split
    · rename_i h
      rw [h]
      have a1 := key (k + 1)
      have a2 := key' k
      have := hn k
      have := hn (k + 1)
      simp only
      omega
    · rename_i h1 h2
      have a1 := key i
      have a2 := key' i
      rw [w3 i h1 h2] at a1
      omega

theorem cancel {F : Finset (List (List ℕ))} (hF : ∀ T, T ∈ F ↔ Tableau (m + 1) mu T ∧ ¬ Good m l T) :
    ∑ T ∈ F, altP (bt (vec m l) + wtT m T) = (0 : VP m) := by
  classical
  have hex : ∀ T ∈ F, ∃ x : ℕ × ℕ × ℕ, Sel (m + 1) (part l) (patT T) x.1 x.2.1 x.2.2 := by
    intro T hT
    obtain ⟨h1, h2⟩ := (hF T).1 hT
    obtain ⟨c, k, r, h⟩ := exists_mirror hl hmu h1 h2
    exact ⟨(c, k, r), h⟩
  choose! sel hsel using hex
  have hmem : ∀ T ∈ F, ∀ {c k r : ℕ}, Sel (m + 1) (part l) (patT T) c k r →
      tabOf (m + 1) mu.length (flip (patT T) c k r) ∈ F := by
    intro T hT c k r hs
    have h1 := ((hF T).1 hT).1
    have hP := patT_pat hmu h1
    have hP' := flip_pat hP (hs.sel0 hP)
    have ht := flip_top hl hmu h1 hs
    rw [hF]
    refine ⟨tabOf_tableau hP' ht, fun hg => ?_⟩
    have := hg c k
    rw [patT_tabOf hP' ht] at this
    exact this (hs.flip hP).bad
  refine Finset.sum_involution (fun T _ => tabOf (m + 1) mu.length (flip (patT T) (sel T).1 (sel T).2.1 (sel T).2.2)) ?_ ?_ ?_ ?_
  · intro T hT
    have hs := hsel T hT
    have hk := hs.bad.1
    rw [mirror_wt hl hmu ((hF T).1 hT).1 hs (by omega), altP_alternating.swap _ (by simp [Fin.ext_iff])]
    exact add_neg_cancel _
  · intro T hT hne he
    have hs := hsel T hT
    have hk := hs.bad.1
    have h1 := mirror_wt hl hmu ((hF T).1 hT).1 hs (by omega)
    rw [he] at h1
    apply hne
    refine altP_alternating.zero _ ⟨(sel T).2.1, by omega⟩ ⟨(sel T).2.1 + 1, by omega⟩ (by simp [Fin.ext_iff]) ?_
    have := congrFun h1 ⟨(sel T).2.1, by omega⟩
    rw [Function.comp_apply, Equiv.swap_apply_left] at this
    exact this
  · intro T hT
    exact hmem T hT (hsel T hT)
  · intro T hT
    have hs := hsel T hT
    have h1 := ((hF T).1 hT).1
    have hP := patT_pat hmu h1
    have hP' := flip_pat hP (hs.sel0 hP)
    have ht := flip_top hl hmu h1 hs
    have hs2 := hsel _ (hmem T hT hs)
    have hpt := patT_tabOf hP' ht
    rw [hpt] at hs2
    obtain ⟨e1, e2, e3⟩ := (hs.flip hP).unique hP' hs2
    rw [← e1, ← e2, ← e3, hpt, flip_flip hP (hs.sel0 hP)]
    exact patT_inj (tabOf_tableau hP (patT_top h1)) h1 (patT_tabOf hP (patT_top h1))

omit hl in
theorem good_iff {T : List (List ℕ)} (hT : Tableau (m + 1) mu T) : Good m l T ↔
    ∀ c i, i + 1 < m + 1 → part l (i + 1) + colContent T c (i + 2) ≤ part l i + colContent T c (i + 1) := by
  unfold Good Bad
  constructor
  · intro h c i hi
    have := h c i
    rw [show i + 2 = i + 1 + 1 from rfl, colContent_W hmu hT, colContent_W hmu hT]
    by_contra hn
    exact this ⟨hi, by omega⟩
  · rintro h c k ⟨h1, h2⟩
    have := h c k h1
    rw [show k + 2 = k + 1 + 1 from rfl, colContent_W hmu hT, colContent_W hmu hT] at this
    omega

/-- The Littlewood-Richardson rule for a Schur polynomial times an alternating polynomial. -/
theorem lr_coeff {nu : List Int} (hnu : IsPartition nu) :
    ∃ F : Finset (List (List ℕ)), (∀ T, T ∈ F ↔ LRTableau (m + 1) l mu nu T) ∧
      MvPolynomial.coeff (exM (bt (vec m nu))) (spol m mu * altP (bt (vec m l))) = (F.card : Polynomial ℚ) := by
  classical
  obtain ⟨A, hA, -⟩ := tabSum_gen (x := vpVars m) (m := m + 1) hmu
  rw [spol_altP hmu hA, ← Finset.sum_filter_add_sum_filter_not A (fun T => Good m l T),
    cancel hl hmu (F := A.filter (fun T => ¬ Good m l T)) (fun T => by rw [Finset.mem_filter, hA]), add_zero]
  refine ⟨(A.filter (fun T => Good m l T)).filter (fun T => bt (vec m nu) = bt (vec m l) + wtT m T), ?_, ?_⟩
  · intro T
    rw [Finset.mem_filter, Finset.mem_filter, hA]
    unfold LRTableau
    constructor
    · rintro ⟨⟨h1, h2⟩, h3⟩
      refine ⟨h1, (good_iff hmu h1).1 h2, fun i hi => ?_⟩
      have := congrFun h3 ⟨i, hi⟩
      simp only [Pi.add_apply, bt, vec, wtT] at this
      have := hl.part_nonneg i
      have := hnu.part_nonneg i
      omega
    · rintro ⟨h1, h2, h3⟩
      refine ⟨⟨h1, (good_iff hmu h1).2 h2⟩, ?_⟩
      funext i
      have h4 := h3 i i.2
      simp only [Pi.add_apply, bt, vec, wtT]
      have := i.2
      have := hl.part_nonneg i
      have := hnu.part_nonneg i
      omega
  · rw [MvPolynomial.coeff_sum, Finset.card_filter, Nat.cast_sum]
    apply Finset.sum_congr rfl
    intro T hT
    rw [Finset.mem_filter, hA] at hT
    have hg := (good_iff hmu hT.1).1 hT.2 0
    have anti : ∀ (a : ℕ → ℤ), (∀ i, 0 ≤ a i) → (∀ i, i + 1 < m + 1 → a (i + 1) ≤ a i) → ∀ i j : ℕ, i < j → j < m + 1 →
        a j ≤ a i := by
      intro a _ h i j hij
      induction hij with
      | refl => intro hj; exact h i hj
      | step _ ih => intro hj; exact (h _ hj).trans (ih (by omega))
    have s1 : StrictAnti (bt (vec m nu)) := by
      intro i j hij
      have h1 := hnu.part_anti (le_of_lt hij : (i : ℕ) ≤ j)
      have := hnu.part_nonneg j
      have h2 : (i : ℕ) < j := hij
      have := j.2
      simp only [bt, vec]
      omega
    have s2 : StrictAnti (bt (vec m l) + wtT m T) := by
      intro i j hij
      have h2 : (i : ℕ) < j := hij
      have h1 := anti (fun i => part l i + colContent T 0 (i + 1)) (fun i => by have := hl.part_nonneg i; positivity)
        hg i j h2 j.2
      have := hl.part_nonneg j
      have := hl.part_nonneg i
      have := j.2
      simp only [Pi.add_apply, bt, vec, wtT] at h1 ⊢
      omega
    rw [coeff_altP s1 s2]
    split <;> simp

end

end Verif.LR
