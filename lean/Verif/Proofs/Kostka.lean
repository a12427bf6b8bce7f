import Verif.Proofs.Jacobi
import Verif.Proofs.RingA
import Verif.Proofs.RimA
import Verif.Spec.Kostka
import Mathlib.Data.Finsupp.Multiset
/-!
# Kostka numbers as coefficients of repeated Pieri products on `Gr(m, n)`
-/

namespace Verif.Kostka
open Spec SchurSym Cyl

/-! ### coefficients of the sum over tableaux -/

/-- Exponent vector of a content. -/
noncomputable def ct (a : List ℕ) : ℕ →₀ ℕ := ∑ i ∈ Finset.range a.length, Finsupp.single i (a.getD i 0)

theorem ct_apply (a : List ℕ) (j : ℕ) : ct a j = a.getD j 0 := by
  classical
  rw [ct, Finsupp.finsetSum_apply]
  simp only [Finsupp.single_apply]
  rw [Finset.sum_ite_eq' (Finset.range a.length) j]
  split
  · rfl
  · rename_i h
    rw [List.getD_eq_default]
    simpa using h

theorem ct_snoc (a : List ℕ) (p : ℕ) : ct (a ++ [p]) = ct a + Finsupp.single a.length p := by
  ext j
  rw [Finsupp.add_apply, ct_apply, ct_apply, Finsupp.single_apply]
  rcases lt_trichotomy j a.length with h | h | h
  · rw [List.getD_append _ _ _ _ h, if_neg (by omega), add_zero]
  · subst h
    rw [List.getD_append_right _ _ _ _ le_rfl]
    simp
  · rw [List.getD_append_right _ _ _ _ h.le, if_neg (by omega), List.getD_eq_default a _ h.le,
      List.getD_eq_default _ _ (by simp; omega), add_zero]

/-- The exponent vector of a filling. -/
noncomputable def tct (T : List (List ℕ)) : ℕ →₀ ℕ := Multiset.toFinsupp ((T.flatten.map (· - 1) : List ℕ) : Multiset ℕ)

theorem prod_X (l : List ℕ) : (l.map (fun e => (MvPolynomial.X e : MvPolynomial ℕ ℚ))).prod =
    MvPolynomial.monomial (Multiset.toFinsupp (l : Multiset ℕ)) 1 := by
  induction l with
  | nil => simp
  | cons e l ih =>
    rw [List.map_cons, List.prod_cons, ih, MvPolynomial.X, MvPolynomial.monomial_mul, one_mul, ← Multiset.cons_coe,
      ← Multiset.singleton_add, map_add, Multiset.toFinsupp_singleton]

theorem weight_X (T : List (List ℕ)) : weight (MvPolynomial.X : ℕ → MvPolynomial ℕ ℚ) T = MvPolynomial.monomial (tct T) 1 := by
  rw [tct, ← prod_X, weight, List.map_map, List.map_flatten, List.prod_flatten, List.map_map]
  rfl

theorem tct_apply {T : List (List ℕ)} (h : ∀ e ∈ T.flatten, 1 ≤ e) (i : ℕ) : tct T i = T.flatten.count (i + 1) := by
  rw [tct, Multiset.toFinsupp_apply, Multiset.coe_count]
  generalize T.flatten = l at h
  induction l with
  | nil => simp
  | cons e l ih =>
    have h1 := h e (by simp)
    rw [List.map_cons, List.count_cons, List.count_cons, ih (fun e he => h e (List.mem_cons_of_mem _ he))]
    congr 1
    simp only [beq_iff_eq]
    by_cases hh : e = i + 1
    · rw [if_pos (by omega), if_pos hh]
    · rw [if_neg (by omega), if_neg hh]

theorem mem_flatten_row {T : List (List ℕ)} {e : ℕ} : e ∈ T.flatten ↔ ∃ i, e ∈ row T i := by
  rw [List.mem_flatten]
  constructor
  · rintro ⟨r, hr, he⟩
    obtain ⟨i, hi, rfl⟩ := List.getElem_of_mem hr
    exact ⟨i, by rw [row, List.getD_eq_getElem _ _ hi]; exact he⟩
  · rintro ⟨i, he⟩
    by_cases hi : i < T.length
    · rw [row, List.getD_eq_getElem _ _ hi] at he
      exact ⟨_, List.getElem_mem hi, he⟩
    · rw [row, List.getD_eq_default _ _ (by omega)] at he
      simp at he

theorem tableau_entries {n : ℕ} {l : List Int} {T : List (List ℕ)} (hT : Tableau n l T) : ∀ e ∈ T.flatten, 1 ≤ e ∧ e ≤ n := by
  intro e he
  obtain ⟨i, hi⟩ := mem_flatten_row.1 he
  exact hT.2.2.2.1 i e hi

theorem tct_eq {n : ℕ} {l : List Int} {T : List (List ℕ)} (hT : Tableau n l T) (a : List ℕ) : tct T = ct a ↔ Content T a := by
  rw [Finsupp.ext_iff]
  refine forall_congr' (fun i => ?_)
  rw [tct_apply (fun e he => (tableau_entries hT e he).1), ct_apply]

noncomputable abbrev ts (r : ℕ) (nu : List Int) : MvPolynomial ℕ ℚ := tabSum MvPolynomial.X r nu

theorem coeff_ts {r : ℕ} {nu : List Int} (hnu : IsPartition nu) :
    ∃ F : Finset (List (List ℕ)), (∀ T, T ∈ F ↔ Tableau r nu T) ∧
      ∀ e, MvPolynomial.coeff e (ts r nu) = ((F.filter (fun T => tct T = e)).card : ℚ) := by
  classical
  obtain ⟨F, h1, h2⟩ := tabSum_gen (x := (MvPolynomial.X : ℕ → MvPolynomial ℕ ℚ)) (m := r) hnu
  refine ⟨F, h1, fun e => ?_⟩
  rw [ts, h2, MvPolynomial.coeff_sum, Finset.card_filter]
  push_cast
  refine Finset.sum_congr rfl (fun T _ => ?_)
  rw [weight_X, MvPolynomial.coeff_monomial]

theorem coeff_ts_ge {r j : ℕ} (hj : r ≤ j) {nu : List Int} (hnu : IsPartition nu) {e : ℕ →₀ ℕ} (he : e j ≠ 0) :
    MvPolynomial.coeff e (ts r nu) = 0 := by
  classical
  obtain ⟨F, h1, h2⟩ := coeff_ts (r := r) hnu
  rw [h2, Finset.filter_eq_empty_iff.2, Finset.card_empty, Nat.cast_zero]
  rintro T hT rfl
  have h := tableau_entries ((h1 T).1 hT)
  rw [tct_apply (fun e he => (h e he).1)] at he
  have := h (j + 1) (List.count_pos_iff.1 (by omega))
  omega

theorem coeff_branch (a : List ℕ) (p : ℕ) {nu : List Int} (hnu : IsPartition nu) :
    MvPolynomial.coeff (ct (a ++ [p])) (ts (a.length + 1) nu) =
      ∑ mu ∈ SchurSym.strips nu, if nu.sum = mu.sum + p then MvPolynomial.coeff (ct a) (ts a.length mu) else 0 := by
  rw [ts, branch hnu, MvPolynomial.coeff_sum]
  refine Finset.sum_congr rfl (fun mu hmu => ?_)
  have hmp := strips_isPartition hnu hmu
  have hge : mu.sum ≤ nu.sum := by
    obtain ⟨h1, h2⟩ := SchurSym.mem_strips.1 hmu
    rw [sum_eq_range mu _ le_rfl, sum_eq_range nu _ le_rfl, h1]
    exact Finset.sum_le_sum (fun i _ => (h2 i).2)
  obtain ⟨d, hd⟩ : ∃ d : ℕ, nu.sum = mu.sum + d := ⟨(nu.sum - mu.sum).toNat, by omega⟩
  rw [show (nu.sum - mu.sum).toNat = d by omega, MvPolynomial.X_pow_eq_monomial, MvPolynomial.coeff_monomial_mul', one_mul, ct_snoc]
  have hz : ct a a.length = 0 := by rw [ct_apply, List.getD_eq_default _ _ le_rfl]
  by_cases hdp : d = p
  · subst hdp
    rw [if_pos (le_add_of_nonneg_left (by simp)), if_pos hd, add_tsub_cancel_right]
  · rw [if_neg (c := nu.sum = mu.sum + p) (by omega)]
    split
    · rename_i hle
      apply coeff_ts_ge le_rfl hmp (j := a.length)
      have := hle a.length
      simp [hz] at this ⊢
      omega
    · rfl

/-! ### the Pieri operator -/

variable {m : ℕ}

/-- The partition of a class, padded by zeros to `m + 1` entries. -/
def pad (m : ℕ) (l : List Int) : List Int := List.ofFn (vec m l)

theorem part_pad {k : ℤ} {l : List Int} (hl : clsA (m + 1) k l) (i : ℕ) : part (pad m l) i = part l i := by
  rw [pad, part_ofFn]
  split
  · rfl
  · rw [part_of_ge]
    have := hl.2.1
    omega

theorem pad_isPartition {k : ℤ} {l : List Int} (hl : clsA (m + 1) k l) : IsPartition (pad m l) := by
  rw [isPartition_iff_part]
  intro i
  rw [part_pad hl, part_pad hl]
  exact isPartition_iff_part.1 hl.1.isPartition i

theorem pad_sum (l : List Int) : (pad m l).sum = ∑ i, vec m l i := by rw [pad, List.sum_ofFn]

theorem tc_apply {k : ℤ} (hk : 0 ≤ k) (p : ℕ) {mu lam : List Int} (hmu : clsA (m + 1) k mu) (hl : clsA (m + 1) k lam) :
    tc m k p mu lam = if pad m mu ∈ SchurSym.strips (pad m lam) ∧ (pad m lam).sum = (pad m mu).sum + p then 1 else 0 := by
  classical
  rw [tc, if_pos hmu, Finsupp.finsetSum_apply]
  have hbl := boxV_vec (m := m) hk hl
  have hbm := boxV_vec (m := m) hk hmu
  have hiff : vec m lam ∈ (Om k p (vec m mu)).filter (fun g => g 0 ≤ k) ↔
      (pad m mu ∈ SchurSym.strips (pad m lam) ∧ (pad m lam).sum = (pad m mu).sum + p) := by
    rw [Finset.mem_filter, mem_Om, SchurSym.mem_strips, pad_sum, pad_sum]
    constructor
    · rintro ⟨⟨h1, h2, h3⟩, h4⟩
      refine ⟨⟨by simp [pad], fun i => ?_⟩, h3⟩
      rw [part_pad hl, part_pad hmu, part_pad hl]
      by_cases hi : i + 1 < m + 1
      · have a1 := h1 ⟨i, by omega⟩
        have a2 := h2 (Fin.succ ⟨i, by omega⟩)
        rw [sh_succ] at a2
        exact ⟨a2, a1⟩
      · rw [part_of_ge (l := lam) (i := i + 1) (by have := hl.2.1; omega)]
        refine ⟨hmu.1.isPartition.part_nonneg i, ?_⟩
        by_cases hi' : i < m + 1
        · exact h1 ⟨i, hi'⟩
        · rw [part_of_ge (l := mu) (by have := hmu.2.1; omega)]
          exact hl.1.isPartition.part_nonneg i
    · rintro ⟨⟨-, h2⟩, h3⟩
      refine ⟨⟨fun i => ?_, fun i => ?_, h3⟩, hbl.first⟩
      · have := (h2 i).2
        rwa [part_pad hl, part_pad hmu] at this
      · induction i using Fin.cases with
        | zero =>
          rw [sh_zero]
          have h5 := hbl.first
          have h6 := hbm.last
          show vec m lam 0 ≤ _
          linarith
        | succ i =>
          rw [sh_succ]
          have := (h2 i).1
          rwa [part_pad hl, part_pad hmu] at this
  rw [← if_congr hiff rfl rfl]
  have hterm : ∀ g ∈ (Om k p (vec m mu)).filter (fun g => g 0 ≤ k),
      (Finsupp.single (lab g) (1 : Polynomial ℚ)) lam = if g = vec m lam then 1 else 0 := by
    intro g hg
    rw [Finset.mem_filter] at hg
    have hb := om_box hbm hg.1 hg.2
    rw [Finsupp.single_apply]
    refine if_congr ⟨fun h => ?_, fun h => ?_⟩ rfl rfl
    · rw [← h, vec_lab]
    · rw [h, lab_vec' hl]
  rw [Finset.sum_congr rfl hterm, Finset.sum_ite_eq']

/-- **Coefficients of a product of special classes**: numbers of tableaux. -/
theorem act_coeff {k : ℕ} {n : ℤ} (hn : n = m + 1 + k) (a : List ℕ) : (∀ p ∈ a, 1 ≤ p ∧ p ≤ k) → ∀ lam : List Int, clsA (m + 1) k lam →
    (sysC m (Int.natCast_nonneg k) hn).act (a.map (fun p : ℕ => (MvPolynomial.X (.S [(p : Int)]) : P))).prod (Finsupp.single [] 1) lam =
      Polynomial.C (MvPolynomial.coeff (ct a) (ts a.length (pad m lam))) := by
  classical
  have hnil : clsA (m + 1) (k : ℤ) [] := ⟨by decide, by simp, by simp⟩
  induction a using List.reverseRecOn with
  | nil =>
    intro _ lam hl
    have e0 : ct [] = 0 := by simp [ct]
    rw [List.map_nil, List.prod_nil, map_one, Module.End.one_apply, Finsupp.single_apply, List.length_nil, e0]
    by_cases h : [] = lam
    · subst h
      rw [if_pos rfl, ts, tabSum_zero_empty (pad_isPartition hnil) (by rw [part_pad hnil]; rfl)]
      simp
    · rw [if_neg h, ts, tabSum_vanish 0 (pad_isPartition hl)]
      · simp
      · rw [part_pad hl]
        intro h0
        rcases lam with _ | ⟨x, l⟩
        · exact h rfl
        · have := hl.1.2 x (by simp)
          simp [part] at h0
          omega
  | append_singleton a p ih =>
    intro ha lam hl
    have hp := ha p (by simp)
    have ih' := ih (fun q hq => ha q (by simp [hq]))
    set Y := sysC m (Int.natCast_nonneg k) hn with hY
    set g : P := (a.map (fun p : ℕ => (MvPolynomial.X (.S [(p : Int)]) : P))).prod with hg
    have hsup := Y.act_support g (x := Finsupp.single [] (1 : Polynomial ℚ)) (by
      intro l hl; rw [Finset.mem_singleton.1 (Finsupp.support_single_subset hl)]; exact hnil)
    rw [List.map_append, List.prod_append, List.map_singleton, List.prod_singleton, mul_comm, map_mul, Module.End.mul_apply,
      Y.act_special hp.1 (by simpa using hp.2), lin_sum, Finsupp.finsetSum_apply, List.length_append, List.length_singleton,
      coeff_branch a p (pad_isPartition hl), map_sum]
    have hterm : ∀ mu ∈ (Y.act g (Finsupp.single [] 1)).support,
        ((Y.act g (Finsupp.single [] 1)) mu • lin (Y.t p) (Finsupp.single mu 1)) lam =
        if pad m mu ∈ SchurSym.strips (pad m lam) ∧ (pad m lam).sum = (pad m mu).sum + p then
          Polynomial.C (MvPolynomial.coeff (ct a) (ts a.length (pad m mu))) else 0 := by
      intro mu hmu
      rw [Finsupp.smul_apply, ih' mu (hsup mu hmu), show lin (Y.t p) (Finsupp.single mu 1) = Y.t p mu by simp [lin], smul_eq_mul, show Y.t = tc m k from rfl,
        tc_apply (Int.natCast_nonneg k) p (hsup mu hmu) hl]
      split <;> simp
    rw [Finset.sum_congr rfl hterm, ← Finset.sum_filter]
    refine Finset.sum_of_injOn (pad m) ?_ ?_ ?_ ?_
    · intro mu hmu mu' hmu' h
      have h1 := hsup mu (Finset.mem_filter.1 hmu).1
      have h2 := hsup mu' (Finset.mem_filter.1 hmu').1
      rw [← lab_vec' h1, ← lab_vec' h2, List.ofFn_injective h]
    · intro mu hmu
      exact (Finset.mem_filter.1 hmu).2.1
    · intro nu hnu hnot
      split
      · rename_i hsum
        have hnp := strips_isPartition (pad_isPartition hl) hnu
        obtain ⟨hlen, hst⟩ := SchurSym.mem_strips.1 hnu
        have hb : BoxV (k : ℤ) (vec m nu) := by
          refine ⟨fun i => hnp.part_anti (by simp), hnp.part_nonneg _, ?_⟩
          have h1 := (hst 0).2
          rw [part_pad hl] at h1
          exact le_trans h1 (boxV_vec (m := m) (Int.natCast_nonneg k) hl).first
        have hc := clsA_lab hb
        have hpad : pad m (lab (vec m nu)) = nu := by
          rw [pad, vec_lab]
          apply SchurSym.ext_part (by rw [hlen, pad, List.length_ofFn, List.length_ofFn])
          intro i
          rw [part_ofFn]
          split
          · rfl
          · rw [part_of_ge]
            rw [hlen, pad, List.length_ofFn]
            omega
        have h2 := ih' _ hc
        rw [hpad] at h2
        rw [← h2]
        by_contra hne
        refine hnot ⟨lab (vec m nu), ?_, hpad⟩
        rw [Finset.coe_filter]
        exact ⟨Finsupp.mem_support_iff.2 hne, by rw [hpad]; exact hnu, by rw [hpad]; exact hsum⟩
      · rw [map_zero]
    · intro mu hmu
      rw [if_pos (Finset.mem_filter.1 hmu).2.2]

/-! ### trailing empty rows -/

theorem row_append_nils (T : List (List ℕ)) (c i : ℕ) : row (T ++ List.replicate c []) i = row T i := by
  unfold row
  by_cases h : i < T.length
  · rw [List.getD_append _ _ _ _ h]
  · rw [List.getD_append_right _ _ _ _ (by omega), List.getD_eq_default T _ (by omega)]
    rw [List.getD_eq_getElem?_getD, List.getElem?_replicate]
    split <;> rfl

theorem tableau_pad {k : ℤ} {l : List Int} (hl : clsA (m + 1) k l) (n : ℕ) (T : List (List ℕ)) :
    Tableau n (pad m l) (T ++ List.replicate (m + 1 - l.length) []) ∧ T.length = l.length ↔ Tableau n l T := by
  have hlen := hl.2.1
  unfold Tableau
  simp only [entry, row_append_nils, part_pad hl]
  constructor
  · rintro ⟨⟨-, h⟩, h'⟩
    exact ⟨h', h⟩
  · rintro ⟨h', h⟩
    refine ⟨⟨?_, h⟩, h'⟩
    rw [List.length_append, List.length_replicate, pad, List.length_ofFn, h']
    omega

theorem tableau_pad_form {k : ℤ} {l : List Int} (hl : clsA (m + 1) k l) {n : ℕ} {T : List (List ℕ)} (hT : Tableau n (pad m l) T) :
    T = T.take l.length ++ List.replicate (m + 1 - l.length) [] := by
  have hlen := hl.2.1
  have h1 : T.length = m + 1 := by rw [hT.1, pad, List.length_ofFn]
  conv_lhs => rw [← List.take_append_drop l.length T]
  congr 1
  rw [List.eq_replicate_iff]
  refine ⟨by rw [List.length_drop, h1], fun r hr => ?_⟩
  obtain ⟨i, hi, rfl⟩ := List.getElem_of_mem hr
  rw [List.length_drop] at hi
  rw [List.getElem_drop]
  have h2 := hT.2.1 (l.length + i)
  rw [part_pad hl, part_of_ge (by omega), row, List.getD_eq_getElem _ _ (by omega)] at h2
  exact List.length_eq_zero_iff.1 (by exact_mod_cast h2)

theorem count_tableaux {k : ℤ} {l : List Int} (hl : clsA (m + 1) k l) (a : List ℕ) :
    ∃ F : Finset (List (List ℕ)), (∀ T, T ∈ F ↔ Tableau a.length l T ∧ Content T a) ∧
      MvPolynomial.coeff (ct a) (ts a.length (pad m l)) = (F.card : ℚ) := by
  classical
  obtain ⟨F, h1, h2⟩ := coeff_ts (r := a.length) (pad_isPartition hl)
  set G := F.filter (fun T => tct T = ct a) with hG
  have hGm : ∀ T, T ∈ G ↔ Tableau a.length (pad m l) T ∧ Content T a := by
    intro T
    rw [hG, Finset.mem_filter, h1]
    constructor
    · rintro ⟨h, h'⟩; exact ⟨h, (tct_eq h a).1 h'⟩
    · rintro ⟨h, h'⟩; exact ⟨h, (tct_eq h a).2 h'⟩
  have hcon : ∀ T c, Content (T ++ List.replicate c []) a ↔ Content T a := by
    intro T c
    unfold Content
    rw [List.flatten_append, List.flatten_replicate_nil, List.append_nil]
  refine ⟨G.image (List.take l.length), fun T => ?_, ?_⟩
  · rw [Finset.mem_image]
    constructor
    · rintro ⟨T', hT', rfl⟩
      obtain ⟨h3, h4⟩ := (hGm _).1 hT'
      have hf := tableau_pad_form hl h3
      rw [hf] at h3 h4
      refine ⟨(tableau_pad hl _ _).1 ⟨h3, ?_⟩, (hcon _ _).1 h4⟩
      rw [List.length_take, Nat.min_eq_left]
      have h5 := (hGm _).1 hT'
      rw [h5.1.1, pad, List.length_ofFn]
      exact hl.2.1
    · rintro ⟨h3, h4⟩
      obtain ⟨h5, h6⟩ := (tableau_pad hl _ _).2 h3
      exact ⟨_, (hGm _).2 ⟨h5, (hcon _ _).2 h4⟩, by rw [← h6, List.take_left']; rfl⟩
  · rw [h2, Finset.card_image_of_injOn]
    intro T hT T' hT' h
    rw [tableau_pad_form hl ((hGm T).1 hT).1, tableau_pad_form hl ((hGm T').1 hT').1]
    rw [show T.take l.length = T'.take l.length from h]

end Verif.Kostka
