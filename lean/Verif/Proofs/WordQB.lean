import Verif.Proofs.WordC
import Verif.Proofs.QPieriExact
/-!
# The quantum Pieri operators of type B as transfer matrices

The quantum terms only change the first letter: they are given by a kernel on the first pair of letters, after which the
transfer matrix of the classical rule continues.
-/

namespace Verif
open Spec

section
variable {R : Type*} [CommRing R]

/-- the quantum Pieri operator of type B; `h` and `h'` are the weights of the two kinds of quantum terms -/
def opQ (c h h' x : R) : List L3 → List L3 → R
  | [], [] => 1
  | .o :: u, .o :: w => wt c x .z u w + h * (x * wt c x .lr u w)
  | .o :: u, .a :: w => wt c x .l u w
  | .o :: u, .b :: w => h * wt c x .l u w
  | .a :: u, .o :: w => h * wt c x .r u w
  | .a :: u, .a :: w => wt c x .z u w
  | .a :: u, .b :: w => h' * wt c x .lr u w
  | .b :: u, .o :: w => wt c x .r u w
  | .b :: u, .a :: w => wt c x .lr u w
  | .b :: u, .b :: w => wt c x .z u w
  | _, _ => 0

/-- the composition of two such operators, one letter unfolded -/
def compQ (h h' x y : R) (f : St → St → R) : L3 → L3 → R
  | .o, .o => f .z .z + h * (x * f .lr .z + y * f .z .lr + 2 * f .l .r) + h ^ 2 * (x * y * f .lr .lr)
  | .o, .a => f .z .l + f .l .z + h * (x * f .lr .l + f .l .lr)
  | .o, .b => h * (f .l .z + f .z .l) + (h' * f .l .lr + h ^ 2 * (x * f .lr .l))
  | .a, .o => h * (f .r .z + f .z .r) + (h' * f .lr .r + h ^ 2 * (y * f .r .lr))
  | .a, .a => f .z .z + h * f .r .l + h' * f .lr .lr
  | .a, .b => h' * (f .lr .z + f .z .lr) + h ^ 2 * f .r .l
  | .b, .o => f .r .z + f .z .r + h * (f .lr .r + y * f .r .lr)
  | .b, .a => f .r .l + f .lr .z + f .z .lr
  | .b, .b => f .z .z + h * f .r .l + h' * f .lr .lr

theorem compQ_eq (c h h' x y : R) (p q : L3) (u v : List L3) :
    sumW (u.length + 1) (fun w => opQ c h h' x (p :: u) w * opQ c h h' y w (q :: v)) =
      compQ h h' x y (fun s t => comp2 c x y s t u v) p q := by
  unfold sumW
  cases p <;> cases q <;> simp only [opQ, compQ, comp2, ← sumW_mul, ← sumW_add] <;>
    exact sumW_congr (fun w _ => by ring)

theorem compQ_comm [IsDomain R] {h h' x y : R} (hx : x ≠ 0) (hy : y ≠ 0) (hxy : x + y ≠ 0) {f g : St → St → R}
    (H : ∀ s t, (x + y) * x * y * g s t = inter x y f s t) (p q : L3) (hh : h' = h ^ 2 ∨ (p ≠ .o ∧ q ≠ .o)) :
    compQ h h' x y f p q = compQ h h' y x g p q := by
  have hD : (x + y) * x * y ≠ 0 := mul_ne_zero (mul_ne_zero hxy hx) hy
  apply mul_left_cancel₀ hD
  have z_z := H .z .z
  have z_lr := H .z .lr
  have z_l := H .z .l
  have z_r := H .z .r
  have lr_z := H .lr .z
  have lr_lr := H .lr .lr
  have lr_l := H .lr .l
  have lr_r := H .lr .r
  have l_z := H .l .z
  have l_lr := H .l .lr
  have l_r := H .l .r
  have r_z := H .r .z
  have r_lr := H .r .lr
  have r_l := H .r .l
  simp only [inter] at z_z z_lr z_l z_r lr_z lr_lr lr_l lr_r l_z l_lr l_r r_z r_lr r_l
  cases p <;> cases q <;> simp only [compQ]
  · linear_combination -z_z - h * (y * lr_z + x * z_lr + 2 * l_r) - h ^ 2 * (x * y * lr_lr)
  · linear_combination -z_l - l_z - h * (y * lr_l + l_lr)
  · obtain rfl : h' = h ^ 2 := by simpa using hh
    linear_combination -h * (l_z + z_l) - h ^ 2 * (l_lr + y * lr_l)
  · obtain rfl : h' = h ^ 2 := by simpa using hh
    linear_combination -h * (r_z + z_r) - h ^ 2 * (lr_r + x * r_lr)
  · linear_combination -z_z - h * r_l - h' * lr_lr
  · linear_combination -h' * (lr_z + z_lr) - h ^ 2 * r_l
  · linear_combination -r_z - z_r - h * (lr_r + x * r_lr)
  · linear_combination -r_l - lr_z - z_lr
  · linear_combination -z_z - h * r_l - h' * lr_lr

/-- **Commutation.** -/
theorem opQ_comm [IsDomain R] (c : R) {h h' x y : R} (hx : x ≠ 0) (hy : y ≠ 0) (hxy : x + y ≠ 0) {u v : List L3}
    (hl : u.length = v.length) (hh : h' = h ^ 2 ∨ (colsW 0 u = 0 ∧ colsW 0 v = 0)) :
    sumW u.length (fun w => opQ c h h' x u w * opQ c h h' y w v) =
      sumW u.length (fun w => opQ c h h' y u w * opQ c h h' x w v) := by
  cases u with
  | nil =>
    obtain rfl : v = [] := List.length_eq_zero_iff.1 (by simpa using hl.symm)
    simp [sumW, opQ]
  | cons p u =>
    cases v with
    | nil => simp at hl
    | cons q v =>
      rw [List.length_cons, compQ_eq, compQ_eq]
      apply compQ_comm hx hy hxy (comp2_inter c x y u v (by simpa using hl))
      rcases hh with hh | ⟨h1, h2⟩
      · exact Or.inl hh
      · refine Or.inr ⟨?_, ?_⟩
        · rintro rfl; simp [colsW] at h1
        · rintro rfl; simp [colsW] at h2

end

/-! ### Quantum terms as classical terms of longer words -/

/-- change the first letter of a word that is not `b` from `o` into `a` -/
def aOf : List L3 → Option (List L3)
  | .o :: w => some (.a :: w)
  | .b :: w => (aOf w).map (.b :: ·)
  | _ => none

/-- the weight of the first kind of quantum terms -/
def wtQ {R : Type*} [CommRing R] (c x : R) (u w : List L3) : R :=
  match aOf w with
  | some w' => wt c x .z (.b :: u) (.o :: w')
  | none => 0

/-- the weight of the second kind of quantum terms -/
def wtP {R : Type*} [CommRing R] (c x : R) : List L3 → List L3 → R
  | .a :: u, .b :: w => wt c x .z (.b :: u) (.a :: w)
  | _, _ => 0

section
variable {R : Type*} [CommRing R]

theorem wt_l_aOf (c x : R) : ∀ u w : List L3, wt c x .l u w = match aOf w with
    | some w' => x * wt c x .z u w'
    | none => 0 := by
  intro u w
  induction w generalizing u with
  | nil => cases u <;> simp [wt, aOf, endW]
  | cons q w ih =>
    cases u with
    | nil =>
      cases q <;> simp only [wt, aOf]
      · simp
      · rcases aOf w with _ | w' <;> simp [wt]
    | cons p u =>
      cases q
      · cases p <;> simp [wt, aOf, step]
      · cases p <;> simp [wt, aOf, step]
      · have := ih u
        simp only [aOf]
        rcases h : aOf w with _ | w' <;> rw [h] at this <;> cases p <;> simp [wt, step, this]

theorem opQ_eq (c h h' x : R) {u w : List L3} (hl : u.length = w.length) :
    opQ c h h' x u w = wt c x .z u w + h * wtQ c x u w + h' * wtP c x u w := by
  cases u with
  | nil =>
    obtain rfl : w = [] := List.length_eq_zero_iff.1 (by simpa using hl.symm)
    simp [opQ, wt, wtQ, wtP, aOf, endW]
  | cons p u =>
    cases w with
    | nil => simp at hl
    | cons q w =>
      have hb := wt_l_aOf c x u w
      rcases ha : aOf w with _ | w' <;> rw [ha] at hb <;> cases p <;> cases q <;>
        simp [opQ, wt, wtQ, wtP, aOf, step, ha, hb]

end

theorem aOf_length {w w' : List L3} (h : aOf w = some w') : w'.length = w.length ∧ colsW 0 w = colsW 0 w' + 1 := by
  induction w generalizing w' with
  | nil => simp [aOf] at h
  | cons q w ih =>
    cases q
    · simp only [aOf, Option.some.injEq] at h
      subst h
      simp [colsW]
    · simp [aOf] at h
    · simp only [aOf, Option.map_eq_some_iff] at h
      obtain ⟨v, hv, rfl⟩ := h
      have := ih hv
      simp [colsW, this]

theorem labW_o (u : List L3) : labW (.o :: u) = (shapeW 0 0 u).map (· + 1) := by
  unfold labW
  simp only [shapeW]
  apply partClip_of_noTrailing
  intro h
  obtain ⟨x, hx, e⟩ := List.mem_map.1 (List.mem_of_getLast? h)
  have := shapeW_nonneg 0 0 u x hx
  omega

theorem aOf_lab {w w' : List L3} (h : aOf w = some w') : ∃ t : Nat, (labW w).length + t + colsW 0 w = w.length ∧
    labW (.o :: w') = ((w.length : Int) + colsW 0 w - t) :: (labW w ++ List.replicate t 1) := by
  induction w generalizing w' with
  | nil => simp [aOf] at h
  | cons q w ih =>
    cases q
    · simp only [aOf, Option.some.injEq] at h
      subst h
      refine ⟨0, ?_, ?_⟩
      · have := rows_add_cols 0 0 w
        rw [labW_o, List.length_map, shapeW_length]
        simp [colsW]; omega
      · rw [labW_o, labW_o]
        simp only [shapeW, colsW, List.map_cons, List.length_cons, List.replicate_zero, List.append_nil]
        congr 1
        push_cast; ring
    · simp [aOf] at h
    · simp only [aOf, Option.map_eq_some_iff] at h
      obtain ⟨v, hv, rfl⟩ := h
      obtain ⟨t, h1, h2⟩ := ih hv
      rw [labW_b]
      refine ⟨t + 1, by simp [colsW]; omega, ?_⟩
      rw [labW_o] at h2 ⊢
      simp only [shapeW, List.map_append, h2, colsW, List.length_cons, List.map_cons, List.map_nil]
      rw [List.replicate_succ', ← List.append_assoc]
      simp only [List.cons_append]
      congr 1
      push_cast; ring

theorem aOf_none {w : List L3} (h : aOf w = none) : (∀ p ∈ w, p = .b) ∨
    ∃ (s : Nat) (v : List L3), w = List.replicate s .b ++ .a :: v := by
  induction w with
  | nil => left; simp
  | cons q w ih =>
    cases q
    · simp [aOf] at h
    · exact Or.inr ⟨0, w, rfl⟩
    · simp only [aOf, Option.map_eq_none_iff] at h
      rcases ih h with h1 | ⟨s, v, rfl⟩
      · left
        intro p hp
        rcases List.mem_cons.1 hp with rfl | hp
        · rfl
        · exact h1 p hp
      · exact Or.inr ⟨s + 1, v, rfl⟩

theorem labW_bs (s : Nat) (v : List L3) : labW (List.replicate s .b ++ v) = labW v := by
  induction s with
  | zero => rfl
  | succ s ih => rw [List.replicate_succ, List.cons_append, labW_b, ih]

theorem colsW_bs (s : Nat) (v : List L3) : colsW 0 (List.replicate s .b ++ v) = colsW 0 v := by
  induction s with
  | zero => rfl
  | succ s ih => rw [List.replicate_succ, List.cons_append]; simp only [colsW]; exact ih

theorem labW_length (w : List L3) : (labW w).length + colsW 0 w ≤ w.length := by
  have := rows_add_cols 0 0 w
  have := shapeW_length 0 0 w
  have : (labW w).length ≤ (shapeW 0 0 w).length := partClip_length_le _
  omega

/-- **The first kind of quantum terms.** -/
theorem tilde_iff {n k : Nat} (hk : 0 < k) {w : List L3} (hw : w ∈ Wd n k) {nu : List Int} (hnu : clsBC (n + 1) k nu) :
    Tilde ((n : Int) - k + 1) (n + k) nu (labW w) ↔ ∃ w', aOf w = some w' ∧ nu = labW (.o :: w') := by
  rw [mem_Wd] at hw
  have hkn : k ≤ n := by have := rows_add_cols 0 0 w; omega
  constructor
  · rintro ⟨h1, h2, h3⟩
    have hlen : (nu.length : Int) = 1 + (labW w).length + (n + k - part nu 0).toNat := by
      conv_lhs => rw [h3]
      simp; ring
    rcases ha : aOf w with _ | w'
    · exfalso
      rcases aOf_none ha with hb | ⟨s, v, hv⟩
      · have : w = List.replicate w.length .b ++ [] := by
          rw [List.append_nil]; exact List.eq_replicate_of_mem hb
        have h4 := colsW_bs w.length []
        rw [← this] at h4
        simp [colsW] at h4
        omega
      · have h4 := colsW_bs s (.a :: v)
        have h5 := labW_bs s (.a :: v)
        rw [← hv, labW_a] at h5
        rw [← hv] at h4
        simp only [colsW] at h4
        have h6 : w.length = s + (v.length + 1) := by rw [hv]; simp
        have h7 := labW_length v
        have h8 : part nu 1 = (v.length : Int) + colsW 0 v + 1 := by
          rw [h3, h5]; rfl
        have h9 := (kstrict_part (by omega) hnu.2.isPart).1 hnu.2.kstrict 0 (by
          have := hnu.2.isPart.part_anti (show 0 ≤ 1 by omega)
          omega)
        rw [h5, List.length_cons] at hlen
        simp only [zero_add] at h9
        omega
    · refine ⟨w', rfl, ?_⟩
      obtain ⟨t, h4, h5⟩ := aOf_lab ha
      rw [h5, h3]
      have ht : (n + k - part nu 0).toNat = t := by omega
      rw [ht, hw.1, hw.2]
      congr 1
      omega
  · rintro ⟨w', ha, rfl⟩
    obtain ⟨t, h4, h5⟩ := aOf_lab ha
    have h0 : part (labW (.o :: w')) 0 = (w.length : Int) + colsW 0 w - t := by rw [h5]; rfl
    refine ⟨?_, by rw [h0]; omega, ?_⟩
    · rw [h5]; simp; omega
    · rw [h0]
      conv_lhs => rw [h5]
      congr 3
      omega

/-- **The second kind of quantum terms.** -/
theorem cons_iff {n k : Nat} (hn : 0 < n) {w : List L3} (hw : w ∈ Wd n k) :
    clsBC n k (((n : Int) + k) :: labW w) ↔ ∃ w', w = .b :: w' := by
  rw [mem_Wd] at hw
  have hkn : k ≤ n := by have := rows_add_cols 0 0 w; omega
  constructor
  · intro h
    cases w with
    | nil => simp at hw; omega
    | cons q w =>
      cases q
      · exfalso
        have h1 := h.2.rows (n - k) (by omega)
        have h2 : (labW (.o :: w)).length + k = n := by
          have := rows_add_cols 0 0 w
          rw [labW_o, List.length_map, shapeW_length]
          simp [colsW] at hw
          omega
        have := part_pos_of_lt h.1 (i := n - k) (by rw [List.length_cons]; omega)
        omega
      · exfalso
        rw [labW_a] at h
        have h1 := (kstrict_part (by omega) h.2.isPart).1 h.2.kstrict 0 (by show (k : Int) < n + k; omega)
        simp only [part, colsW, List.length_cons] at h1 hw
        simp at h1
        omega
      · exact ⟨w, rfl⟩
  · rintro ⟨w', rfl⟩
    have := clsBC_labW (.a :: w')
    rw [labW_a] at this
    simp only [colsW, List.length_cons] at hw this
    rw [labW_b, ← hw.1, ← hw.2]
    push_cast at this ⊢
    rw [show (w'.length : Int) + 1 + colsW 0 w' = w'.length + colsW 0 w' + 1 by ring]
    exact this

theorem head_iff {n k : Nat} (hn : 0 < n) {u : List L3} (hu : u ∈ Wd n k) :
    part (labW u) 0 = (n : Int) + k ↔ ∃ u', u = .a :: u' := by
  rw [mem_Wd] at hu
  constructor
  · intro h
    cases u with
    | nil => simp at hu; omega
    | cons q u =>
      simp only [List.length_cons] at hu
      cases q
      · exfalso
        rw [labW_o, part_map_succ] at h
        have := (inBoxW 0 0 u).cols
        simp only [colsW] at hu
        split at h <;> omega
      · exact ⟨u, rfl⟩
      · exfalso
        rw [labW_b] at h
        have := (clsBC_labW u).2.cols
        simp only [colsW] at hu
        omega
  · rintro ⟨u', rfl⟩
    rw [labW_a]
    simp only [part, colsW, List.length_cons] at hu ⊢
    simp
    omega

/-! ### Expressions from matrices -/

section
variable {ι : Type*} [DecidableEq ι] {W : Finset ι} {lab : ι → List Int}

theorem monoDen_q (d : Nat) (l : List Int) :
    monoDen (List.replicate d Sym.q ++ [Sym.S l]) = MvPolynomial.X Sym.q ^ d * MvPolynomial.X (Sym.S l) := by
  simp [monoDen]

open MvPolynomial in
/-- an expression described by its terms is the row of a matrix -/
theorem den_isTerms {T : Mono → List Int → ℚ → Prop} {e : Poly} (h : IsTerms T e)
    (hinj : ∀ u ∈ W, ∀ w ∈ W, lab u = lab w → u = w) (m : ι → Polynomial ℚ)
    (h1 : ∀ qs x c, T qs x c → ∃ d, qs = List.replicate d Sym.q ∧ ∃ w ∈ W, lab w = x ∧ (m w).coeff d = c)
    (h2 : ∀ w ∈ W, ∀ d, (m w).coeff d ≠ 0 → T (List.replicate d Sym.q) (lab w) ((m w).coeff d)) :
    den e = ∑ w ∈ W, inq (m w) * X (.S (lab w)) := by
  classical
  have e1 : ∀ w, inq (m w) * X (.S (lab w)) = ∑ d ∈ (m w).support, C ((m w).coeff d) * monoDen (List.replicate d Sym.q ++ [Sym.S (lab w)]) := by
    intro w
    rw [inq, Polynomial.aeval_eq_sum_range, Finset.sum_mul]
    rw [Finset.sum_subset (Polynomial.supp_subset_range_natDegree_succ)]
    · apply Finset.sum_congr rfl
      intro d _
      rw [monoDen_q, MvPolynomial.smul_eq_C_mul, mul_assoc]
    · intro d _ hd
      rw [Polynomial.notMem_support_iff.1 hd]; simp
  simp only [e1]
  rw [Finset.sum_sigma' W (fun w => (m w).support)]
  unfold den
  have hnd : e.Nodup := List.Nodup.of_map _ h.1.1
  rw [← List.sum_toFinset _ hnd]
  symm
  refine Finset.sum_bij (fun p _ => (List.replicate p.2 Sym.q ++ [Sym.S (lab p.1)], (m p.1).coeff p.2)) ?_ ?_ ?_ ?_
  · rintro ⟨w, d⟩ hp
    obtain ⟨hw, hd⟩ := Finset.mem_sigma.1 hp
    rw [List.mem_toFinset, h.2]
    exact ⟨_, _, _, h2 w hw d (Polynomial.mem_support_iff.1 hd), rfl⟩
  · rintro ⟨w, d⟩ hp ⟨w', d'⟩ hp' heq
    obtain ⟨hw, hd⟩ := Finset.mem_sigma.1 hp
    obtain ⟨hw', hd'⟩ := Finset.mem_sigma.1 hp'
    simp only [Prod.mk.injEq] at heq
    obtain ⟨h3, h4⟩ := List.append_inj' heq.1 rfl
    have h5 := congrArg List.length h3
    simp only [List.length_replicate] at h5
    simp only [List.cons.injEq, Sym.S.injEq, and_true] at h4
    have h6 := hinj w hw w' hw' h4
    subst h5; subst h6; rfl
  · rintro t ht
    rw [List.mem_toFinset, h.2] at ht
    obtain ⟨qs, x, c, hT, rfl⟩ := ht
    obtain ⟨d, rfl, w, hw, rfl, rfl⟩ := h1 qs x c hT
    refine ⟨⟨w, d⟩, Finset.mem_sigma.2 ⟨hw, ?_⟩, rfl⟩
    rw [Polynomial.mem_support_iff]
    exact (h.1.2 _ ((h.2 _).2 ⟨_, _, _, hT, rfl⟩)).1
  · rintro ⟨w, d⟩ _; rfl

end

/-! ### The matrices of the quantum Pieri rule of type B -/

/-- the factor `1/2` of the large special classes -/
def scB (k p : Nat) : ℚ := if p ≤ k then 1 else 1 / 2

theorem scB_ne (k p : Nat) : scB k p ≠ 0 := by
  unfold scB; split <;> norm_num

theorem termB_word_iff {n k : Nat} (hk : k ≤ n) (p : Nat) {l mu : List Int} (hl : InBox k n 0 l) (hm : clsBC n k mu) (c : ℚ) :
    TermB k n p l mu c ↔ gcf false k p l mu ≠ 0 ∧ c = scB k p * gcf false k p l mu := by
  have hcc : PieriArrow k 0 l mu → countComps l mu false k 0 = numComps k 0 l mu := fun e =>
    (countComps_numComps hl hm.2 (Or.inl rfl) (by omega) (by omega) ((shapeRel_iff hl hm.2 (Or.inl rfl) (by omega) (by omega)).2 e)).1
  constructor
  · rintro ⟨_, _, h1, h2, e, h3, rfl⟩
    rw [(gcf_arrow hk hl hm.2).1 ⟨h2, h1⟩, hcc h2, h3]
    refine ⟨by positivity, ?_⟩
    unfold scB
    by_cases hp : p ≤ k
    · rw [if_pos hp, if_pos (by omega), one_mul]
    · rw [if_neg hp, if_neg (by omega), pow_succ]; ring
  · rintro ⟨h1, rfl⟩
    obtain ⟨h2, h3⟩ := gcf_ne hk hl hm.2 h1
    refine ⟨hm.1, hm.2, h3, h2, ?_⟩
    rw [(gcf_arrow hk hl hm.2).1 ⟨h2, h3⟩, hcc h2]
    unfold scB
    by_cases hp : p ≤ k
    · rw [if_pos hp]
      exact ⟨_, by rw [if_pos (by omega)], by rw [one_mul]⟩
    · rw [if_neg hp]
      obtain ⟨w, R, _, _, _, h4, h5, _⟩ := pieriB_terms p hl (by omega) (by omega)
      have := h5 mu ((h4 mu).2 ⟨hm.1, hm.2, h3, h2⟩) (by omega)
      rw [hcc h2] at this
      obtain ⟨e, he⟩ : ∃ e, numComps k 0 l mu = e + 1 := ⟨_, (Nat.succ_pred_eq_of_pos this).symm⟩
      refine ⟨e, by rw [if_neg (by omega), he], ?_⟩
      rw [he, pow_succ]; ring

open Polynomial in
/-- the matrices of the quantum Pieri rule of type B -/
noncomputable def MQB (k : Nat) (p : Nat) (u w : List L3) : Polynomial ℚ :=
  C (scB k p) * (opQ (C 2) (C X) (C (if k = 0 then X else X ^ 2)) (X : (Polynomial ℚ)[X]) u w).coeff p

/-- the coefficients of the first kind of quantum terms -/
noncomputable def gq1 (k p : Nat) (u w : List L3) : ℚ :=
  match aOf w with
  | some w' => gcf false k p (labW u) (labW (.o :: w'))
  | none => 0

/-- the coefficients of the second kind of quantum terms -/
noncomputable def gq2 (k p : Nat) : List L3 → List L3 → ℚ
  | .a :: u, .b :: w => gcf false k p (labW u) (labW (.a :: w))
  | _, _ => 0

open Polynomial in
theorem MQB_eq (p : Nat) {n k : Nat} {u w : List L3} (hu : u ∈ Wd n k) (hw : w ∈ Wd n k) :
    MQB k p u w = C (scB k p * gcf false k p (labW u) (labW w)) + C (scB k p * gq1 k p u w) * X +
      C (scB k p * gq2 k p u w) * (if k = 0 then X else X ^ 2) := by
  rw [mem_Wd] at hu hw
  unfold MQB
  have e2 : (C 2 : (Polynomial ℚ)[X]) = 2 := map_ofNat _ 2
  rw [opQ_eq _ _ _ _ (by omega), coeff_add, coeff_add, coeff_C_mul, coeff_C_mul, e2, (coeff_wt p (by omega) (by omega)).2]
  have e3 : (wtQ (2 : (Polynomial ℚ)[X]) X u w).coeff p = C (gq1 k p u w) := by
    unfold wtQ gq1
    rcases ha : aOf w with _ | w'
    · simp
    · obtain ⟨h1, h2⟩ := aOf_length ha
      simp only
      rw [(coeff_wt p (by simp; omega) (by simp only [colsW]; omega)).2, labW_b]
      simp only [colsW, hu.2]
  have e4 : (wtP (2 : (Polynomial ℚ)[X]) X u w).coeff p = C (gq2 k p u w) := by
    unfold wtP gq2
    split
    · simp only [List.length_cons, colsW] at hu hw
      rw [(coeff_wt p (by simp; omega) (by simp only [colsW]; omega)).2, labW_b]
      simp only [colsW, hu.2]
    · simp
  rw [e3, e4, hu.2]
  simp only [C_mul]
  ring

theorem gq1_zero {n p : Nat} {u w : List L3} (hw : w ∈ Wd n 0) : gq1 0 p u w = 0 := by
  rw [mem_Wd] at hw
  unfold gq1
  rcases ha : aOf w with _ | w'
  · rfl
  · have := (aOf_length ha).2
    omega

theorem gq1_ne {n k p : Nat} (hk : 0 < k) {u w : List L3} (hu : u ∈ Wd n k) (hw : w ∈ Wd n k) (c : ℚ) :
    (gq1 k p u w ≠ 0 ∧ c = scB k p * gq1 k p u w) ↔
      ∃ nu, TermB k (n + 1) p (labW u) nu c ∧ Tilde ((n : Int) - k + 1) (n + k) nu (labW w) := by
  have hkn : k ≤ n := by have := rows_add_cols 0 0 u; rw [mem_Wd] at hu; omega
  have hub : InBox k (n + 1 : Nat) 0 (labW u) := by
    push_cast; exact inBox_mono ((Wd_cls hkn _).2 ⟨u, hu, rfl⟩).2
  have hcl : ∀ w', aOf w = some w' → clsBC (n + 1) k (labW (.o :: w')) := by
    intro w' ha
    obtain ⟨h1, h2⟩ := aOf_length ha
    rw [mem_Wd] at hw
    have := clsBC_labW (.o :: w')
    simp only [List.length_cons, colsW] at this
    rwa [h1, hw.1, ← h2, hw.2] at this
  have ht := fun nu => termB_word_iff (n := n + 1) (by omega) p (l := labW u) (mu := nu) hub
  push_cast at ht
  constructor
  · rintro ⟨h1, rfl⟩
    unfold gq1 at h1 ⊢
    rcases ha : aOf w with _ | w'
    · rw [ha] at h1; exact absurd rfl h1
    · rw [ha] at h1
      exact ⟨_, (ht _ (hcl w' ha) _).2 ⟨h1, rfl⟩, (tilde_iff hk hw (hcl w' ha)).2 ⟨w', ha, rfl⟩⟩
  · rintro ⟨nu, h1, h2⟩
    have hnu : clsBC (n + 1) k nu := ⟨h1.1, by push_cast; exact h1.2.1⟩
    obtain ⟨w', ha, rfl⟩ := (tilde_iff hk hw hnu).1 h2
    unfold gq1
    rw [ha]
    exact (ht _ hnu _).1 h1

theorem gq2_ne {n k p : Nat} (hn : 0 < n) {u w : List L3} (hu : u ∈ Wd n k) (hw : w ∈ Wd n k) (c : ℚ) :
    (gq2 k p u w ≠ 0 ∧ c = scB k p * gq2 k p u w) ↔
      part (labW u) 0 = (n : Int) + k ∧ TermB k n p (labW u).tail (((n : Int) + k) :: labW w) c := by
  have hkn : k ≤ n := by have := rows_add_cols 0 0 u; rw [mem_Wd] at hu; omega
  by_cases h1 : ∃ u', u = .a :: u'
  · obtain ⟨u', rfl⟩ := h1
    by_cases h2 : ∃ w', w = .b :: w'
    · have hcl := (cons_iff hn hw).2 h2
      obtain ⟨w', rfl⟩ := h2
      have e1 : ((n : Int) + k) :: labW (.b :: w') = labW (.a :: w') := by
        rw [mem_Wd] at hw
        simp only [List.length_cons, colsW] at hw
        rw [labW_a, labW_b, hw.2, ← hw.1]
        congr 1
        push_cast; ring
      have e2 : (labW (.a :: u')).tail = labW u' := by rw [labW_a]; rfl
      have hub : InBox k n 0 (labW u') := by
        have := ((Wd_cls hkn _).2 ⟨_, hu, rfl⟩)
        rw [labW_a] at this
        exact (cls_tail this).2.2.2
      rw [e1] at hcl ⊢
      rw [e2, termB_word_iff hkn p hub hcl]
      show (gcf false k p (labW u') (labW (.a :: w')) ≠ 0 ∧ _) ↔ _
      rw [and_iff_right ((head_iff hn hu).2 ⟨u', rfl⟩)]
      rfl
    · have e : gq2 k p (.a :: u') w = 0 := by
        unfold gq2
        split
        · rename_i heq1 heq2
          exact absurd ⟨_, rfl⟩ h2
        · rfl
      rw [e]
      constructor
      · rintro ⟨h, _⟩; exact absurd rfl h
      · rintro ⟨_, h⟩
        exact absurd ((cons_iff hn hw).1 ⟨h.1, h.2.1⟩) h2
  · have e : gq2 k p u w = 0 := by
      unfold gq2
      split
      · exact absurd ⟨_, rfl⟩ h1
      · rfl
    rw [e, head_iff hn hu]
    constructor
    · rintro ⟨h, _⟩; exact absurd rfl h
    · rintro ⟨h, _⟩; exact absurd h h1

/-- the exponent of `q` of the second kind of quantum terms -/
def qexp (k : Nat) : Nat := if k = 0 then 1 else 2

open Polynomial in
theorem MQB_coeff (p : Nat) {n k : Nat} {u w : List L3} (hu : u ∈ Wd n k) (hw : w ∈ Wd n k) (d : Nat) :
    (MQB k p u w).coeff d = (if d = 0 then scB k p * gcf false k p (labW u) (labW w) else 0) +
      (if d = 1 then scB k p * gq1 k p u w else 0) + (if d = qexp k then scB k p * gq2 k p u w else 0) := by
  rw [MQB_eq p hu hw, coeff_add, coeff_add, coeff_C, coeff_C_mul, coeff_C_mul, coeff_X]
  have e : (if k = 0 then X else X ^ 2 : Polynomial ℚ) = X ^ qexp k := by unfold qexp; split <;> simp
  rw [e, coeff_X_pow]
  simp only [eq_comm (a := 1)]
  congr 1
  · congr 1
    split <;> simp
  · split <;> simp

open MvPolynomial in
theorem ret_qB (n k : Nat) (hkn : k < n) (p : Nat) {l : List Int} (hl : clsBC n k l) :
    Returns (qpieriB p l k n) (ev (tM (Wd n k) labW (MQB k) p l)) := by
  have hk : k ≤ n := by omega
  have hn : 0 < n := by omega
  obtain ⟨u, hu, rfl⟩ := (Wd_cls hk l).1 hl
  obtain ⟨e, h1, h2⟩ := qpieriB_ret p hl.2 hl.1 (by omega) (by omega) (by omega)
  refine ⟨e, h1, h2.1, ?_⟩
  rw [ev_tM (MQB k) Wd_inj p hu]
  have key0 : ∀ w ∈ Wd n k, ∀ c, (gcf false k p (labW u) (labW w) ≠ 0 ∧ c = scB k p * gcf false k p (labW u) (labW w)) ↔
      TermB k n p (labW u) (labW w) c := fun w hw c =>
    (termB_word_iff hk p hl.2 ((Wd_cls hk _).2 ⟨w, hw, rfl⟩) c).symm
  have hq : (if k = 0 then [Sym.q] else [Sym.q, Sym.q]) = List.replicate (qexp k) Sym.q := by
    unfold qexp; split <;> rfl
  have hq0 : qexp k ≠ 0 := by unfold qexp; split <;> simp
  apply den_isTerms h2 Wd_inj
  · rintro qs x c (⟨rfl, h⟩ | ⟨h0, rfl, nu, h3, h4⟩ | ⟨rfl, h3, h4⟩)
    · obtain ⟨w, hw, rfl⟩ := (Wd_cls hk x).1 ⟨h.1, h.2.1⟩
      refine ⟨0, rfl, w, hw, rfl, ?_⟩
      rw [MQB_coeff p hu hw, ((key0 w hw c).2 h).2, if_pos rfl, if_neg (by omega), if_neg (by omega)]
      ring
    · have hx : clsBC n k x := by
        have hr : ReducedPart x := by
          have e1 := h4.2.2
          constructor
          · have := h3.1.1
            rw [e1] at this
            exact ((List.pairwise_cons.1 this).2.sublist (List.sublist_append_left _ _))
          · intro z hz
            exact h3.1.2 z (by rw [e1]; simp [hz])
        have e0 := h3.2.1
        have hpt : ∀ i, i < x.length → part x i = part nu (i + 1) := by
          intro i hi
          rw [h4.2.2]
          show x.getD i 0 = (x ++ _).getD i 0
          rw [List.getD_append _ _ _ _ hi]
        have hlen : (x.length : Int) + 1 ≤ n - k + 1 := by
          rw [← h4.1, h4.2.2]; simp
        refine ⟨hr, hr.isPartition, ?_, fun r h5 => part_of_ge (by omega), ?_⟩
        · rw [kstrict_part (by omega) hr.isPartition]
          intro i hi
          have hix : i < x.length := by
            by_contra hc
            rw [part_of_ge (by omega)] at hi; omega
          by_cases hi1 : i + 1 < x.length
          · rw [hpt _ hi1, hpt _ hix]
            rw [hpt _ hix] at hi
            exact (kstrict_part (by omega) e0.isPart).1 e0.kstrict (i + 1) hi
          · rw [part_of_ge (by omega)]; omega
        · by_cases hx0 : 0 < x.length
          · rw [hpt 0 hx0]
            have := e0.isPart.part_anti (show 0 ≤ 0 + 1 by omega)
            have := h4.2.1
            omega
          · rw [part_of_ge (by omega)]; omega
      obtain ⟨w, hw, rfl⟩ := (Wd_cls hk x).1 hx
      refine ⟨1, rfl, w, hw, rfl, ?_⟩
      rw [MQB_coeff p hu hw, ((gq1_ne h0 hu hw c).2 ⟨nu, h3, h4⟩).2, if_neg (by omega), if_pos rfl,
        if_neg (by unfold qexp; rw [if_neg (by omega)]; omega)]
      ring
    · obtain ⟨w, hw, rfl⟩ := (Wd_cls hk x).1 (cls_tail ⟨h4.1, h4.2.1⟩).2.2
      refine ⟨qexp k, hq, w, hw, rfl, ?_⟩
      rw [MQB_coeff p hu hw, ((gq2_ne hn hu hw c).2 ⟨h3, h4⟩).2, if_neg hq0, if_pos rfl]
      have : (if qexp k = 1 then scB k p * gq1 k p u w else 0) = 0 := by
        split
        · rename_i h5
          have : k = 0 := by
            by_contra hc
            simp [qexp, hc] at h5
          subst this
          rw [gq1_zero hw, mul_zero]
        · rfl
      rw [this]; ring
  · intro w hw d hd
    rw [MQB_coeff p hu hw] at hd ⊢
    have hs := scB_ne k p
    by_cases hd0 : d = 0
    · subst hd0
      rw [if_pos rfl, if_neg (by omega), if_neg (by omega), add_zero, add_zero] at hd ⊢
      refine Or.inl ⟨rfl, (key0 w hw _).1 ⟨right_ne_zero_of_mul hd, rfl⟩⟩
    · rw [if_neg hd0, zero_add] at hd ⊢
      rcases Nat.eq_zero_or_pos k with hk0 | hk0
      · subst hk0
        have : (if d = 1 then scB 0 p * gq1 0 p u w else 0) = 0 := by
          split
          · rw [gq1_zero hw, mul_zero]
          · rfl
        rw [this, zero_add] at hd ⊢
        split at hd
        · rename_i h5
          subst h5
          rw [if_pos rfl]
          exact Or.inr (Or.inr ⟨hq.symm, (gq2_ne hn hu hw _).1 ⟨right_ne_zero_of_mul hd, rfl⟩⟩)
        · exact absurd rfl hd
      · have hq2 : qexp k = 2 := by unfold qexp; rw [if_neg (by omega)]
        by_cases h5 : d = 1
        · subst h5
          rw [if_pos rfl, if_neg (by omega), add_zero] at hd ⊢
          exact Or.inr (Or.inl ⟨hk0, rfl, (gq1_ne hk0 hu hw _).1 ⟨right_ne_zero_of_mul hd, rfl⟩⟩)
        · rw [if_neg h5, zero_add] at hd ⊢
          split at hd
          · rename_i h6
            subst h6
            rw [if_pos rfl]
            exact Or.inr (Or.inr ⟨hq.symm, (gq2_ne hn hu hw _).1 ⟨right_ne_zero_of_mul hd, rfl⟩⟩)
          · exact absurd rfl hd

/-! ### The system -/

theorem opQ_map {R S : Type*} [CommRing R] [CommRing S] (φ : R →+* S) (c h h' x : R) (u w : List L3) :
    φ (opQ c h h' x u w) = opQ (φ c) (φ h) (φ h') (φ x) u w := by
  cases u with
  | nil => cases w <;> simp [opQ]
  | cons p u =>
    cases w with
    | nil => cases p <;> simp [opQ]
    | cons q w => cases p <;> cases q <;> simp [opQ, wt_map]

theorem opQ_cols {R : Type*} [CommRing R] (c h h' x : R) {u w : List L3} (hl : u.length = w.length)
    (hc : colsW 0 u ≠ colsW 0 w) : opQ c h h' x u w = 0 := by
  rw [opQ_eq c h h' x hl, (wt_pieri x hl).1 hc]
  have e1 : wtQ c x u w = 0 := by
    unfold wtQ
    rcases ha : aOf w with _ | w'
    · rfl
    · obtain ⟨h1, h2⟩ := aOf_length ha
      exact (wt_pieri x (u := .b :: u) (w := .o :: w') (by simp; omega)).1 (by simp only [colsW]; omega) c
  have e2 : wtP c x u w = 0 := by
    unfold wtP
    split
    · rename_i u w
      simp only [colsW, List.length_cons] at hl hc
      exact (wt_pieri x (u := .b :: u) (w := .a :: w) (by simp; omega)).1 (by simp only [colsW]; omega) c
    · rfl
  rw [e1, e2]; ring

open Polynomial in
theorem coeffQ_comm {S : Type*} [CommRing S] [IsDomain S] (c h h' : S) (a b : Nat) {n k : Nat} (hh : h' = h ^ 2 ∨ k = 0)
    {u v : List L3} (hu : u ∈ Wd n k) (hv : v ∈ Wd n k) :
    ∑ w ∈ Wd n k, (opQ (C c) (C h) (C h') X u w).coeff a * (opQ (C c) (C h) (C h') X w v).coeff b =
    ∑ w ∈ Wd n k, (opQ (C c) (C h) (C h') X u w).coeff b * (opQ (C c) (C h) (C h') X w v).coeff a := by
  rw [mem_Wd] at hu hv
  have hx : (C (X : S[X]) : S[X][X]) ≠ 0 := by simp [X_ne_zero]
  have hy : (X : S[X][X]) ≠ 0 := X_ne_zero
  have hxy : (C (X : S[X]) : S[X][X]) + X ≠ 0 := by
    intro h0
    have := congrArg (fun f => coeff f 1) h0
    simp at this
  have H := opQ_comm (C (C c)) (h := C (C h)) (h' := C (C h')) hx hy hxy (show u.length = v.length by omega) (by
    rcases hh with rfl | rfl
    · left; simp
    · right; exact ⟨hu.2, hv.2⟩)
  rw [hu.1, sumW_Wd (k := k) _ (fun w h1 h2 => by rw [opQ_cols _ _ _ _ (by omega) (by omega), zero_mul]),
    sumW_Wd (k := k) _ (fun w h1 h2 => by rw [opQ_cols _ _ _ _ (by omega) (by omega), zero_mul])] at H
  have e1 : ∀ u w, opQ (C (C c)) (C (C h)) (C (C h')) (C (X : S[X])) u w = C (opQ (C c) (C h) (C h') X u w) :=
    fun u w => (opQ_map C _ _ _ _ u w).symm
  have e2 : ∀ u w, opQ (C (C c)) (C (C h)) (C (C h')) (X : S[X][X]) u w = (opQ (C c) (C h) (C h') X u w).map C := by
    intro u w
    have := opQ_map (mapRingHom (C : S →+* S[X])) (C c) (C h) (C h') X u w
    simpa using this.symm
  simp only [e1, e2] at H
  have H2 := congrArg (fun f : S[X][X] => (f.coeff b).coeff a) H
  simp only [finsetSum_coeff, coeff_C_mul, coeff_mul_C, coeff_map] at H2
  rw [H2]

theorem MQB_comm (n k a b : Nat) (u : List L3) (hu : u ∈ Wd n k) (v : List L3) (hv : v ∈ Wd n k) :
    ∑ w ∈ Wd n k, MQB k a u w * MQB k b w v = ∑ w ∈ Wd n k, MQB k b u w * MQB k a w v := by
  have := coeffQ_comm (2 : Polynomial ℚ) Polynomial.X (if k = 0 then Polynomial.X else Polynomial.X ^ 2) a b
    (n := n) (k := k) (by by_cases h : k = 0 <;> simp [h]) hu hv
  unfold MQB
  have e : ∀ c d x y : Polynomial ℚ, (c * x) * (d * y) = (c * d) * (x * y) := fun c d x y => by ring
  simp only [e, ← Finset.mul_sum]
  rw [this, mul_comm (Polynomial.C _)]

theorem gq1_sum {n k p : Nat} {u w : List L3} (hw : w ∈ Wd n k) (h : gq1 k p u w ≠ 0) :
    (labW w).sum + (n + k) = (labW u).sum + p := by
  rw [mem_Wd] at hw
  unfold gq1 at h
  rcases ha : aOf w with _ | w'
  · rw [ha] at h; exact absurd rfl h
  · rw [ha] at h
    obtain ⟨t, h1, h2⟩ := aOf_lab ha
    have h3 : (labW (.o :: w')).sum = (labW u).sum + p := by
      by_contra hc
      exact h (if_neg (fun hh => hc hh.2))
    rw [h2] at h3
    simp only [List.sum_cons, List.sum_append, List.sum_replicate, nsmul_eq_mul, mul_one] at h3
    omega

theorem gq2_sum {n k p : Nat} {u w : List L3} (hu : u ∈ Wd n k) (hw : w ∈ Wd n k) (h : gq2 k p u w ≠ 0) :
    (labW w).sum + 2 * (n + k) = (labW u).sum + p := by
  rw [mem_Wd] at hu hw
  unfold gq2 at h
  split at h
  · rename_i u' w'
    have h3 : (labW (.a :: w')).sum = (labW u').sum + p := by
      by_contra hc
      exact h (if_neg (fun hh => hc hh.2))
    simp only [colsW, List.length_cons] at hu hw
    rw [labW_a, List.sum_cons] at h3
    rw [labW_a, labW_b, List.sum_cons]
    omega
  · exact absurd rfl h

theorem step_QB {n k : Nat} (hk : k ≤ n) (hn : 0 < n) (p : Int) (l : List Int) (hc : clsBC n k (p :: l)) :
    1 ≤ p ∧ p ≤ (n + k : Nat) ∧ clsBC n k l ∧
      measBC n k l < measBC n k (p :: l) ∧ ∀ mu ∈ (tM (Wd n k) labW (MQB k) p.toNat l - Finsupp.single (p :: l) 1).support,
        clsBC n k mu ∧ measBC n k mu < measBC n k (p :: l) := by
  have hb : ∀ w ∈ Wd n k, InBox k n 0 (labW w) := fun w hw => ((Wd_cls hk _).2 ⟨w, hw, rfl⟩).2
  apply step_of_matrix hk
  · intro p _ _ u hu w hw hne
    by_cases h1 : gcf false k p (labW u) (labW w) = 0
    · right
      by_contra hc
      have e1 : gq1 k p u w = 0 := by
        by_contra h2
        have := gq1_sum hw h2
        omega
      have e2 : gq2 k p u w = 0 := by
        by_contra h2
        have := gq2_sum hu hw h2
        omega
      rw [MQB_eq p hu hw, h1, e1, e2] at hne
      simp at hne
    · exact Or.inl (gcf_ne hk (hb u hu) (hb w hw) h1)
  · intro p _ _ u hu w hw he
    have := hb w hw
    have hs : (labW w).sum = (labW u).sum + p := by rw [he, List.sum_cons]; ring
    have e1 : gq1 k p u w = 0 := by
      by_contra h2
      have := gq1_sum hw h2
      omega
    have e2 : gq2 k p u w = 0 := by
      by_contra h2
      have := gq2_sum hu hw h2
      omega
    rw [MQB_eq p hu hw, e1, e2]
    rw [he] at this ⊢
    rw [gcf_lead hk false (hb u hu) this]
    unfold scB
    by_cases hp : p ≤ k
    · rw [if_pos hp, if_neg (by omega)]; simp
    · rw [if_neg hp, if_pos ⟨rfl, by omega⟩]; simp
  · exact hc

/-- the quantum ring of `OG(n-k, 2n+1)` -/
noncomputable def sysQOG (n k : Nat) (hk : k < n) :
    GSys (fun p l => qpieriB p l k n) (n + k) (clsBC n k) where
  t := tM (Wd n k) labW (MQB k)
  closed := tM_closed (Nat.le_of_lt hk) _
  ret p _ _ _ hl := ret_qB n k hk p hl
  comm a b l _ _ _ _ := tM_comm (MQB k) Wd_inj (MQB_comm n k a b) l
  meas := measBC n k
  red _ h := h.1
  step := step_QB (Nat.le_of_lt hk) (by omega)

end Verif
