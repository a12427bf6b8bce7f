import Verif.Proofs.WordBij
import Verif.Proofs.RingAbs
import Verif.Proofs.QPieriC
import Mathlib.Algebra.Polynomial.Coeff
/-!
# From commuting matrices to a `PSys`
-/

namespace Verif
open Spec

/-! ### Matrices indexed by a finite set -/

section
variable {ι : Type*} [DecidableEq ι] (W : Finset ι) (lab : ι → List Int) (M : Nat → ι → ι → Polynomial ℚ)

/-- the operators of a family of matrices -/
noncomputable def tM (p : Nat) (l : List Int) : LMod :=
  ∑ u ∈ W.filter (fun u => lab u = l), ∑ w ∈ W, Finsupp.single (lab w) (M p u w)

variable {W lab}

theorem tM_lab (hinj : ∀ u ∈ W, ∀ w ∈ W, lab u = lab w → u = w) (p : Nat) {u : ι} (hu : u ∈ W) :
    tM W lab M p (lab u) = ∑ w ∈ W, Finsupp.single (lab w) (M p u w) := by
  unfold tM
  have : W.filter (fun u' => lab u' = lab u) = {u} := by
    ext u'
    simp only [Finset.mem_filter, Finset.mem_singleton]
    exact ⟨fun h => hinj u' h.1 u hu h.2, fun h => by subst h; exact ⟨hu, rfl⟩⟩
  rw [this, Finset.sum_singleton]

theorem tM_ne (p : Nat) {l : List Int} (h : ∀ u ∈ W, lab u ≠ l) : tM W lab M p l = 0 := by
  unfold tM
  rw [Finset.filter_false_of_mem h, Finset.sum_empty]

theorem tM_apply (hinj : ∀ u ∈ W, ∀ w ∈ W, lab u = lab w → u = w) (p : Nat) {u w : ι} (hu : u ∈ W) (hw : w ∈ W) :
    tM W lab M p (lab u) (lab w) = M p u w := by
  rw [tM_lab M hinj p hu, Finsupp.finsetSum_apply, Finset.sum_eq_single w]
  · simp
  · intro w' hw' hne
    rw [Finsupp.single_eq_of_ne]
    intro h
    exact hne (hinj w' hw' w hw h.symm)
  · intro h; exact absurd hw h

theorem tM_support (p : Nat) (l : List Int) : ∀ mu ∈ (tM W lab M p l).support, ∃ u ∈ W, lab u = mu := by
  classical
  intro mu hmu
  by_contra hc
  push Not at hc
  rw [Finsupp.mem_support_iff] at hmu
  apply hmu
  unfold tM
  rw [Finsupp.finsetSum_apply]
  apply Finset.sum_eq_zero
  intro u _
  rw [Finsupp.finsetSum_apply]
  apply Finset.sum_eq_zero
  intro w hw
  exact Finsupp.single_eq_of_ne (hc w hw).symm

theorem tM_comm (hinj : ∀ u ∈ W, ∀ w ∈ W, lab u = lab w → u = w) {a b : Nat}
    (h : ∀ u ∈ W, ∀ v ∈ W, ∑ w ∈ W, M a u w * M b w v = ∑ w ∈ W, M b u w * M a w v) (l : List Int) :
    lin (tM W lab M a) (tM W lab M b l) = lin (tM W lab M b) (tM W lab M a l) := by
  by_cases hl : ∃ u ∈ W, lab u = l
  · obtain ⟨u, hu, rfl⟩ := hl
    have key : ∀ a b : Nat, lin (tM W lab M a) (tM W lab M b (lab u)) =
        ∑ v ∈ W, Finsupp.single (lab v) (∑ w ∈ W, M b u w * M a w v) := by
      intro a b
      rw [tM_lab M hinj b hu, map_sum]
      have : ∀ w ∈ W, lin (tM W lab M a) (Finsupp.single (lab w) (M b u w)) =
          ∑ v ∈ W, Finsupp.single (lab v) (M b u w * M a w v) := by
        intro w hw
        rw [lin, Finsupp.linearCombination_single, tM_lab M hinj a hw, Finset.smul_sum]
        apply Finset.sum_congr rfl
        intro v _
        rw [Finsupp.smul_single, smul_eq_mul]
      rw [Finset.sum_congr rfl this, Finset.sum_comm]
      apply Finset.sum_congr rfl
      intro v _
      rw [← Finsupp.single_finsetSum]
    rw [key, key]
    apply Finset.sum_congr rfl
    intro v hv
    rw [h u hu v hv]
  · push Not at hl
    rw [tM_ne M a hl, tM_ne M b hl, map_zero, map_zero]

open MvPolynomial in
theorem ev_tM (hinj : ∀ u ∈ W, ∀ w ∈ W, lab u = lab w → u = w) (p : Nat) {u : ι} (hu : u ∈ W) :
    ev (tM W lab M p (lab u)) = ∑ w ∈ W, inq (M p u w) * X (.S (lab w)) := by
  rw [tM_lab M hinj p hu, map_sum]
  apply Finset.sum_congr rfl
  intro w _
  rw [ev_single]

open MvPolynomial in
/-- a sum over a list of classes is a sum over the index set -/
theorem sum_labels {R : List (List Int)} (hR : R.Nodup) (hinj : ∀ u ∈ W, ∀ w ∈ W, lab u = lab w → u = w)
    (c : List Int → ℚ) (g : ι → ℚ) (h1 : ∀ mu ∈ R, ∃ w ∈ W, lab w = mu) (h2 : ∀ w ∈ W, lab w ∈ R → g w = c (lab w))
    (h3 : ∀ w ∈ W, lab w ∉ R → g w = 0) :
    (R.map (fun mu => (C (c mu) * X (.S mu) : P))).sum = ∑ w ∈ W, C (g w) * X (.S (lab w)) := by
  classical
  rw [← List.sum_toFinset _ hR]
  have e : R.toFinset = (W.filter (fun w => lab w ∈ R)).image lab := by
    ext mu
    rw [List.mem_toFinset, Finset.mem_image]
    constructor
    · intro h
      obtain ⟨w, hw, rfl⟩ := h1 mu h
      exact ⟨w, Finset.mem_filter.2 ⟨hw, h⟩, rfl⟩
    · rintro ⟨w, hw, rfl⟩
      exact (Finset.mem_filter.1 hw).2
  rw [e, Finset.sum_image (fun u hu w hw => hinj u (Finset.mem_filter.1 hu).1 w (Finset.mem_filter.1 hw).1), Finset.sum_filter]
  apply Finset.sum_congr rfl
  intro w hw
  split
  · rename_i h; rw [h2 w hw h]
  · rename_i h; rw [h3 w hw h, map_zero, zero_mul]

end

/-! ### The words of a given length -/

/-- the words of length `n` -/
def words : Nat → List (List L3)
  | 0 => [[]]
  | n + 1 => (words n).map (.o :: ·) ++ (words n).map (.a :: ·) ++ (words n).map (.b :: ·)

theorem mem_words {n : Nat} {w : List L3} : w ∈ words n ↔ w.length = n := by
  induction n generalizing w with
  | zero => simp [words, List.length_eq_zero_iff]
  | succ n ih =>
    cases w with
    | nil => simp [words]
    | cons p w =>
      cases p <;> simp [words, ih]

theorem words_nodup (n : Nat) : (words n).Nodup := by
  induction n with
  | zero => simp [words]
  | succ n ih =>
    have hinj : ∀ p : L3, Function.Injective (fun w : List L3 => p :: w) := fun p a b h => by simpa using h
    have hd : ∀ p q : L3, p ≠ q → List.Disjoint ((words n).map (p :: ·)) ((words n).map (q :: ·)) := by
      intro p q hne w h1 h2
      rw [List.mem_map] at h1 h2
      obtain ⟨x, _, rfl⟩ := h1
      obtain ⟨y, _, h⟩ := h2
      injection h with h
      exact hne h.symm
    unfold words
    refine List.Nodup.append (List.Nodup.append (ih.map (hinj _)) (ih.map (hinj _)) (hd _ _ (by decide))) (ih.map (hinj _)) ?_
    rw [List.disjoint_append_left]
    exact ⟨hd _ _ (by decide), hd _ _ (by decide)⟩

theorem sumW_eq {R : Type*} [CommRing R] (n : Nat) (f : List L3 → R) : sumW n f = ((words n).map f).sum := by
  induction n generalizing f with
  | zero => simp [sumW, words]
  | succ n ih => simp [sumW, words, ih, List.map_map, Function.comp_def, add_assoc]

/-- the words of the classes of `(n, k)` -/
def Wd (n k : Nat) : Finset (List L3) := (words n).toFinset.filter (fun w => colsW 0 w = k)

theorem mem_Wd {n k : Nat} {w : List L3} : w ∈ Wd n k ↔ w.length = n ∧ colsW 0 w = k := by
  simp [Wd, mem_words]

theorem Wd_inj {n k : Nat} : ∀ u ∈ Wd n k, ∀ w ∈ Wd n k, labW u = labW w → u = w := by
  intro u hu w hw h
  rw [mem_Wd] at hu hw
  exact labW_inj (by omega) (by omega) h

theorem Wd_cls {n k : Nat} (hk : k ≤ n) (l : List Int) : clsBC n k l ↔ ∃ u ∈ Wd n k, labW u = l := by
  constructor
  · intro h
    obtain ⟨u, h1, h2, h3⟩ := labW_surj hk h
    exact ⟨u, mem_Wd.2 ⟨h1, h2⟩, h3⟩
  · rintro ⟨u, hu, rfl⟩
    rw [mem_Wd] at hu
    have := clsBC_labW u
    rwa [hu.1, hu.2] at this

theorem sumW_Wd {R : Type*} [CommRing R] {n k : Nat} (f : List L3 → R) (h : ∀ w, w.length = n → colsW 0 w ≠ k → f w = 0) :
    sumW n f = ∑ w ∈ Wd n k, f w := by
  rw [sumW_eq, ← List.sum_toFinset f (words_nodup n), Wd, Finset.sum_filter]
  apply Finset.sum_congr rfl
  intro w hw
  rw [List.mem_toFinset, mem_words] at hw
  split
  · rfl
  · rename_i hc; exact h w hw hc

/-! ### Coefficients of the transfer matrices -/

theorem endW_map {R S : Type*} [CommRing R] [CommRing S] (φ : R →+* S) (c x : R) (s : St) :
    φ (endW c x s) = endW (φ c) (φ x) s := by
  cases s <;> simp [endW]

theorem wt_map {R S : Type*} [CommRing R] [CommRing S] (φ : R →+* S) (c x : R) (s : St) (u w : List L3) :
    φ (wt c x s u w) = wt (φ c) (φ x) s u w := by
  induction u generalizing s w with
  | nil =>
    cases w with
    | nil => simp only [wt]; exact endW_map φ c x s
    | cons q w => simp [wt]
  | cons p u ih =>
    cases w with
    | nil => simp [wt]
    | cons q w =>
      simp only [wt]
      rcases step s p q with _ | ⟨t, i, j⟩
      · simp
      · simp only [map_mul, map_pow, ih, map_ofNat]

theorem opW_map {R S : Type*} [CommRing R] [CommRing S] (φ : R →+* S) (c h x : R) (u w : List L3) :
    φ (opW c h x u w) = opW (φ c) (φ h) (φ x) u w := by
  unfold opW
  rw [map_add, map_mul, wt_map, wt_map]

theorem wt_lr {R : Type*} [CommRing R] (c x : R) (u w : List L3) : wt c x .lr u w = wt c x .z (.b :: u) (.a :: w) := by
  simp [wt, step]

theorem opW_cols {R : Type*} [CommRing R] (c h x : R) {u w : List L3} (hl : u.length = w.length) (hc : colsW 0 u ≠ colsW 0 w) :
    opW c h x u w = 0 := by
  unfold opW
  rw [wt_lr, (wt_pieri x hl).1 hc, (wt_pieri x (u := .b :: u) (w := .a :: w) (by simp [hl])).1 (by simpa [colsW] using hc)]
  ring

open Polynomial in
/-- **The coefficients commute.** -/
theorem coeffW_comm {S : Type*} [CommRing S] [IsDomain S] (c h : S) (a b : Nat) {n k : Nat} {u v : List L3}
    (hu : u ∈ Wd n k) (hv : v ∈ Wd n k) :
    ∑ w ∈ Wd n k, (opW (C c) (C h) X u w).coeff a * (opW (C c) (C h) X w v).coeff b =
    ∑ w ∈ Wd n k, (opW (C c) (C h) X u w).coeff b * (opW (C c) (C h) X w v).coeff a := by
  rw [mem_Wd] at hu hv
  have hx : (C (X : S[X]) : S[X][X]) ≠ 0 := by simp [X_ne_zero]
  have hy : (X : S[X][X]) ≠ 0 := X_ne_zero
  have hxy : (C (X : S[X]) : S[X][X]) + X ≠ 0 := by
    intro h0
    have := congrArg (fun f => coeff f 1) h0
    simp at this
  have H := opW_comm (C (C c)) (C (C h)) hx hy hxy (show u.length = v.length by omega)
  rw [hu.1, sumW_Wd (k := k) _ (fun w h1 h2 => by rw [opW_cols _ _ _ (by omega) (by omega), zero_mul]),
    sumW_Wd (k := k) _ (fun w h1 h2 => by rw [opW_cols _ _ _ (by omega) (by omega), zero_mul])] at H
  have e1 : ∀ u w, opW (C (C c)) (C (C h)) (C (X : S[X])) u w = C (opW (C c) (C h) X u w) := fun u w => (opW_map C _ _ _ u w).symm
  have e2 : ∀ u w, opW (C (C c)) (C (C h)) (X : S[X][X]) u w = (opW (C c) (C h) X u w).map C := by
    intro u w
    have := opW_map (mapRingHom (C : S →+* S[X])) (C c) (C h) X u w
    simpa using this.symm
  simp only [e1, e2] at H
  have H2 := congrArg (fun f : S[X][X] => (f.coeff b).coeff a) H
  simp only [finsetSum_coeff, coeff_C_mul, coeff_mul_C, coeff_map] at H2
  rw [H2]

end Verif
