import Verif.Proofs.BruhatQ
/-!
# All powers of q in quantum products of Gr(m,n)

`q^d*S[nu]` is the loop `unrot^d nu` on a cylinder. Multiplication by `m` special classes leads from a loop `f` exactly to the loops between `f` and
`f` shifted by `n-m` columns.
-/

namespace Verif
open Spec Cyl

variable {m : ℕ} {k : ℤ}

theorem sh_inf (k : ℤ) (f g : Fin (m + 1) → ℤ) : sh k (f ⊓ g) = sh k f ⊓ sh k g := by
  funext i
  simp [sh, min_add_add_right]

theorem sh_le_iff {f g : Fin (m + 1) → ℤ} : sh k f ≤ sh k g ↔ f ≤ g := by
  rw [le_sh_iff, dn_sh]

theorem unrot_le_iff {f g : Fin (m + 1) → ℤ} : unrot k f ≤ unrot k g ↔ f ≤ g := by
  unfold unrot
  rw [sh_le_iff]
  constructor
  · intro h i
    have : f i + 1 ≤ g i + 1 := h i
    show f i ≤ g i
    omega
  · intro h i
    have : f i ≤ g i := h i
    show f i + 1 ≤ g i + 1
    omega

theorem unrot_sh (f : Fin (m + 1) → ℤ) : unrot k (sh k f) = sh k (unrot k f) := by
  unfold unrot
  congr 1
  funext i
  simp only [sh]
  ring

theorem unrotN_sh (d : ℕ) (f : Fin (m + 1) → ℤ) : (unrot k)^[d] (sh k f) = sh k ((unrot k)^[d] f) :=
  Function.Commute.iterate_left (f := unrot k) (g := sh k) (fun f => unrot_sh f) d f

theorem unrot_shN (j : ℕ) (f : Fin (m + 1) → ℤ) : unrot k ((sh k)^[j] f) = (sh k)^[j] (unrot k f) :=
  Function.Commute.iterate_right (f := unrot k) (g := sh k) (fun f => unrot_sh f) j f

theorem unrotN_mono (d : ℕ) {f g : Fin (m + 1) → ℤ} (h : f ≤ g) : (unrot k)^[d] f ≤ (unrot k)^[d] g := by
  induction d with
  | zero => exact h
  | succ d ih => rw [Function.iterate_succ_apply', Function.iterate_succ_apply', unrot_le_iff]; exact ih

theorem shN_mono (j : ℕ) {f g : Fin (m + 1) → ℤ} (h : f ≤ g) : (sh k)^[j] f ≤ (sh k)^[j] g := by
  induction j with
  | zero => exact h
  | succ d ih => rw [Function.iterate_succ_apply', Function.iterate_succ_apply', sh_le_iff]; exact ih

theorem shN_inf (j : ℕ) (f g : Fin (m + 1) → ℤ) : (sh k)^[j] (f ⊓ g) = (sh k)^[j] f ⊓ (sh k)^[j] g := by
  induction j with
  | zero => rfl
  | succ d ih => rw [Function.iterate_succ_apply', Function.iterate_succ_apply', Function.iterate_succ_apply', ih, sh_inf]

theorem le_shN {f : Fin (m + 1) → ℤ} (h : f ≤ sh k f) (j : ℕ) : f ≤ (sh k)^[j] f := by
  induction j with
  | zero => exact le_rfl
  | succ j ih =>
    rw [Function.iterate_succ_apply']
    exact h.trans (sh_mono ih)

theorem shN_le_add {f : Fin (m + 1) → ℤ} (h : f ≤ sh k f) (i j : ℕ) : (sh k)^[i] f ≤ (sh k)^[i + j] f := by
  rw [Function.iterate_add_apply]
  exact shN_mono i (le_shN h j)

theorem BoxV.le_sh {f : Fin (m + 1) → ℤ} (hf : BoxV k f) : f ≤ sh k f := by
  intro i
  refine Fin.cases ?_ (fun i => ?_) i
  · rw [sh_zero]
    have h1 := hf.first
    have h2 := hf.last
    show f 0 ≤ f (Fin.last m) + k
    omega
  · rw [sh_succ]; exact hf.anti i

theorem unrotN_nonneg (hk : 0 ≤ k) (d : ℕ) {f : Fin (m + 1) → ℤ} (hf : ∀ i, 0 ≤ f i) : ∀ i, 0 ≤ (unrot k)^[d] f i := by
  induction d with
  | zero => exact hf
  | succ d ih =>
    intro i
    rw [Function.iterate_succ_apply']
    refine Fin.cases ?_ (fun i => ?_) i
    · rw [unrot_zero]
      have := ih (Fin.last m)
      omega
    · rw [unrot, sh_succ]
      have := ih i.castSucc
      show 0 ≤ (unrot k)^[d] f i.castSucc + 1
      omega

theorem unrotN_first (hk : 0 ≤ k) {d : ℕ} (hd : d ≠ 0) {f : Fin (m + 1) → ℤ} (hf : ∀ i, 0 ≤ f i) : k < (unrot k)^[d] f 0 := by
  obtain ⟨d, rfl⟩ := Nat.exists_eq_succ_of_ne_zero hd
  rw [Function.iterate_succ_apply', unrot_zero]
  have := unrotN_nonneg hk d hf (Fin.last m)
  omega

/-- the loop of `q^d*S[nu]` -/
theorem unrotN_vec (nu : List Int) {d : ℕ} (hd : d ≤ m + 1) (i : Fin (m + 1)) :
    (unrot k)^[d] (vec m nu) i = if d ≤ i.1 then part nu (i - d) + d else part nu (m + 1 + i - d) + d + k := by
  induction d generalizing i with
  | zero => simp [vec]
  | succ d ih =>
    rw [Function.iterate_succ_apply']
    refine Fin.cases ?_ (fun i => ?_) i
    · rw [unrot_zero, ih (by omega), Fin.val_last, if_pos (by omega), Fin.val_zero, if_neg (by omega), show m + 1 + 0 - (d + 1) = m - d by omega]
      push_cast
      ring
    · rw [unrot, sh_succ]
      show (unrot k)^[d] (vec m nu) i.castSucc + 1 = _
      rw [ih (by omega), Fin.val_castSucc, Fin.val_succ]
      by_cases h : d ≤ i.1
      · rw [if_pos h, if_pos (by omega), show i.1 + 1 - (d + 1) = i.1 - d by omega]
        push_cast
        ring
      · rw [if_neg h, if_neg (by omega), show m + 1 + (i.1 + 1) - (d + 1) = m + 1 + i.1 - d by omega]
        push_cast
        ring

theorem shN_vec (l : List Int) {d : ℕ} (hd : d ≤ m + 1) (i : Fin (m + 1)) :
    (sh k)^[d] (vec m l) i = if d ≤ i.1 then part l (i - d) else part l (m + 1 + i - d) + k := by
  induction d generalizing i with
  | zero => simp [vec]
  | succ d ih =>
    rw [Function.iterate_succ_apply']
    refine Fin.cases ?_ (fun i => ?_) i
    · rw [sh_zero, ih (by omega), Fin.val_last, if_pos (by omega), Fin.val_zero, if_neg (by omega), show m + 1 + 0 - (d + 1) = m - d by omega]
    · rw [sh_succ, ih (by omega), Fin.val_castSucc, Fin.val_succ]
      by_cases h : d ≤ i.1
      · rw [if_pos h, if_pos (by omega), show i.1 + 1 - (d + 1) = i.1 - d by omega]
      · rw [if_neg h, if_neg (by omega), show m + 1 + (i.1 + 1) - (d + 1) = m + 1 + i.1 - d by omega]

theorem shN_full (l : List Int) (i : Fin (m + 1)) : (sh k)^[m + 1] (vec m l) i = part l i + k := by
  rw [shN_vec l le_rfl, if_neg (by omega), show m + 1 + i.1 - (m + 1) = i.1 by omega]

theorem upTo_rows (hk : 0 ≤ k) {l nu : List Int} (hl : clsA (m + 1) k l) (hn : clsA (m + 1) k nu) {d : ℕ}
    (hU : (unrot k)^[d] (vec m nu) ≤ (sh k)^[m + 1] (vec m l)) : d ≤ m + 1 := by
  by_contra hd
  obtain ⟨e, rfl⟩ : ∃ e, d = m + 1 + 1 + e := ⟨d - (m + 1 + 1), by omega⟩
  have hn0 := unrotN_nonneg hk e (boxV_vec hk hn).nonneg
  have h1 := hU 0
  rw [Function.iterate_add_apply, shN_full] at h1
  have h1 : (unrot k)^[m + 1 + 1] ((unrot k)^[e] (vec m nu)) 0 ≤ part l (0 : Fin (m + 1)).1 + k := h1
  have hN : ∀ (f : Fin (m + 1) → ℤ), (∀ i, 0 ≤ f i) → k + k < (unrot k)^[m + 1 + 1] f 0 := by
    intro f hf
    have h2 : ∀ (j : ℕ) (hj : j < m + 1) (i : Fin (m + 1)), i.1 ≤ j → k < (unrot k)^[j + 1] f i := by
      intro j
      induction j with
      | zero =>
        intro hj i hi
        obtain rfl : i = 0 := Fin.ext (by simpa using hi)
        exact unrotN_first hk (by omega) hf
      | succ j ihj =>
        intro hj i hi
        refine Fin.cases (fun _ => unrotN_first hk (by omega) hf) (fun i hi => ?_) i hi
        rw [Function.iterate_succ_apply', unrot, sh_succ]
        have := ihj (by omega) i.castSucc (by simpa using hi)
        show k < (unrot k)^[j + 1] f i.castSucc + 1
        omega
    rw [Function.iterate_succ_apply', unrot_zero]
    have := h2 m (by omega) (Fin.last m) (by simp)
    omega
  have h2 := hN _ hn0
  have h3 : part l (0 : Fin (m + 1)).1 ≤ k := (boxV_vec hk hl).first
  omega

theorem le_unrot (hk : 0 ≤ k) {f : Fin (m + 1) → ℤ} (hf : BoxV k f) : f ≤ unrot k f := by
  intro i
  refine Fin.cases ?_ (fun i => ?_) i
  · show f 0 ≤ unrot k f 0
    rw [unrot_zero]
    have := hf.first
    have := hf.last
    omega
  · rw [unrot, sh_succ]
    have := hf.anti i
    show f i.succ ≤ f i.castSucc + 1
    omega

theorem unrotN_le (hk : 0 ≤ k) {f : Fin (m + 1) → ℤ} (hf : BoxV k f) {a b : ℕ} (h : a ≤ b) : (unrot k)^[a] f ≤ (unrot k)^[b] f := by
  induction b, h using Nat.le_induction with
  | base => exact le_rfl
  | succ b _ ih =>
    refine ih.trans ?_
    rw [Function.iterate_succ_apply]
    exact unrotN_mono b (le_unrot hk hf)

/-- the loop of `q^d*S[nu]` is below the loop `f` moved by `j` rows -/
def UpTo (m : ℕ) (k : ℤ) (f : Fin (m + 1) → ℤ) (j d : ℕ) (nu : List Int) : Prop := (unrot k)^[d] (vec m nu) ≤ (sh k)^[j] f

section
variable (hk : 0 ≤ k) {pieri : Int → List Int → Except PyErr Poly} {K : ℤ}
  (Y : GiamSys K pieri (stdSpc k.toNat) (clsA (m + 1) k)) (hY : ∀ p, Y.t p = tq m k p.toNat)
include hk hY

theorem upTo_step {p : ℤ} {l mu : List Int} (hl : clsA (m + 1) k l) {b : ℕ} (h : (Y.t p l mu).coeff b ≠ 0) :
    (unrot k)^[b] (vec m mu) ≤ sh k (vec m l) := by
  obtain ⟨hm, ⟨rfl, h1⟩ | ⟨rfl, h1⟩⟩ := leQ_term hk Y hY hl h
  · exact (mem_Om.1 h1).2.1
  · exact (mem_Om.1 h1).2.1

theorem upTo_lin {f : Fin (m + 1) → ℤ} {p : ℤ} {j : ℕ} {x : LMod} (hx : InQ (clsA (m + 1) k) (UpTo m k f j) x) :
    InQ (clsA (m + 1) k) (UpTo m k f (j + 1)) (lin (Y.t p) x) := by
  intro mu d h
  rw [lin_apply_sum, Polynomial.finset_sum_coeff] at h
  obtain ⟨l, hl, h1⟩ := Finset.exists_ne_zero_of_sum_ne_zero h
  rw [Polynomial.coeff_mul] at h1
  obtain ⟨⟨a, b⟩, hi, h2⟩ := Finset.exists_ne_zero_of_sum_ne_zero h1
  have h3 := hx l a (left_ne_zero_of_mul h2)
  have h4 := right_ne_zero_of_mul h2
  rw [Finset.mem_antidiagonal] at hi
  refine ⟨(leQ_term hk Y hY h3.1 h4).1, ?_⟩
  have h5 := unrotN_mono (k := k) a (upTo_step hk Y hY h3.1 h4)
  rw [unrotN_sh, ← Function.iterate_add_apply] at h5
  unfold UpTo
  rw [← hi, Function.iterate_succ_apply']
  exact h5.trans (sh_mono h3.2)

omit hk hY in
theorem upTo_mono {f : Fin (m + 1) → ℤ} (hf : f ≤ sh k f) {i j : ℕ} (h : i ≤ j) {x : LMod} (hx : InQ (clsA (m + 1) k) (UpTo m k f i) x) :
    InQ (clsA (m + 1) k) (UpTo m k f j) x := by
  intro mu d h1
  obtain ⟨h2, h3⟩ := hx mu d h1
  refine ⟨h2, h3.trans ?_⟩
  have := shN_le_add hf i (j - i)
  rwa [Nat.add_sub_cancel' h] at this

/-- a class with `r` rows is a polynomial of degree `r` in the special classes -/
theorem upTo_prod {f : Fin (m + 1) → ℤ} (hf : f ≤ sh k f) : ∀ l, clsA (m + 1) k l → ∀ (r i : ℕ) (y : LMod), part l r ≤ 0 →
    InQ (clsA (m + 1) k) (UpTo m k f i) y → InQ (clsA (m + 1) k) (UpTo m k f (i + r)) (Y.prod (Finsupp.single l 1) y) := by
  classical
  refine Y.G_induction (Q := fun l => ∀ (r i : ℕ) (y : LMod), part l r ≤ 0 →
    InQ (clsA (m + 1) k) (UpTo m k f i) y → InQ (clsA (m + 1) k) (UpTo m k f (i + r)) (Y.prod (Finsupp.single l 1) y)) ?_ ?_
  · intro _ r i y _ hy
    rw [GiamSys.one_prod]
    exact upTo_mono hf (by omega) hy
  · intro l hl h0 hp ht ih ihr r i y hr hy
    have e : Finsupp.single l 1 = lin (Y.t (hdK K l)) (Finsupp.single (tlK K l) 1) - Y.rest l := by
      rw [GiamSys.rest]
      simp [lin]
    have hst := supp_single (cls := clsA (m + 1) k) ht 1
    obtain ⟨a, l, rfl⟩ := List.exists_cons_of_ne_nil h0
    have hr1 : r ≠ 0 := by
      rintro rfl
      have : 0 < a := hl.1.2 a (by simp)
      have h2 : part (a :: l) 0 = a := by simp [part]
      omega
    obtain ⟨r, rfl⟩ := Nat.exists_eq_succ_of_ne_zero hr1
    have hpt : part l r ≤ 0 := by simpa [part] using hr
    have htl := (hdK_red (k := K) hl.1).2
    have hterm : ∀ mu d, (Y.rest (a :: l) mu).coeff d ≠ 0 → d = 0 ∧ part mu (r + 1) ≤ 0 := by
      intro mu d h
      rw [GiamSys.rest, Finsupp.sub_apply, Polynomial.coeff_sub] at h
      by_cases h1 : (Y.t (hdK K (a :: l)) (tlK K (a :: l)) mu).coeff d = 0
      · rw [h1, zero_sub, neg_ne_zero, Finsupp.single_apply] at h
        split at h
        · rename_i e
          rw [← e]
          rw [Polynomial.coeff_one] at h
          split at h
          · rename_i e; exact ⟨e, hr⟩
          · exact absurd rfl h
        · exact absurd (Polynomial.coeff_zero d) h
      · rw [htl] at h1 ht
        obtain ⟨hm, ⟨rfl, h2⟩ | ⟨rfl, h2⟩⟩ := leQ_term hk Y hY ht h1
        · refine ⟨rfl, ?_⟩
          by_cases hrm : r < m
          · have := (mem_Om.1 h2).2.1 (Fin.succ ⟨r, hrm⟩)
            rw [sh_succ] at this
            have h3 : part mu (r + 1) ≤ part l r := this
            omega
          · rw [part_of_ge (by have := hm.2.1; omega)]
        · exfalso
          have := (mem_Om.1 h2).2.1 0
          rw [sh_zero, unrot_zero] at this
          have this : vec m mu (Fin.last m) + 1 + k ≤ vec m l (Fin.last m) + k := this
          have h3 : vec m l (Fin.last m) = 0 := part_of_ge (by have := hl.2.1; simp at this ⊢; omega)
          have h4 := (boxV_vec hk hm).last
          rw [h3] at this
          omega
    rw [e, GiamSys.prod_sub_left, Y.prod_lin hp hst hy.supp]
    refine inQ_sub ?_ ?_
    · exact upTo_lin hk Y hY (ih r i y (by rw [htl]; exact hpt) hy)
    · rw [lmod_sum (Y.rest (a :: l)), GiamSys.prod_sum_left]
      refine inQ_sum _ _ (fun mu hmu => ?_)
      rw [Y.prod_smul_left]
      obtain ⟨d, hd⟩ : ∃ d, (Y.rest (a :: l) mu).coeff d ≠ 0 := by
        by_contra hc
        push Not at hc
        exact Finsupp.mem_support_iff.1 hmu (Polynomial.ext (by simpa using hc))
      have hconst : Y.rest (a :: l) mu = Polynomial.C ((Y.rest (a :: l) mu).coeff 0) := by
        ext d
        rw [Polynomial.coeff_C]
        split
        · rename_i e; rw [e]
        · rename_i e
          by_contra hc
          exact e (hterm mu d hc).1
      have h5 := (ihr mu hmu).2 (r + 1) i y (hterm mu d hd).2 hy
      rw [hconst]
      intro nu b hb
      rw [Finsupp.smul_apply, smul_eq_mul, Polynomial.coeff_C_mul] at hb
      exact h5 nu b (right_ne_zero_of_mul hb)

/-- from a loop to a loop between it and its shift by `j` rows with at most `j` special classes -/
theorem reachN : ∀ (j d : ℕ) (l nu : List Int), clsA (m + 1) k l → clsA (m + 1) k nu → vec m l ≤ (unrot k)^[d] (vec m nu) →
    (unrot k)^[d] (vec m nu) ≤ (sh k)^[j] (vec m l) →
      ∃ T : LMod →ₗ[Polynomial ℚ] LMod,
        (∀ x y : LMod, (∀ l ∈ x.support, clsA (m + 1) k l) → (∀ l ∈ y.support, clsA (m + 1) k l) → T (Y.prod x y) = Y.prod (T x) y) ∧
        (∀ x : LMod, (∀ l ∈ x.support, clsA (m + 1) k l) → ∀ l ∈ (T x).support, clsA (m + 1) k l) ∧
        (∀ x : LMod, (∀ l ∈ x.support, clsA (m + 1) k l) → PosQ x → PosQ (T x)) ∧ (T (Finsupp.single l 1) nu).coeff d ≠ 0 ∧
        ∀ (f : Fin (m + 1) → ℤ) (i : ℕ) (x : LMod), f ≤ sh k f → InQ (clsA (m + 1) k) (UpTo m k f i) x →
          InQ (clsA (m + 1) k) (UpTo m k f (i + j)) (T x) := by
  classical
  have hid : ∀ (j d : ℕ) (l nu : List Int), clsA (m + 1) k l → clsA (m + 1) k nu → vec m l = (unrot k)^[d] (vec m nu) →
      ∃ T : LMod →ₗ[Polynomial ℚ] LMod,
        (∀ x y : LMod, (∀ l ∈ x.support, clsA (m + 1) k l) → (∀ l ∈ y.support, clsA (m + 1) k l) → T (Y.prod x y) = Y.prod (T x) y) ∧
        (∀ x : LMod, (∀ l ∈ x.support, clsA (m + 1) k l) → ∀ l ∈ (T x).support, clsA (m + 1) k l) ∧
        (∀ x : LMod, (∀ l ∈ x.support, clsA (m + 1) k l) → PosQ x → PosQ (T x)) ∧ (T (Finsupp.single l 1) nu).coeff d ≠ 0 ∧
        ∀ (f : Fin (m + 1) → ℤ) (i : ℕ) (x : LMod), f ≤ sh k f → InQ (clsA (m + 1) k) (UpTo m k f i) x →
          InQ (clsA (m + 1) k) (UpTo m k f (i + j)) (T x) := by
    intro j d l nu hl hn h
    have hd : d = 0 := by
      by_contra hd
      have := unrotN_first hk hd (boxV_vec hk hn).nonneg
      rw [← h] at this
      have := (boxV_vec hk hl).first
      omega
    subst hd
    obtain rfl : l = nu := by rw [← lab_vec' hl, ← lab_vec' hn, h]; rfl
    exact ⟨LinearMap.id, fun _ _ _ _ => rfl, fun _ h => h, fun _ _ h => h, by simp, fun f i x hf hx => upTo_mono hf (by omega) hx⟩
  intro j
  induction j with
  | zero => exact fun d l nu hl hn h1 h2 => hid 0 d l nu hl hn (le_antisymm h1 h2)
  | succ j ih =>
    intro d l nu hl hn h1 h2
    have hb := boxV_vec hk hl
    have hbn := boxV_vec hk hn
    by_cases hne : vec m l = (unrot k)^[d] (vec m nu)
    · exact hid _ d l nu hl hn hne
    have hH : (unrot k)^[d] (vec m nu) ≤ sh k ((unrot k)^[d] (vec m nu)) := by
      rw [← unrotN_sh]
      exact unrotN_mono d hbn.le_sh
    have hH1 := unrotN_first (f := vec m nu) hk (d := d)
    have hH0 : d ≠ 0 → (unrot k)^[d] (vec m nu) = unrot k ((unrot k)^[d - 1] (vec m nu)) := by
      intro hd
      obtain ⟨d, rfl⟩ := Nat.exists_eq_succ_of_ne_zero hd
      rw [Function.iterate_succ_apply']
      rfl
    have hH2 : d = 0 → (unrot k)^[d] (vec m nu) 0 ≤ k := by
      rintro rfl
      exact hbn.first
    generalize hHdef : (unrot k)^[d] (vec m nu) = H at *
    generalize hgdef : H ⊓ sh k (vec m l) = g at *
    have hg1 : vec m l ≤ g := by rw [← hgdef]; exact le_inf h1 hb.le_sh
    have hg2 : g ≤ sh k (vec m l) := by rw [← hgdef]; exact inf_le_right
    have hg3 : g ≤ H := by rw [← hgdef]; exact inf_le_left
    have hg4 : H ≤ (sh k)^[j] g := by
      rw [← hgdef, shN_inf, ← Function.iterate_succ_apply]
      exact le_inf (le_shN hH j) h2
    have hgne : vec m l ≠ g := by
      intro e
      apply hne
      refine le_antisymm h1 ?_
      have key : ∀ i : ℕ, H ⊓ (sh k)^[i] (vec m l) ≤ vec m l := by
        intro i
        induction i with
        | zero => exact inf_le_right
        | succ i ih =>
          rw [Function.iterate_succ_apply']
          have h3 : H ⊓ sh k ((sh k)^[i] (vec m l)) ≤ sh k (vec m l) := by
            refine le_trans ?_ (sh_mono ih)
            rw [sh_inf]
            exact inf_le_inf_right _ hH
          calc H ⊓ sh k ((sh k)^[i] (vec m l)) ≤ H ⊓ sh k (vec m l) := le_inf inf_le_left h3
            _ = vec m l := by rw [hgdef, e]
      have := key (j + 1)
      rwa [inf_eq_left.2 h2] at this
    have s1 : ∑ i, vec m l i ≤ ∑ i, g i := Finset.sum_le_sum (fun i _ => hg1 i)
    have s2 : ∑ i, g i ≤ ∑ i, vec m l i + k := by
      rw [← sum_sh]
      exact Finset.sum_le_sum (fun i _ => hg2 i)
    obtain ⟨p, hp⟩ : ∃ p : ℕ, ∑ i, g i = ∑ i, vec m l i + p := ⟨(∑ i, g i - ∑ i, vec m l i).toNat, by omega⟩
    have hom : g ∈ Om k p (vec m l) := mem_Om.2 ⟨hg1, hg2, hp⟩
    have hp1 : 1 ≤ p := by
      by_contra hp0
      obtain rfl : p = 0 := by omega
      have e := (Finset.sum_eq_sum_iff_of_le (fun i _ => hg1 i)).1 (by simpa using hp.symm)
      exact hgne (funext fun i => e i (Finset.mem_univ i))
    -- the class of the strip
    obtain ⟨mu, a, d', hm, had, ht, hu1, hu2⟩ : ∃ mu a d', clsA (m + 1) k mu ∧ a + d' = d ∧ (Y.t p l mu).coeff a ≠ 0 ∧
        vec m mu ≤ (unrot k)^[d'] (vec m nu) ∧ (unrot k)^[d'] (vec m nu) ≤ (sh k)^[j] (vec m mu) := by
      by_cases h0 : g 0 ≤ k
      · have hbg := om_box hb hom h0
        refine ⟨lab g, 0, d, clsA_lab hbg, by omega, (tq_ne hk Y hY hl hbg).1 hom, ?_, ?_⟩
        · rw [vec_lab, hHdef]; exact hg3
        · rw [vec_lab, hHdef]; exact hg4
      · have hbg := om_rot_box hb hom (not_le.1 h0)
        have hd : d ≠ 0 := fun hd => by
          have := hH2 hd
          have : g 0 ≤ H 0 := hg3 0
          omega
        refine ⟨lab (rot k g), 1, d - 1, clsA_lab hbg, by omega, (tq_ne hk Y hY hl hbg).2 (by rwa [unrot_rot]), ?_, ?_⟩
        · rw [vec_lab, ← unrot_le_iff (k := k), unrot_rot, ← hH0 hd]
          exact hg3
        · rw [vec_lab, ← unrot_le_iff (k := k), unrot_shN, unrot_rot, ← hH0 hd]
          exact hg4
    have hsp : stdSpc k.toNat p := ⟨by omega, by omega⟩
    obtain ⟨T, t1, t2, t3, t4, t5⟩ := ih d' mu nu hm hn hu1 hu2
    refine ⟨T ∘ₗ lin (Y.t p), fun x y hx hy => ?_, fun x hx => t2 _ (lin_support (Y.closed _) x),
      fun x hx hxp => t3 _ (lin_support (Y.closed _) x) (posQ_lin (fun l hl => posQ_tq hk Y hY hl) hxp hx), ?_, fun f i x hf hx => ?_⟩
    · rw [LinearMap.comp_apply, LinearMap.comp_apply, ← Y.prod_lin hsp hx hy, t1 _ _ (lin_support (Y.closed _) x) hy]
    · have e : lin (Y.t p) (Finsupp.single l 1) = Y.t p l mu • Finsupp.single mu 1 + (Y.t p l).erase mu := by
        rw [show lin (Y.t p) (Finsupp.single l 1) = Y.t p l by simp [lin]]
        conv_lhs => rw [← Finsupp.single_add_erase mu (Y.t p l)]
        simp
      have f1 := posQ_tq hk Y hY (p := p) hl
      have pe : PosQ ((Y.t p l).erase mu) := by
        intro a
        rw [Finsupp.erase_apply]
        split
        · intro d; simp
        · exact f1 a
      have q1 := supp_single (cls := clsA (m + 1) k) hm 1
      have q2 : ∀ a ∈ ((Y.t p l).erase mu).support, clsA (m + 1) k a := by
        intro a ha
        rw [Finsupp.support_erase] at ha
        exact Y.closed p l a (Finset.mem_of_mem_erase ha)
      have f2 := t3 _ q1 (posQ_single mu) nu
      have f3 := t3 _ q2 pe nu d
      rw [LinearMap.comp_apply, e, map_add, map_smul, Finsupp.add_apply, Finsupp.smul_apply, smul_eq_mul, Polynomial.coeff_add]
      have := coeff_mul_pos (f1 mu) f2 (lt_of_le_of_ne (f1 mu a) (Ne.symm ht)) (lt_of_le_of_ne (f2 d') (Ne.symm t4))
      rw [had] at this
      exact ne_of_gt (add_pos_of_pos_of_nonneg this f3)
    · have := t5 f (i + 1) _ hf (upTo_lin hk Y hY (p := p) hx)
      rwa [show i + 1 + j = i + (j + 1) by omega] at this

/-- the powers of `q` in a product -/
theorem powers_iff {l mu : List Int} (hl : clsA (m + 1) k l) (hm : clsA (m + 1) k mu) (d : ℕ) :
    (∃ nu, (Y.prod (Finsupp.single l 1) (Finsupp.single mu 1) nu).coeff d ≠ 0) ↔
      vec m l ≤ (unrot k)^[d] (vec m (dualC m k mu)) ∧ (unrot k)^[d] (vec m (dualC m k mu)) ≤ (sh k)^[m + 1] (vec m l) := by
  have hcl : ∀ l, clsA (m + 1) k l → clsA (m + 1) k (dualC m k l) := fun l hl => clsA_dual hk hl
  have hdd : ∀ l, clsA (m + 1) k l → dualC m k (dualC m k l) = l := fun l hl => dualC_dualC hl
  have hpt : ∀ {l : List Int}, clsA (m + 1) k l → ∀ y : LMod, (∀ l ∈ y.support, clsA (m + 1) k l) →
      Y.prod (Finsupp.single l 1) y (dualC m k []) = y (dualC m k l) := by
    intro l hl y hy
    rw [GiamSys.prod_single]
    refine Y.dual_coeff (dualC m k) hcl hdd ?_ l hl y hy
    intro p l nu _ hl hn
    rw [hY]
    exact tq_adjoint hk p.toNat hn hl
  have s1 := supp_single (cls := clsA (m + 1) k) hl 1
  have s2 := supp_single (cls := clsA (m + 1) k) hm 1
  have hb := boxV_vec hk hl
  constructor
  · rintro ⟨nu, hnu⟩
    have hc : clsA (m + 1) k nu := Y.prod_support _ s2 nu (Finsupp.mem_support_iff.2 (fun h0 => hnu (by rw [h0, Polynomial.coeff_zero])))
    have eq := hpt (hcl nu hc) _ (Y.prod_support (Finsupp.single l 1) s2)
    rw [hdd nu hc, ← Y.prod_assoc _ s1 s2, Y.prod_comm (Y.prod_support _ s1) s2, hpt hm _ (Y.prod_support _ s1)] at eq
    rw [← eq] at hnu
    have hU := (upTo_prod hk Y hY hb.le_sh (dualC m k nu) (hcl nu hc) (m + 1) 0 (Finsupp.single l 1)
      (le_of_eq (part_of_ge (by have := (hcl nu hc).2.1; omega))) (inQ_single hl (le_refl (vec m l))) _ d hnu).2
    unfold UpTo at hU
    rw [Nat.zero_add] at hU
    refine ⟨?_, hU⟩
    have hI := ((prodQ_A hk Y hY (hcl nu hc) hl).2 d _ hnu).2.2
    -- the power is at most the number of rows
    have hdm : d ≤ m + 1 := upTo_rows hk hl (hcl mu hm) hU
    intro i
    rw [unrotN_vec _ hdm]
    have hn := (hcl mu hm).1.isPartition.part_nonneg (m + 1 + i.1 - d)
    have hli : vec m l i = part l i := rfl
    split
    · rename_i hi
      have := hI (i.1 - d)
      rw [Nat.sub_add_cancel hi] at this
      exact this
    · have := hb.le i
      show vec m l i ≤ part (dualC m k mu) (m + 1 + i.1 - d) + d + k
      omega
  · rintro ⟨h1, h2⟩
    obtain ⟨T, t1, t2, t3, t4, t5⟩ := reachN hk Y hY (m + 1) d l (dualC m k mu) hl (hcl mu hm) h1 h2
    have hnil : clsA (m + 1) k [] := ⟨⟨by simp, by simp⟩, by simp, by simp⟩
    have s0 := supp_single (cls := clsA (m + 1) k) hnil 1
    have sp := Y.prod_support (Finsupp.single l 1) s2
    have eq := t1 _ _ s1 s2
    rw [Y.prod_comm (t2 _ s1) s2] at eq
    have e2 := hpt hm _ (t2 _ s1)
    rw [← eq] at e2
    rw [← e2] at t4
    have e3 := t1 _ _ s0 sp
    rw [GiamSys.one_prod] at e3
    rw [e3] at t4
    have hv0 : ∀ i, vec m [] i = 0 := fun i => by simp [vec, part]
    have hI := t5 (vec m []) 0 _ (boxV_vec hk hnil).le_sh (inQ_single hnil (le_refl (vec m [])))
    have hconst : ∀ nu, T (Finsupp.single [] 1) nu = Polynomial.C ((T (Finsupp.single [] 1) nu).coeff 0) := by
      intro nu
      ext e
      rw [Polynomial.coeff_C]
      split
      · rename_i h; rw [h]
      · rename_i he
        by_contra hc
        obtain ⟨c1, c2⟩ := hI nu e hc
        unfold UpTo at c2
        rw [Nat.zero_add] at c2
        have c3 := c2 0
        rw [shN_full] at c3
        have c3 : (unrot k)^[e] (vec m nu) 0 ≤ part [] (0 : Fin (m + 1)).1 + k := c3
        have c4 := unrotN_first hk he (boxV_vec hk c1).nonneg
        have c5 : part ([] : List Int) (0 : Fin (m + 1)).1 = 0 := by simp [part]
        omega
    rw [lmod_sum (T (Finsupp.single [] 1)), GiamSys.prod_sum_left, Finsupp.finsetSum_apply, Polynomial.finset_sum_coeff] at t4
    obtain ⟨nu, hnu, h4⟩ := Finset.exists_ne_zero_of_sum_ne_zero t4
    have hcn := t2 _ s0 nu hnu
    rw [Y.prod_smul_left, Finsupp.smul_apply, smul_eq_mul, hconst, Polynomial.coeff_C_mul, hpt hcn _ sp] at h4
    exact ⟨_, right_ne_zero_of_mul h4⟩

end

end Verif
