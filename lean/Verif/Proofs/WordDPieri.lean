import Verif.Proofs.WordDQ
import Verif.Proofs.WordPieri
/-!
# The transfer matrices of type D are the Pieri coefficients
-/

namespace Verif
open Spec

/-- `1` when the inner pair is left out -/
def L3.k0 : L3 → Nat
  | .o => 1
  | _ => 0

/-- `1` when the inner pair is not left out -/
def L3.r0 : L3 → Nat
  | .o => 0
  | _ => 1

theorem L3.k0_add_r0 (i : L3) : i.k0 + i.r0 = 1 := by cases i <;> rfl

/-- the partition of a word with an inner letter, with zeros at the end -/
def shD (U : WordD) : List Int := shapeW U.2.k0 U.2.r0 U.1

/-- the number `k` of a word with an inner letter -/
def colsD (U : WordD) : Nat := colsW U.2.k0 U.1

theorem inBox_shD (U : WordD) : InBox (colsD U) U.1.length 1 (shD U) := by
  have := inBoxW U.2.k0 U.2.r0 U.1
  rw [L3.k0_add_r0] at this
  exact_mod_cast this

theorem coded_shD (U : WordD) : Coded U.1.length (colsD U) 1 (shD U) (alW U.1) (beW U.1) (posW U.1) := by
  have := codedW U.2.k0 U.2.r0 (by rw [L3.k0_add_r0]) U.1
  rwa [L3.k0_add_r0] at this

theorem rows_add_colsD (U : WordD) : rowsW U.2.r0 U.1 + colsD U = U.1.length + 1 := by
  have := rows_add_cols U.2.k0 U.2.r0 U.1
  rwa [L3.k0_add_r0] at this

theorem shD_length (U : WordD) : (shD U).length = rowsW U.2.r0 U.1 := shapeW_length _ _ _

theorem wtE_run {R : Type*} [CommRing R] (e : St → R) (x : R) (s : St) (u w : List L3) : wtE e x s u w =
    match runW s u w with
    | some (t, i, j) => 2 ^ i * x ^ j * e t
    | none => 0 := by
  induction u generalizing s w with
  | nil => cases w <;> simp [wtE, runW]
  | cons p u ih =>
    cases w with
    | nil => simp [wtE, runW]
    | cons q w =>
      simp only [wtE, runW]
      rcases step s p q with _ | ⟨t, i, j⟩
      · rfl
      · simp only [ih]
        rcases runW t u w with _ | ⟨t', i', j'⟩
        · simp
        · simp only; rw [pow_add, pow_add]; ring

/-- the run of the automaton and the Pieri relation -/
theorem run_pieri {U W : WordD} (hl : U.1.length = W.1.length) (heq : colsD U = colsD W) :
    (∀ t i j, runW .z U.1 W.1 = some (t, i, j) → ShapeRel (colsD U) 1 (shD U) (shD W) ∧
      U.2.r0 + t.ri = W.2.r0 + t.li ∧ (j : Int) + corrW W.2.k0 U.2.r0 W.2.r0 t [] [] + (shD U).sum = (shD W).sum ∧
      countComps (shD U) (shD W) false (colsD U) 1 = i + (if t = .lr then 1 else 0)) ∧
    (ShapeRel (colsD U) 1 (shD U) (shD W) → ∃ t i j, runW .z U.1 W.1 = some (t, i, j)) := by
  classical
  have r1 := rows_add_colsD U
  have r2 := rows_add_colsD W
  have hspec := runW_spec U.1 W.1 hl .z
  have C := coded_shD U
  have C' := coded_shD W
  have hb := inBox_shD U
  have hb' := inBox_shD W
  rw [← heq, ← hl] at C' hb'
  refine ⟨?_, ?_⟩
  · intro t i j hr
    obtain ⟨S0, e1, e2, e3⟩ := hspec.2 _ _ _ hr
    have S := (starO_z hl).1 S0
    have hs : ShapeRel (colsD U) 1 (shD U) (shD W) := by
      have := shapeRel_of_star (le_refl 1) C C' S
      exact_mod_cast this
    obtain ⟨f1, f2⟩ := runW_size U.2.k0 U.2.r0 W.2.k0 W.2.r0 (by rw [L3.k0_add_r0, L3.k0_add_r0]) U.1 W.1 hl _ _ _ _ hr
      (by simp only [St.li, St.ri]; omega)
    refine ⟨hs, f1, ?_, ?_⟩
    · rw [show corrW W.2.k0 U.2.r0 W.2.r0 .z U.1 W.1 = 0 from rfl, add_zero] at f2
      exact f2
    have hfree : ∀ e, FreeCol (colsD U) 1 (shD U) (shD W) e ↔ OpenAt .z U.1 W.1 e := by
      intro e
      have := freeCol_iff C C' S e
      rw [show ((1 : Nat) : Int) = 1 from rfl] at this
      rw [this]
      unfold OpenAt
      simp only [St.li, St.ri]
      omega
    have hopen : ∀ e, OpenAt .z U.1 W.1 e → e < U.1.length := by
      intro e he
      by_contra hc
      unfold OpenAt at he
      rw [alW_top (u := U.1) (by omega), alW_top (u := W.1) (by omega)] at he
      simp only [St.li] at he
      omega
    have h0 : OpenAt .z U.1 W.1 0 ↔ t = .lr := by
      unfold OpenAt
      rw [St.lr_iff]
      omega
    rw [countComps_eq hb hb' (Or.inr rfl) (by omega) (by omega) hs false, e3]
    have hif : (if t = St.lr then 1 else 0) = if OpenAt .z U.1 W.1 0 then 1 else 0 := by simp only [h0]
    rw [hif]
    set A := (Finset.range U.1.length).filter (fun v => OpenAt .z U.1 W.1 (v + 1) ∧ ¬ OpenAt .z U.1 W.1 v) with hA
    have : (Finset.range (ex (shD W) (colsD U) 0).toNat).filter (fun e =>
        FreeCol (colsD U) 1 (shD U) (shD W) e ∧ (e = 0 → false = false) ∧ (0 < e → ¬ FreeCol (colsD U) 1 (shD U) (shD W) (e - 1))) =
        A.image (· + 1) ∪ (if OpenAt .z U.1 W.1 0 then {0} else ∅) := by
      ext e
      rw [Finset.mem_filter, Finset.mem_range, hfree, hfree, Finset.mem_union, Finset.mem_image]
      constructor
      · rintro ⟨h1, h2, h3, h4⟩
        rcases Nat.eq_zero_or_pos e with rfl | hp
        · right; rw [if_pos h2]; simp
        · left
          have := hopen _ h2
          refine ⟨e - 1, ?_, by omega⟩
          rw [hA, Finset.mem_filter, Finset.mem_range, show e - 1 + 1 = e by omega]
          exact ⟨by omega, h2, h4 hp⟩
      · rintro (⟨v, h1, rfl⟩ | h1)
        · rw [hA, Finset.mem_filter, Finset.mem_range] at h1
          have := freeCol_lt C'.isPart ((hfree (v + 1)).2 h1.2.1)
          exact ⟨by omega, h1.2.1, by omega, fun _ => by simpa using h1.2.2⟩
        · split at h1
          · rename_i h2
            obtain rfl : e = 0 := by simpa using h1
            have := freeCol_lt C'.isPart ((hfree 0).2 h2)
            exact ⟨by omega, h2, fun _ => rfl, by omega⟩
          · simp at h1
    have e5 := congrArg Finset.card this
    rw [Finset.card_union_of_disjoint, Finset.card_image_of_injective _ (fun a b h => by simpa using h)] at e5
    · refine Eq.trans ?_ (e5.trans ?_)
      · congr 1
      · split <;> simp
    · split
      · rw [Finset.disjoint_singleton_right, Finset.mem_image]
        rintro ⟨v, _, h⟩; omega
      · exact Finset.disjoint_empty_right _
  · intro hs
    have S := star_of_shapeRel C C' hs
    exact hspec.1 ((starO_z hl).2 S)

/-- the types `1` and `2` do not occur together -/
def tyOk (i j : L3) : Bool :=
  match i, j with
  | .a, .b => false
  | .b, .a => false
  | _, _ => true

theorem gD_mixed {R : Type*} [CommRing R] (x : R) (s : St) {U W : WordD} (h : tyOk U.2 W.2 = false) : gD x s U W = 0 := by
  unfold gD
  rw [wtE_run]
  rcases runW s U.1 W.1 with _ | ⟨t, i, j⟩
  · rfl
  · have : endG x t U.2 W.2 = 0 := by
      rcases U with ⟨u, i⟩
      rcases W with ⟨w, j⟩
      cases i <;> cases j <;> simp [tyOk] at h <;> cases t <;> rfl
    simp only [this, mul_zero]

theorem endG_eq {R : Type*} [CommRing R] (x : R) (t : St) {i j : L3} (h : i.r0 + t.ri = j.r0 + t.li) (hty : tyOk i j = true) :
    ∃ N : Nat, (N : Int) = corrW j.k0 i.r0 j.r0 t [] [] ∧ endG x t i j = 2 ^ (if t = .lr then 1 else 0) * x ^ N := by
  cases t <;> cases i <;> cases j <;>
    first
    | (exfalso; simp [tyOk] at hty; done)
    | (exfalso; simp [L3.r0, St.ri, St.li] at h; done)
    | exact ⟨0, rfl, by simp [endG]⟩
    | exact ⟨1, rfl, by simp [endG]⟩
    | exact ⟨2, rfl, by simp [endG]⟩

theorem endG_zero {R : Type*} [CommRing R] (x : R) (t : St) {i j : L3} (h : i.r0 + t.ri ≠ j.r0 + t.li) : endG x t i j = 0 := by
  cases t <;> cases i <;> cases j <;> simp [L3.r0, St.ri, St.li] at h <;> rfl

theorem gD_cols {R : Type*} [CommRing R] (x : R) {U W : WordD} (hl : U.1.length = W.1.length) (h : colsD U ≠ colsD W) :
    gD x .z U W = 0 := by
  unfold gD
  rw [wtE_run]
  rcases hr : runW .z U.1 W.1 with _ | ⟨t, i, j⟩
  · rfl
  · obtain ⟨_, e1, e2, _⟩ := (runW_spec U.1 W.1 hl .z).2 _ _ _ hr
    have b1 := beW_zero U.2.k0 U.1
    have b2 := beW_zero W.2.k0 W.1
    have c1 := U.2.k0_add_r0
    have c2 := W.2.k0_add_r0
    unfold colsD at h
    rw [show St.z.li = 0 from rfl] at e1
    rw [show St.z.ri = 0 from rfl] at e2
    simp only
    rw [endG_zero x t (by omega), mul_zero]

/-- **The first matrix.** -/
theorem gD_pieri {R : Type*} [CommRing R] (x : R) {U W : WordD} (hl : U.1.length = W.1.length) (heq : colsD U = colsD W) :
    (¬ ShapeRel (colsD U) 1 (shD U) (shD W) → gD x .z U W = 0) ∧
    (ShapeRel (colsD U) 1 (shD U) (shD W) → tyOk U.2 W.2 = true → ∃ N : Nat, (shD W).sum = (shD U).sum + N ∧
      gD x .z U W = 2 ^ countComps (shD U) (shD W) false (colsD U) 1 * x ^ N) := by
  obtain ⟨h1, h2⟩ := run_pieri hl heq
  constructor
  · intro hn
    unfold gD
    rw [wtE_run]
    rcases hr : runW .z U.1 W.1 with _ | ⟨t, i, j⟩
    · rfl
    · exact absurd (h1 t i j hr).1 hn
  · intro hs hty
    obtain ⟨t, i, j, hr⟩ := h2 hs
    obtain ⟨_, f1, f2, f3⟩ := h1 t i j hr
    obtain ⟨N, hN, he⟩ := endG_eq x t f1 hty
    refine ⟨j + N, ?_, ?_⟩
    · push_cast; omega
    · unfold gD
      rw [wtE_run, hr, f3]
      simp only [he]
      rw [pow_add, pow_add]; ring

end Verif
