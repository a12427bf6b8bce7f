import Verif.Proofs.SeidelW
import Verif.Proofs.RingD
/-!
# The first letter, type D

Exchanging `a` and `b` as first letters, and the two types for the words that begin with `o`, multiplies the entries of the
quantum Pieri matrices by a ratio of powers of `q`.
-/

namespace Verif
open Spec

/-- the map of words with an inner letter -/
def flipD : WordD → WordD
  | (.o :: u, i) => (.o :: u, i.sw)
  | (u, i) => (flipW u, i)

theorem flipD_flipD (U : WordD) : flipD (flipD U) = U := by
  rcases U with ⟨_ | ⟨p, u⟩, i⟩
  · rfl
  · cases p <;> simp [flipD, flipW, L3.dual, L3.sw_sw]

theorem flipD_mem {n k : Nat} {U : WordD} (h : U ∈ WdD n k) : flipD U ∈ WdD n k := by
  rw [mem_WdD] at h ⊢
  rcases U with ⟨_ | ⟨p, u⟩, i⟩
  · exact h
  · cases p
    · obtain ⟨h1, h2, h3⟩ := h
      refine ⟨h1, ?_, fun hk => ?_⟩
      · simpa [flipD, colsD, L3.k0_sw] using h2
      · simp [colsD, colsW] at h2; omega
    · simpa [flipD, flipW, L3.dual, colsW, colsD] using h
    · simpa [flipD, flipW, L3.dual, colsW, colsD] using h

section
variable {R : Type*} [CommRing R]

/-- the factor of a word -/
def flipF (h h' : R) : WordD → R
  | (.a :: _, _) => h'
  | (.o :: _, _) => h
  | _ => 1

theorem gD_sw' (x : R) (s : St) (u w : List L3) (i j : L3) : gD x s (u, i.sw) (w, j) = gD x s (u, i) (w, j.sw) := by
  have := gD_sw x s (u, i) (w, j.sw)
  simpa [swD, L3.sw_sw] using this

theorem sD_sw' (s : St) (u w : List L3) (i j : L3) : (sD s (u, i.sw) (w, j) : R) = -sD s (u, i) (w, j.sw) := by
  have := sD_sw (R := R) s (u, i) (w, j.sw)
  simpa [swD, L3.sw_sw] using this

theorem opG_flip (h h' x : R) {U W : WordD} (hl : U.1.length = W.1.length) (hh : h' = h ^ 2 ∨ ∀ V ∈ [U, W], ∀ v, V.1 ≠ .o :: v) :
    flipF h h' U * opG h h' x (flipD U) (flipD W) = flipF h h' W * opG h h' x U W := by
  rcases U with ⟨_ | ⟨p, u⟩, i⟩ <;> rcases W with ⟨_ | ⟨q, w⟩, j⟩
  · simp [flipF, flipD, flipW, opG]
  · simp at hl
  · simp at hl
  · rcases hh with rfl | hh
    · cases p <;> cases q <;>
        simp [flipF, flipD, flipW, L3.dual, opG, opGE, opGO, kerE, kerO, swD, gD_sw', L3.sw_sw] <;> ring
    · have h1 := hh (p :: u, i) (by simp) u
      have h2 := hh (q :: w, j) (by simp) w
      cases p <;> cases q <;> simp at h1 h2 <;>
        simp [flipF, flipD, flipW, L3.dual, opG, opGE, opGO, kerE, kerO, swD]

theorem opS_flip (h h' : R) {U W : WordD} (hl : U.1.length = W.1.length) (hn : U.1 ≠ [])
    (hh : h' = h ^ 2 ∨ ∀ V ∈ [U, W], ∀ v, V.1 ≠ .o :: v) :
    flipF h h' U * opS h (flipD U) (flipD W) = flipF h h' W * opS h U W := by
  rcases U with ⟨_ | ⟨p, u⟩, i⟩ <;> rcases W with ⟨_ | ⟨q, w⟩, j⟩
  · simp at hn
  · simp at hl
  · simp at hl
  · rcases hh with rfl | hh
    · cases p <;> cases q <;>
        simp [flipF, flipD, flipW, L3.dual, opS, opSE, opSO, kerSE, kerSO, swD, sD_sw', L3.sw_sw] <;> ring
    · have h1 := hh (p :: u, i) (by simp) u
      have h2 := hh (q :: w, j) (by simp) w
      cases p <;> cases q <;> simp at h1 h2 <;>
        simp [flipF, flipD, flipW, L3.dual, opS, opSE, opSO, kerSE, kerSO, swD]

end

theorem no_oD {n k : Nat} (hk : k = 0) {U : WordD} (h : U ∈ WdD n k) (v : List L3) : U.1 ≠ .o :: v := by
  rw [mem_WdD] at h
  intro he
  have := h.2.1
  unfold colsD at this
  rw [he] at this
  simp [colsW] at this
  omega

open Polynomial in
theorem MDg_flip {h h' : Polynomial ℚ} (p : Int) {n k : Nat} (hn : 0 < n) (hh : k ≠ 0 → h' = h ^ 2) {U W : WordD} (hU : U ∈ WdD n k)
    (hW : W ∈ WdD n k) : flipF h h' U * MDg h h' k p (flipD U) (flipD W) = flipF h h' W * MDg h h' k p U W := by
  have hl : U.1.length = W.1.length := by rw [mem_WdD] at hU hW; omega
  have ho : k = 0 → ∀ V ∈ [U, W], ∀ v, V.1 ≠ .o :: v := by
    intro hk V hV v
    simp only [List.mem_cons, List.not_mem_nil, or_false] at hV
    rcases hV with rfl | rfl
    · exact no_oD hk hU v
    · exact no_oD hk hW v
  have c1 : h' = h ^ 2 ∨ ∀ V ∈ [U, W], ∀ v, V.1 ≠ .o :: v := by
    by_cases hk : k = 0
    · exact Or.inr (ho hk)
    · exact Or.inl (hh hk)
  have c2 : (C h' : (Polynomial ℚ)[X]) = C h ^ 2 ∨ ∀ V ∈ [U, W], ∀ v, V.1 ≠ .o :: v := by
    rcases c1 with c1 | c1
    · left; rw [c1, map_pow]
    · exact Or.inr c1
  have hne : U.1 ≠ [] := by
    intro h0
    rw [mem_WdD, h0] at hU
    simp at hU; omega
  have e1 := opG_flip (C h) (C h') (X : (Polynomial ℚ)[X]) hl c2
  have e2 := opS_flip h h' hl hne c1
  have eF : ∀ V : WordD, flipF (C h : (Polynomial ℚ)[X]) (C h') V = C (flipF h h' V) := by
    rintro ⟨_ | ⟨q, v⟩, i⟩
    · simp [flipF]
    · cases q <;> simp [flipF]
  rw [eF, eF] at e1
  have e3 := congrArg (fun f => f.coeff p.natAbs) e1
  simp only [Polynomial.coeff_C_mul] at e3
  unfold MDg
  linear_combination C (alD k p) * e3 + C (alD k p) * C (beD k p) * e2

/-- the power of `q` -/
def flipED (k : Nat) (U : WordD) : ℕ := flipE k U.1

theorem flipF_eq {n k : Nat} {U : WordD} (hU : U ∈ WdD n k) : flipF (hQ k) (hQ' k) U = Polynomial.X ^ flipED k U := by
  rcases U with ⟨_ | ⟨p, u⟩, i⟩
  · simp [flipF, flipED, flipE]
  · cases p
    · have : k ≠ 0 := fun h => no_oD h hU u rfl
      simp [flipF, flipED, flipE, hQ, this]
    · simp [flipF, flipED, flipE, hQ']
    · simp [flipF, flipED, flipE]

end Verif
