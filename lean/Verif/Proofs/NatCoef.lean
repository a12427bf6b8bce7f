import Verif.Proofs.RingOps
import Verif.Spec.Positive
/-!
# Positive integer coefficients
-/

namespace Verif
open MvPolynomial Verif.Spec

/-- polynomials with natural coefficients -/
noncomputable def natP : Subsemiring P := (MvPolynomial.map (σ := Sym) (Nat.castRingHom ℚ)).rangeS

theorem natP_coeff {p : P} (h : p ∈ natP) (m : Sym →₀ ℕ) : ∃ N : ℕ, coeff m p = N := by
  obtain ⟨g, rfl⟩ := h
  exact ⟨coeff m g, by rw [coeff_map]; rfl⟩

theorem natP_C (N : ℕ) : (C (N : ℚ) : P) ∈ natP := ⟨C N, by simp⟩

theorem natP_X (s : Sym) : (X s : P) ∈ natP := ⟨X s, by simp⟩

theorem natP_subst {σ : List Int → P} (hσ : ∀ l, σ l ∈ natP) {p : P} (h : p ∈ natP) : subst σ p ∈ natP := by
  obtain ⟨g, rfl⟩ := h
  induction g using MvPolynomial.induction_on with
  | C a =>
    rw [map_C, subst, aeval_C]
    exact natP_C a
  | add p q hp hq =>
    rw [map_add, map_add]; exact natP.add_mem hp hq
  | mul_X p s hp =>
    rw [map_mul, map_mul]
    refine natP.mul_mem hp ?_
    rw [map_X, subst, aeval_X]
    cases s with
    | S l => exact hσ l
    | q => exact natP_X _
    | q1 => exact natP_X _
    | q2 => exact natP_X _

theorem natP_mono (m : Mono) : monoDen m ∈ natP := by
  induction m with
  | nil => simp [monoDen]
  | cons s m ih => rw [monoDen_cons]; exact natP.mul_mem (natP_X s) ih

theorem Spec.PosCoeffs.den {w : Poly} (h : PosCoeffs w) : den w ∈ natP := by
  unfold Verif.Spec.den
  apply natP.list_sum_mem
  intro x hx
  obtain ⟨t, ht, rfl⟩ := List.mem_map.1 hx
  obtain ⟨N, _, e⟩ := h t ht
  rw [e]
  exact natP.mul_mem (natP_C N) (natP_mono _)

theorem natC_of_den {w : Poly} (hw : WF w) (h : den w ∈ natP) : PosCoeffs w := by
  intro t ht
  obtain ⟨m, c⟩ := t
  obtain ⟨N, hN⟩ := natP_coeff h (expo m)
  rw [coeff_den_mem hw ht] at hN
  have h0 := (hw.2 _ ht).1
  refine ⟨N, Nat.pos_of_ne_zero ?_, hN⟩
  rintro rfl
  apply h0
  simpa using hN

/-- Applying a function with natural coefficients to an expression with natural coefficients. -/
theorem apply_natC {f : List Int → Except PyErr Poly} {cls : List Int → Prop} (hret : ∀ l, cls l → ∃ v, Returns (f l) v)
    (hnat : ∀ l, cls l → ∃ w, Poly.apply f (Poly.sym (.S l)) = .ok w ∧ PosCoeffs w) {w u : Poly} (hw : PosCoeffs w)
    (hcls : ∀ t ∈ w, ∀ l, Sym.S l ∈ t.1 → cls l) (hu : Poly.apply f w = .ok u) : PosCoeffs u := by
  classical
  choose! σ hσ using hret
  obtain ⟨τ, hτ⟩ : ∃ τ : List Int → P, τ = fun l => if cls l then σ l else 0 := ⟨_, rfl⟩
  have h1 : ∀ l, cls l → τ l = σ l := fun l hl => by rw [hτ]; simp [hl]
  have h2 : ∀ l, τ l ∈ natP := by
    intro l
    by_cases hl : cls l
    · obtain ⟨w, e1, e2⟩ := hnat l hl
      obtain ⟨w', e1', _, e3⟩ := apply_spec (f := f) (σ := σ) (Poly.sym (.S l)) (fun t ht l' hl' => by
        rw [List.mem_singleton.1 ht] at hl'
        have : l' = l := by simpa using hl'
        rw [this]; exact hσ l hl)
      rw [e1] at e1'
      cases e1'
      have := e2.den
      rw [e3, den_sym] at this
      rw [h1 l hl]
      simpa [subst] using this
    · rw [hτ]; simp only [if_neg hl]; exact natP.zero_mem
  obtain ⟨u', e1, e2, e3⟩ := apply_spec (f := f) (σ := τ) w (fun t ht l hl => by
    rw [h1 l (hcls t ht l hl)]; exact hσ l (hcls t ht l hl))
  rw [hu] at e1
  cases e1
  exact natC_of_den e2 (by rw [e3]; exact natP_subst h2 hw.den)

/-- Iterating. -/
theorem fold_natC {pieri : Int → List Int → Except PyErr Poly} {spc : Int → Prop} {cls : List Int → Prop} {L : Poly → Prop}
    (hret : ∀ p l, spc p → cls l → ∃ v, Returns (pieri p l) v)
    (hnat : ∀ p l, spc p → cls l → ∃ w, Poly.apply (pieri p) (Poly.sym (.S l)) = .ok w ∧ PosCoeffs w)
    (hL : ∀ a, L a → ∀ t ∈ a, ∀ l, Sym.S l ∈ t.1 → cls l)
    (hc : ∀ p a, spc p → L a → ∃ u, Poly.apply (pieri p) a = .ok u ∧ L u)
    (ps : List Int) (hps : ∀ p ∈ ps, spc p) {a : Poly} (ha : L a) (hn : PosCoeffs a) :
    ∃ w, ps.foldlM (fun a p => Poly.apply (pieri p) a) a = .ok w ∧ L w ∧ PosCoeffs w := by
  induction ps generalizing a with
  | nil => exact ⟨a, rfl, ha, hn⟩
  | cons p ps ih =>
    have hp := hps p (by simp)
    obtain ⟨u, h1, h2⟩ := hc p a hp ha
    have h3 := apply_natC (hret p · hp) (hnat p · hp) hn (hL a ha) h1
    obtain ⟨w, h4, h5⟩ := ih (fun p' hp' => hps p' (by simp [hp'])) h2 h3
    refine ⟨w, ?_, h5⟩
    rw [List.foldlM_cons, h1]
    exact h4

end Verif
