import Verif.Proofs.Sines
import Verif.Props.Roots
/-!
# C120: a positive homomorphism of the quantum ring of `Gr(m, n)`; no quantum product of classes vanishes
-/

namespace Verif
open Spec SchurSym Cyl

/-- The product of `sin(π(l_i - l_j + j - i)/n) / sin(π(j - i)/n)` over all pairs `i < j` of the `m` rows. -/
noncomputable def Spec.qdim (m n : ℕ) (l : List Int) : ℝ :=
  ∏ i : Fin m, ∏ j ∈ Finset.Ioi i,
    Real.sin (Real.pi * ((part l i : ℝ) - part l j + (j : ℝ) - i) / n) / Real.sin (Real.pi * ((j : ℝ) - i) / n)

theorem sin_pos_of {n : ℕ} {x : ℝ} (h0 : 0 < x) (h1 : x < n) : 0 < Real.sin (Real.pi * x / n) := by
  have hn : (0 : ℝ) < n := h0.trans h1
  apply Real.sin_pos_of_pos_of_lt_pi
  · have := Real.pi_pos; positivity
  · rw [div_lt_iff₀ hn]
    exact mul_lt_mul_of_pos_left h1 Real.pi_pos

/-- **C120.** The value of every class is positive. -/
theorem C120_pos {m n : ℕ} (hmn : m ≤ n) {l : List Int} (hl : GrClass m n l) : 0 < qdim m n l := by
  apply Finset.prod_pos
  intro i _
  apply Finset.prod_pos
  intro j hj
  have hij : (i : ℕ) < j := by simpa using hj
  have hjm := j.2
  have hr : (i : ℝ) + 1 ≤ j := by exact_mod_cast hij
  have hr2 : (j : ℝ) + 1 ≤ m := by exact_mod_cast hjm
  have hr3 : (m : ℝ) ≤ n := by exact_mod_cast hmn
  have hi0 : (0 : ℝ) ≤ i := by positivity
  have h1 : part l j ≤ part l i := hl.1.isPartition.part_anti hij.le
  have h2 : 0 ≤ part l j := hl.1.isPartition.part_nonneg j
  have h3 : part l i ≤ n - m := InRect.part_le hl.2 (by omega) i
  have h1' : (part l j : ℝ) ≤ part l i := by exact_mod_cast h1
  have h2' : (0 : ℝ) ≤ part l j := by exact_mod_cast h2
  have h3' : (part l i : ℝ) ≤ n - m := by exact_mod_cast h3
  apply div_pos <;> apply sin_pos_of <;> linarith

theorem tab_exp {m n : ℕ} (hmn : m + 1 ≤ n) {l : List Int} (hl : GrClass (m + 1) n l) :
    altR (m := m) (expPt m n) (bt 0) ≠ 0 ∧ tabSum (expPt m n) (m + 1) l = (qdim (m + 1) n l : ℝ) := by
  have hpos : ∀ i : Fin (m + 1), ∀ j ∈ Finset.Ioi i, Real.sin (Real.pi * ((j : ℝ) - i) / n) ≠ 0 := by
    intro i j hj
    have hij : (i : ℕ) < j := by simpa using hj
    have hjm := j.2
    have hr : (i : ℝ) + 1 ≤ j := by exact_mod_cast hij
    have hr2 : (j : ℝ) + 1 ≤ m + 1 := by exact_mod_cast hjm
    have hr3 : (m : ℝ) + 1 ≤ n := by exact_mod_cast hmn
    have hi0 : (0 : ℝ) ≤ i := by positivity
    exact (sin_pos_of (by linarith) (by linarith)).ne'
  have hb : ∀ (f : Fin (m + 1) → ℤ), (∀ i, 0 ≤ f i) → ∀ i, ((bt f i : ℕ) : ℝ) = f i + (m - i) := by
    intro f hf i
    have := bt_cast (hf i)
    exact_mod_cast this
  have h0 : altR (m := m) (expPt m n) (bt 0) = ∏ i : Fin (m + 1), ∏ j ∈ Finset.Ioi i, (2 * Complex.I * (-(Real.sin (Real.pi * ((j : ℝ) - i) / n)) : ℝ)) := by
    rw [altR_exp]
    refine Finset.prod_congr rfl (fun i _ => Finset.prod_congr rfl (fun j _ => ?_))
    rw [hb 0 (fun _ => le_rfl), hb 0 (fun _ => le_rfl), ← Real.sin_neg]
    congr 3
    simp only [Pi.zero_apply]
    push_cast
    ring
  have hne : altR (m := m) (expPt m n) (bt 0) ≠ 0 := by
    rw [h0]
    refine Finset.prod_ne_zero_iff.2 (fun i _ => Finset.prod_ne_zero_iff.2 (fun j hj => ?_))
    refine mul_ne_zero (mul_ne_zero two_ne_zero Complex.I_ne_zero) ?_
    exact_mod_cast neg_ne_zero.2 (hpos i j hj)
  refine ⟨hne, ?_⟩
  have hkz : (n : ℤ) - ((m + 1 : ℕ) : ℤ) = (n - (m + 1) : ℕ) := by omega
  have hcl : clsA (m + 1) (n - (m + 1) : ℕ) l := by rw [← hkz]; exact hl
  apply mul_right_cancel₀ hne
  rw [altR_tab _ hcl, h0, altR_exp, qdim]
  push_cast
  rw [← Finset.prod_mul_distrib]
  refine Finset.prod_congr rfl (fun i _ => ?_)
  rw [← Finset.prod_mul_distrib]
  refine Finset.prod_congr rfl (fun j hj => ?_)
  have hs := hpos i j hj
  have hp := hl.1.isPartition
  have e1 : Real.sin (Real.pi * ((bt (vec m l) j : ℝ) - bt (vec m l) i) / n) =
      -Real.sin (Real.pi * ((part l i : ℝ) - part l j + (j : ℝ) - i) / n) := by
    rw [hb (vec m l) (fun i => hp.part_nonneg i), hb (vec m l) (fun i => hp.part_nonneg i), ← Real.sin_neg]
    congr 1
    simp only [vec]
    ring
  have e2 := congrArg (fun x : ℝ => (x : ℂ)) e1
  push_cast at e2
  rw [e2]
  have hs' : Complex.sin (Real.pi * ((j : ℂ) - i) / n) ≠ 0 := by
    have : ((Real.sin (Real.pi * ((j : ℝ) - i) / n) : ℝ) : ℂ) ≠ 0 := by exact_mod_cast hs
    push_cast at this
    exact this
  field_simp

theorem valueAt_ofReal (f : Sym → ℝ) (p : Poly) : valueAt (fun s => (f s : ℂ)) p = (valueAt f p : ℝ) := by
  unfold valueAt
  rw [← Complex.ofRealHom_eq_coe, map_list_sum, List.map_map]
  congr 1
  apply List.map_congr_left
  intro t _
  simp only [Function.comp_apply, map_mul, map_list_prod, List.map_map]
  congr 1

theorem valueAt_sym {R : Type} [CommSemiring R] [Algebra ℚ R] (f : Sym → R) (s : Sym) : valueAt f (Poly.sym s) = f s := by
  simp [valueAt, Poly.sym]

/-- **C120.** With `1` for `q` and `qdim(l)` for every class `S[l]`, the value of `qmult(a, b)` is the product of the values of `a` and `b`. -/
theorem C120_hom {m n : ℕ} {X : Space} (hm : 1 ≤ m) (hX : mkGr m n = .ok X) {fuel : ℕ} (hf : giamBound m n ≤ fuel) {a b : Poly}
    (ha : LinComb (GrClass m n) a) (hb : LinComb (GrClass m n) b) (f : Sym → ℝ) (hq : f .q = 1) (hfs : ∀ l, GrClass m n l → f (.S l) = qdim m n l) :
    ∃ w, Gr.qmult X fuel a b = .ok w ∧ LinComb (GrClass m n) w ∧ valueAt f w = valueAt f a * valueAt f b := by
  have hmn : m ≤ n := by obtain ⟨_, _, h⟩ := mkGr_ok hX; omega
  obtain ⟨m, rfl⟩ : ∃ a, m = a + 1 := ⟨m - 1, by omega⟩
  have hnil : GrClass (m + 1 : ℕ) n [] := by
    refine ⟨⟨by simp, by simp⟩, by simp, by simp⟩
  have hne := (tab_exp hmn hnil).1
  obtain ⟨w, h1, h2, h3⟩ := C118_roots (R := ℂ) hm hX hf ha hb (expPt m n) (fun s => (f s : ℂ))
    (fun l hl => by rw [schurPol_tab _ hm hl.1, (tab_exp hmn hl).2, hfs l hl])
    (fun j _ => by rw [expPt_pow (by omega), hq]; simp)
    (fun i j hi hj h => by
      by_contra hc
      apply hne
      apply Matrix.det_zero_of_column_eq (i := ⟨i, hi⟩) (j := ⟨j, hj⟩) (by simpa using hc)
      intro r
      simp only [Matrix.of_apply, h])
  refine ⟨w, h1, h2, ?_⟩
  rw [valueAt_ofReal, valueAt_ofReal, valueAt_ofReal] at h3
  exact_mod_cast h3

/-- **C120.** No quantum product of any number of classes vanishes. -/
theorem C120_nonzero {m n : ℕ} {X : Space} (hm : 1 ≤ m) (hX : mkGr m n = .ok X) {fuel : ℕ} (hf : giamBound m n ≤ fuel)
    (ls : List (List Int)) (hls : ∀ l ∈ ls, GrClass m n l) :
    ∃ w, ls.foldlM (fun a l => Gr.qmult X fuel a (Poly.sym (.S l))) (Poly.sym (.S [])) = .ok w ∧ w ≠ [] := by
  have hmn : m ≤ n := by obtain ⟨_, _, h⟩ := mkGr_ok hX; omega
  obtain ⟨f, hq, hfs⟩ : ∃ f : Sym → ℝ, f .q = 1 ∧ ∀ l, f (.S l) = qdim m n l :=
    ⟨fun s => match s with
      | .S l => qdim m n l
      | _ => 1, rfl, fun _ => rfl⟩
  have hlc : ∀ l, GrClass m n l → LinComb (GrClass m n) (Poly.sym (.S l)) := fun l hl =>
    ⟨wf_sym (.S l), fun t ht => ⟨0, l, by rw [List.mem_singleton.1 ht]; rfl, hl⟩⟩
  have key : ∀ (ls : List (List Int)) (a : Poly), (∀ l ∈ ls, GrClass m n l) → LinComb (GrClass m n) a → 0 < valueAt f a →
      ∃ w, ls.foldlM (fun a l => Gr.qmult X fuel a (Poly.sym (.S l))) a = .ok w ∧ 0 < valueAt f w := by
    intro ls
    induction ls with
    | nil => exact fun a _ _ h => ⟨a, rfl, h⟩
    | cons l ls ih =>
      intro a hl ha h
      have hc := hl l (by simp)
      obtain ⟨w, h1, h2, h3⟩ := C120_hom hm hX hf ha (hlc l hc) f hq (fun l _ => hfs l)
      obtain ⟨w', h4, h5⟩ := ih w (fun l' hl' => hl l' (by simp [hl'])) h2 (by
        rw [h3, valueAt_sym, hfs]
        exact mul_pos h (C120_pos hmn hc))
      refine ⟨w', ?_, h5⟩
      rw [List.foldlM_cons, h1]
      exact h4
  have hnil : GrClass m n [] := ⟨⟨by simp, by simp⟩, by simp, by simp⟩
  obtain ⟨w, h1, h2⟩ := key ls _ hls (hlc [] hnil) (by rw [valueAt_sym, hfs]; exact C120_pos hmn hnil)
  refine ⟨w, h1, ?_⟩
  rintro rfl
  simp [valueAt] at h2

/-- `Gr(2,4)`: `qdim([1]) = √2`, `qdim([2]) = qdim([1,1]) = 1`, and `S[1]*S[1] = S[2] + S[1,1]` -/
example : qdim 2 4 [1] = √2 ∧ qdim 2 4 [2] = 1 ∧ qdim 2 4 [1, 1] = 1 ∧
    Gr.qmult ⟨.A, 2, 4⟩ 20 (Poly.sym (.S [1])) (Poly.sym (.S [1])) = .ok [([.S [1, 1]], 1), ([.S [2]], 1)] := by
  have e0 : Finset.Ioi (0 : Fin 2) = {1} := by decide
  have e1 : Finset.Ioi (1 : Fin 2) = ∅ := by decide
  have hs : Real.sin (Real.pi / 4) ≠ 0 := by rw [Real.sin_pi_div_four]; positivity
  have h3 : Real.sin (Real.pi * 3 / 4) = Real.sin (Real.pi / 4) := by rw [← Real.sin_pi_sub]; congr 1; ring
  refine ⟨?_, ?_, ?_, by decide +kernel⟩
  · simp only [qdim, Fin.prod_univ_two, e0, e1, Finset.prod_singleton, Finset.prod_empty, mul_one]
    norm_num [part]
    rw [show Real.pi * 2 / 4 = Real.pi / 2 by ring, Real.sin_pi_div_two]
    field_simp
    norm_num
  · simp only [qdim, Fin.prod_univ_two, e0, e1, Finset.prod_singleton, Finset.prod_empty, mul_one]
    norm_num [part]
    rw [h3]
    rw [← Real.sin_pi_div_four, div_self hs]
  · simp only [qdim, Fin.prod_univ_two, e0, e1, Finset.prod_singleton, Finset.prod_empty, mul_one]
    norm_num [part]

/-- `Gr(2,4)`: `S[2,2]*S[2,1]*S[2,2] = q^2*S[2,1]`, while the classical product is zero -/
example : [[2, 2], [2, 1], [2, 2]].foldlM (fun a l => Gr.qmult ⟨.A, 2, 4⟩ 20 a (Poly.sym (.S l))) (Poly.sym (.S [])) =
      .ok [([.q, .q, .S [2, 1]], 1)] ∧
    [[2, 2], [2, 1], [2, 2]].foldlM (fun a l => Gr.mult ⟨.A, 2, 4⟩ 20 a (Poly.sym (.S l))) (Poly.sym (.S [])) = .ok [] := by decide +kernel

end Verif
