import Verif.Proofs.JacobiTrudi
import Verif.Props.RingA
/-!
# C101: `giambelli` and `qgiambelli` of `Gr(m, n)` give the determinant of Jacobi and Trudi
-/

namespace Verif
open Spec MvPolynomial

section
variable {m : Nat} {n : Int} {X : Space} (hm : 1 ≤ m) (hX : mkGr m n = .ok X) {fuel : Nat} (hf : giamBound m n ≤ fuel)
include hm hX

theorem ringC_G {l : List Int} (hl : GrClass m n l) : (ringC hm hX).Y.G l = jacobiTrudi (n - m) l := by
  cases m with
  | zero => omega
  | succ m =>
    obtain ⟨rfl, _, h⟩ := mkGr_ok hX
    have hk : (0 : ℤ) ≤ n - ((m + 1 : ℕ) : ℤ) := by push_cast at *; omega
    rw [← JT_eq _ hl.2.1]
    exact G_JT hk (by push_cast; ring) l hl

include hf

/-- **C101.** `giambelli(S[l])`, for a class `S[l]` of `Gr(m, n)`, is the determinant of the special classes
`h(l_i - i + j)`. -/
theorem C101_giambelli {l : List Int} (hl : GrClass m n l) :
    ∃ g, Gr.giambelli X fuel (Poly.sym (.S l)) = .ok g ∧ WF g ∧ den g = jacobiTrudi (n - m) l := by
  obtain ⟨g, h1, h2, h3⟩ := (ringC hm hX).Y.giamRec_returns X.k fuel (wf_sym (.S l)) (x := Finsupp.single l 1) (by simp [inq])
    (by intro l' hl'; rw [Finset.mem_singleton.1 (Finsupp.support_single_subset hl')]; exact hl)
    (fun l hl => lt_of_lt_of_le ((ringC hm hX).fuel l hl) hf)
  refine ⟨g, h1, h2, ?_⟩
  rw [h3, GSys.GL, ev_single]
  simp only [inq, map_one, one_mul, subst_S]
  exact ringC_G hm hX hl

/-- **C101.** The same determinant is `qgiambelli(S[l])`. -/
theorem C101_qgiambelli {l : List Int} (hl : GrClass m n l) :
    ∃ g, Gr.qgiambelli X fuel (Poly.sym (.S l)) = .ok g ∧ WF g ∧ den g = jacobiTrudi (n - m) l := by
  have hlc : LinComb (GrClass m n) (Poly.sym (.S l)) :=
    ⟨wf_sym _, by intro t ht; simp [Poly.sym] at ht; subst ht; exact ⟨0, l, rfl, hl⟩⟩
  obtain ⟨g, h1, h2, h3⟩ := C101_giambelli hm hX hf hl
  obtain ⟨w, w', h4, h5, h6⟩ := C24_giambelli hm hX hf hlc
  rw [h1] at h5
  cases h5
  refine ⟨w, h4, ?_, ?_⟩
  · obtain ⟨g', e1, e2⟩ := (C19_qgiambelli hm hX hf hlc).1
    have : g' = w := by
      have e1' : Gr.qgiambelli X fuel (Poly.sym (.S l)) = .ok g' := e1
      rw [h4] at e1'
      cases e1'
      rfl
    rw [← this]
    exact e2.1
  · rw [← h3]
    unfold den
    exact (h6.map _).sum_eq

/-- **C101.** On a linear combination, every class is replaced by its determinant. -/
theorem C101_linear {a : Poly} (ha : LinComb (GrClass m n) a) :
    (∃ g, Gr.giambelli X fuel a = .ok g ∧ WF g ∧ den g = subst (jacobiTrudi (n - m)) (den a)) ∧
    (∃ g, Gr.qgiambelli X fuel a = .ok g ∧ WF g ∧ den g = subst (jacobiTrudi (n - m)) (den a)) := by
  obtain ⟨x, hx, hxc⟩ := linComb_ev ha.2
  have h2 := (ringC hm hX).Y.giamRec_returns X.k fuel ha.1 hx hxc
    (fun l hl => lt_of_lt_of_le ((ringC hm hX).fuel l hl) hf)
  obtain ⟨g, e1, e2, e3⟩ := h2
  have e4 : den g = subst (jacobiTrudi (n - m)) (den a) := by
    rw [e3, GSys.GL, hx]
    exact subst_ev_congr _ (fun l hl => ringC_G hm hX (hxc l hl))
  refine ⟨⟨g, e1, e2, e4⟩, ?_⟩
  obtain ⟨w, w', h4, h5, h6⟩ := C24_giambelli hm hX hf ha
  have e1' : Gr.giambelli X fuel a = .ok g := e1
  rw [e1'] at h5
  cases h5
  obtain ⟨g', f1, f2⟩ := (C19_qgiambelli hm hX hf ha).1
  have : g' = w := by
    have f1' : Gr.qgiambelli X fuel a = .ok g' := f1
    rw [h4] at f1'
    cases f1'
    rfl
  refine ⟨w, h4, this ▸ f2.1, ?_⟩
  rw [← e4]
  unfold den
  exact (h6.map _).sum_eq

end

/-- `giambelli(S[3,2,1])` on `Gr(3, 6)`: `h(4)` and `h(5)` are zero. -/
example : mkGr 3 6 = .ok ⟨.A, 3, 6⟩ ∧ GrClass 3 6 [3, 2, 1] ∧
    Gr.giambelli ⟨.A, 3, 6⟩ (giamBound 3 6) (Poly.sym (.S [3, 2, 1])) =
      .ok [([.S [1], .S [2], .S [3]], 1), ([.S [3], .S [3]], -1)] ∧
    den [([.S [1], .S [2], .S [3]], 1), ([.S [3], .S [3]], -1)] = jacobiTrudi 3 [3, 2, 1] := by
  refine ⟨by decide, ⟨⟨by decide, by decide⟩, by decide, by decide⟩, by decide +kernel, ?_⟩
  have h : ∀ p : ℤ, hvar 3 p = if p = 0 then 1 else if 0 < p ∧ p ≤ 3 then MvPolynomial.X (.S [p]) else 0 := fun _ => rfl
  rw [jacobiTrudi, Matrix.det_fin_three]
  simp [h, den, monoDen]
  ring

end Verif
