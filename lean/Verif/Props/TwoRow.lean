import Verif.Proofs.TwoRow
import Verif.Props.RimProd
/-!
# C106: products on Gr(2,n) in closed form
-/

namespace Verif
open Spec

/-- A list of terms with distinct powers of `q` and classes, all with coefficient one. -/
theorem wf_terms {L : List ℕ} {f : ℕ → ℕ × List Int} (hL : L.Nodup) (hf : ∀ s ∈ L, ∀ t ∈ L, f s = f t → s = t) :
    WF (L.map (fun t => (List.replicate (f t).1 Sym.q ++ [Sym.S (f t).2], (1 : ℚ)))) := by
  refine ⟨?_, ?_⟩
  · rw [List.map_map]
    refine List.Nodup.map_on ?_ hL
    intro s hs t ht h
    apply hf s hs t ht
    simp only [Function.comp_apply] at h
    have h1 := List.append_inj' h rfl
    have h2 := congrArg List.length h1.1
    rw [List.length_replicate, List.length_replicate] at h2
    exact Prod.ext h2 (by simpa using h1.2)
  · intro t ht
    obtain ⟨s, _, rfl⟩ := List.mem_map.1 ht
    exact ⟨one_ne_zero, qmono_sorted _ _⟩

theorem den_terms {L : List ℕ} (hL : L.Nodup) (f : ℕ → ℕ × List Int) :
    den (L.map (fun t => (List.replicate (f t).1 Sym.q ++ [Sym.S (f t).2], (1 : ℚ)))) =
      ev (∑ t ∈ L.toFinset, Finsupp.single (f t).2 (Polynomial.X ^ (f t).1)) := by
  classical
  rw [List.sum_toFinset _ hL]
  clear hL
  induction L with
  | nil => simp
  | cons t L ih =>
    rw [List.map_cons, den_cons, ih, List.map_cons, List.sum_cons, map_add, ev_single]
    congr 1
    simp [monoDen, inq]

theorem toFinset_range_filter (N : ℕ) (p : ℕ → Prop) [DecidablePred p] :
    ((List.range N).filter (fun t => p t)).toFinset = (Finset.range N).filter p := by
  ext t; simp

theorem two_inj {x y x' y' : ℕ} (h : y ≤ x) (h' : y' ≤ x') (e : two x y = two x' y') : x = x' ∧ y = y' := by
  have h1 := (TwoRow.vec_two h).symm.trans ((congrArg (vec 1) e).trans (TwoRow.vec_two h'))
  have h2 := congrFun h1 0
  have h3 := congrFun h1 1
  simp at h2 h3
  exact ⟨h2, h3⟩

section
variable {k : ℕ} {X : Space} (hX : mkGr 2 (k + 2) = .ok X) {fuel : ℕ} (hf : giamBound 2 (k + 2) ≤ fuel)
  {a b c d : ℕ} (h1 : b ≤ a) (ha : a ≤ k) (h2 : d ≤ c) (hc : c ≤ k)
include hX hf h1 ha h2 hc

/-- **C106**: on `Gr(2,n)` the classical product of `S[a,b]` and `S[c,d]` is the Clebsch-Gordan sum
`S[a+c,b+d] + S[a+c-1,b+d+1] + ...` with `min(a-b, c-d) + 1` terms, from which the classes with first part above `n-2` are
left out. -/
theorem C106_mult :
    ∃ w, Gr.mult X fuel (Poly.sym (.S (two a b))) (Poly.sym (.S (two c d))) = .ok w ∧ w.Perm (cgList k a b c d) := by
  have hcl : ∀ {x y : ℕ}, y ≤ x → x ≤ k → ∀ l ∈ (Finsupp.single (two x y) (1 : Polynomial ℚ)).support, GrClass 2 (k + 2) l := by
    intro x y h h' l hl
    rw [Finset.mem_singleton.1 (Finsupp.support_single_subset hl)]
    have := TwoRow.clsA_two h h'
    unfold clsA at this
    exact ⟨this.1, this.2.1, fun z hz => by have := this.2.2 z hz; push_cast; omega⟩
  obtain ⟨w, hw, hw1, hw2⟩ := (ringC (by norm_num) hX).mult hf (wf_sym (.S (two a b))) (x := Finsupp.single (two a b) 1) (by simp [inq])
    (hcl h1 ha) (wf_sym (.S (two c d))) (y := Finsupp.single (two c d) 1) (by simp [inq]) (hcl h2 hc)
  rw [ringC_prod (m := 1) (k := k) _ hX (by push_cast; ring), TwoRow.prod_cg _ h1 ha h2 hc] at hw2
  refine ⟨w, hw, perm_of_den_eq hw1 ?_ (hw2.trans ?_)⟩
  · refine wf_terms (f := fun t => (0, two (a + c - t) (b + d + t))) (List.Nodup.filter _ List.nodup_range) ?_
    intro s hs t ht e
    simp only [List.mem_filter, List.mem_range] at hs ht
    have := (two_inj (by omega) (by omega) (Prod.ext_iff.1 e).2).2
    omega
  · have := den_terms (List.Nodup.filter (fun t => decide (a + c ≤ k + t)) (List.nodup_range (n := min (a - b) (c - d) + 1)))
      (fun t => (0, two (a + c - t) (b + d + t)))
    rw [toFinset_range_filter] at this
    exact this.symm

/-- **C106**: on `Gr(2,n)` the quantum product of `S[a,b]` and `S[c,d]` is the Clebsch-Gordan sum starting at the term
`max(0, (a-b)+(c-d)-(n-2))`, in which a term `(x,y)` stands for `S[x,y]`, `q*S[y-1,x+1-n]` or `q^2*S[x-n,y-n]`. -/
theorem C106_qmult :
    ∃ w, Gr.qmult X fuel (Poly.sym (.S (two a b))) (Poly.sym (.S (two c d))) = .ok w ∧ w.Perm (qcgList k a b c d) := by
  have hcl : ∀ {x y : ℕ}, y ≤ x → x ≤ k → ∀ l ∈ (Finsupp.single (two x y) (1 : Polynomial ℚ)).support, GrClass 2 (k + 2) l := by
    intro x y h h' l hl
    rw [Finset.mem_singleton.1 (Finsupp.support_single_subset hl)]
    have := TwoRow.clsA_two h h'
    unfold clsA at this
    exact ⟨this.1, this.2.1, fun z hz => by have := this.2.2 z hz; push_cast; omega⟩
  obtain ⟨w, hw, hw1, hw2⟩ := (ringQ (by norm_num) hX).mult hf (wf_sym (.S (two a b))) (x := Finsupp.single (two a b) 1) (by simp [inq])
    (hcl h1 ha) (wf_sym (.S (two c d))) (y := Finsupp.single (two c d) 1) (by simp [inq]) (hcl h2 hc)
  rw [ringQ_prod (m := 1) (k := k) _ hX (by push_cast; ring), TwoRow.qprod_cg _ h1 ha h2 hc] at hw2
  refine ⟨w, hw, perm_of_den_eq hw1 ?_ (hw2.trans ?_)⟩
  · refine wf_terms (f := fun t => cgFold k (a + c - t) (b + d + t)) (List.Nodup.filter _ List.nodup_range) ?_
    intro s hs t ht e
    simp only [List.mem_filter, List.mem_range, decide_eq_true_eq] at hs ht
    unfold cgFold at e
    split_ifs at e <;> first
      | (have := two_inj (by omega) (by omega) (Prod.ext_iff.1 e).2; omega)
      | (have := (Prod.ext_iff.1 e).1; simp at this)
  · have := den_terms (List.Nodup.filter (fun t => decide ((a - b) + (c - d) ≤ k + t))
      (List.nodup_range (n := min (a - b) (c - d) + 1))) (fun t => cgFold k (a + c - t) (b + d + t))
    rw [toFinset_range_filter] at this
    exact this.symm

end

/-- `Gr(2,5)`: `S[2,1]*S[2,1] = S[3,3]`, and `q*S[1]` in the quantum product. -/
example : mkGr 2 (3 + 2) = .ok ⟨.A, 3, 5⟩ ∧ two 2 1 = [2, 1] ∧ cgList 3 2 1 2 1 = [([.S [3, 3]], 1)] ∧
    qcgList 3 2 1 2 1 = [([.q, .S [1]], 1), ([.S [3, 3]], 1)] ∧
    Gr.mult ⟨.A, 3, 5⟩ 20 (Poly.sym (.S [2, 1])) (Poly.sym (.S [2, 1])) = .ok [([.S [3, 3]], 1)] ∧
    Gr.qmult ⟨.A, 3, 5⟩ 20 (Poly.sym (.S [2, 1])) (Poly.sym (.S [2, 1])) = .ok [([.q, .S [1]], 1), ([.S [3, 3]], 1)] := by
  refine ⟨by decide, by decide, by decide +kernel, by decide +kernel, by decide +kernel, by decide +kernel⟩

/-- `Gr(2,6)`: a product with `q^2`, and one whose first terms cancel. -/
example : qcgList 4 4 2 4 4 = [([.q, .q, .S [2]], 1)] ∧ qcgList 4 4 0 4 1 = [([.q, .S [3]], 1)] ∧
    Gr.qmult ⟨.A, 4, 6⟩ 20 (Poly.sym (.S [4, 2])) (Poly.sym (.S [4, 4])) = .ok [([.q, .q, .S [2]], 1)] := by
  refine ⟨by decide +kernel, by decide +kernel, by decide +kernel⟩

end Verif
