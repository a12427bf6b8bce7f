import Verif.Proofs.PfaffRing
import Verif.Spec.Pfaff
import Verif.Props.Relations
import Verif.Props.PresentationBC
import Verif.Props.CompareBD
/-!
# C127: expansions along a row
-/

namespace Verif
open Spec MvPolynomial

theorem coeffOf_unsorted {p : Poly} (hp : WF p) {m : Mono} (hm : ¬ MSorted m) : coeffOf m p = 0 := by
  unfold coeffOf
  rw [List.filter_eq_nil_iff.2]
  · rfl
  · intro t ht h
    have h := of_decide_eq_true h
    exact hm (h ▸ (hp.2 t ht).2)

theorem coeffOf_sym (m : Mono) (s : Sym) : coeffOf m (Poly.sym s) = if m = [s] then 1 else 0 := by
  unfold coeffOf Poly.sym
  by_cases h : m = [s]
  · simp [h]
  · have h' : ¬ [s] = m := fun e => h e.symm
    simp [h, h']

theorem altSum_of_returns {mul : Poly → Poly → Except PyErr Poly} {r : ℕ} {a b : ℕ → List Int} {v : ℕ → P} {z : Poly} (hz : WF z)
    (h : ∀ j < r, Returns (mul (Poly.sym (.S (a j))) (Poly.sym (.S (b j)))) (v j))
    (hs : ∑ j ∈ Finset.range r, (-1) ^ j * v j = den z) : AltSum mul r a b (fun m => coeffOf m z) := by
  have h' : ∀ j, ∃ w, j < r → mul (Poly.sym (.S (a j))) (Poly.sym (.S (b j))) = .ok w ∧ WF w ∧ den w = v j := by
    intro j
    by_cases hj : j < r
    · obtain ⟨w, hw⟩ := h j hj
      exact ⟨w, fun _ => hw⟩
    · exact ⟨[], fun h => absurd h hj⟩
  choose w hw using h'
  refine ⟨w, fun j hj => (hw j hj).1, fun m => ?_⟩
  beta_reduce
  by_cases hm : MSorted m
  · rw [coeffOf_den hz hm, ← hs, coeff_sum]
    refine Finset.sum_congr rfl (fun j hj => ?_)
    obtain ⟨-, h2, h3⟩ := hw j (Finset.mem_range.1 hj)
    rw [coeffOf_den h2 hm, h3]
    have e : ((-1) ^ j * v j : P) = C ((-1) ^ j) * v j := by simp
    rw [e, coeff_C_mul]
  · rw [coeffOf_unsorted hz hm]
    refine Finset.sum_eq_zero (fun j hj => ?_)
    rw [coeffOf_unsorted (hw j (Finset.mem_range.1 hj)).2.1 hm, mul_zero]

theorem coeffOf_perm {w w' : Poly} (h : w.Perm w') (m : Mono) : coeffOf m w = coeffOf m w' :=
  ((h.filter _).map _).sum_eq

theorem altSum_same {mul mul' : Poly → Poly → Except PyErr Poly} {r : ℕ} {a b : ℕ → List Int} {z : Mono → Rat}
    (h : ∀ j < r, SameResult (mul (Poly.sym (.S (a j))) (Poly.sym (.S (b j)))) (mul' (Poly.sym (.S (a j))) (Poly.sym (.S (b j)))))
    (H : AltSum mul r a b z) : AltSum mul' r a b z := by
  obtain ⟨w, h1, h2⟩ := H
  have h' : ∀ j, ∃ u, j < r → mul' (Poly.sym (.S (a j))) (Poly.sym (.S (b j))) = .ok u ∧ (w j).Perm u := by
    intro j
    by_cases hj : j < r
    · obtain ⟨x, y, e1, e2, e3⟩ := h j hj
      rw [h1 j hj] at e1
      cases e1
      exact ⟨y, fun _ => ⟨e2, e3⟩⟩
    · exact ⟨[], fun h => absurd h hj⟩
  choose u hu using h'
  refine ⟨u, fun j hj => (hu j hj).1, fun m => ?_⟩
  rw [← h2 m]
  exact Finset.sum_congr rfl (fun j hj => by rw [coeffOf_perm (hu j (Finset.mem_range.1 hj)).2])

section
variable {X : Space} {pieri : Int → List Int → Except PyErr Poly} {n B : ℕ} {Op : List L3 → List L3 → Polynomial (Polynomial ℚ)}
  {c : Polynomial ℚ}

theorem inq_sign (j : ℕ) : inq ((-1) ^ j) = (-1) ^ j := by simp [inq]

/-- the expansions for a product that is given by the operators -/
theorem rowExpansions (hn : 0 < n) (H : PfOp n c Op) (hc : c ≠ 0) (Z : RingOn X pieri (stdSpc n) (clsBC n 0) B)
    (hz : ∀ u ∈ Wd n 0, ∀ w ∈ Wd n 0, (Op u w).coeff 0 = if u = w then 1 else 0)
    (ht : ∀ p l, 1 ≤ p → p ≤ n → tM (Wd n 0) labW (fun p u w => (Op u w).coeff p) p l = c • Z.Y.t p l)
    {g : Polynomial ℚ} (htop : ∀ u ∈ Wd n 0, ∀ w ∈ Wd n 0, (Op u w).coeff (n + 1) = if u = w then g else 0)
    (hhigh : ∀ p, n + 1 < p → ∀ u ∈ Wd n 0, ∀ w ∈ Wd n 0, (Op u w).coeff p = 0) {fuel : ℕ} (hf : B ≤ fuel) :
    RowExpansions (clsBC n 0) (gmult X pieri fuel) := by
  have hret : ∀ {a b : List Int}, clsBC n 0 a → clsBC n 0 b → Returns (gmult X pieri fuel (Poly.sym (.S a)) (Poly.sym (.S b)))
      (ev (Z.Y.prod (Finsupp.single a 1) (Finsupp.single b 1))) := fun ha hb =>
    Z.mult hf (wf_sym _) (by simp [inq]) (supp_single ha 1) (wf_sym _) (by simp [inq]) (supp_single hb 1)
  have word : ∀ l, clsBC n 0 l → ∃ u ∈ Wd n 0, labW u = l ∧ (labN u).length = l.length ∧ ∀ j, (((labN u).getD j 0 : ℕ) : Int) = l.getD j 0 := by
    intro l hl
    obtain ⟨u, hu, rfl⟩ := (Wd_cls (Nat.zero_le n) l).1 hl
    refine ⟨u, hu, rfl, ?_, ?_⟩
    · rw [labW_labN _ (mem_Wd.1 hu).2, List.length_map]
    · intro j
      rw [labW_labN _ (mem_Wd.1 hu).2]
      rcases lt_or_ge j (labN u).length with h | h
      · rw [List.getD_eq_getElem _ _ h, List.getD_eq_getElem _ _ (by simpa using h), List.getElem_map]
      · rw [List.getD_eq_default _ _ h, List.getD_eq_default _ _ (by simpa using h)]
        rfl
  have evs : ∀ {r : ℕ} (f : ℕ → LMod), ev (∑ j ∈ Finset.range r, ((-1) ^ j : Polynomial ℚ) • f j) = ∑ j ∈ Finset.range r, (-1) ^ j * ev (f j) := by
    intro r f
    rw [map_sum]
    exact Finset.sum_congr rfl (fun j _ => by rw [ev_smul, inq_sign])
  constructor
  · intro l hl
    obtain ⟨u, hu, rfl, hlen, hg⟩ := word l hl
    have key := congrArg ev (pfaff_odd H hc Z ht hu)
    rw [evs, hlen] at key
    simp only [hg] at key
    have hcr : ∀ j, clsBC n 0 ((labW u).eraseIdx j) := fun j => by
      rw [← labW_remA hu]
      exact (Wd_cls (Nat.zero_le n) _).2 ⟨_, remA_mem hu, rfl⟩
    have hrow : ∀ j < (labW u).length, clsBC n 0 [(labW u).getD j 0] := fun j hj => by
      rw [← hg]
      have := labN_getD_le u j
      exact clsBC_row0 (labN_getD_pos u (by omega)) (by have := (mem_Wd.1 hu).1; omega)
    by_cases ho : (labW u).length % 2 = 1
    · simp only [ho, true_and, if_true] at key ⊢
      have := altSum_of_returns (wf_sym (.S (labW u))) (fun j hj => hret (hrow j hj) (hcr j)) (by rw [key]; simp [inq])
      simpa only [coeffOf_sym] using this
    · simp only [ho, false_and, if_false] at key ⊢
      have := altSum_of_returns (z := []) wf_nil (fun j hj => hret (hrow j hj) (hcr j)) (by rw [key]; simp [den])
      simpa [coeffOf] using this
  · intro b l hcl ho
    obtain ⟨h1, h2, hl⟩ := cls_tail hcl
    obtain ⟨u, hu, rfl, hlen, hg⟩ := word l hl
    obtain ⟨b, rfl⟩ : ∃ b' : ℕ, b = b' := ⟨b.toNat, by omega⟩
    have hlt : ∀ p ∈ labN u, p < b := by
      intro p hp
      have hk := ((clsBC_eq (Nat.zero_le n) _).1 hcl).2.1
      have := (List.pairwise_cons.1 hk).1 (p : Int) (by
        rw [labW_labN _ (mem_Wd.1 hu).2]
        exact List.mem_map.2 ⟨p, hp, rfl⟩) (by push_cast; omega)
      omega
    have key := congrArg ev (pfaff_even hn H hc Z hz ht htop hhigh hu (by omega) hlt hcl)
    rw [evs, hlen] at key
    simp only [hg] at key
    have hcr : ∀ j, clsBC n 0 ((labW u).eraseIdx j) := fun j => by
      rw [← labW_remA hu]
      exact (Wd_cls (Nat.zero_le n) _).2 ⟨_, remA_mem hu, rfl⟩
    have hrow : ∀ j < (labW u).length, clsBC n 0 [(b : Int), (labW u).getD j 0] := fun j hj => by
      rw [← hg]
      have h3 := labN_getD_pos u (j := j) (by omega)
      have h4 := hlt ((labN u).getD j 0) (by rw [List.getD_eq_getElem _ _ (by omega)]; exact List.getElem_mem _)
      generalize (labN u).getD j 0 = a at h3 h4
      rw [clsBC_eq (Nat.zero_le n)]
      refine ⟨⟨by simp; omega, by simp; omega⟩, by unfold KStrict; simp; omega, by simp; omega, ?_⟩
      intro x hx
      simp only [List.mem_cons, List.not_mem_nil, or_false] at hx
      rcases hx with rfl | rfl <;> push_cast <;> omega
    have := altSum_of_returns (wf_sym (.S ((b : Int) :: labW u))) (fun j hj => hret (hrow j hj) (hcr j)) (by rw [← key]; simp [inq])
    simpa only [coeffOf_sym] using this

end

/-! ### C127 -/

section
variable {n : ℕ} {X : Space} {fuel : ℕ}

/-- **C127**, type C, classical: on `IG(n, 2n)`. -/
theorem C127_IG_classical (hn : 0 < n) (hX : mkIG n (2 * n) = .ok X) (hf : giamBoundBC n n ≤ fuel) :
    RowExpansions (BCClass n n) (X.mult fuel) := by
  rw [mkIG_max] at hX
  cases hX
  rw [bcClass_max]
  have hf' : boundBC n 0 ≤ fuel := by
    have := giamBoundBC_eq (Nat.zero_le n)
    rw [Nat.cast_zero, sub_zero] at this
    omega
  exact rowExpansions hn (pfOp_W n 1 0) one_ne_zero (ringIG n 0 hn.le)
    (fun u hu w hw => opW_zero 1 0 (by rw [mem_Wd] at hu hw; omega)) (fun p l _ _ => by rw [one_smul]; rfl)
    (fun u hu w hw => opW_top 1 0 hu hw) (fun p hp u hu w hw => opW_high 1 0 hu hw hp) hf'

/-- **C127**, type C, quantum: on `IG(n, 2n)`. The formulas have no quantum correction. -/
theorem C127_IG_quantum (ord : List Int → List Int) (hn : 0 < n) (hX : mkIG n (2 * n) = .ok X) (hf : giamBoundBC n n ≤ fuel) :
    RowExpansions (BCClass n n) (X.qmult ord fuel) := by
  rw [mkIG_max] at hX
  cases hX
  rw [bcClass_max]
  have hf' : boundBC n 0 ≤ fuel := by
    have := giamBoundBC_eq (Nat.zero_le n)
    rw [Nat.cast_zero, sub_zero] at this
    omega
  exact rowExpansions hn (pfOp_W n 1 (Polynomial.C (1 / 2) * Polynomial.X)) one_ne_zero (ringQIG ord n 0 hn.le)
    (fun u hu w hw => opW_zero 1 _ (by rw [mem_Wd] at hu hw; omega)) (fun p l _ _ => by rw [one_smul]; rfl)
    (fun u hu w hw => opW_top 1 _ hu hw) (fun p hp u hu w hw => opW_high 1 _ hu hw hp) hf'

theorem two_ne_zeroQ : (2 : Polynomial ℚ) ≠ 0 := two_ne_zero

theorem cfB_two {p : ℕ} (hp : 1 ≤ p) : cfB 0 p = 2 := by
  unfold cfB
  rw [if_neg (by omega)]
  exact map_ofNat _ 2

/-- **C127**, type B, classical: on `OG(n, 2n+1)`. -/
theorem C127_OG_classical (hn : 0 < n) (hX : mkOG n (2 * n + 1) = .ok X) (hf : giamBoundBC n n ≤ fuel) :
    RowExpansions (BCClass n n) (X.mult fuel) := by
  rw [mkOG_max] at hX
  cases hX
  rw [bcClass_max]
  have hf' : boundBC n 0 ≤ fuel := by
    have := giamBoundBC_eq (Nat.zero_le n)
    rw [Nat.cast_zero, sub_zero] at this
    omega
  exact rowExpansions hn (pfOp_W n 2 0) two_ne_zeroQ (ringOG n 0 hn.le)
    (fun u hu w hw => opW_zero _ _ (by rw [mem_Wd] at hu hw; omega))
    (fun p l hp _ => by
      rw [← cfB_two hp]
      exact tM_scale (M := MB 0) (fun u w => by
        unfold MB
        rw [← mul_assoc, show (Polynomial.C (if p ≤ 0 then 1 else 1 / 2 : ℚ)) = Polynomial.C (scB 0 p) from rfl, cfB_scB, one_mul, cfB_two hp]) l)
    (fun u hu w hw => opW_top _ _ hu hw) (fun p hp u hu w hw => opW_high _ _ hu hw hp) hf'

/-- **C127**, type B, quantum: on `OG(n, 2n+1)`. -/
theorem C127_OG_quantum (ord : List Int → List Int) (hn : 0 < n) (hX : mkOG n (2 * n + 1) = .ok X) (hf : giamBoundBC n n ≤ fuel) :
    RowExpansions (BCClass n n) (X.qmult ord fuel) := by
  rw [mkOG_max] at hX
  cases hX
  rw [bcClass_max]
  have hf' : boundBC n 0 ≤ fuel := by
    have := giamBoundBC_eq (Nat.zero_le n)
    rw [Nat.cast_zero, sub_zero] at this
    omega
  exact rowExpansions hn (pfOp_Q n 2 Polynomial.X (if (0 : ℕ) = 0 then Polynomial.X else Polynomial.X ^ 2)) two_ne_zeroQ (ringQOG ord n 0 hn)
    (fun u hu w hw => opQ_zero _ _ _ (by rw [mem_Wd] at hu hw; omega))
    (fun p l hp _ => by
      rw [← cfB_two hp]
      exact tM_scale (M := MQB 0) (fun u w => by
        unfold MQB
        rw [← mul_assoc, cfB_scB, one_mul, cfB_two hp]) l)
    (g := 0) (fun u hu w hw => by rw [opQ_high _ _ _ hu hw (by omega), ite_self]) (fun p hp u hu w hw => opQ_high _ _ _ hu hw (by omega)) hf'

theorem linComb_single_sym {cls : List Int → Prop} {l : List Int} (h : cls l) : LinComb cls (Poly.sym (.S l)) :=
  linComb_of_ev (wf_sym _) (x := Finsupp.single l 1) (by simp [inq]) (supp_single h 1)

theorem rows_cls {l : List Int} (hl : clsBC n 0 l) : (∀ j < l.length, clsBC n 0 [l.getD j 0]) ∧ ∀ j, clsBC n 0 (l.eraseIdx j) := by
  obtain ⟨u, hu, rfl⟩ := (Wd_cls (Nat.zero_le n) l).1 hl
  have hu' := mem_Wd.1 hu
  constructor
  · intro j hj
    rw [labW_labN _ hu'.2] at hj ⊢
    have hj' : j < (labN u).length := by simpa using hj
    rw [List.getD_eq_getElem _ _ hj, List.getElem_map]
    have := labN_le u _ (List.getElem_mem hj')
    exact clsBC_row0 this.1 (by omega)
  · intro j
    rw [← labW_remA hu]
    exact (Wd_cls (Nat.zero_le n) _).2 ⟨_, remA_mem hu, rfl⟩

theorem rows2_cls {b : Int} {l : List Int} (hl : clsBC n 0 (b :: l)) : ∀ j < l.length, clsBC n 0 [b, l.getD j 0] := by
  intro j hj
  have hm : l.getD j 0 ∈ l := by rw [List.getD_eq_getElem _ _ hj]; exact List.getElem_mem hj
  rw [clsBC_eq (Nat.zero_le n)] at hl ⊢
  generalize l.getD j 0 = a at hm
  obtain ⟨⟨h1, h2⟩, h3, h4, h5⟩ := hl
  have e1 := h2 b (by simp)
  have e2 := h2 a (by simp [hm])
  have e3 := (List.pairwise_cons.1 h1).1 a hm
  have e4 := (List.pairwise_cons.1 h3).1 a hm
  have e5 := h5 b (by simp)
  have e6 := h5 a (by simp [hm])
  push_cast at *
  refine ⟨⟨by simp; omega, by simp; omega⟩, by unfold KStrict; simp; omega, by simp; omega, ?_⟩
  intro x hx
  simp only [List.mem_cons, List.not_mem_nil, or_false] at hx
  rcases hx with rfl | rfl <;> omega

theorem rowExpansions_same {mul mul' : Poly → Poly → Except PyErr Poly} {cls : List Int → Prop}
    (hcls : ∀ l, cls l ↔ clsBC n 0 l)
    (h : ∀ a b, clsBC n 0 a → clsBC n 0 b → SameResult (mul (Poly.sym (.S a)) (Poly.sym (.S b))) (mul' (Poly.sym (.S a)) (Poly.sym (.S b))))
    (H : RowExpansions (clsBC n 0) mul) : RowExpansions cls mul' where
  odd l hl := by
    have hl' := (hcls l).1 hl
    exact altSum_same (fun j hj => h _ _ ((rows_cls hl').1 j hj) ((rows_cls hl').2 j)) (H.odd l hl')
  even b l hl ho := by
    have hl' := (hcls _).1 hl
    exact altSum_same (fun j hj => h _ _ (rows2_cls hl' j hj) ((rows_cls (cls_tail hl').2.2).2 j)) (H.even b l hl' ho)

/-- **C127**, type D, classical: on `OG(n+1, 2n+2)`. -/
theorem C127_OGD_classical (hn : 0 < n) (hX : mkOG (n + 1) (2 * n + 2) = .ok X) (hf : giamBoundBC n n ≤ fuel)
    (hf' : giamBoundD (n + 1) n ≤ fuel) : RowExpansions (DClass (n + 1) n) (X.mult fuel) := by
  have H := C127_OG_classical hn (mkOG_max (n := n)) hf
  rw [bcClass_max] at H
  refine rowExpansions_same (fun l => ?_) (fun a b ha hb => ?_) H
  · rw [← C87_classes (by omega), bcClass_max]
  · rw [← bcClass_max] at ha hb
    exact C87_mult (by omega) (mkOG_max (n := n)) hX hf hf' (linComb_single_sym ha) (linComb_single_sym hb)

/-- **C127**, type D, quantum: on `OG(n+1, 2n+2)`. -/
theorem C127_OGD_quantum (ord : List Int → List Int) (hn : 0 < n) (hX : mkOG (n + 1) (2 * n + 2) = .ok X) (hf : giamBoundBC n n ≤ fuel)
    (hf' : giamBoundD (n + 1) n ≤ fuel) : RowExpansions (DClass (n + 1) n) (X.qmult ord fuel) := by
  have H := C127_OG_quantum ord hn (mkOG_max (n := n)) hf
  rw [bcClass_max] at H
  refine rowExpansions_same (fun l => ?_) (fun a b ha hb => ?_) H
  · rw [← C87_classes (by omega), bcClass_max]
  · rw [← bcClass_max] at ha hb
    exact C87_qmult ord ord (by omega) (mkOG_max (n := n)) hX hf hf' (linComb_single_sym ha) (linComb_single_sym hb)

end

/-- `IG(3, 6)`: in `S[3]*S[2,1] - S[2]*S[3,1] + S[1]*S[3,2] = S[3,2,1]` the terms with `q` cancel; for the two parts of `[3,2]` the alternating sum
is `0`. -/
example : mkIG 3 6 = .ok ⟨.C, 0, 3⟩ ∧ BCClass 3 3 [3, 2, 1] ∧ giamBoundBC 3 3 ≤ 40 ∧
    (Space.mk .C 0 3).qmult id 40 (Poly.sym (.S [3])) (Poly.sym (.S [2, 1])) = .ok [([.S [3, 2, 1]], 1), ([.q, .S [2]], 1)] ∧
    (Space.mk .C 0 3).qmult id 40 (Poly.sym (.S [2])) (Poly.sym (.S [3, 1])) = .ok [([.S [3, 2, 1]], 1), ([.q, .S [2]], 2)] ∧
    (Space.mk .C 0 3).qmult id 40 (Poly.sym (.S [1])) (Poly.sym (.S [3, 2])) = .ok [([.S [3, 2, 1]], 1), ([.q, .S [2]], 1)] ∧
    (Space.mk .C 0 3).qmult id 40 (Poly.sym (.S [3])) (Poly.sym (.S [2])) = .ok [([.S [3, 2]], 1), ([.q, .S [1]], 1)] ∧
    (Space.mk .C 0 3).qmult id 40 (Poly.sym (.S [2])) (Poly.sym (.S [3])) = .ok [([.S [3, 2]], 1), ([.q, .S [1]], 1)] := by decide +kernel

/-- `OG(4, 9)` and `OG(5, 10)`: `S[4,3]*S[2,1] - S[4,2]*S[3,1] + S[4,1]*S[3,2] = S[4,3,2,1]`. -/
example : mkOG 4 9 = .ok ⟨.B, 0, 4⟩ ∧ BCClass 4 4 [4, 3, 2, 1] ∧ giamBoundBC 4 4 ≤ 105 ∧
    (Space.mk .B 0 4).qmult id 105 (Poly.sym (.S [4, 3])) (Poly.sym (.S [2, 1])) = .ok [([.S [4, 3, 2, 1]], 1), ([.q, .S [2]], 1)] ∧
    (Space.mk .B 0 4).qmult id 105 (Poly.sym (.S [4, 2])) (Poly.sym (.S [3, 1])) = .ok [([.S [4, 3, 2, 1]], 1), ([.q, .S [2]], 2)] ∧
    (Space.mk .B 0 4).qmult id 105 (Poly.sym (.S [4, 1])) (Poly.sym (.S [3, 2])) = .ok [([.S [4, 3, 2, 1]], 1), ([.q, .S [2]], 1)] := by
  decide +kernel

example : mkOG 5 10 = .ok ⟨.D, 0, 4⟩ ∧ DClass 5 4 [4, 3, 2, 1] ∧ giamBoundBC 4 4 ≤ 105 ∧ giamBoundD 5 4 ≤ 105 ∧
    (Space.mk .D 0 4).mult 105 (Poly.sym (.S [4, 3])) (Poly.sym (.S [2, 1])) = .ok [([.S [4, 3, 2, 1]], 1)] ∧
    (Space.mk .D 0 4).mult 105 (Poly.sym (.S [4, 2])) (Poly.sym (.S [3, 1])) = .ok [([.S [4, 3, 2, 1]], 1)] ∧
    (Space.mk .D 0 4).mult 105 (Poly.sym (.S [4, 1])) (Poly.sym (.S [3, 2])) = .ok [([.S [4, 3, 2, 1]], 1)] := by
  decide +kernel

end Verif
