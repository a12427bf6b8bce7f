import Verif.Model.RimProd
import Verif.Spec.Ring
import Verif.Props.RimHook
import Verif.Props.RingA
import Verif.Proofs.RimA
import Verif.Proofs.RingOps
/-!
# Properties C26, C70: `qmult_rh` and the rim hook rule against `qmult`
-/

namespace Verif
open Spec Cyl

/-- C26 is false for the code: on `Gr(3,6)`, `qmult(S[3,3], S[3,2,1]) = q*S[3,2,1]`, but
`qmult_rh` returns `q*S[3,2,1] + 2*q^2*S[]`. The sign of a term is computed once from the rows of the whole
removed region instead of once per hook. -/
theorem C26_refuted :
    mkGr 3 6 = .ok ⟨.A, 3, 6⟩ ∧
    Gr.qmult ⟨.A, 3, 6⟩ 20 (Poly.sym (.S [3, 3])) (Poly.sym (.S [3, 2, 1])) =
      .ok [([.q, .S [3, 2, 1]], 1)] ∧
    Gr.qmultRh ⟨.A, 3, 6⟩ 20 (Poly.sym (.S [3, 3])) (Poly.sym (.S [3, 2, 1])) =
      .ok [([.q, .q, .S []], 2), ([.q, .S [3, 2, 1]], 1)] := by
  refine ⟨rfl, ?_, ?_⟩ <;> decide +kernel

/-! ### the code on linear combinations -/

theorem sysQ_cast {m : ℕ} {k k' n n' : ℤ} (e : k = k') (e' : n = n') (hk : 0 ≤ k) (hk' : 0 ≤ k') (hn : n = m + 1 + k) (hn' : n' = m + 1 + k')
    (x y : LMod) : (sysQ m hk hn).prod x y = (sysQ m hk' hn').prod x y := by
  subst e e'; rfl

theorem sysC_cast {m : ℕ} {k k' n n' : ℤ} (e : k = k') (e' : n = n') (hk : 0 ≤ k) (hk' : 0 ≤ k') (hn : n = m + 1 + k) (hn' : n' = m + 1 + k')
    (x y : LMod) : (sysC m hk hn).prod x y = (sysC m hk' hn').prod x y := by
  subst e e'; rfl

theorem ringC_prod {m : ℕ} {n : ℤ} {X : Space} (hm : 1 ≤ m + 1) (hX : mkGr (m + 1 : ℕ) n = .ok X) {k : ℕ} (hn : n = m + 1 + k)
    (x y : LMod) : (ringC hm hX).Y.prod x y = (sysC m (Int.natCast_nonneg k) hn).prod x y := by
  have hX' := hX
  obtain ⟨rfl, h1, h2⟩ := mkGr_ok hX
  have hk : (k : ℤ) = n - (m + 1 : ℕ) := by push_cast; omega
  exact sysC_cast (k := n - (m + 1 : ℕ)) (k' := k) (n := n) (n' := n) hk.symm rfl (by omega) _ (by push_cast; ring) hn x y

theorem ringQ_prod {m : ℕ} {n : ℤ} {X : Space} (hm : 1 ≤ m + 1) (hX : mkGr (m + 1 : ℕ) n = .ok X) {k : ℕ} (hn : n = m + 1 + k)
    (x y : LMod) : (ringQ hm hX).Y.prod x y = (sysQ m (Int.natCast_nonneg k) hn).prod x y := by
  have hX' := hX
  obtain ⟨rfl, h1, h2⟩ := mkGr_ok hX
  have hk : (k : ℤ) = n - (m + 1 : ℕ) := by push_cast; omega
  exact sysQ_cast (k := n - (m + 1 : ℕ)) (k' := k) (n := n) (n' := n) hk.symm rfl (by omega) _ (by push_cast; ring) hn x y

/-- What `mult` on the enlarged space and `qmult` compute, as reductions of one element. -/
theorem rh_setup {m : ℕ} {n : ℤ} {X : Space} (hm : 1 ≤ m) (hX : mkGr m n = .ok X) {fuel : ℕ} (hf : giamBound m n ≤ fuel)
    (hf' : giamBound m (2 * n - 1) ≤ fuel) {A B : ℤ} {a b : Poly} (ha : LinComb (fun l => GrClass m n l ∧ l.sum ≤ A) a)
    (hb : LinComb (fun l => GrClass m n l ∧ l.sum ≤ B) b) :
    ∃ z : LMod, (∀ l ∈ z.support, GrClass m (2 * n - 1) l ∧ l.sum ≤ A + B) ∧
      Returns (Gr.mult (Gr.rhSpace X) fuel a b) (ev z) ∧
      Returns (Gr.qmult X fuel a b) (ev (redq (m - 1) (n - m).toNat z)) := by
  obtain ⟨x, hx, hxc⟩ := linComb_ev ha.2
  obtain ⟨y, hy, hyc⟩ := linComb_ev hb.2
  obtain ⟨rfl, h1, h2⟩ := mkGr_ok hX
  have hm1 : (1 : ℤ) ≤ m := by omega
  have hX' : mkGr m (2 * n - 1) = .ok (Gr.rhSpace ⟨.A, n - m, n⟩) := by
    unfold mkGr Gr.rhSpace
    rw [if_neg (by omega), if_neg (by omega)]
    simp
  have hbig : ∀ {l : List Int}, GrClass m n l → GrClass m (2 * n - 1) l := fun h =>
    ⟨h.1, h.2.1, fun x hx => (h.2.2 x hx).trans (by omega)⟩
  have r1 := (ringC hm hX').mult hf' ha.1 hx (fun l hl => hbig (hxc l hl).1) hb.1 hy (fun l hl => hbig (hyc l hl).1)
  have r2 := (ringQ hm hX).mult hf ha.1 hx (fun l hl => (hxc l hl).1) hb.1 hy (fun l hl => (hyc l hl).1)
  cases m with
  | zero => omega
  | succ m =>
    obtain ⟨k, hk⟩ : ∃ k : ℕ, (k : ℤ) = n - (m + 1 : ℕ) := ⟨(n - (m + 1 : ℕ)).toNat, by omega⟩
    obtain ⟨K, hK⟩ : ∃ K : ℕ, (K : ℤ) = 2 * n - 1 - (m + 1 : ℕ) := ⟨(2 * n - 1 - (m + 1 : ℕ)).toNat, by omega⟩
    have hcl : ∀ {l}, GrClass (m + 1) n l → clsA (m + 1) k l := fun h => by rw [hk]; exact h
    have hcK : ∀ {l}, GrClass (m + 1) n l → clsA (m + 1) K l := fun h => by rw [hK]; exact hbig h
    have e1 := ringC_prod hm hX' (k := K) (by rw [hK]; push_cast; ring) x y
    have e2 := ringQ_prod hm hX (k := k) (by rw [hk]; push_cast; ring) x y
    refine ⟨_, ?_, r1, ?_⟩
    · rw [e1]
      intro l hl
      refine ⟨?_, prod_size (m := m) (K := K) (n' := 2 * n - 1) (by rw [hK]; push_cast; ring) (fun l hl => hcK (hxc l hl).1)
        (fun l hl => hcK (hyc l hl).1) (fun l hl => (hxc l hl).2) (fun l hl => (hyc l hl).2) l hl⟩
      have := (sysC m (Int.natCast_nonneg K) (n := 2 * n - 1) (by rw [hK]; push_cast; ring)).prod_support x
        (fun l hl => hcK (hyc l hl).1) l hl
      rw [hK] at this
      exact this
    · rw [e1, Nat.add_sub_cancel, show (n - (m + 1 : ℕ)).toNat = k by omega,
        ← rim_hook_lin (k := k) (n := n) (by rw [hk]; push_cast; ring) _ (by omega) (fun l hl => hcl (hxc l hl).1)
          (fun l hl => hcl (hyc l hl).1), ← e2]
      exact r2

/-- `qmult_rh` computes a reduction of the same element that differs from the one of `qmult` only in terms of `q`-degree at
least two. -/
theorem rh_returns {m : ℕ} {n : ℤ} {X : Space} (hm : 1 ≤ m) (hX : mkGr m n = .ok X) {fuel : ℕ} (hf : giamBound m n ≤ fuel)
    (hf' : giamBound m (2 * n - 1) ≤ fuel) {A B : ℤ} {a b : Poly} (ha : LinComb (fun l => GrClass m n l ∧ l.sum ≤ A) a)
    (hb : LinComb (fun l => GrClass m n l ∧ l.sum ≤ B) b) :
    ∃ u v : LMod, Returns (Gr.qmultRh X fuel a b) (ev u) ∧ Returns (Gr.qmult X fuel a b) (ev v) ∧
      (∀ l ∈ u.support, GrClass m n l) ∧ (A + B < 2 * n → u = v) ∧
      ∀ (d : ℕ) (l : List Int), d ≤ 1 → (u l).coeff d = (v l).coeff d := by
  classical
  obtain ⟨z, hz, r1, r2⟩ := rh_setup hm hX hf hf' ha hb
  obtain ⟨rfl, h1, h2⟩ := mkGr_ok hX
  cases m with
  | zero => omega
  | succ m =>
    obtain ⟨k, hk⟩ : ∃ k : ℕ, (k : ℤ) = n - (m + 1 : ℕ) := ⟨(n - (m + 1 : ℕ)).toNat, by omega⟩
    rw [Nat.add_sub_cancel, show (n - (m + 1 : ℕ)).toNat = k by omega] at r2
    have hval : ∀ l : List Int, ∃ v : LMod, GrClass (m + 1) (2 * n - 1) l →
        Returns (Gr.rmRimHook (n - (m + 1 : ℕ)) n l) (ev v) ∧ (v = Dq m k (bt (vec m l)) ∨
          ∃ (c : ℕ) (x : List Int) (e e' : ℕ), 2 ≤ c ∧ x.sum + c * n = l.sum ∧ clsA (m + 1) k x ∧
            v = Finsupp.single x ((-1) ^ e * Polynomial.X ^ c) ∧
            Dq m k (bt (vec m l)) = Finsupp.single x ((-1) ^ e' * Polynomial.X ^ c)) := by
      intro l
      by_cases hl : GrClass (m + 1) (2 * n - 1) l
      · obtain ⟨v, hv⟩ := rmRimHook_value (m := m) (k := k) (n := n) (by rw [hk]; push_cast; ring) hl
        rw [hk] at hv
        exact ⟨v, fun _ => ⟨hv.1, by rw [← hk] at hv; exact hv.2⟩⟩
      · exact ⟨0, fun h => absurd h hl⟩
    choose ρ hρ using hval
    refine ⟨lin ρ z, _, r1.bind (fun w hw hw' => ?_), r2, ?_, ?_, ?_⟩
    · rw [← subst_ev z (fun l _ => rfl)]
      exact apply_ev hw hw' (fun l hl => (hρ l (hz l hl).1).1)
    · rw [lin_sum (lin ρ) z]
      refine sum_support (Q := GrClass (m + 1) n) (fun l hl nu hnu => ?_)
      have h3 := Finsupp.support_smul hnu
      rw [lin, Finsupp.linearCombination_single, one_smul] at h3
      have hcc : ∀ {l}, clsA (m + 1) k l → GrClass (m + 1) n l := fun h => by rw [hk] at h; exact h
      rcases (hρ l (hz l hl).1).2 with h4 | ⟨c, x, e, e', _, _, h5, h6, _⟩
      · rw [h4] at h3; exact hcc (Dq_support m k _ nu h3)
      · rw [h6] at h3
        rw [Finset.mem_singleton.1 (Finsupp.support_single_subset h3)]
        exact hcc h5
    · intro hAB
      rw [redq, lin_sum (lin ρ) z, lin_sum (lin _) z]
      apply Finset.sum_congr rfl
      intro l hl
      rw [lin, Finsupp.linearCombination_single, Finsupp.linearCombination_single, one_smul, one_smul]
      rcases (hρ l (hz l hl).1).2 with h4 | ⟨c, x, e, e', h5, h6, h7, _⟩
      · rw [h4]
      · exfalso
        have h8 := (hz l hl).2
        have h9 : 0 ≤ x.sum := List.sum_nonneg (fun y hy => by have := h7.1.2 y hy; omega)
        have hn : 0 ≤ n := by omega
        have : (2 : ℤ) * n ≤ c * n := by
          apply mul_le_mul_of_nonneg_right _ hn
          exact_mod_cast h5
        omega
    · intro d l' hd
      rw [redq, lin_sum (lin ρ) z, lin_sum (lin _) z, Finsupp.finsetSum_apply, Finsupp.finsetSum_apply, Polynomial.finsetSum_coeff,
        Polynomial.finsetSum_coeff]
      apply Finset.sum_congr rfl
      intro l hl
      rw [lin, Finsupp.linearCombination_single, Finsupp.linearCombination_single, one_smul, one_smul]
      rcases (hρ l (hz l hl).1).2 with h4 | ⟨c, x, e, e', h5, h6, h7, h8, h9⟩
      · rw [h4]
      · have hz0 : ∀ (p : Polynomial ℚ) (e : ℕ), ((p • (Finsupp.single x ((-1) ^ e * Polynomial.X ^ c) : LMod)) l').coeff d = 0 := by
          intro p e
          rw [Finsupp.smul_apply, Finsupp.single_apply]
          split
          · rw [smul_eq_mul, ← mul_assoc, Polynomial.coeff_mul_X_pow', if_neg (by omega)]
          · simp
        rw [h8, h9, hz0, hz0]

section
variable {m : ℕ} {n : ℤ} {X : Space} (hm : 1 ≤ m) (hX : mkGr m n = .ok X) {fuel : ℕ} (hf : giamBound m n ≤ fuel)
  (hf' : giamBound m (2 * n - 1) ≤ fuel)
include hm hX hf hf'

/-- **C26, partial.** `qmult_rh` agrees with `qmult` on combinations of classes with at most `A` and at most `B` boxes, if
`A + B < 2n`. Missing: products in which a term loses two or more hooks, where the claim is false (`C26_refuted`). -/
theorem C26_one_hook_partial {A B : ℤ} {a b : Poly} (ha : LinComb (fun l => GrClass m n l ∧ l.sum ≤ A) a)
    (hb : LinComb (fun l => GrClass m n l ∧ l.sum ≤ B) b) (hAB : A + B < 2 * n) :
    SameResult (Gr.qmultRh X fuel a b) (Gr.qmult X fuel a b) := by
  obtain ⟨u, v, r1, r2, _, h, _⟩ := rh_returns hm hX hf hf' ha hb
  rw [h hAB] at r1
  exact same_of_returns r1 r2

/-- `Gr(3,6)`: the two products agree in degree 11. -/
example :
    Gr.qmultRh ⟨.A, 3, 6⟩ 40 (Poly.sym (.S [3, 2])) (Poly.sym (.S [3, 2, 1])) =
      .ok [([.q, .S [3, 1, 1]], 1), ([.q, .S [2, 2, 1]], 1), ([.q, .S [3, 2]], 1)] ∧
    Gr.qmult ⟨.A, 3, 6⟩ 40 (Poly.sym (.S [3, 2])) (Poly.sym (.S [3, 2, 1])) =
      .ok [([.q, .S [2, 2, 1]], 1), ([.q, .S [3, 1, 1]], 1), ([.q, .S [3, 2]], 1)] := by decide +kernel

omit hm hX hf hf' in
theorem linComb_bound {cls : List Int → Prop} {a : Poly} (ha : LinComb cls a) : ∃ A, LinComb (fun l => cls l ∧ l.sum ≤ A) a := by
  have key : ∀ p : Poly, (∀ t ∈ p, ∃ d l, t.1 = List.replicate d Sym.q ++ [Sym.S l] ∧ cls l) →
      ∃ A : ℤ, ∀ t ∈ p, ∃ d l, t.1 = List.replicate d Sym.q ++ [Sym.S l] ∧ cls l ∧ l.sum ≤ A := by
    intro p
    induction p with
    | nil => intro _; exact ⟨0, by simp⟩
    | cons t p ih =>
      intro h
      obtain ⟨A, hA⟩ := ih (fun t ht => h t (by simp [ht]))
      obtain ⟨d, l, h1, h2⟩ := h t (by simp)
      refine ⟨max A l.sum, fun t' ht' => ?_⟩
      rcases List.mem_cons.1 ht' with rfl | ht'
      · exact ⟨d, l, h1, h2, le_max_right _ _⟩
      · obtain ⟨d, l, a, b, c⟩ := hA t' ht'
        exact ⟨d, l, a, b, c.trans (le_max_left _ _)⟩
  obtain ⟨A, h⟩ := key a ha.2
  exact ⟨A, ha.1, h⟩

/-- **C26, partial.** For all linear combinations of classes `qmult_rh` returns a linear combination of classes, and the
coefficients of `q^0` and `q^1` in it are those of `qmult`. Missing: the coefficients of `q^2`, `q^3`, ..., which are wrong
for the code (`C26_refuted`). -/
theorem C26_low_degree_partial {a b : Poly} (ha : LinComb (GrClass m n) a) (hb : LinComb (GrClass m n) b) :
    ∃ w w', Gr.qmultRh X fuel a b = .ok w ∧ Gr.qmult X fuel a b = .ok w' ∧ LinComb (GrClass m n) w ∧
      ∀ (d : ℕ) (l : List Int), d ≤ 1 →
        coeffOf (List.replicate d Sym.q ++ [.S l]) w = coeffOf (List.replicate d Sym.q ++ [.S l]) w' := by
  obtain ⟨A, ha⟩ := linComb_bound ha
  obtain ⟨B, hb⟩ := linComb_bound hb
  obtain ⟨u, v, ⟨w, a1, a2, a3⟩, ⟨w', b1, b2, b3⟩, hc, _, h⟩ := rh_returns hm hX hf hf' ha hb
  refine ⟨w, w', a1, b1, linComb_of_ev a2 a3 hc, fun d l hd => ?_⟩
  rw [coeffOf_den a2 (qmono_sorted d _), coeffOf_den b2 (qmono_sorted d _), a3, b3, expo_qmono, coeff_ev, coeff_ev, h d l hd]

example :
    Gr.qmultRh ⟨.A, 2, 4⟩ 40 (Poly.sym (.S [2, 1])) (Poly.sym (.S [2, 1])) =
      .ok [([.q, .S [2]], 1), ([.q, .S [1, 1]], 1)] ∧
    Gr.qmult ⟨.A, 2, 4⟩ 40 (Poly.sym (.S [2, 1])) (Poly.sym (.S [2, 1])) =
      .ok [([.q, .S [1, 1]], 1), ([.q, .S [2]], 1)] := by decide +kernel

/-- The expression of a result of the rim hook rule. -/
def Spec.hookTerm : Option (Rat × Nat × List Int) → Poly
  | none => []
  | some (s, d, y) => [(List.replicate d Sym.q ++ [.S y], s)]

omit hm hX hf hf' in
theorem hookRed_sign {n : ℤ} {rows : ℕ} {cols : ℤ} {l : List Int} {s : ℚ} {d : ℕ} {y : List Int}
    (h : HookRed n rows cols l (some (s, d, y))) : s = 1 ∨ s = -1 := by
  generalize hr : some (s, d, y) = r at h
  induction h generalizing s d y with
  | fits => cases hr; exact Or.inl rfl
  | stop => cases hr
  | zero => cases hr
  | @hook l x b s' d' y' _ _ _ _ ih =>
    cases hr
    rcases neg_one_pow_eq_or ℚ (rows - (b + 1)) with e | e <;> rcases ih rfl with e' | e' <;> rw [e, e'] <;> norm_num

/-- **C70.** The rim hook rule: the quantum product on `Gr(m, n)` is the classical product on the larger `Gr(m, 2n-1)` with
every class reduced by removing hooks of `n` boxes, each with its own sign. -/
theorem C70_rim_hook_rule (red : List Int → Option (Rat × Nat × List Int))
    (hred : ∀ l, GrClass m (2 * n - 1) l → HookRed n m (n - m) l (red l))
    {a b : Poly} (ha : LinComb (GrClass m n) a) (hb : LinComb (GrClass m n) b) :
    SameResult (Gr.qmult X fuel a b) (Gr.mult (Gr.rhSpace X) fuel a b >>= Poly.apply (fun l => .ok (hookTerm (red l)))) := by
  obtain ⟨A, ha⟩ := linComb_bound ha
  obtain ⟨B, hb⟩ := linComb_bound hb
  obtain ⟨z, hz, r1, r2⟩ := rh_setup hm hX hf hf' ha hb
  obtain ⟨rfl, h1, h2⟩ := mkGr_ok hX
  cases m with
  | zero => omega
  | succ m =>
    obtain ⟨k, hk⟩ : ∃ k : ℕ, (k : ℤ) = n - (m + 1 : ℕ) := ⟨(n - (m + 1 : ℕ)).toNat, by omega⟩
    rw [Nat.add_sub_cancel, show (n - (m + 1 : ℕ)).toNat = k by omega] at r2
    rw [← hk] at hred
    refine same_of_returns r2 (r1.bind (fun w hw hw' => ?_))
    rw [redq, ← subst_ev z (σ := fun l => ev (Dq m k (bt (vec m l)))) (fun l _ => rfl)]
    refine apply_ev hw hw' (fun l hl => ?_)
    have h3 := hred l (hz l hl).1
    rw [hookRed_value (m := m) (n := n) (by rw [hk]; push_cast; ring) h3 (hz l hl).1]
    cases hr : red l with
    | none => exact ⟨[], rfl, wf_nil, by simp [redVal]⟩
    | some r =>
      obtain ⟨s, d, y⟩ := r
      rw [hr] at h3
      refine ⟨_, rfl, ?_, ?_⟩
      · refine ⟨by simp [hookTerm], ?_⟩
        intro t ht
        simp [hookTerm] at ht
        subst ht
        refine ⟨?_, qmono_sorted d _⟩
        rcases hookRed_sign h3 with e | e <;> rw [e] <;> norm_num
      · rw [hookTerm, den_cons, den_nil, add_zero, monoDen_replicate, redVal, ev_single]
        simp [inq, monoDen]
        rw [mul_assoc]

end

/-- **C70.** The rule reduces every partition to exactly one result, for every `n > 0`. -/
theorem C70_rule_unique (n : ℤ) (hn : 0 < n) (rows : ℕ) (cols : ℤ) (l : List Int) (hl : IsPartition l) :
    ∃! r, HookRed n rows cols l r := by
  obtain ⟨r, hr⟩ := hookRed_total n hn rows cols _ l hl (Nat.lt_succ_self _)
  exact ⟨r, hr, fun r' hr' => hookRed_unique hl hr' hr⟩

/-! ### Non-trivial instances -/

/-- `S[2,1]` and `S[2,1]` on `Gr(2,5)`: one of the two terms of the classical product on `Gr(2,9)` loses a hook. -/
example : mkGr 2 5 = .ok ⟨.A, 3, 5⟩ ∧ GrClass 2 5 [2, 1] ∧ ([2, 1] : List Int).sum + ([2, 1] : List Int).sum < 2 * 5 ∧
    Gr.mult (Gr.rhSpace ⟨.A, 3, 5⟩) 20 (Poly.sym (.S [2, 1])) (Poly.sym (.S [2, 1])) = .ok [([.S [4, 2]], 1), ([.S [3, 3]], 1)] ∧
    Gr.qmultRh ⟨.A, 3, 5⟩ 20 (Poly.sym (.S [2, 1])) (Poly.sym (.S [2, 1])) = .ok [([.S [3, 3]], 1), ([.q, .S [1]], 1)] ∧
    Gr.qmult ⟨.A, 3, 5⟩ 20 (Poly.sym (.S [2, 1])) (Poly.sym (.S [2, 1])) = .ok [([.q, .S [1]], 1), ([.S [3, 3]], 1)] := by
  refine ⟨by decide, ⟨⟨by decide, by decide⟩, by decide, by decide⟩, by decide, ?_, ?_, ?_⟩ <;> decide +kernel

/-- The shape `(5,5)` loses two hooks of five boxes on `Gr(2,5)`, each in two rows. -/
example : HookRed 5 2 3 [5, 5] (some ((-1) ^ (2 - (1 + 1)) * ((-1) ^ (2 - (1 + 1)) * 1), 2, [])) := by
  have h1 : ¬ InRect [5, 5] 2 3 := by unfold InRect; decide
  have h2 : ¬ InRect [4, 1] 2 3 := by unfold InRect; decide
  have key : ∀ a b c d : ℤ, c = b - 1 → d < b → RimHook [a, b] [c, d] 0 1 := by
    intro a b c d e1 e2
    refine ⟨by decide, ?_, ?_, e2⟩
    · intro j hj
      match j, hj with
      | 0, hj => omega
      | 1, hj => omega
      | j + 2, _ => rw [part_of_ge (by simp), part_of_ge (by simp)]
    · intro j _ hj
      have : j = 0 := by omega
      subst this; exact e1
  have r2 : RimHook [4, 1] [] 0 1 := by
    refine ⟨by decide, ?_, ?_, by decide⟩
    · intro j hj
      match j, hj with
      | 0, hj => omega
      | 1, hj => omega
      | j + 2, _ => rw [part_of_ge (by simp), part_of_ge (by simp)]
    · intro j _ hj
      have : j = 0 := by omega
      subst this; decide
  have r1 := key 5 5 4 1 (by norm_num) (by norm_num)
  refine .hook h1 ⟨⟨by decide, by decide⟩, ⟨1, r1⟩, by decide⟩ r1 ?_
  refine .hook h2 ⟨⟨by decide, by decide⟩, ⟨1, r2⟩, by decide⟩ r2 ?_
  exact .fits ⟨by simp, by simp⟩

end Verif
