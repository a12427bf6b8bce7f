import Verif.Proofs.RowRow
import Verif.Spec.RowRow
import Verif.Props.PieriExact
import Verif.Props.QPieriExact
import Verif.Props.RingBC
import Verif.Props.RingQB
/-!
# C110: products of two special classes on IG(m,2n) and OG(m,2n+1)
-/

namespace Verif
open Spec

namespace RowRow

theorem row_eq {b : ℕ} (hb : 1 ≤ b) : two b 0 = [(b : Int)] := by rw [two_eq, if_pos (show 0 < b by omega)]; rfl

theorem two_inj' {x y x' y' : ℕ} (h : y ≤ x) (h' : y' ≤ x') (e : two x y = two x' y') : x = x' ∧ y = y' := by
  obtain ⟨a1, a2, -⟩ := part_two h
  obtain ⟨b1, b2, -⟩ := part_two h'
  rw [e] at a1 a2
  omega

/-- the classes with at most two rows -/
theorem class_two {m k c d : ℕ} (h : d ≤ c) :
    (ReducedPart (two c d) ∧ KStrict (k : Int) (two c d) ∧ InRect (two c d) m ((m : Int) + 2 * k)) ↔
      c ≤ m + 2 * k ∧ (two c d).length ≤ m ∧ ¬ (c = d ∧ k < d) := by
  have hk : KStrict (k : Int) (two c d) ↔ ¬ (c = d ∧ k < d) := by
    rw [two_eq]
    unfold KStrict
    split_ifs with h1 h2 h2 <;> simp <;> omega
  have hr : InRect (two c d) m ((m : Int) + 2 * k) ↔ c ≤ m + 2 * k ∧ (two c d).length ≤ m := by
    unfold InRect
    constructor
    · rintro ⟨h1, h2⟩
      refine ⟨?_, h1⟩
      rcases Nat.eq_zero_or_pos c with rfl | hc
      · omega
      · have := h2 c (mem_two.2 (Or.inl ⟨hc, rfl⟩)); omega
    · rintro ⟨h1, h2⟩
      refine ⟨h2, fun x hx => ?_⟩
      rcases mem_two.1 hx with ⟨_, rfl⟩ | ⟨_, rfl⟩ <;> omega
  rw [hk, hr]
  have := reduced_two h
  tauto

theorem mem_rowIdx {m k a b i : ℕ} : i ∈ rowIdx m k a b ↔ i ≤ b ∧ a + i ≤ m + 2 * k ∧ (two (a + i) (b - i)).length ≤ m ∧
    ¬ (a + i = b - i ∧ k < b - i) := by
  unfold rowIdx
  rw [List.mem_filter, List.mem_range, decide_eq_true_eq]
  omega

/-- the condition on the terms of the Pieri rule, for two rows -/
theorem term_two {m k a b : ℕ} (hba : b ≤ a) (mu : List Int) :
    (ReducedPart mu ∧ KStrict (k : Int) mu ∧ InRect mu m ((m : Int) + 2 * k) ∧ mu.sum = (two b 0).sum + a ∧
      PieriArrow k 0 (two b 0) mu) ↔ ∃ i ∈ rowIdx m k a b, mu = two (a + i) (b - i) := by
  constructor
  · rintro ⟨h1, h2, h3, h4, h5⟩
    obtain ⟨c, d, h6, h7, rfl⟩ := arrow_two h1 h5
    rw [sum_two h6, sum_two (Nat.zero_le b)] at h4
    have := (class_two h6).1 ⟨h1, h2, h3⟩
    refine ⟨b - d, mem_rowIdx.2 ?_, ?_⟩
    · rw [show a + (b - d) = c by omega, show b - (b - d) = d by omega]
      exact ⟨by omega, this⟩
    · rw [show a + (b - d) = c by omega, show b - (b - d) = d by omega]
  · rintro ⟨i, hi, rfl⟩
    obtain ⟨h1, h2⟩ := mem_rowIdx.1 hi
    obtain ⟨a1, a2, a3⟩ := (class_two (k := k) (m := m) (show b - i ≤ a + i by omega)).2 h2
    refine ⟨a1, a2, a3, ?_, two_arrow (Or.inl rfl) (by omega) (by omega)⟩
    rw [sum_two (by omega), sum_two (by omega)]; omega

theorem box {m k c d : ℕ} (h : d ≤ c) (h1 : c ≤ m + 2 * k) (h2 : (two c d).length ≤ m) (h3 : ¬ (c = d ∧ k < d)) :
    InBox k ((m : Int) + k) 0 (two c d) := by
  obtain ⟨a1, a2, a3⟩ := (class_two (k := k) (m := m) h).2 ⟨h1, h2, h3⟩
  exact inBox_of_class (d := 0) (m := m) (by omega) (by ring) (by omega) a1 a2 a3

theorem row_box {m k b : ℕ} (hm : 1 ≤ m) (h : b ≤ m + 2 * k) : InBox k ((m : Int) + k) 0 (two b 0) := by
  refine box (Nat.zero_le _) h ?_ (by omega)
  rw [length_two (Nat.zero_le _)]
  split_ifs <;> omega

theorem comps {m k a b i : ℕ} (hm : 1 ≤ m) (hba : b ≤ a) (ha : a ≤ m + 2 * k) (hi : i ∈ rowIdx m k a b) :
    numCompsOff k 0 (two b 0) (two (a + i) (b - i)) = (if 0 < i ∧ 2 * k + 2 ≤ a + b then 1 else 0) ∧
    numComps k 0 (two b 0) (two (a + i) (b - i)) = (if 0 < i ∧ 2 * k + 2 ≤ a + b then 1 else 0) +
      (if (b ≤ k ∧ k < a + i) ∨ k < b - i then 1 else 0) := by
  obtain ⟨h1, h2, h3, h4⟩ := mem_rowIdx.1 hi
  have b1 := row_box hm (show b ≤ m + 2 * k by omega)
  have b2 := box (show b - i ≤ a + i by omega) h2 h3 h4
  have hs := (shapeRel_iff b1 b2 (Or.inl rfl) (by omega) (by omega)).2 (two_arrow (Or.inl rfl) (by omega) (by omega))
  obtain ⟨e1, e2⟩ := countComps_numComps b1 b2 (Or.inl rfl) (by omega) (by omega) hs
  rw [← e1, ← e2, comps_two b1 b2 (by omega) (by omega) (by omega) (by omega) (by omega),
    comps_two b1 b2 (by omega) (by omega) (by omega) (by omega) (by omega)]
  have : (b - i < b ∧ 2 * k + 2 ≤ a + i + (b - i)) ↔ (0 < i ∧ 2 * k + 2 ≤ a + b) := by omega
  simp only [this, true_and, Bool.true_eq_false, false_and, if_false, add_zero, and_self]

theorem coefC {m k a b i : ℕ} (hm : 1 ≤ m) (hba : b ≤ a) (ha : a ≤ m + 2 * k) (hi : i ∈ rowIdx m k a b) :
    (2 : ℚ) ^ numCompsOff k 0 (two b 0) (two (a + i) (b - i)) = rowCoefC k a b i := by
  rw [(comps hm hba ha hi).1]
  unfold rowCoefC
  by_cases h : 0 < i ∧ 2 * k + 2 ≤ a + b
  · rw [if_pos h, if_neg (by omega)]; norm_num
  · rw [if_neg h, if_pos (by omega)]; norm_num

theorem coefB {m k a b i : ℕ} (hm : 1 ≤ m) (hba : b ≤ a) (ha : a ≤ m + 2 * k) (hi : i ∈ rowIdx m k a b) (c : ℚ) :
    (∃ e : ℕ, numComps k 0 (two b 0) (two (a + i) (b - i)) = (if (a : Int) ≤ k then e else e + 1) ∧ c = 2 ^ e) ↔
      c = rowCoefB k a b i := by
  obtain ⟨h1, h2, h3, h4⟩ := mem_rowIdx.1 hi
  suffices h : ∃ e : ℕ, numComps k 0 (two b 0) (two (a + i) (b - i)) = (if (a : Int) ≤ k then e else e + 1) ∧ rowCoefB k a b i = 2 ^ e by
    obtain ⟨e, he1, he2⟩ := h
    constructor
    · rintro ⟨e', h1', rfl⟩
      rw [he1] at h1'
      have : e' = e := by split_ifs at h1' <;> omega
      rw [this, he2]
    · rintro rfl; exact ⟨e, he1, he2⟩
  rw [(comps hm hba ha hi).2]
  unfold rowCoefB
  by_cases c0 : i = 0
  · refine ⟨0, ?_, by rw [if_pos c0]; norm_num⟩
    split_ifs <;> omega
  · rw [if_neg c0]
    by_cases c1 : k < b
    · rw [if_pos c1]
      by_cases c2 : k < b - i
      · refine ⟨1, ?_, by rw [if_pos c2]; norm_num⟩
        split_ifs <;> omega
      · refine ⟨0, ?_, by rw [if_neg c2]; norm_num⟩
        split_ifs <;> omega
    · rw [if_neg c1]
      by_cases c2 : 2 * k + 1 < a + b ∨ (a ≤ k ∧ k < a + i)
      · refine ⟨1, ?_, by rw [if_pos c2]; norm_num⟩
        split_ifs <;> omega
      · refine ⟨0, ?_, by rw [if_neg c2]; norm_num⟩
        split_ifs <;> omega

theorem nodup_fst {m k a b : ℕ} (hba : b ≤ a) (f : ℕ → ℚ) :
    (((rowIdx m k a b).map (fun i => ([Sym.S (two (a + i) (b - i))], f i))).map Prod.fst).Nodup := by
  rw [List.map_map]
  refine List.Nodup.map_on ?_ (List.Nodup.filter _ List.nodup_range)
  intro i hi j hj h
  have hi := (mem_rowIdx.1 hi).1
  have hj := (mem_rowIdx.1 hj).1
  simp only [Function.comp_apply, List.cons.injEq, Sym.S.injEq, and_true] at h
  have := (two_inj' (by omega) (by omega) h).2
  omega

theorem row_class {m k b : ℕ} (hm : 1 ≤ m) (hb : 1 ≤ b) (h : b ≤ m + 2 * k) : BCClass (m : Int) ((m : Int) + k) [(b : Int)] := by
  rw [← row_eq hb]
  have := (class_two (k := k) (m := m) (Nat.zero_le b)).2 ⟨h, by rw [length_two (Nat.zero_le _)]; split_ifs <;> omega, by omega⟩
  unfold BCClass
  rw [show (m : Int) + k - m = k by ring, show 2 * ((m : Int) + k) - m = m + 2 * k by ring]
  exact ⟨this.1, this.2.1, this.2.2⟩

theorem lin_row {cls : List Int → Prop} {l : List Int} (h : cls l) : LinComb cls (Poly.sym (.S l)) := by
  refine ⟨wf_sym _, ?_⟩
  intro t ht
  simp only [Poly.sym, List.mem_singleton] at ht
  subst ht
  exact ⟨0, l, by simp, h⟩

theorem perm_of {w L : Poly} (h1 : (w.map Prod.fst).Nodup) (h2 : (L.map Prod.fst).Nodup) (h : ∀ t, t ∈ w ↔ t ∈ L) : w.Perm L :=
  (List.perm_ext_iff_of_nodup h1.of_map h2.of_map).2 h

end RowRow

open RowRow

section
variable {m k a b : ℕ} (hm : 1 ≤ m) (hb : 1 ≤ b) (hba : b ≤ a) (ha : a ≤ m + 2 * k) {X : Space} {fuel : ℕ}
  (hf : giamBoundBC m (m + k) ≤ fuel)
include hm hb hba ha hf

/-- **C110**, type C: for `b ≤ a`, the product `S[a]*S[b]` on `IG(m,2n)`, in either order, is the sum of the classes `S[a+i,b-i]` with
coefficient 1 for `i = 0` or `a+b ≤ 2k+1`, and coefficient 2 otherwise (`k = n-m`). -/
theorem C110_IG (hX : mkIG m (2 * (m + k)) = .ok X) :
    ∃ w w', X.mult fuel (Poly.sym (.S [(a : Int)])) (Poly.sym (.S [(b : Int)])) = .ok w ∧
      X.mult fuel (Poly.sym (.S [(b : Int)])) (Poly.sym (.S [(a : Int)])) = .ok w' ∧
      w.Perm (rowRowC m k a b) ∧ w'.Perm (rowRowC m k a b) := by
  have ca := row_class hm (show 1 ≤ a by omega) ha
  have cb := row_class hm hb (show b ≤ m + 2 * k by omega)
  obtain ⟨w, v, h1, h2, h3⟩ := (C54_pieri_IG id hX (by omega) (p := a) (by omega) (by omega) hf (lin_row cb)).1
  obtain ⟨v1, v2, h4, h5, h6⟩ := (C53_mult_IG hX hf).2.1 _ _ (lin_row ca) (lin_row cb)
  rw [h1] at h4
  obtain rfl : w = v1 := by simpa using h4
  obtain ⟨u, h7, h8, h9⟩ := C48_pieri_IG m (m + k) a X hX [(b : Int)] cb.1 cb.2.1 cb.2.2
  rw [h2] at h7
  obtain rfl : v = u := by simpa using h7
  have hv : v.Perm (rowRowC m k a b) := by
    apply perm_of h8 (nodup_fst hba _)
    intro t
    rw [h9, List.mem_map]
    simp only [show (m : Int) + k - m = k by ring, show 2 * ((m : Int) + k) - m = m + 2 * k by ring, Int.toNat_natCast, ← row_eq hb]
    constructor
    · rintro ⟨mu, hmu, rfl⟩
      obtain ⟨i, hi, rfl⟩ := (term_two hba mu).1 hmu
      exact ⟨i, hi, by rw [coefC hm hba ha hi]⟩
    · rintro ⟨i, hi, rfl⟩
      exact ⟨_, (term_two hba _).2 ⟨i, hi, rfl⟩, by rw [coefC hm hba ha hi]⟩
  exact ⟨w, v2, h1, h5, h3.trans hv, h6.symm.trans (h3.trans hv)⟩

/-- **C110**, type B: the same on `OG(m,2n+1)`; for `i > 0` the coefficient is 2 if `n-m < b-i`, or `b ≤ n-m` and `a+b > 2(n-m)+1`, or
`a ≤ n-m < a+i`, and 1 otherwise. -/
theorem C110_OG (hX : mkOG m (2 * (m + k) + 1) = .ok X) :
    ∃ w w', X.mult fuel (Poly.sym (.S [(a : Int)])) (Poly.sym (.S [(b : Int)])) = .ok w ∧
      X.mult fuel (Poly.sym (.S [(b : Int)])) (Poly.sym (.S [(a : Int)])) = .ok w' ∧
      w.Perm (rowRowB m k a b) ∧ w'.Perm (rowRowB m k a b) := by
  have ca := row_class hm (show 1 ≤ a by omega) ha
  have cb := row_class hm hb (show b ≤ m + 2 * k by omega)
  have hmn : (m : Int) ≤ m + k := by omega
  obtain ⟨w, v, h1, h2, h3⟩ := C54_pieri_OG hmn hX (by omega) (p := a) (by omega) (by omega) hf (lin_row cb)
  obtain ⟨v1, v2, h4, h5, h6⟩ := (C53_mult_OG hmn hX hf).2.1 _ _ (lin_row ca) (lin_row cb)
  rw [h1] at h4
  obtain rfl : w = v1 := by simpa using h4
  obtain ⟨u, h7, h8, h9⟩ := C48_pieri_OG m (m + k) a hmn X hX [(b : Int)] cb.1 cb.2.1 cb.2.2
  rw [h2] at h7
  obtain rfl : v = u := by simpa using h7
  have hv : v.Perm (rowRowB m k a b) := by
    apply perm_of h8 (nodup_fst hba _)
    intro t
    rw [h9, List.mem_map]
    simp only [show (m : Int) + k - m = k by ring, show 2 * ((m : Int) + k) - m = m + 2 * k by ring, Int.toNat_natCast, ← row_eq hb]
    constructor
    · rintro ⟨mu, e, hmu, he, rfl⟩
      obtain ⟨i, hi, rfl⟩ := (term_two hba mu).1 hmu
      exact ⟨i, hi, by rw [(coefB hm hba ha hi _).1 ⟨e, he, rfl⟩]⟩
    · rintro ⟨i, hi, rfl⟩
      obtain ⟨e, he, he'⟩ := (coefB hm hba ha hi _).2 rfl
      exact ⟨_, e, (term_two hba _).2 ⟨i, hi, rfl⟩, he, by rw [he']⟩
  exact ⟨w, v2, h1, h5, h3.trans hv, h6.symm.trans (h3.trans hv)⟩

/-- **C110**, type C: in the quantum product `S[a]*S[b]` on `IG(m,2n)` there is one more term, `q*S[a+b-(2n-m+1)]`, if
`a+b > 2n-m`. -/
theorem C110_qIG (ord : List Int → List Int) (hX : mkIG m (2 * (m + k)) = .ok X) :
    ∃ w w', X.qmult ord fuel (Poly.sym (.S [(a : Int)])) (Poly.sym (.S [(b : Int)])) = .ok w ∧
      X.qmult ord fuel (Poly.sym (.S [(b : Int)])) (Poly.sym (.S [(a : Int)])) = .ok w' ∧
      w.Perm (qrowRowC m k a b) ∧ w'.Perm (qrowRowC m k a b) := by
  have ca := row_class hm (show 1 ≤ a by omega) ha
  have cb := row_class hm hb (show b ≤ m + 2 * k by omega)
  obtain ⟨w, v, h1, h2, h3⟩ := (C54_pieri_IG ord hX (by omega) (p := a) (by omega) (by omega) hf (lin_row cb)).2
  obtain ⟨v1, v2, h4, h5, h6⟩ := (C53_qmult_IG ord hX hf).2.1 _ _ (lin_row ca) (lin_row cb)
  rw [h1] at h4
  obtain rfl : w = v1 := by simpa using h4
  obtain ⟨u, h7, h8, h9⟩ := C50_qpieri_IG ord m (m + k) a X hX [(b : Int)] cb.1 cb.2.1 cb.2.2 (by omega)
  rw [h2] at h7
  obtain rfl : v = u := by simpa using h7
  have hv : v.Perm (qrowRowC m k a b) := by
    apply perm_of h8
    · rw [qrowRowC, List.map_append, List.nodup_append]
      refine ⟨nodup_fst hba _, by split_ifs <;> simp, ?_⟩
      intro x hx y hy e
      rw [rowRowC, List.map_map] at hx
      obtain ⟨i, -, rfl⟩ := List.mem_map.1 hx
      split_ifs at hy
      · simp only [List.map_cons, List.map_nil, List.mem_singleton] at hy
        rw [hy] at e
        simp at e
      · simp at hy
    intro t
    rw [h9, qrowRowC, List.mem_append, rowRowC, List.mem_map]
    simp only [show (m : Int) + k - m = k by ring, show 2 * ((m : Int) + k) - m = m + 2 * k by ring, Int.toNat_natCast, ← row_eq hb]
    apply or_congr
    · constructor
      · rintro ⟨mu, hmu, rfl⟩
        obtain ⟨i, hi, rfl⟩ := (term_two hba mu).1 hmu
        exact ⟨i, hi, by rw [coefC hm hba ha hi]⟩
      · rintro ⟨i, hi, rfl⟩
        exact ⟨_, (term_two hba _).2 ⟨i, hi, rfl⟩, by rw [coefC hm hba ha hi]⟩
    · have hcons : ∀ d : ℕ, d ≤ m + 2 * k → ((m : Int) + 2 * k + 1) :: two d 0 = two (m + 2 * k + 1) d := by
        intro d hd
        rw [two_eq, two_eq, if_pos (show 0 < m + 2 * k + 1 by omega)]
        push_cast
        simp
      by_cases hab : m + 2 * k < a + b
      · set d := a + b - (m + 2 * k + 1) with hd
        have hlen : (two (m + 2 * k + 1) d).length ≤ m + 1 := by rw [length_two (by omega)]; split_ifs <;> omega
        have hi : m + 2 * k + 1 - a ∈ rowIdx (m + 1) k a b := by
          rw [mem_rowIdx, show a + (m + 2 * k + 1 - a) = m + 2 * k + 1 by omega, show b - (m + 2 * k + 1 - a) = d by omega]
          exact ⟨by omega, by omega, hlen, by omega⟩
        have hc := (comps (m := m + 1) (by omega) hba (by omega) hi).1
        rw [show a + (m + 2 * k + 1 - a) = m + 2 * k + 1 by omega, show b - (m + 2 * k + 1 - a) = d by omega,
          if_pos (by omega)] at hc
        rw [if_pos hab, List.mem_singleton]
        constructor
        · rintro ⟨nu, e, ⟨g1, g2, g3, g4, g5⟩, g6, rfl⟩
          have g0 : ReducedPart (((m : Int) + 2 * k + 1) :: nu) := by
            refine ⟨List.pairwise_cons.2 ⟨fun z hz => ?_, g1.1⟩, ?_⟩
            · have := g3.2 z hz; omega
            · intro z hz
              rcases List.mem_cons.1 hz with rfl | hz
              · omega
              · exact g1.2 z hz
          obtain ⟨c', d', q1, q2, q3⟩ := arrow_two g0 g5
          obtain ⟨r1, r2, -⟩ := part_two q1
          rw [← q3] at r1 r2
          have r1' : (m : Int) + 2 * k + 1 = c' := r1
          rw [sum_two (Nat.zero_le b)] at g4
          have hs := congrArg List.sum q3
          rw [sum_two q1, List.sum_cons] at hs
          have hd' : d' = d := by omega
          subst hd'
          have : nu = two d 0 := by
            rw [show c' = m + 2 * k + 1 by omega, ← hcons d (by omega)] at q3
            exact (List.cons.inj q3).2
          subst this
          rw [hcons d (by omega), hc] at g6
          obtain rfl : e = 0 := by omega
          norm_num
        · rintro rfl
          refine ⟨two d 0, 0, ⟨?_, ?_⟩, ?_, by norm_num⟩
          · exact reduced_two (Nat.zero_le _)
          · have := (class_two (k := k) (m := m) (Nat.zero_le d)).2 ⟨by omega, by rw [length_two (Nat.zero_le _)]; split_ifs <;> omega, by omega⟩
            refine ⟨this.2.1, this.2.2, ?_, ?_⟩
            · rw [sum_two (by omega), sum_two (by omega)]; omega
            · rw [hcons d (by omega)]
              exact two_arrow (Or.inl rfl) (by omega) (by omega)
          · rw [hcons d (by omega), hc]
      · rw [if_neg hab]
        simp only [List.not_mem_nil, iff_false]
        rintro ⟨nu, e, ⟨g1, g2, g3, g4, g5⟩, g6, rfl⟩
        have := isPartition_sum_nonneg g1.isPartition
        rw [sum_two (Nat.zero_le b)] at g4
        omega
  exact ⟨w, v2, h1, h5, h3.trans hv, h6.symm.trans (h3.trans hv)⟩

/-- **C110**, type B: for `m ≥ 2` the quantum product of `S[a]` and `S[b]` on `OG(m,2n+1)` is the classical one, except for
`S[2n-m]*S[2n-m] = q^2` (`q` if `m = n`). -/
theorem C110_qOG (ord : List Int → List Int) (hm2 : 2 ≤ m) (hX : mkOG m (2 * (m + k) + 1) = .ok X) :
    ∃ w w', X.qmult ord fuel (Poly.sym (.S [(a : Int)])) (Poly.sym (.S [(b : Int)])) = .ok w ∧
      X.qmult ord fuel (Poly.sym (.S [(b : Int)])) (Poly.sym (.S [(a : Int)])) = .ok w' ∧
      w.Perm (qrowRowB m k a b) ∧ w'.Perm (qrowRowB m k a b) := by
  have ca := row_class hm (show 1 ≤ a by omega) ha
  have cb := row_class hm hb (show b ≤ m + 2 * k by omega)
  have hmn : (m : Int) ≤ m + k := by omega
  obtain ⟨w, v, h1, h2, h3⟩ := C61_qpieri ord (by omega) hmn hX (p := a) (by omega) (by omega) hf (lin_row cb)
  obtain ⟨v1, v2, h4, h5, h6⟩ := (C61_qmult ord (by omega) hmn hX hf).2.1 _ _ (lin_row ca) (lin_row cb)
  rw [h1] at h4
  obtain rfl : w = v1 := by simpa using h4
  obtain ⟨u, h7, h8, h9⟩ := C50_qpieri_OG ord m (m + k) a hmn (Or.inr (by omega)) X hX [(b : Int)] cb.1 cb.2.1 cb.2.2
  rw [h2] at h7
  obtain rfl : v = u := by simpa using h7
  have hnil : (two b 0).tail = two 0 0 := by rw [row_eq hb]; rfl
  have hone : [(m : Int) + 2 * k] = two (m + 2 * k) 0 := by rw [row_eq (by omega)]; push_cast; rfl
  have hidx : 0 ∈ rowIdx m k (m + 2 * k) 0 := by
    rw [mem_rowIdx]
    refine ⟨le_refl _, le_refl _, ?_, by omega⟩
    rw [length_two (by omega)]
    split_ifs <;> omega
  have hcomp : numComps k 0 (two 0 0) (two (m + 2 * k) 0) = 1 := by
    refine ((comps hm (Nat.zero_le _) (le_refl _) hidx).2).trans ?_
    rw [if_neg (by omega), if_pos (by omega)]
  have hterm : a = m + 2 * k → PieriTermB k m ((m : Int) + 2 * k) a (two 0 0) [(m : Int) + 2 * k] 1 := by
    intro ha'
    rw [hone]
    obtain ⟨g1, g2, g3, g4, g5⟩ := (term_two (k := k) (m := m) (Nat.zero_le (m + 2 * k)) _).2 ⟨0, hidx, rfl⟩
    refine ⟨⟨g1, g2, g3⟩, ?_, g5, 0, ?_, by norm_num⟩
    · rw [ha']; exact g4
    · rw [hcomp, if_neg (by omega)]
  have hv : v.Perm (qrowRowB m k a b) := by
    apply perm_of h8
    · rw [qrowRowB, List.map_append, List.nodup_append]
      refine ⟨nodup_fst hba _, by split_ifs <;> simp, ?_⟩
      intro x hx y hy e
      rw [rowRowB, List.map_map] at hx
      obtain ⟨i, -, rfl⟩ := List.mem_map.1 hx
      split_ifs at hy <;> simp at hy <;> rw [hy] at e <;> simp at e
    intro t
    rw [h9, qrowRowB, List.mem_append, rowRowB, List.mem_map]
    simp only [show (m : Int) + k - m = k by ring, show 2 * ((m : Int) + k) - m = m + 2 * k by ring, Int.toNat_natCast, ← row_eq hb]
    constructor
    · rintro ⟨qs, x, c, (⟨rfl, g⟩ | ⟨g1, rfl, nu, g2, g3⟩ | ⟨rfl, g1, g2⟩), rfl⟩
      · left
        obtain ⟨⟨g1, g2, g3⟩, g4, g5, g6⟩ := g
        obtain ⟨i, hi, rfl⟩ := (term_two hba x).1 ⟨g1, g2, g3, g4, g5⟩
        exact ⟨i, hi, by rw [(coefB hm hba ha hi _).1 g6]; rfl⟩
      · obtain ⟨⟨q1, -, -⟩, -, q2, -⟩ := g2
        obtain ⟨c', d', q3, -, rfl⟩ := arrow_two q1 q2
        have := g3.1
        rw [length_two q3] at this
        split_ifs at this <;> omega
      · right
        rw [(part_row b).1] at g1
        obtain ⟨⟨q1, q2, q3⟩, q4, q5, e, q6, rfl⟩ := g2
        rw [hnil] at q4 q5 q6
        rw [List.sum_cons, sum_two (le_refl _)] at q4
        have q1' : ReducedPart x := ⟨(List.pairwise_cons.1 q1.1).2, fun z hz => q1.2 z (by simp [hz])⟩
        have hx0 := isPartition_sum_nonneg q1'.isPartition
        obtain rfl : x = [] := by
          rcases x with _ | ⟨z, x⟩
          · rfl
          · have h1 := q1'.2 z (by simp)
            have h2 : 0 ≤ x.sum := List.sum_nonneg (fun y hy => by have := q1'.2 y (by simp [hy]); omega)
            rw [List.sum_cons] at q4 hx0
            omega
        rw [hone, hcomp, if_neg (by omega)] at q6
        obtain rfl : e = 0 := by omega
        have hb' : b = m + 2 * k := by omega
        have ha' : a = m + 2 * k := by omega
        rw [if_pos ⟨ha', hb'⟩, List.mem_singleton]
        simp only [show ((m : Int) = m + k) = (k = 0) by apply propext; omega, pow_zero]
    · rintro (⟨i, hi, rfl⟩ | ht)
      · obtain ⟨g1, g2, g3, g4, g5⟩ := (term_two (k := k) (m := m) hba _).2 ⟨i, hi, rfl⟩
        exact ⟨[], _, _, Or.inl ⟨rfl, ⟨g1, g2, g3⟩, g4, g5, (coefB hm hba ha hi _).2 rfl⟩, rfl⟩
      · split_ifs at ht with hab hk
        · rw [List.mem_singleton] at ht
          subst ht
          refine ⟨[.q], [], 1, Or.inr (Or.inr ⟨by rw [if_pos (by omega)], ?_, ?_⟩), rfl⟩
          · rw [(part_row b).1]; omega
          · rw [hnil]; exact hterm hab.1
        · rw [List.mem_singleton] at ht
          subst ht
          refine ⟨[.q, .q], [], 1, Or.inr (Or.inr ⟨by rw [if_neg (by omega)], ?_, ?_⟩), rfl⟩
          · rw [(part_row b).1]; omega
          · rw [hnil]; exact hterm hab.1
        · simp at ht
  exact ⟨w, v2, h1, h5, h3.trans hv, h6.symm.trans (h3.trans hv)⟩

end

/-- `IG(2,6)`: `S[3]*S[2] = S[3,2] + 2*S[4,1]`, and `+ q` in the quantum product; `S[2]*S[1] = S[2,1] + S[3]` since `2+1 ≤ 2k+1`. -/
example : mkIG (2 : ℕ) (2 * ((2 : ℕ) + (1 : ℕ))) = .ok ⟨.C, 1, 3⟩ ∧
    qrowRowC 2 1 3 2 = [([.S [3, 2]], 1), ([.S [4, 1]], 2), ([.q, .S []], 1)] ∧
    rowRowC 2 1 2 1 = [([.S [2, 1]], 1), ([.S [3]], 1)] ∧
    (Space.mk .C 1 3).mult 45 (Poly.sym (.S [3])) (Poly.sym (.S [2])) = .ok [([.S [4, 1]], 2), ([.S [3, 2]], 1)] ∧
    (Space.mk .C 1 3).qmult id 45 (Poly.sym (.S [2])) (Poly.sym (.S [3])) =
      .ok [([.S [3, 2]], 1), ([.S [4, 1]], 2), ([.q, .S []], 1)] ∧
    (Space.mk .C 1 3).mult 45 (Poly.sym (.S [2])) (Poly.sym (.S [1])) = .ok [([.S [3]], 1), ([.S [2, 1]], 1)] := by
  refine ⟨by decide, by decide +kernel, by decide +kernel, by decide +kernel, by decide +kernel, by decide +kernel⟩

/-- `OG(2,7)`: `S[3]*S[2] = S[3,2] + S[4,1]`, `S[3]*S[1] = S[3,1] + 2*S[4]`, `S[1]*S[1] = S[1,1] + 2*S[2]`, `S[4]*S[4] = q^2`. -/
example : mkOG (2 : ℕ) (2 * ((2 : ℕ) + (1 : ℕ)) + 1) = .ok ⟨.B, 1, 3⟩ ∧
    qrowRowB 2 1 3 2 = [([.S [3, 2]], 1), ([.S [4, 1]], 1)] ∧ rowRowB 2 1 3 1 = [([.S [3, 1]], 1), ([.S [4]], 2)] ∧
    rowRowB 2 1 1 1 = [([.S [1, 1]], 1), ([.S [2]], 2)] ∧ qrowRowB 2 1 4 4 = [([.q, .q, .S []], 1)] ∧
    (Space.mk .B 1 3).mult 45 (Poly.sym (.S [3])) (Poly.sym (.S [1])) = .ok [([.S [4]], 2), ([.S [3, 1]], 1)] ∧
    (Space.mk .B 1 3).mult 45 (Poly.sym (.S [1])) (Poly.sym (.S [1])) = .ok [([.S [2]], 2), ([.S [1, 1]], 1)] ∧
    (Space.mk .B 1 3).qmult id 45 (Poly.sym (.S [4])) (Poly.sym (.S [4])) = .ok [([.q, .q, .S []], 1)] := by
  refine ⟨by decide, by decide +kernel, by decide +kernel, by decide +kernel, by decide +kernel, by decide +kernel,
    by decide +kernel, by decide +kernel⟩

end Verif
