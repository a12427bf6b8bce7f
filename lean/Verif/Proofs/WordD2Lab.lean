import Verif.Proofs.WordD2Odd
import Verif.Proofs.WordDLead
import Verif.Proofs.QPieriD1Exact
import Verif.Props.QPieriExact
/-!
# The quantum Pieri rule of `OG(n, 2n+2)` in words
-/

namespace Verif
open Spec

/-! ### Shapes -/

theorem full_iff (i : L3) : ∀ u : List L3, colsW i.k0 u = 1 → ((∀ x ∈ shapeW i.k0 i.r0 u, 0 < x) ↔ fullW u = true) := by
  intro u
  induction u with
  | nil =>
    intro h
    cases i <;> simp [colsW, L3.k0] at h
    simp [shapeW, L3.r0, fullW]
  | cons p u ih =>
    intro h
    cases p
    · simp only [shapeW, fullW, List.mem_map]
      simp only [iff_true]
      rintro x ⟨y, hy, rfl⟩
      have := shapeW_nonneg _ _ u y hy
      omega
    · simp only [colsW] at h
      rw [fullW, ← ih h]
      simp only [shapeW, List.mem_cons, forall_eq_or_imp]
      constructor
      · exact fun h => h.2
      · intro h'; exact ⟨by omega, h'⟩
    · simp only [shapeW, fullW, List.mem_append, List.mem_singleton]
      simp only [Bool.false_eq_true, iff_false]
      intro hc
      have := hc 0 (Or.inr rfl)
      omega

theorem shapeW_fillB (i : L3) : ∀ u : List L3, colsW i.k0 u = 1 → fullW u = true →
    shapeW 0 1 (fillB u) = (shapeW i.k0 i.r0 u).map (· - 1) ++ [0] := by
  intro u
  induction u with
  | nil =>
    intro h _
    cases i <;> simp [colsW, L3.k0] at h
    simp [shapeW, L3.r0, fillB]
  | cons p u ih =>
    intro h hf
    cases p
    · simp only [colsW] at h
      have h0 : colsW i.k0 u = 0 := by omega
      have h1 := colsW_add i.k0 u
      have e : i.k0 = 0 ∧ i.r0 = 1 := by cases i <;> simp [L3.k0, L3.r0] at * <;> omega
      rw [fillB_cons, fillB_free h0, e.1, e.2]
      simp [shapeW, List.map_map, Function.comp_def]
    · simp only [colsW] at h
      simp only [fullW] at hf
      have := ih h hf
      rw [fillB_cons]
      simp only [if_neg (show ¬ L3.a = .o by decide), shapeW, colsW_fillB, fillB_length, h, this, List.map_cons, List.cons_append]
      congr 1
      push_cast; ring
    · simp [fullW] at hf

theorem rowToColumn_fillA (i : L3) : ∀ w : List L3, colsW i.k0 w = 1 → cofullW w = true →
    rowToColumn (partClip (shapeW 0 1 (fillA w))) = partClip (shapeW i.k0 i.r0 w) := by
  intro w
  induction w with
  | nil =>
    intro h _
    cases i <;> simp [colsW, L3.k0] at h
    simp only [shapeW, L3.r0, fillA, List.map_nil]
    rw [partClip_replicate, partClip_replicate]
    rfl
  | cons p w ih =>
    intro h hf
    cases p
    · simp only [colsW] at h
      have h0 : colsW i.k0 w = 0 := by omega
      have h1 := colsW_add i.k0 w
      have e : i.k0 = 0 ∧ i.r0 = 1 := by cases i <;> simp [L3.k0, L3.r0] at * <;> omega
      rw [fillA_cons, fillA_free h0, e.1, e.2]
      rw [e.1] at h0
      simp only [if_true, shapeW, h0]
      have hlen : (shapeW 0 1 w).length = w.length + 1 := by
        rw [shapeW_length]
        have := rows_add_cols 0 1 w
        omega
      obtain ⟨c, hc⟩ := partClip_append (shapeW 0 1 w)
      rw [partClip_cons, if_neg (by omega), rowToColumn]
      have hl2 := congrArg List.length hc
      rw [List.length_append, List.length_replicate, hlen] at hl2
      rw [show ((w.length : Int) + ((0 : Nat) : Int) + 1 - (partClip (shapeW 0 1 w)).length).toNat = c by omega]
      have e2 : (shapeW 0 1 w).map (· + 1) = (partClip (shapeW 0 1 w)).map (· + 1) ++ List.replicate c 1 := by
        conv_lhs => rw [hc]
        rw [List.map_append, List.map_replicate]
        rfl
      rw [← e2]
      symm
      apply partClip_of_noTrailing
      unfold NoTrailingZero
      intro hlast
      have := List.mem_of_getLast? hlast
      rw [List.mem_map] at this
      obtain ⟨y, hy, hy'⟩ := this
      have := shapeW_nonneg _ _ w y hy
      omega
    · simp [cofullW] at hf
    · simp only [colsW] at h
      simp only [cofullW] at hf
      rw [fillA_cons]
      simp only [if_neg (show ¬ L3.b = .o by decide), shapeW]
      rw [partClip_concat_zero, partClip_concat_zero, ih h hf]

/-! ### Labels -/

theorem full_labD {n : Nat} (hn : 1 ≤ n) {U : WordD} (hU : U ∈ WdD n 1) :
    0 < at' (labD U) ((n : Int) - 1).toNat ↔ fullW U.1 = true := by
  have hU' := mem_WdD.1 hU
  rw [at'_eq_part, part_labD, show ((n : Int) - 1).toNat = n - 1 by omega, ← full_iff U.2 U.1 hU'.2.1]
  have hl : (shD U).length = n := by
    rw [shD_length]; have := rows_add_colsD U; omega
  have hp := (inBox_shD U).isPart
  rw [part_of_lt (by omega)]
  show _ ↔ ∀ x ∈ shD U, 0 < x
  constructor
  · intro h x hx
    obtain ⟨j, hj, rfl⟩ := List.mem_iff_getElem.1 hx
    by_cases hjn : j = n - 1
    · subst hjn; exact h
    · have := List.pairwise_iff_getElem.1 hp.1 j (n - 1) hj (by omega) (by omega)
      omega
  · intro h; exact h _ (List.getElem_mem _)

theorem labD_fillB {n : Nat} {U : WordD} (hU : U ∈ WdD n 1) (hf : fullW U.1 = true) :
    partClip ((labD U).map (fun x => max (x - 1) 0)) = labD (fillB U.1, .a) := by
  have hU' := mem_WdD.1 hU
  have hs := shapeW_fillB U.2 U.1 hU'.2.1 hf
  have e : labD (fillB U.1, .a) = partClip (shapeW 0 1 (fillB U.1)) := by
    unfold labD clD shD; simp [L3.k0, L3.r0]
  have hall := (full_iff U.2 U.1 hU'.2.1).2 hf
  have hcl : clD U = shD U := by
    unfold clD
    apply partClip_of_noTrailing
    intro hlast
    have := hall 0 (List.mem_of_getLast? hlast)
    omega
  rw [e, hs, partClip_concat_zero]
  unfold labD
  rw [hcl, List.map_append]
  have e2 : (shD U).map (fun x => max (x - 1) 0) = (shapeW U.2.k0 U.2.r0 U.1).map (· - 1) := by
    apply List.map_congr_left
    intro x hx
    have := hall x hx
    omega
  rw [e2]
  split
  · exact partClip_concat_zero _
  · rw [List.map_nil, List.append_nil]

theorem labD_fillA {n : Nat} {W : WordD} (hW : W ∈ WdD n 1) (hf : cofullW W.1 = true) :
    rowToColumn (labD (fillA W.1, .a)) = clD W := by
  have hW' := mem_WdD.1 hW
  have e : labD (fillA W.1, .a) = partClip (shapeW 0 1 (fillA W.1)) := by
    unfold labD clD shD; simp [L3.k0, L3.r0]
  rw [e, rowToColumn_fillA W.2 W.1 hW'.2.1 hf]
  rfl

theorem one_mem_clD {n : Nat} {W : WordD} (hW : W ∈ WdD n 1) : (1 : Int) ∈ clD W ↔ W.2 ≠ .o := by
  have hW' := mem_WdD.1 hW
  have := mem_clD (U := W) (by omega)
  rw [hW'.2.1] at this
  exact this

theorem labD_two {n : Nat} {W : WordD} (hW : W ∈ WdD n 1) (h : W.2 ≠ .a) : typeTwo 1 (clD W) = labD W := by
  unfold typeTwo labD
  have := one_mem_clD hW
  simp only [this]
  rcases W with ⟨w, j⟩
  cases j <;> simp at h ⊢

theorem labD_not_b {W : WordD} (h : W.2 ≠ .b) : labD W = clD W := by
  unfold labD; rw [if_neg h, List.append_nil]

theorem last_labD {n : Nat} (hn : 1 ≤ n) {U : WordD} (hU : U ∈ WdD n 1) (hf : fullW U.1 = true) :
    (last' (labD U) > 0 ↔ U.2 ≠ .b) ∧ (last' (labD U) = 0 ↔ U.2 = .b) := by
  by_cases hb : U.2 = .b
  · have : last' (labD U) = 0 := by
      unfold labD; rw [if_pos hb]; simp [last']
    rw [this]; simp [hb]
  · have h1 := (full_labD hn hU).2 hf
    rw [labD_not_b hb, at'_eq_part] at *
    have hne : (clD U).length > 0 := by
      by_contra hc
      rw [part_of_ge (by omega)] at h1
      omega
    have h2 := last'_reduced (clD_reduced U) hne
    have h3 : last' (clD U) > 0 := by
      unfold last'
      rw [List.getLastD_eq_getLast?, List.getLast?_eq_getLast_of_ne_nil (by intro h; rw [h] at hne; simp at hne)]
      exact (clD_reduced U).2 _ (List.getLast_mem _)
    simp [h2, h3, hb]

theorem one_mem_labD {n : Nat} {U : WordD} (hU : U ∈ WdD n 1) : (1 : Int) ∈ labD U ↔ U.2 ≠ .o := by
  rw [← one_mem_clD hU]
  unfold labD
  split <;> simp

/-! ### From a word without `o` to a word with one `o` -/

/-- the first `a` becomes `o` -/
def unfillW : List L3 → List L3
  | [] => []
  | .a :: u => .o :: u
  | p :: u => p :: unfillW u

/-- the inner letter: `o` when there is no `a` -/
def unfillI (t : L3) : List L3 → L3
  | [] => .o
  | .a :: _ => t
  | _ :: u => unfillI t u

theorem unfill_spec (t : L3) (ht : t ≠ .o) : ∀ w : List L3, colsW 0 w = 0 →
    fillA (unfillW w) = w ∧ cofullW (unfillW w) = true ∧ (unfillW w).length = w.length ∧ colsW (unfillI t w).k0 (unfillW w) = 1 ∧
      (unfillI t w = .o ∨ unfillI t w = t) := by
  intro w
  induction w with
  | nil => intro _; simp [unfillW, unfillI, fillA, cofullW, colsW, L3.k0]
  | cons p w ih =>
    intro h
    obtain ⟨hp, hw⟩ := colsW_zero_cons h
    cases p
    · exact absurd rfl hp
    · have ht0 : t.k0 = 0 := by cases t <;> simp [L3.k0] at ht ⊢
      refine ⟨?_, rfl, rfl, ?_, Or.inr rfl⟩
      · simp only [unfillW]; rw [fillA_cons, fillA_free hw]; rfl
      · simp only [unfillW, unfillI, colsW, ht0, hw]
    · obtain ⟨h1, h2, h3, h4, h5⟩ := ih hw
      simp only [unfillW, unfillI]
      refine ⟨?_, by simpa [cofullW] using h2, by simp [h3], by simpa [colsW] using h4, h5⟩
      rw [fillA_cons, h1]; rfl

/-- inner letter `o`: the word is constant -/
theorem full_o {n : Nat} {U : WordD} (hU : U ∈ WdD n 1) (ho : U.2 = .o) (hf : fullW U.1 = true) : fullW (fillB U.1) = true := by
  have hU' := mem_WdD.1 hU
  have h1 := hU'.2.1
  unfold colsD at h1
  rw [ho, colsW_add] at h1
  have h0 : colsW 0 U.1 = 0 := by simp only [L3.k0] at h1; omega
  rw [fillB_free h0]; exact hf

theorem cofull_o {n : Nat} {U : WordD} (hU : U ∈ WdD n 1) (ho : U.2 = .o) (hf : cofullW U.1 = true) : cofullW (fillA U.1) = true := by
  have hU' := mem_WdD.1 hU
  have h1 := hU'.2.1
  unfold colsD at h1
  rw [ho, colsW_add] at h1
  have h0 : colsW 0 U.1 = 0 := by simp only [L3.k0] at h1; omega
  rw [fillA_free h0]; exact hf

theorem fillA_mem {n : Nat} {W : WordD} (hW : W.1.length = n) : (fillA W.1, .a) ∈ WdD n 0 :=
  mem_WdD.2 ⟨by rw [fillA_length]; exact hW, colsD_fillA _, fun _ => rfl⟩

theorem fillB_mem {n : Nat} {W : WordD} (hW : W.1.length = n) : (fillB W.1, .a) ∈ WdD n 0 :=
  mem_WdD.2 ⟨by rw [fillB_length]; exact hW, colsD_fillB _, fun _ => rfl⟩

theorem cfD_full {u w : List L3} (hl : u.length = w.length) (hu : colsW 0 u = 0) (hw : colsW 0 w = 0) (hf : fullW u = true) {p : Nat} (hp : 1 ≤ p) :
    cfD 0 (p : Int) (u, .a) (w, .a) = 0 := by
  have h := coeff_gD_rat p (U := (u, .a)) (W := (w, .a)) hl (by unfold colsD; simp [L3.k0, hu, hw])
  rw [gD_as _ u w hl hf hu] at h
  have e : colsD (u, .a) = 0 := hu
  rw [e] at h
  unfold cfD
  rw [if_neg (by omega), if_pos (by omega)]
  simp only [Int.natAbs_natCast]
  rw [← h]
  split
  · rw [Polynomial.coeff_one, if_neg (by omega), mul_zero]
  · simp

/-- the inner letter that is not `o` -/
def tyO : L3 → L3 → L3
  | .o, j => j
  | i, _ => i

theorem qw_tyO {R : Type*} [CommRing R] (q1 q2 : R) (i j : L3) : qw q1 q2 i j = qOf q1 q2 (tyO i j) := by
  cases i <;> rfl

/-- the coefficient of a term as a term of the smaller space -/
theorem odd_term {n : Nat} (hn : 1 ≤ n) {p : Int} (hp : p ≠ 0) {U W : WordD} (hU : U ∈ WdD n 1) (hW : W ∈ WdD n 1) (c : ℚ) (hO : OddC U W)
    (hq : p.natAbs ≤ 1 → p = qw 1 (-1) U.2 W.2.sw) :
    (oddD p U W ≠ 0 ∧ c = oddD p U W) ↔ TermLb n p (labD (fillB U.1, .a)) (labD (fillA W.1, .a)) c := by
  have hU' := mem_WdD.1 hU
  have hW' := mem_WdD.1 hW
  have m1 := fillB_mem (n := n) hU'.1
  have m2 := fillA_mem (n := n) hW'.1
  unfold oddD TermLb
  rw [if_pos hO]
  by_cases h1 : p.natAbs ≤ 1
  · rw [if_pos h1, if_pos h1]
    have e : labD (fillA W.1, .a) = labD (fillB U.1, .a) ↔ fillB U.1 = fillA W.1 := by
      constructor
      · intro h; have := WdD_inj _ m2 _ m1 h; simpa using this.symm
      · intro h; rw [h]
    rw [e]
    simp only [hq h1, and_true] at *
    by_cases hf : fillB U.1 = fillA W.1 <;> simp [hf]
  · rw [if_neg h1, if_neg h1]
    have e : ((p.natAbs : Int) - 1) = ((p.natAbs - 1 : Nat) : Int) := by omega
    rw [e]
    exact (termD_word_iff (k := 0) (by omega) (fun _ => by omega) m1 m2 c).symm

theorem odd_fwd {n : Nat} (hn : 1 ≤ n) {p : Int} (hp : p ≠ 0) {U : WordD} (hU : U ∈ WdD n 1) (hf : fullW U.1 = true) {mu : List Int} {c : ℚ}
    (h : TermLb n p (labD (fillB U.1, .a)) mu c) (t : L3) (ht : t ≠ .o) (htU : U.2 ≠ t.sw)
    (hq : p.natAbs ≤ 1 → p = qOf 1 (-1) t) :
    ∃ W ∈ WdD n 1, tyO U.2 W.2.sw = t ∧ mu = labD (fillA W.1, .a) ∧ cofullW W.1 = true ∧ W.2 ≠ t ∧ oddD p U W = c := by
  have hU' := mem_WdD.1 hU
  have m1 := fillB_mem (n := n) hU'.1
  obtain ⟨W0, hW0, rfl⟩ : ∃ W0 ∈ WdD n 0, labD W0 = mu := by
    unfold TermLb at h
    split at h
    · exact ⟨_, m1, h.1.symm⟩
    · exact (WdD_cls (by omega) mu).1 h.cls
  have hW0' := mem_WdD.1 hW0
  obtain ⟨w0, i0⟩ := W0
  obtain rfl : i0 = .a := hW0'.2.2 rfl
  have hc0 : colsW 0 w0 = 0 := hW0'.2.1
  have hts : t.sw ≠ .o := by cases t <;> simp [L3.sw] at ht ⊢
  obtain ⟨s1, s2, s3, s4, s5⟩ := unfill_spec t.sw hts w0 hc0
  set W : WordD := (unfillW w0, unfillI t.sw w0) with hWdef
  have hW : W ∈ WdD n 1 := mem_WdD.2 ⟨by rw [hWdef]; simp only [s3]; exact hW0'.1, s4, fun h => by omega⟩
  have e1 : fillA W.1 = w0 := s1
  have e2 : cofullW W.1 = true := s2
  have e3 : W.2 = .o ∨ W.2 = t.sw := s5
  have hno : ¬ (U.2 = .o ∧ W.2 = .o) := by
    rintro ⟨o1, o2⟩
    have f1 := full_o hU o1 hf
    have f2 := cofull_o hW o2 e2
    rw [e1] at f2
    have l1 : (fillB U.1).length = w0.length := by rw [fillB_length, hU'.1]; exact hW0'.1.symm
    have hne : fillB U.1 ≠ w0 := by
      intro he
      rw [he] at f1
      cases w0 with
      | nil => have := hW0'.1; simp at this; omega
      | cons q w =>
        have := (colsW_zero_cons hc0).1
        cases q <;> simp [fullW, cofullW] at f1 f2 this
    unfold TermLb at h
    split at h
    · have := WdD_inj _ hW0 _ m1 h.1
      simp at this
      exact hne this.symm
    · rename_i h1
      have e : ((p.natAbs : Int) - 1) = ((p.natAbs - 1 : Nat) : Int) := by omega
      rw [e] at h
      have := ((termD_word_iff (k := 0) (by omega) (fun _ => by omega) m1 hW0 c).1 h).1
      exact this (cfD_full l1 (colsW_fillB _) hc0 f1 (by omega))
  have hcm : cmpt U.2 W.2.sw = true ∧ tyO U.2 W.2.sw = t ∧ W.2 ≠ t := by
    rcases e3 with e3 | e3 <;> rw [e3] at hno ⊢ <;> revert htU hno ht <;> generalize U.2 = i <;> cases i <;> cases t <;>
      simp [L3.sw, cmpt, tyO]
  have hO : OddC U W := ⟨⟨hf, e2⟩, hcm.1⟩
  refine ⟨W, hW, hcm.2.1, by rw [e1], e2, hcm.2.2, ?_⟩
  have := (odd_term hn hp hU hW c hO (by rw [qw_tyO, hcm.2.1]; exact hq)).2 (by rw [e1]; exact h)
  exact this.2.symm

theorem q1_fwd {n : Nat} (hn : 1 ≤ n) {p : Int} {U : WordD} (hU : U ∈ WdD n 1) {x : List Int} {c : ℚ}
    (h0 : 0 < at' (labD U) ((n : Int) - 1).toNat)
    (h : QTermD1 n p (labD U) (partClip ((labD U).map (fun x => max (x - 1) 0))) [.q1] x c) :
    ∃ W ∈ WdD n 1, labD W = x ∧ tyO U.2 W.2.sw = .a ∧ oddD p U W = c := by
  have hf := (full_labD hn hU).1 h0
  rcases h with ⟨_, ⟨h1, h2⟩, mu, h3, h4⟩ | ⟨h, _⟩
  · rw [labD_fillB hU hf] at h3
    have hb := (last_labD hn hU hf).1.1 h1
    obtain ⟨W, hW, w1, w2, w3, w4, w5⟩ := odd_fwd hn (by omega) hU hf h3 .a (by decide) hb (fun h => by simp only [qOf]; omega)
    refine ⟨W, hW, ?_, w1, w5⟩
    rw [h4, w2, labD_fillA hW w3, labD_two hW w4]
  · simp at h

theorem q2_fwd {n : Nat} (hn : 1 ≤ n) {p : Int} {U : WordD} (hU : U ∈ WdD n 1) {x : List Int} {c : ℚ}
    (h0 : 0 < at' (labD U) ((n : Int) - 1).toNat)
    (h : QTermD1 n p (labD U) (partClip ((labD U).map (fun x => max (x - 1) 0))) [.q2] x c) :
    ∃ W ∈ WdD n 1, labD W = x ∧ tyO U.2 W.2.sw = .b ∧ oddD p U W = c := by
  have hf := (full_labD hn hU).1 h0
  rcases h with ⟨h, _⟩ | ⟨_, ⟨h1, h2⟩, mu, h3, h4⟩
  · simp at h
  · rw [labD_fillB hU hf] at h3
    have hb : U.2 ≠ .a := by
      rcases h1 with h1 | h1
      · rw [(last_labD hn hU hf).2.1 h1]; decide
      · have : ¬ U.2 ≠ .o := fun hc => h1 ((one_mem_labD hU).2 hc)
        simp only [ne_eq, not_not] at this
        rw [this]; decide
    obtain ⟨W, hW, w1, w2, w3, w4, w5⟩ := odd_fwd hn (by omega) hU hf h3 .b (by decide) hb (fun h => by simp only [qOf]; omega)
    refine ⟨W, hW, ?_, w1, w5⟩
    rw [h4, w2, labD_fillA hW w3, labD_not_b w4]

theorem odd_bwd {n : Nat} (hn : 1 ≤ n) {p : Int} (hp : -1 ≤ p) {U W : WordD} (hU : U ∈ WdD n 1) (hW : W ∈ WdD n 1) (h : oddD p U W ≠ 0) :
    0 < at' (labD U) ((n : Int) - 1).toNat ∧
    QTermD1 n p (labD U) (partClip ((labD U).map (fun x => max (x - 1) 0))) [if tyO U.2 W.2.sw = .a then .q1 else .q2] (labD W) (oddD p U W) := by
  have hO : OddC U W := by
    by_contra hc
    unfold oddD at h
    rw [if_neg hc] at h
    exact h rfl
  obtain ⟨⟨hf, hcf⟩, hcm⟩ := hO
  have hq : p.natAbs ≤ 1 → p = qw 1 (-1) U.2 W.2.sw := by
    intro h1
    unfold oddD at h
    rw [if_pos ⟨⟨hf, hcf⟩, hcm⟩, if_pos h1] at h
    by_contra hc
    rw [if_neg (fun h => hc h.2)] at h
    exact h rfl
  have hp0 : p ≠ 0 := by
    rintro rfl
    have := hq (by decide)
    rcases qw_cmpt hcm with e | e <;> rw [e] at this <;> omega
  have ht := (odd_term hn hp0 hU hW _ ⟨⟨hf, hcf⟩, hcm⟩ hq).1 ⟨h, rfl⟩
  refine ⟨(full_labD hn hU).2 hf, ?_⟩
  rw [labD_fillB hU hf]
  have hl := last_labD hn hU hf
  rw [qw_tyO] at hq
  by_cases hty : tyO U.2 W.2.sw = .a
  · rw [if_pos hty]
    left
    have hb : U.2 ≠ .b ∧ W.2 ≠ .a := by
      revert hty hcm; generalize U.2 = i; generalize W.2 = j; cases i <;> cases j <;> simp [cmpt, tyO, L3.sw]
    refine ⟨rfl, ⟨hl.1.2 hb.1, ?_⟩, _, ht, ?_⟩
    · by_cases h1 : p.natAbs ≤ 1
      · have := hq h1
        rw [hty] at this
        simp only [qOf] at this
        omega
      · omega
    · rw [labD_fillA hW hcf, labD_two hW hb.2]
  · rw [if_neg hty]
    right
    have hb : (U.2 = .b ∨ U.2 = .o) ∧ W.2 ≠ .b ∧ tyO U.2 W.2.sw = .b := by
      revert hty hcm; generalize U.2 = i; generalize W.2 = j; cases i <;> cases j <;> simp [cmpt, tyO, L3.sw]
    refine ⟨rfl, ⟨?_, ?_⟩, _, ht, ?_⟩
    · rcases hb.1 with h1 | h1
      · exact Or.inl (hl.2.2 h1)
      · exact Or.inr (fun hc => (one_mem_labD hU).1 hc h1)
    · by_cases h1 : p.natAbs ≤ 1
      · have := hq h1
        rw [hb.2.2] at this
        simp only [qOf] at this
        omega
      · omega
    · rw [labD_fillA hW hcf, labD_not_b hb.2.1]

end Verif
