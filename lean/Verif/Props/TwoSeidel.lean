import Verif.Spec.Seidel
import Verif.Proofs.TwoSeidel
import Verif.Props.SeidelBCD
import Verif.Props.TwoSym
/-!
# C116: the class `S[n+1]` permutes the classes of `OG(n, 2n+2)`
-/

namespace Verif
open Spec TwoProd MvPolynomial

theorem topRow2_lab {n : ℕ} (hn : 0 < n) {U : WordD} (hU : U ∈ WdD n 1) :
    monoDen (topRow2 n (labD U)).1 = flip2 (X .q1) (X .q2) U ∧ (topRow2 n (labD U)).2 = labD (flipD U) ∧
      ∀ l, MSorted ((topRow2 n (labD U)).1 ++ [.S l]) := by
  have h1 := topRowD_lab hn hU
  have hU' := mem_WdD.1 hU
  have hl := lone_of_mem hU
  have hz := zero_mem_labD U
  unfold topRowD at h1
  unfold topRow2
  rw [show n + 1 - 1 = n by omega] at h1
  push_cast at h1
  split at h1
  · rename_i h
    rw [if_pos h]
    have e1 := congrArg Prod.fst h1
    have e2 := congrArg Prod.snd h1
    refine ⟨?_, e2, fun l => by simp [MSorted, Sym.code, listLt]⟩
    rcases U with ⟨_ | ⟨p, u⟩, i⟩
    · simp at hU'; omega
    · cases p <;> simp [flipED, flipE] at e1
      simp [flip2, monoDen]
  · rename_i h
    rw [if_neg h]
    split at h1
    · rename_i h'
      rw [if_pos h']
      have e1 := congrArg Prod.fst h1
      have e2 := congrArg Prod.snd h1
      refine ⟨?_, e2, fun l => by simp [MSorted]⟩
      rcases U with ⟨_ | ⟨p, u⟩, i⟩
      · simp at hU'; omega
      · cases p <;> simp [flipED, flipE] at e1
        simp [flip2]
    · rename_i h'
      rw [if_neg h']
      have e1 := congrArg Prod.fst h1
      have e2 := congrArg Prod.snd h1
      refine ⟨?_, e2, fun l => by split <;> simp [MSorted, Sym.code, listLt]⟩
      rcases U with ⟨_ | ⟨p, u⟩, i⟩
      · simp at hU'; omega
      · cases p <;> simp [flipED, flipE] at e1
        unfold Lone at hl
        cases i <;> simp at hl hz <;> simp [hz, flip2, qOf, monoDen]

/-- **C116**. On `OG(n, 2n+2)` the quantum product of `S[n+1]` and a class `S[l]` is one class times parameters: a first part `n+1` is
removed with the factor `q1*q2`; otherwise `n+1` is put in front if `l` has fewer than `n` parts; if it has `n` parts the type changes and
the factor is the parameter of the type of `l`. -/
theorem C116_top {ord : List Int → List Int} (ho : Ascending ord) {n : ℕ} (hn : 1 ≤ n) {X : Space} (hX : mkOG n (2 * n + 2) = .ok X)
    {fuel : Nat} (hf : giamBoundD n n ≤ fuel) {l : List Int} (hl : DClass n n l) :
    X.qmult ord fuel (Poly.sym (.S [n + 1])) (Poly.sym (.S l)) = .ok [((topRow2 n l).1 ++ [.S (topRow2 n l).2], 1)] := by
  obtain ⟨m, h1, h2, rfl⟩ := og2Case (by omega) hX
  obtain rfl : n = m := by omega
  rw [giamBoundD_one] at hf
  rw [dClass_one] at hl
  obtain ⟨V, hV, rfl⟩ := (WdD_cls (by omega) _).1 hl
  obtain ⟨N, hN, h0, hE, hs⟩ := unitFlipD (n := n) (k := 1) (by omega) (by omega)
  have hF : flip2 (MvPolynomial.X .q1 : P) (MvPolynomial.X .q2) N = 1 := by
    rcases N with ⟨_ | ⟨p, u⟩, i⟩
    · rfl
    · cases p <;> simp [flipED, flipE] at hE
      rfl
  have key := qmult_cls ho h1 hf (flipD_mem hN) hV
  rw [str_twist h1 flipD_flipD flipD_flipD (fun U hU => flipD_mem hU) (fun U hU => flipD_mem hU) (fun p U hU W hW => M2_flip h1 p hU hW) hN h0 hF hV, ev2_bas (flipD_mem hV), hs] at key
  obtain ⟨e1, e2, e3⟩ := topRow2_lab (by omega) hV
  push_cast at key
  refine returns_mono one_ne_zero (e3 _) ?_
  have e4 : monoDen ((topRow2 n (labD V)).1 ++ [.S (topRow2 n (labD V)).2]) = monoDen (topRow2 n (labD V)).1 * MvPolynomial.X (.S (topRow2 n (labD V)).2) := by
    simp [monoDen]
  rw [e4, e2, C_1, one_mul, e1]
  simpa using key

/-- **C116**. In particular `S[n+1]^2 = q1*q2`. -/
theorem C116_square {ord : List Int → List Int} (ho : Ascending ord) {n : ℕ} (hn : 1 ≤ n) {X : Space} (hX : mkOG n (2 * n + 2) = .ok X)
    {fuel : Nat} (hf : giamBoundD n n ≤ fuel) :
    X.qmult ord fuel (Poly.sym (.S [n + 1])) (Poly.sym (.S [n + 1])) = .ok [([.q1, .q2, .S []], 1)] := by
  have hl : DClass n n [(n : Int) + 1] := by
    refine ⟨[(n : Int) + 1], ⟨by simp, by intro x hx; simp at hx; omega⟩, ?_, ⟨by simp; omega, ?_⟩, Or.inl rfl⟩
    · unfold KStrict; simp
    · simp; omega
  rw [C116_top ho hn hX hf hl]
  simp [topRow2]

/-- `OG(3, 8)` -/
example : DClass 3 3 [1, 1, 1, 0] ∧ topRow2 3 [1, 1, 1, 0] = ([.q2], [1, 1, 1]) ∧ topRow2 3 [3, 1] = ([], [4, 3, 1]) ∧
    topRow2 3 [4, 3, 1, 0] = ([.q1, .q2], [3, 1, 0]) ∧ topRow2 3 [3, 2, 1] = ([.q1], [3, 2, 1, 0]) ∧
    (Space.mk .D 1 3).qmult id (giamBoundD 3 3) (Poly.sym (.S [4])) (Poly.sym (.S [1, 1, 1, 0])) = .ok [([.q2, .S [1, 1, 1]], 1)] ∧
    (Space.mk .D 1 3).qmult id (giamBoundD 3 3) (Poly.sym (.S [4])) (Poly.sym (.S [4, 1])) = .ok [([.q1, .q2, .S [1]], 1)] := by
  refine ⟨by decide +kernel, by decide +kernel, by decide +kernel, by decide +kernel, by decide +kernel, by decide +kernel, by decide +kernel⟩

end Verif
