import Verif.Spec.SeidelSym
import Verif.Props.SpinD
import Verif.Props.IndexBC
import Verif.Props.Seidel
/-!
# C123: the symmetry of the structure constants of types B, C and D
-/

namespace Verif
open Spec Spin

section
variable {X : Space} {pieri : Int → List Int → Except PyErr Poly} {spc : Int → Prop} {cls : List Int → Prop} {B : Nat}

/-- A product of two classes that came out as one term is that term in the module. -/
theorem RingOn.prod_of_one (R : RingOn X pieri spc cls B) {fuel : Nat} (hf : B ≤ fuel) {s l l' : List Int} {d : ℕ} (hs : cls s) (hl : cls l)
    (h : gmult X pieri fuel (Poly.sym (.S s)) (Poly.sym (.S l)) = .ok [(List.replicate d .q ++ [.S l'], 1)]) :
    R.Y.prod (Finsupp.single s 1) (Finsupp.single l 1) = Finsupp.single l' (Polynomial.X ^ d) := by
  obtain ⟨w, hw, _, hw2⟩ := R.mult hf (wf_sym (.S s)) (x := Finsupp.single s 1) (by simp [inq]) (supp_single hs 1)
    (wf_sym (.S l)) (y := Finsupp.single l 1) (by simp [inq]) (supp_single hl 1)
  rw [h] at hw
  cases hw
  apply ev_injective
  rw [← hw2, ev_single]
  simp [inq, monoDen_replicate, monoDen]

/-- The symmetry, for a class that permutes all classes. -/
theorem RingOn.shiftSym (R : RingOn X pieri spc cls B) {fuel : Nat} (hf : B ≤ fuel) {s : List Int} (hs : cls s)
    (φ : List Int → List Int) (ε : List Int → ℕ) (hφ : ∀ l, cls l → cls (φ l))
    (hone : ∀ l, cls l → gmult X pieri fuel (Poly.sym (.S s)) (Poly.sym (.S l)) = .ok [(List.replicate (ε l) .q ++ [.S (φ l)], 1)])
    (hinj : ∀ l l', cls l → cls l' → φ l = φ l' → l = l') : ShiftSym (gmult X pieri fuel) cls s := by
  intro l mu nu l' nu' d e hl hmu hnu h1 h2
  rw [hone l hl] at h1
  rw [hone nu hnu] at h2
  simp only [Except.ok.injEq, List.cons.injEq, Prod.mk.injEq, and_true] at h1 h2
  obtain ⟨rfl, rfl⟩ := qlist_inj h1
  obtain ⟨rfl, rfl⟩ := qlist_inj h2
  have on : ∀ l, cls l → R.Y.prod (Finsupp.single s 1) (Finsupp.single l 1) = Finsupp.single (φ l) (Polynomial.X ^ ε l) :=
    fun l hl => R.prod_of_one hf hs hl (hone l hl)
  have key : ∀ x : LMod, (∀ l ∈ x.support, cls l) →
      R.Y.prod (Finsupp.single s 1) x (φ nu) = Polynomial.X ^ ε nu * x nu := by
    intro x hx
    have e : x = ∑ l ∈ x.support, x l • Finsupp.single l 1 := by
      conv_lhs => rw [← Finsupp.sum_single x]
      refine Finset.sum_congr rfl (fun l _ => ?_)
      simp
    conv_lhs => rw [e]
    rw [GiamSys.prod_single, map_sum, Finsupp.finsetSum_apply]
    have h2 : ∀ l ∈ x.support, ((R.Y.act (R.Y.G s)) (x l • Finsupp.single l 1)) (φ nu) =
        if l = nu then Polynomial.X ^ ε nu * x nu else 0 := by
      intro l hl
      rw [map_smul, ← GiamSys.prod_single, on l (hx l hl), Finsupp.smul_apply, Finsupp.single_apply]
      by_cases h : l = nu
      · subst h
        simp [mul_comm]
      · rw [if_neg h, if_neg (fun h' => h (hinj _ _ (hx l hl) hnu h')), smul_zero]
    rw [Finset.sum_congr rfl h2, Finset.sum_ite_eq']
    split
    · rfl
    · rename_i h
      rw [Finsupp.notMem_support_iff.1 h, mul_zero]
  have sym : (Polynomial.X : Polynomial ℚ) ^ ε l * R.Y.prod (Finsupp.single (φ l) 1) (Finsupp.single mu 1) (φ nu) =
      Polynomial.X ^ ε nu * R.Y.prod (Finsupp.single l 1) (Finsupp.single mu 1) nu := by
    rw [← key _ (GiamSys.prod_support _ _ (supp_single hmu 1)), ← GiamSys.prod_assoc _ _ (supp_single hl 1) (supp_single hmu 1),
      on l hl, smul_X_single, GiamSys.prod_smul_left]
    rfl
  obtain ⟨w, hw, hw1, hw2⟩ := R.mult hf (wf_sym (.S l)) (x := Finsupp.single l 1) (by simp [inq]) (supp_single hl 1)
    (wf_sym (.S mu)) (y := Finsupp.single mu 1) (by simp [inq]) (supp_single hmu 1)
  obtain ⟨w', hw', hw1', hw2'⟩ := R.mult hf (wf_sym (.S (φ l))) (x := Finsupp.single (φ l) 1) (by simp [inq]) (supp_single (hφ l hl) 1)
    (wf_sym (.S mu)) (y := Finsupp.single mu 1) (by simp [inq]) (supp_single hmu 1)
  have cw : ∀ a, coeffOf (List.replicate a .q ++ [.S nu]) w = (R.Y.prod (Finsupp.single l 1) (Finsupp.single mu 1) nu).coeff a := by
    intro a
    rw [coeffOf_den hw1 (qmono_sorted a nu), hw2, expo_qmono, coeff_ev]
  have cw' : ∀ a, coeffOf (List.replicate a .q ++ [.S (φ nu)]) w' =
      (R.Y.prod (Finsupp.single (φ l) 1) (Finsupp.single mu 1) (φ nu)).coeff a := by
    intro a
    rw [coeffOf_den hw1' (qmono_sorted a _), hw2', expo_qmono, coeff_ev]
  have cf := fun N => congrArg (fun p : Polynomial ℚ => p.coeff N) sym
  simp only [Polynomial.coeff_X_pow_mul'] at cf
  refine ⟨w, w', hw, hw', fun a b hab => ?_, fun a ha => ?_, fun b hb => ?_⟩
  · have := cf (b + ε l)
    rw [if_pos (by omega), if_pos (by omega), Nat.add_sub_cancel, show b + ε l - ε nu = a by omega] at this
    rw [cw, cw', this]
  · have := cf (a + ε nu)
    rw [if_neg (by omega), if_pos (by omega), Nat.add_sub_cancel] at this
    rw [cw, this]
  · have := cf (b + ε l)
    rw [if_pos (by omega), if_neg (by omega), Nat.add_sub_cancel] at this
    rw [cw', this]
end

/-- **C123** on `OG(m, 2n+1)`: the top row. -/
theorem C123_OG_odd (ord : List Int → List Int) {m n : ℕ} (hm : 0 < m) (hmn : m ≤ n) {X : Space}
    (hX : mkOG m (2 * n + 1) = .ok X) {fuel : ℕ} (hf : giamBoundBC m n ≤ fuel) :
    ShiftSym (X.qmult ord fuel) (BCClass m n) [2 * n - m] := by
  have hX' := hX
  have hf' := hf
  obtain ⟨a, b, h, h1, h2, rfl⟩ := ogCase' (by omega) (by omega) hX
  obtain rfl : n = a := by omega
  obtain rfl : b = n - m := by omega
  rw [h2, giamBoundBC_eq h.le] at hf
  have hB : BCClass (m : Int) n = clsBC n (n - m) := by rw [h2, bcClass_eq h.le]
  have hφ : ∀ l, clsBC n (n - m) l → clsBC n (n - m) (topRowB (n - m) m n l).2 ∧
      ∃ u ∈ Wd n (n - m), labW u = l ∧ (topRowB (n - m) m n l).2 = labW (flipW u) := by
    intro l hl
    obtain ⟨u, hu, rfl⟩ := (Wd_cls h.le l).1 hl
    have e := topRowB_lab h hu
    rw [show n - (n - m) = m by omega] at e
    rw [e]
    exact ⟨(Wd_cls h.le _).2 ⟨_, flipW_mem hu, rfl⟩, u, hu, rfl, rfl⟩
  rw [hB]
  refine (ringQOG ord n (n - m) h).shiftSym hf (s := [2 * n - m]) ?_ (fun l => (topRowB (n - m) m n l).2)
    (fun l => (topRowB (n - m) m n l).1) (fun l hl => (hφ l hl).1)
    (fun l hl => C107_OG_odd ord hm hmn hX' hf' (by rw [hB]; exact hl)) (fun l l' hl hl' e => ?_)
  · obtain ⟨u0, h0, hl0, he0, hs0⟩ := unitB h
    rw [show (2 * n - m : Int) = n + (n - m : ℕ) by omega, ← hs0]
    exact (Wd_cls h.le _).2 ⟨_, flipW_mem h0, rfl⟩
  · obtain ⟨_, u, hu, rfl, e1⟩ := hφ l hl
    obtain ⟨_, u', hu', rfl, e2⟩ := hφ l' hl'
    rw [e1, e2] at e
    have := Wd_inj _ (flipW_mem hu) _ (flipW_mem hu') e
    rw [← flipW_flipW u, this, flipW_flipW]

/-- `OG(2,7)`: `S[4,1] * S[2] = q*S[2,1] + S[4,3]` and `S[1] * S[2]` has the term `S[2,1]` -/
example : ∃ w w', (Space.mk .B 1 3).qmult id (giamBoundBC 2 3) (Poly.sym (.S [4, 1])) (Poly.sym (.S [2])) = .ok w ∧ (Space.mk .B 1 3).qmult id (giamBoundBC 2 3) (Poly.sym (.S [1])) (Poly.sym (.S [2])) = .ok w' ∧
    coeffOf (List.replicate 1 .q ++ [.S [2, 1]]) w = 1 ∧ coeffOf (List.replicate 0 .q ++ [.S [2, 1]]) w' = 1 := by
  obtain ⟨w, w', h1, h2, h3, -⟩ := C123_OG_odd id (m := 2) (n := 3) (by omega) (by omega) rfl le_rfl [4, 1] [2] [2, 1] [1] [2, 1] 2 1 (by decide +kernel) (by decide +kernel) (by decide +kernel)
    (by decide +kernel) (by decide +kernel)
  refine ⟨w, w', h1, h2, ?_, ?_⟩
  · have h : (Space.mk .B 1 3).qmult id (giamBoundBC 2 3) (Poly.sym (.S [4, 1])) (Poly.sym (.S [2])) =
        .ok [([.q, .S [2, 1]], 1), ([.S [4, 3]], 1)] := by decide +kernel
    replace h1 := h.symm.trans h1
    cases h1
    decide +kernel
  · rw [h3 1 0 rfl]
    have h : (Space.mk .B 1 3).qmult id (giamBoundBC 2 3) (Poly.sym (.S [4, 1])) (Poly.sym (.S [2])) =
        .ok [([.q, .S [2, 1]], 1), ([.S [4, 3]], 1)] := by decide +kernel
    replace h1 := h.symm.trans h1
    cases h1
    decide +kernel

/-- **C123** on `OG(m, 2n+2)` with `m ≠ n`: the top row. -/
theorem C123_OG_even (ord : List Int → List Int) {m n : ℕ} (hn : 0 < n) (hm : 0 < m) (hmn : m ≤ n + 1) (hne : m ≠ n) {X : Space}
    (hX : mkOG m (2 * n + 2) = .ok X) {fuel : ℕ} (hf : giamBoundD m n ≤ fuel) :
    ShiftSym (X.qmult ord fuel) (DClass m n) [2 * n + 1 - m] := by
  have hX' := hX
  have hf' := hf
  obtain ⟨a, b, h, hb, h1, h2, rfl⟩ := ogdCase' (by omega) (by omega) (by omega) hX
  obtain rfl : n = a := by omega
  obtain rfl : b = n + 1 - m := by omega
  rw [h2, giamBoundD_eq (by omega)] at hf
  have hB : DClass (m : Int) n = clsD n (n + 1 - m) := by rw [h2, dClass_eq (by omega)]
  have hc := fun l => WdD_cls (n := n) (k := n + 1 - m) (by omega) l
  have hφ : ∀ l, clsD n (n + 1 - m) l → clsD n (n + 1 - m) (topRowD (n + 1 - m) m n l).2 ∧
      ∃ u ∈ WdD n (n + 1 - m), labD u = l ∧ (topRowD (n + 1 - m) m n l).2 = labD (flipD u) := by
    intro l hl
    obtain ⟨u, hu, rfl⟩ := (hc l).1 hl
    have e := topRowD_lab hn hu
    rw [show n + 1 - (n + 1 - m) = m by omega] at e
    rw [e]
    exact ⟨(hc _).2 ⟨_, flipD_mem hu, rfl⟩, u, hu, rfl, rfl⟩
  rw [hB]
  refine (ringQD ord n (n + 1 - m) h hb).shiftSym hf (s := [2 * n + 1 - m]) ?_ (fun l => (topRowD (n + 1 - m) m n l).2)
    (fun l => (topRowD (n + 1 - m) m n l).1) (fun l hl => (hφ l hl).1)
    (fun l hl => C107_OG_even ord hn hm hmn hne hX' hf' (by rw [hB]; exact hl)) (fun l l' hl hl' e => ?_)
  · obtain ⟨u0, h0, hl0, he0, hs0⟩ := unitFlipD hn h
    rw [show (2 * n + 1 - m : Int) = n + (n + 1 - m : ℕ) by omega, ← hs0]
    exact (hc _).2 ⟨_, flipD_mem h0, rfl⟩
  · obtain ⟨_, u, hu, rfl, e1⟩ := hφ l hl
    obtain ⟨_, u', hu', rfl, e2⟩ := hφ l' hl'
    rw [e1, e2] at e
    have := WdD_inj _ (flipD_mem hu) _ (flipD_mem hu') e
    rw [← flipD_flipD u, this, flipD_flipD]

/-- `OG(2,8)`: `q*S[1,1]` in `S[5,1] * S[1]` and `S[1,1]` in `S[1] * S[1]` -/
example : ∃ w w', (Space.mk .D 2 3).qmult id (giamBoundD 2 3) (Poly.sym (.S [5, 1])) (Poly.sym (.S [1])) = .ok w ∧ (Space.mk .D 2 3).qmult id (giamBoundD 2 3) (Poly.sym (.S [1])) (Poly.sym (.S [1])) = .ok w' ∧
    coeffOf (List.replicate 1 .q ++ [.S [1, 1]]) w = 1 ∧ coeffOf (List.replicate 0 .q ++ [.S [1, 1]]) w' = 1 := by
  obtain ⟨w, w', h1, h2, h3, -⟩ := C123_OG_even id (m := 2) (n := 3) (by omega) (by omega) (by omega) (by omega) rfl le_rfl [5, 1] [1] [1, 1] [1] [1, 1] 2 1 (by decide +kernel) (by decide +kernel) (by decide +kernel)
    (by decide +kernel) (by decide +kernel)
  refine ⟨w, w', h1, h2, ?_, ?_⟩
  · have h : (Space.mk .D 2 3).qmult id (giamBoundD 2 3) (Poly.sym (.S [5, 1])) (Poly.sym (.S [1])) =
        .ok [([.q, .S [1, 1]], 1), ([.S [5, 2]], 1), ([.S [5, 2, 0]], 1)] := by decide +kernel
    replace h1 := h.symm.trans h1
    cases h1
    decide +kernel
  · rw [h3 1 0 rfl]
    have h : (Space.mk .D 2 3).qmult id (giamBoundD 2 3) (Poly.sym (.S [5, 1])) (Poly.sym (.S [1])) =
        .ok [([.q, .S [1, 1]], 1), ([.S [5, 2]], 1), ([.S [5, 2, 0]], 1)] := by decide +kernel
    replace h1 := h.symm.trans h1
    cases h1
    decide +kernel

/-- **C123** on `IG(m, 2n)`: the staircase `[n, ..., n-m+1]`. -/
theorem C123_IG (ord : List Int → List Int) {m n : ℕ} {X : Space} (hX : mkIG m (2 * n) = .ok X) {fuel : ℕ}
    (hf : giamBoundBC m n ≤ fuel) : ShiftSym (X.qmult ord fuel) (BCClass m n) (Spec.stair (n - m) n) := by
  classical
  have hX' := hX
  have H := fun l hl => C107_IG ord hX' hf (l := l) hl
  choose! φ hφ hi hj hone using H
  obtain ⟨a, b, h, h1, h2, rfl⟩ := igCase hX
  obtain rfl : n = a := by omega
  obtain rfl : b = n - m := by omega
  rw [h2, giamBoundBC_eq h] at hf
  have hB : BCClass (m : Int) n = clsBC n (n - m) := by rw [h2, bcClass_eq h]
  have hidx : ∀ l, clsBC n (n - m) l →
      rotIdx n (rotIdx n ((Space.mk .C ((n - m : ℕ) : Int) n).part2index l)) = (Space.mk .C ((n - m : ℕ) : Int) n).part2index l := by
    intro l hl
    obtain ⟨u, hu, rfl⟩ := (Wd_cls h l).1 hl
    have e1 := rotIdx_word hu
    have e2 := rotIdx_word (revW_mem hu)
    rw [revW_revW] at e2
    have : ∀ l, (Space.mk .C ((n - m : ℕ) : Int) n).part2index l = part2indexC l (n - m : ℕ) n := fun _ => rfl
    rw [this, e1, e2]
  rw [hB] at hφ hone hi
  rw [hB]
  refine (ringQIG ord n (n - m) h).shiftSym hf ?_ φ (fun l => l.countP (fun x => ((n : Int) - m) < x)) hφ hone (fun l l' hl hl' e => ?_)
  · obtain ⟨u0, h0, hl0, he0, hs0⟩ := unitRev h
    rw [← hs0]
    exact (Wd_cls h _).2 ⟨_, revW_mem h0, rfl⟩
  · have e1 := hi l hl
    have e2 := hi l' hl'
    rw [e, e2] at e1
    have e3 := congrArg (rotIdx n) e1
    rw [hidx l hl, hidx l' hl'] at e3
    obtain ⟨u, hu, rfl⟩ := (Wd_cls h l).1 hl
    obtain ⟨u', hu', rfl⟩ := (Wd_cls h l').1 hl'
    rw [← hB] at hl hl'
    have r1 := C09_part_index_part m n _ hX' _ hl.1 hl.2.1 hl.2.2
    have r2 := C09_part_index_part m n _ hX' _ hl'.1 hl'.2.1 hl'.2.2
    have := r1.2.2
    rw [← e3, r2.2.2] at this
    exact (Except.ok.inj this).symm

/-- `IG(2,6)`: `S[3,2]` in `S[3] * S[2]` and `q` in `S[2,1] * S[2]` -/
example : ∃ w w', (Space.mk .C 1 3).qmult id (giamBoundBC 2 3) (Poly.sym (.S [3])) (Poly.sym (.S [2])) = .ok w ∧ (Space.mk .C 1 3).qmult id (giamBoundBC 2 3) (Poly.sym (.S [2, 1])) (Poly.sym (.S [2])) = .ok w' ∧
    coeffOf (List.replicate 0 .q ++ [.S [3, 2]]) w = 1 ∧ coeffOf (List.replicate 1 .q ++ [.S []]) w' = 1 := by
  obtain ⟨w, w', h1, h2, h3, -⟩ := C123_IG id (m := 2) (n := 3) rfl le_rfl [3] [2] [3, 2] [2, 1] [] 1 2 (by decide +kernel) (by decide +kernel) (by decide +kernel)
    (by decide +kernel) (by decide +kernel)
  refine ⟨w, w', h1, h2, ?_, ?_⟩
  · have h : (Space.mk .C 1 3).qmult id (giamBoundBC 2 3) (Poly.sym (.S [3])) (Poly.sym (.S [2])) =
        .ok [([.S [3, 2]], 1), ([.S [4, 1]], 2), ([.q, .S []], 1)] := by decide +kernel
    replace h1 := h.symm.trans h1
    cases h1
    decide +kernel
  · rw [h3 0 1 rfl]
    have h : (Space.mk .C 1 3).qmult id (giamBoundBC 2 3) (Poly.sym (.S [3])) (Poly.sym (.S [2])) =
        .ok [([.S [3, 2]], 1), ([.S [4, 1]], 2), ([.q, .S []], 1)] := by decide +kernel
    replace h1 := h.symm.trans h1
    cases h1
    decide +kernel

/-- **C123** on `OG(m, 2n+2)` with `m ≠ n`: the staircases of both types, of the second only if `m ≤ n`. -/
theorem C123_staircase (ord : List Int → List Int) {m n : ℕ} (hn : 0 < n) (hm : 0 < m) (hmn : m ≤ n + 1) (hne : m ≠ n) {X : Space}
    (hX : mkOG m (2 * n + 2) = .ok X) {fuel : ℕ} (hf : giamBoundD m n ≤ fuel) {t : Bool} (ht : m = n + 1 → t = false) :
    ShiftSym (X.qmult ord fuel) (DClass m n) (stairD (n + 1 - m) n t) := by
  classical
  have hX' := hX
  have H := fun l hl => C117_staircase ord hn hm hmn hne hX' hf ht (l := l) hl
  choose! φ hφ hi hj hone using H
  obtain ⟨a, b, h, hb, h1, h2, rfl⟩ := ogdCase' (by omega) (by omega) (by omega) hX
  obtain rfl : n = a := by omega
  obtain rfl : b = n + 1 - m := by omega
  rw [h2, giamBoundD_eq (by omega)] at hf
  have hB : DClass (m : Int) n = clsD n (n + 1 - m) := by rw [h2, dClass_eq (by omega)]
  have hb2 : b2n t = t.toNat := by cases t <;> rfl
  have hc := fun l => WdD_cls (n := n) (k := n + 1 - m) (by omega) l
  have rt : ∀ l l', clsD n (n + 1 - m) l → clsD n (n + 1 - m) l' → (Space.mk .D ((n + 1 - m : ℕ) : Int) n).part2index l =
      (Space.mk .D ((n + 1 - m : ℕ) : Int) n).part2index l' → l = l' := by
    intro l l' hl hl' e
    rw [← hB] at hl hl'
    have r1 := (C11_part_index_part m n (by omega) _ hX' _ hl).2.2.2
    have r2 := (C11_part_index_part m n (by omega) _ hX' _ hl').2.2.2
    rw [e, r2] at r1
    exact (Except.ok.inj r1).symm
  rw [hB] at hφ hone hi
  rw [hB]
  refine (ringQD ord n (n + 1 - m) h hb).shiftSym hf ?_ φ
    (fun l => spinExp m n t.toNat ((Space.mk .D ((n + 1 - m : ℕ) : Int) n).part2index l)) hφ hone (fun l l' hl hl' e => ?_)
  · obtain ⟨u0, h0, hl0, he0, hs0⟩ := unitSpin (t := t) hn h (fun h0 => ht (by omega))
    rw [← hs0]
    exact (hc _).2 ⟨_, spD_mem hn h0, rfl⟩
  · have e1 := hi l hl
    have e2 := hi l' hl'
    rw [e, e2] at e1
    obtain ⟨U, hU, rfl⟩ := (hc l).1 hl
    obtain ⟨U', hU', rfl⟩ := (hc l').1 hl'
    have w1 := spinIdx_word hn (by omega : n + 1 - m ≤ n + 1) t hU
    have w2 := spinIdx_word hn (by omega : n + 1 - m ≤ n + 1) t hU'
    rw [show n + 1 - (n + 1 - m) = m by omega, hb2] at w1 w2
    have w3 := rt _ _ ((hc _).2 ⟨_, spD_mem (t := t) hn hU, rfl⟩) ((hc _).2 ⟨_, spD_mem (t := t) hn hU', rfl⟩)
      (w1.trans (e1.symm.trans w2.symm))
    have w4 := WdD_inj _ (spD_mem hn hU) _ (spD_mem hn hU') w3
    have w5 := congrArg (spD' n (n + 1 - m) t) w4
    rw [spD'_spD, spD'_spD] at w5
    rw [w5]

/-- `OG(2,8)`: `q*S[1,1]` in `S[5,1] * S[1]` and `S[4,3]` in `S[4,2] * S[1]` -/
example : ∃ w w', (Space.mk .D 2 3).qmult id (giamBoundD 2 3) (Poly.sym (.S [5, 1])) (Poly.sym (.S [1])) = .ok w ∧ (Space.mk .D 2 3).qmult id (giamBoundD 2 3) (Poly.sym (.S [4, 2])) (Poly.sym (.S [1])) = .ok w' ∧
    coeffOf (List.replicate 1 .q ++ [.S [1, 1]]) w = 1 ∧ coeffOf (List.replicate 0 .q ++ [.S [4, 3]]) w' = 1 := by
  obtain ⟨w, w', h1, h2, h3, -⟩ := C123_staircase id (m := 2) (n := 3) (t := true) (by omega) (by omega) (by omega) (by omega) rfl le_rfl (by omega) [5, 1] [1] [1, 1] [4, 2] [4, 3] 1 0 (by decide +kernel) (by decide +kernel) (by decide +kernel)
    (by decide +kernel) (by decide +kernel)
  refine ⟨w, w', h1, h2, ?_, ?_⟩
  · have h : (Space.mk .D 2 3).qmult id (giamBoundD 2 3) (Poly.sym (.S [5, 1])) (Poly.sym (.S [1])) =
        .ok [([.q, .S [1, 1]], 1), ([.S [5, 2]], 1), ([.S [5, 2, 0]], 1)] := by decide +kernel
    replace h1 := h.symm.trans h1
    cases h1
    decide +kernel
  · rw [h3 1 0 rfl]
    have h : (Space.mk .D 2 3).qmult id (giamBoundD 2 3) (Poly.sym (.S [5, 1])) (Poly.sym (.S [1])) =
        .ok [([.q, .S [1, 1]], 1), ([.S [5, 2]], 1), ([.S [5, 2, 0]], 1)] := by decide +kernel
    replace h1 := h.symm.trans h1
    cases h1
    decide +kernel

end Verif
