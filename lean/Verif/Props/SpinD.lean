import Verif.Spec.Seidel
import Verif.Proofs.SpinTwo
import Verif.Props.SeidelBCD
import Verif.Props.IndexD
import Verif.Proofs.QuadricD2
import Verif.Props.TwoSeidel
/-!
# C117: the staircases permute the classes of `OG(m, 2n+2)`
-/

namespace Verif
open Spec Spin TwoProd

/-! ### Schubert symbols -/

theorem idxD_full {c : Int} {i I : L3} (h : (i = .o ∧ I = .o) ∨ (i ≠ .o ∧ c = 0 ∧ I = .a) ∨ (i ≠ .o ∧ c = 1 ∧ I = .b)) (u : List L3) :
    idxD c i u = idxW 0 (u ++ [I]) := by
  induction u with
  | nil =>
    rcases h with ⟨rfl, rfl⟩ | ⟨h, rfl, rfl⟩ | ⟨h, rfl, rfl⟩
    · rfl
    · simp [idxD, h, idxW]
    · simp [idxD, h, idxW]
  | cons p u ih =>
    cases p <;> simp [idxD, idxW, ih]
    ring

theorem rot_full {v : List L3} {N : ℕ} (h : v.length = N) :
    rotIdx N ((idxW 0 v).map (fun x : Int => x + N)) = (idxW 0 (revW v)).map (fun x : Int => x + N) := by
  have hv : v ∈ Wd N (colsW 0 v) := mem_Wd.2 ⟨h, rfl⟩
  rw [← (part2index_word hv).1, rotIdx_word hv, (part2index_word (revW_mem hv)).1]

theorem numA_eq (u : List L3) : numA u = cntA u := by
  unfold cntA
  induction u with
  | nil => rfl
  | cons p u ih => cases p <;> simp [numA, ih]

theorem inC_od (N : ℕ) : inC (N : Int) = if od N then 0 else 1 := by
  unfold inC od
  rcases Nat.mod_two_eq_zero_or_one N with h | h
  · rw [if_neg (by omega), h]; rfl
  · rw [if_pos (by omega), h]; rfl

theorem inD_od (p : L3) (u : List L3) {i : L3} (hi : i ≠ .o) : inD (p :: u, i) =
    if xor (xor (od (cntA u)) (isA p)) (xor (isA i) (od u.length)) then 1 else 0 := by
  have e : inD (p :: u, i) = inC (((u.length + 2 + b2n (!isA i) + (b2n (isA p) + cntA u) : ℕ)) : Int) := by
    unfold inD
    congr 1
    simp only [List.length_cons, numA_eq]
    have h1 : (tyB i : Int) = (b2n (!isA i) : ℕ) := by cases i <;> simp_all [tyB, isA, b2n]
    have h2 : cntA (p :: u) = b2n (isA p) + cntA u := by
      unfold cntA
      cases p <;> simp [isA, b2n]; omega
    rw [h1, h2]
    push_cast; ring
  rw [e, inC_od, od_add, od_add, od_add, od_add, od_b2n, od_b2n]
  have : od 2 = false := rfl
  rw [this]
  generalize od u.length = x
  generalize isA i = y
  generalize isA p = z
  generalize od (cntA u) = w
  cases x <;> cases y <;> cases z <;> cases w <;> rfl

theorem idx_inn (c : Bool) {n k : ℕ} {p : L3} {u : List L3} {i : L3} (h : (p :: u, i) ∈ WdD n k) :
    (if xor (od n) c then midSwap (n + 1) (part2indexD (labD (p :: u, i)) k n) else part2indexD (labD (p :: u, i)) k n) =
      (idxW 0 ((p :: u) ++ [inn c p u i])).map (fun x : Int => x + ((n + 1 : ℕ) : Int)) := by
  obtain ⟨h1, h2, -⟩ := mem_WdD.1 h
  rw [part2index_wordD h1 h2]
  push_cast
  have hn : od n = !od u.length := by
    rw [← h1, List.length_cons, od_add]
    have : od 1 = true := rfl
    rw [this]
    generalize od u.length = x
    cases x <;> rfl
  have h01 : inD (p :: u, i) = 0 ∨ inD (p :: u, i) = 1 := inC_01 _
  have main : ∀ C : Int, (i ≠ .o → C = if isA (inn c p u i) then 0 else 1) → idxD C i (p :: u) = idxW 0 ((p :: u) ++ [inn c p u i]) := by
    intro C hC
    apply idxD_full
    by_cases hi : i = .o
    · left
      subst hi
      refine ⟨rfl, ?_⟩
      unfold inn tw
      split <;> rfl
    · right
      have h3 := hC hi
      have h4 := inn_o (c := c) (p := p) (u := u) hi
      revert h3 h4
      generalize inn c p u i = I
      cases I <;> simp [isA, hi]
  have hin : i ≠ .o → isA (inn c p u i) = xor (xor (xor (od (cntA u)) (isA p)) c) (isA i) := fun hi => inn_par hi
  split
  · rename_i hs
    unfold midSwap
    rw [idxD_mid h01]
    congr 1
    apply main
    intro hi
    rw [inD_od p u hi, hin hi]
    rw [hn] at hs
    revert hs
    generalize od u.length = x
    generalize isA i = y
    generalize isA p = z
    generalize od (cntA u) = w
    cases x <;> cases y <;> cases z <;> cases w <;> cases c <;> simp
  · rename_i hs
    congr 1
    apply main
    intro hi
    rw [inD_od p u hi, hin hi]
    rw [hn] at hs
    revert hs
    generalize od u.length = x
    generalize isA i = y
    generalize isA p = z
    generalize od (cntA u) = w
    cases x <;> cases y <;> cases z <;> cases w <;> cases c <;> simp

theorem midSwap_midSwap (M : Int) (l : List Int) : midSwap M (midSwap M l) = l := by
  unfold midSwap
  rw [List.map_map]
  conv_rhs => rw [← List.map_id l]
  apply List.map_congr_left
  intro x _
  simp only [Function.comp_apply, id]
  split_ifs <;> omega

theorem od_iff (n : ℕ) : od n = true ↔ n % 2 = 1 := by unfold od; simp

theorem od_sub {n k : ℕ} (hk : k ≤ n + 1) : od (n + 1 - k) = xor (od (n + 1)) (od k) := by
  have := od_add (n + 1 - k) k
  rw [show n + 1 - k + k = n + 1 by omega] at this
  rw [this]
  generalize od (n + 1 - k) = a
  generalize od k = b
  cases a <;> cases b <;> rfl

theorem od_succ (n : ℕ) : od (n + 1) = !od n := by
  rw [od_add]
  have : od 1 = true := rfl
  rw [this]
  generalize od n = x
  cases x <;> rfl

theorem pre_cond {n k : ℕ} (hk : k ≤ n + 1) (t : Bool) : xor (od n) (c1 k t) = true ↔ (n + 1 - k + b2n t) % 2 = 1 := by
  rw [← od_iff, od_add, od_b2n, od_sub hk, c1, od_succ, od_succ]
  generalize od n = a
  generalize od k = b
  cases a <;> cases b <;> cases t <;> simp

theorem post_cond {n k : ℕ} (hk : k ≤ n + 1) (t : Bool) : xor (od n) (c2 n k t) = true ↔ (n + 1 + (n + 1 - k) + b2n t) % 2 = 1 := by
  rw [← od_iff, od_add, od_add, od_b2n, od_sub hk, c2, c1, od_succ, od_succ]
  generalize od n = a
  generalize od k = b
  cases a <;> cases b <;> cases t <;> simp

theorem pre_word {n k : ℕ} (hk : k ≤ n + 1) (t : Bool) {p : L3} {u : List L3} {i : L3} (h : (p :: u, i) ∈ WdD n k) :
    spinPre (n + 1 - k) n (b2n t) (part2indexD (labD (p :: u, i)) k n) =
      (idxW 0 ((p :: u) ++ [inn (c1 k t) p u i])).map (fun x : Int => x + ((n + 1 : ℕ) : Int)) := by
  rw [← idx_inn (c1 k t) h]
  unfold spinPre
  by_cases hc : (n + 1 - k + b2n t) % 2 = 1
  · rw [if_pos hc, if_pos ((pre_cond hk t).2 hc)]
  · rw [if_neg hc, if_neg (fun h => hc ((pre_cond hk t).1 h))]

theorem spinIdx_word {n k : ℕ} (hn : 0 < n) (hk : k ≤ n + 1) (t : Bool) {U : WordD} (hU : U ∈ WdD n k) :
    part2indexD (labD (spD n k t U)) k n = spinIdx (n + 1 - k) n (b2n t) (part2indexD (labD U) k n) := by
  have hS := spD_mem (t := t) hn hU
  have hlen := (mem_WdD.1 hU).1
  rcases U with ⟨_ | ⟨p, u⟩, i⟩
  · simp at hlen; omega
  · have h1 := pre_word hk t hU
    have hr := rot_full (v := (p :: u) ++ [inn (c1 k t) p u i]) (N := n + 1) (by simpa using hlen)
    rw [← h1] at hr
    have hs : spD n k t (p :: u, i) = ((inn (c1 k t) p u i).dual :: revW u, (spD n k t (p :: u, i)).2) := rfl
    have h2 := idx_inn (c2 n k t) (hs ▸ hS)
    have hi : inn (c2 n k t) (inn (c1 k t) p u i).dual (revW u) (spD n k t (p :: u, i)).2 = p.dual := tw_tw _ _
    have hv : revW ((p :: u) ++ [inn (c1 k t) p u i]) = ((inn (c1 k t) p u i).dual :: revW u) ++ [p.dual] := by
      unfold revW dualW
      simp
    rw [hi, ← hv, ← hr, ← hs] at h2
    unfold spinIdx
    by_cases hc : (n + 1 + (n + 1 - k) + b2n t) % 2 = 1
    · rw [if_pos hc]
      rw [if_pos ((post_cond hk t).2 hc)] at h2
      push_cast at h2
      rw [← h2, midSwap_midSwap]
    · rw [if_neg hc]
      rw [if_neg (fun h => hc ((post_cond hk t).1 h))] at h2
      push_cast at h2
      exact h2

theorem idxA_length (v : List L3) : (idxA v).length = cntA v := by
  unfold cntA
  induction v with
  | nil => rfl
  | cons p v ih => cases p <;> simp [idxA, ih]

theorem cntA_full (p : L3) (u : List L3) (I : L3) : cntA ((p :: u) ++ [I]) = cntA u + b2n (isA p) + b2n (isA I) := by
  unfold cntA
  cases p <;> cases I <;> simp [isA, b2n]

theorem numD_word {n k : ℕ} (hn : 0 < n) (hk : k ≤ n + 1) (t : Bool) {U : WordD} (hU : U ∈ WdD n k) :
    (spinPre (n + 1 - k) n (b2n t) (part2indexD (labD U) k n)).countP (fun x => x ≤ (n : Int) + 1) = numD (c1 k t) U := by
  have hlen := (mem_WdD.1 hU).1
  rcases U with ⟨_ | ⟨p, u⟩, i⟩
  · simp at hlen; omega
  · rw [pre_word hk t hU, idxW_split, List.map_append, List.countP_append, List.countP_map, List.countP_map]
    have e1 : ∀ v : List L3, List.countP ((fun x => decide (x ≤ (n : Int) + 1)) ∘ fun x => x + ((n + 1 : ℕ) : Int)) (idxA v) = cntA v := by
      intro v
      rw [← idxA_length, List.countP_eq_length]
      intro x hx
      have := idxA_le v x hx
      simp
      omega
    have e2 : ∀ v : List L3, List.countP ((fun x => decide (x ≤ (n : Int) + 1)) ∘ fun x => x + ((n + 1 : ℕ) : Int)) (idxB v) = 0 := by
      intro v
      rw [List.countP_eq_zero]
      intro x hx
      have := idxB_pos v x hx
      simp
      omega
    rw [e1, e2, cntA_full]
    rfl

theorem spinExp_word {n k : ℕ} (hn : 0 < n) (hk : k ≤ n + 1) (t : Bool) {U : WordD} (hU : U ∈ WdD n k) :
    spinExp (n + 1 - k) n (b2n t) (part2indexD (labD U) k n) = spE k t U := by
  unfold spinExp spE
  rw [numD_word hn hk t hU]
  by_cases h : k = 0
  · rw [if_pos h, if_pos (by omega)]
  · rw [if_neg h, if_neg (by omega), Nat.div_one]

/-! ### The unit and the staircase -/

theorem shapeW_as (j : ℕ) : shapeW 0 1 (List.replicate j .a) = (List.range (j + 1)).map (fun i : ℕ => (j : Int) - i) := by
  induction j with
  | zero => rfl
  | succ j ih =>
    rw [List.replicate_succ, shapeW, ih, List.range_succ_eq_map (n := j + 1), List.map_cons, List.map_map]
    have : colsW 0 (List.replicate j L3.a) = 0 := by rw [colsW_count]; simp [List.count_replicate]
    rw [this]
    simp

theorem labD_stair {n k : ℕ} (hk : k ≤ n) (t : Bool) : labD (os k ++ List.replicate (n - k) .a, tw t .a) = stairD k n t := by
  have hs : shD (os k ++ List.replicate (n - k) .a, tw t .a) = (List.range (n - k + 1)).map (fun i : ℕ => (n : Int) - i) := by
    have e : (tw t L3.a).k0 = 0 ∧ (tw t L3.a).r0 = 1 := by cases t <;> exact ⟨rfl, rfl⟩
    unfold shD
    simp only [e.1, e.2]
    rw [shapeW_os1, shapeW_as, List.map_map]
    apply List.map_congr_left
    intro i _
    simp only [Function.comp_apply]
    omega
  have hc : clD (os k ++ List.replicate (n - k) .a, tw t .a) = stair (k - 1) n := by
    unfold clD
    rw [hs]
    unfold stair
    by_cases h : k = 0
    · subst h
      rw [show n - 0 + 1 = n + 1 by omega, List.range_succ, List.map_append, List.map_cons, List.map_nil, sub_self, partClip_concat_zero,
        partClip_of_noTrailing]
      · rfl
      · intro h
        obtain ⟨x, hx, e⟩ := List.mem_map.1 (List.mem_of_getLast? h)
        simp at hx
        omega
    · rw [show n - (k - 1) = n - k + 1 by omega, partClip_of_noTrailing]
      intro h'
      obtain ⟨x, hx, e⟩ := List.mem_map.1 (List.mem_of_getLast? h')
      simp at hx
      omega
  unfold labD stairD
  rw [hc]
  cases t <;> simp [tw, L3.sw]

theorem labD_bs (j : ℕ) (v : List L3) (i : L3) : labD (List.replicate j .b ++ v, i) = labD (v, i) := by
  induction j with
  | zero => rfl
  | succ j ih => rw [List.replicate_succ, List.cons_append, labD_b, ih]

theorem unitSpin {n k : ℕ} (hn : 0 < n) (hk : k ≤ n) {t : Bool} (ht : k = 0 → t = false) :
    ∃ U0 ∈ WdD n k, labD U0 = [] ∧ numD (c1 k t) U0 = 0 ∧ labD (spD n k t U0) = stairD k n t := by
  by_cases h : k = 0
  · subst h
    obtain rfl := ht rfl
    obtain ⟨m, rfl⟩ : ∃ m, n = m + 1 := ⟨n - 1, by omega⟩
    have hm : (L3.b :: List.replicate m .b, L3.a) ∈ WdD (m + 1) 0 := by
      rw [mem_WdD]
      refine ⟨by simp, ?_, fun _ => rfl⟩
      unfold colsD
      rw [colsW_eq]
      simp [cntO, L3.k0, List.count_replicate]
    have hi : inn (c1 0 false) .b (List.replicate m .b) .a = .b := by
      have : od (cntA (List.replicate m L3.b)) = false := by simp [cntA, List.count_replicate, od]
      unfold inn
      rw [this]
      decide
    refine ⟨_, hm, ?_, ?_, ?_⟩
    · have := labD_bs (m + 1) [] .a
      rw [List.append_nil] at this
      rw [← List.replicate_succ, this]
      rfl
    · simp [numD, hi, isA, b2n, cntA, List.count_replicate]
    · have h2 : (spD (m + 1) 0 false (L3.b :: List.replicate m .b, L3.a)).2 = .a := (mem_WdD.1 (spD_mem hn hm)).2.2 rfl
      have h1 : (spD (m + 1) 0 false (L3.b :: List.replicate m .b, L3.a)).1 = os 0 ++ List.replicate (m + 1 - 0) .a := by
        show (inn (c1 0 false) .b (List.replicate m .b) .a).dual :: revW (List.replicate m .b) = _
        rw [hi]
        simp [revW, dualW, L3.dual, os, List.replicate_succ]
      rw [← labD_stair (Nat.zero_le _) false]
      congr 1
      exact Prod.ext h1 h2
  · have hm : (L3.b :: (List.replicate (n - k) .b ++ os (k - 1)), L3.o) ∈ WdD n k := by
      rw [mem_WdD]
      refine ⟨by simp [os]; omega, ?_, fun h' => absurd h' h⟩
      unfold colsD
      rw [colsW_eq]
      simp [cntO, L3.k0, List.count_replicate, os]
      omega
    have hi : ∀ c p u, inn c p u .o = .o := by
      intro c p u
      unfold inn tw
      split <;> rfl
    refine ⟨_, hm, ?_, ?_, ?_⟩
    · rw [labD_b, labD_bs]
      unfold labD clD shD
      simp only [L3.k0, L3.r0]
      rw [shapeW_os1']
      rfl
    · simp [numD, hi, isA, b2n, cntA, List.count_replicate, os]
    · rw [← labD_stair hk t]
      congr 1
      have e : revW (List.replicate (n - k) .b ++ os (k - 1)) = os (k - 1) ++ List.replicate (n - k) .a := by
        unfold revW dualW os
        simp [L3.dual]
      have h1 : (spD n k t (L3.b :: (List.replicate (n - k) .b ++ os (k - 1)), L3.o)).1 = os k ++ List.replicate (n - k) .a := by
        show (inn (c1 k t) .b _ .o).dual :: revW _ = _
        rw [hi, e]
        obtain ⟨j, rfl⟩ : ∃ j, k = j + 1 := ⟨k - 1, by omega⟩
        rfl
      have h2 : (spD n k t (L3.b :: (List.replicate (n - k) .b ++ os (k - 1)), L3.o)).2 = tw t .a := by
        show inn (c2 n k t) (inn (c1 k t) .b _ .o).dual (revW _) L3.a = _
        rw [hi, e]
        have hA : cntA (os (k - 1) ++ List.replicate (n - k) .a) = n - k := by
          simp [cntA, os, List.count_replicate]
        have hs := od_sub (n := n) (k := k) (by omega)
        rw [show n + 1 - k = n - k + 1 by omega, od_succ, od_succ] at hs
        unfold inn
        congr 1
        rw [hA, c2, c1, od_succ, od_succ]
        have hoA : isA L3.o.dual = false := rfl
        rw [hoA]
        revert hs
        generalize od (n - k) = x
        generalize od n = y
        generalize od k = z
        cases x <;> cases y <;> cases z <;> cases t <;> simp
      exact Prod.ext h1 h2

/-! ### The products -/

theorem clsD_spin {n k : ℕ} (hn : 0 < n) (hk : k ≤ n) (t : Bool) {U : WordD} (hU : U ∈ WdD n k) : clsD n k (labD (spD n k t U)) :=
  (WdD_cls (by omega) _).2 ⟨_, spD_mem hn hU, rfl⟩

/-- **C117**. On `OG(m, 2n+2)` with `0 < m ≤ n+1`, `m ≠ n` the quantum product of a staircase `S[n,n-1,...,n+1-m]`, of either type,
and a class `S[l]` is `q^d * S[mu]`, where the Schubert symbol of `mu` is that of `l`, rotated by `n+1` with the two middle
coordinates exchanged before or after, and `d` is the number of coordinates in the first half before the rotation; half of it if
`m = n+1`. -/
theorem C117_staircase (ord : List Int → List Int) {m n : ℕ} (hn : 0 < n) (hm : 0 < m) (hmn : m ≤ n + 1) (hne : m ≠ n) {X : Space}
    (hX : mkOG m (2 * n + 2) = .ok X) {fuel : ℕ} (hf : giamBoundD m n ≤ fuel) {t : Bool} (ht : m = n + 1 → t = false) {l : List Int}
    (hl : DClass m n l) :
    ∃ mu, DClass m n mu ∧ X.part2index mu = spinIdx m n t.toNat (X.part2index l) ∧
      X.index2part (spinIdx m n t.toNat (X.part2index l)) = .ok mu ∧
      X.qmult ord fuel (Poly.sym (.S (stairD (n + 1 - m) n t))) (Poly.sym (.S l)) =
        .ok [(List.replicate (spinExp m n t.toNat (X.part2index l)) .q ++ [.S mu], 1)] := by
  obtain ⟨a, b, h, hb, h1, h2, rfl⟩ := ogdCase' (by omega) (by omega) (by omega) hX
  obtain rfl : n = a := by omega
  obtain rfl : b = n + 1 - m := by omega
  have hX' := hX
  have hD : DClass (m : Int) n = clsD n (n + 1 - m) := by rw [h2, dClass_eq (by omega)]
  rw [h2, giamBoundD_eq (by omega)] at hf
  have hl' := hl
  rw [hD] at hl
  obtain ⟨U, hU, rfl⟩ := (WdD_cls (by omega) l).1 hl
  have ht' : n + 1 - m = 0 → t = false := fun h0 => ht (by omega)
  obtain ⟨U0, h0, hl0, he0, hs0⟩ := unitSpin (t := t) hn h ht'
  have hE0 : spE (n + 1 - m) t U0 = 0 := by unfold spE; rw [he0]; split <;> rfl
  have key : Space.qmult ord ⟨.D, ((n + 1 - m : ℕ) : Int), n⟩ fuel _ _ = _ :=
    tw_mult (ringQD ord n (n + 1 - m) h hb) (spD n (n + 1 - m) t) (spE (n + 1 - m) t) WdD_inj (WdD_cls (by omega)) (fun u => spD_mem hn)
      (fun p _ => twM_comm (spD n (n + 1 - m) t) (spE (n + 1 - m) t) WdD_inj (spD' n (n + 1 - m) t) (fun u => spD_mem hn) (fun u => spD'_mem hn)
        (fun u _ => spD'_spD _ _ _ u) (fun u _ => spD_spD' _ _ _ u) (fun _ => MDg (hQ (n + 1 - m)) (hQ' (n + 1 - m)) (n + 1 - m) p) (p := 0)
        (fun U hU W hW => spD_M p hn ht' hU hW)) h0 hl0 hE0 hU hf
  have hc := clsD_spin hn h t hU
  have hb2 : b2n t = t.toNat := by cases t <;> rfl
  have e1 := spinIdx_word hn (by omega : n + 1 - m ≤ n + 1) t hU
  have e2 := spinExp_word hn (by omega : n + 1 - m ≤ n + 1) t hU
  rw [show n + 1 - (n + 1 - m) = m by omega, hb2] at e1 e2
  have e1' : (Space.mk .D ((n + 1 - m : ℕ) : Int) n).part2index (labD (spD n (n + 1 - m) t U)) =
      spinIdx m n t.toNat ((Space.mk .D ((n + 1 - m : ℕ) : Int) n).part2index (labD U)) := e1
  have e2' : spinExp m n t.toNat ((Space.mk .D ((n + 1 - m : ℕ) : Int) n).part2index (labD U)) = spE (n + 1 - m) t U := e2
  refine ⟨labD (spD n (n + 1 - m) t U), by rw [hD]; exact hc, e1', ?_, ?_⟩
  · rw [← e1']
    have hT : DClass (m : Int) n (labD (spD n (n + 1 - m) t U)) := by rw [hD]; exact hc
    exact (C11_part_index_part m n (by omega) _ hX' _ hT).2.2.2
  · rw [hs0] at key
    rw [e2', key]

theorem c1_one (t : Bool) : c1 1 t = t := by cases t <;> rfl

theorem spinPar_sorted (d s : ℕ) (l : List Int) : MSorted (spinPar d s ++ [.S l]) := by
  unfold spinPar MSorted
  rw [List.append_assoc, List.pairwise_append]
  refine ⟨List.pairwise_replicate.2 (Or.inr (by simp [Sym.code, listLt])), ?_, ?_⟩
  · rw [List.pairwise_append]
    refine ⟨List.pairwise_replicate.2 (Or.inr (by simp [Sym.code, listLt])), by simp, ?_⟩
    intro a ha b hb
    rw [(List.mem_replicate.1 ha).2, List.mem_singleton.1 hb]
    simp [Sym.code, listLt]
  · intro a ha b hb
    rw [(List.mem_replicate.1 ha).2]
    rcases List.mem_append.1 hb with hb | hb
    · rw [(List.mem_replicate.1 hb).2]
      simp [Sym.code, listLt]
    · rw [List.mem_singleton.1 hb]
      simp [Sym.code, listLt]

/-- **C117**. On `OG(n, 2n+2)` the power of `q` is replaced by `q1*q2*q1*...`, or by `q2*q1*q2*...` for the staircase of the second type. -/
theorem C117_staircase2 {ord : List Int → List Int} (ho : Ascending ord) {n : ℕ} (hn : 1 ≤ n) {X : Space} (hX : mkOG n (2 * n + 2) = .ok X)
    {fuel : ℕ} (hf : giamBoundD n n ≤ fuel) (t : Bool) {l : List Int} (hl : DClass n n l) :
    ∃ mu, DClass n n mu ∧ X.part2index mu = spinIdx n n t.toNat (X.part2index l) ∧
      X.index2part (spinIdx n n t.toNat (X.part2index l)) = .ok mu ∧
      X.qmult ord fuel (Poly.sym (.S (stairD 1 n t))) (Poly.sym (.S l)) =
        .ok [(spinPar (spinExp n n t.toNat (X.part2index l)) t.toNat ++ [.S mu], 1)] := by
  have hX' := hX
  obtain ⟨m, h1, h2, rfl⟩ := og2Case (by omega) hX
  obtain rfl : n = m := by omega
  rw [giamBoundD_one] at hf
  have hD : DClass (n : Int) n = clsD n 1 := dClass_one
  rw [hD] at hl
  obtain ⟨U, hU, rfl⟩ := (WdD_cls (by omega) l).1 hl
  obtain ⟨U0, h0, hl0, he0, hs0⟩ := unitSpin (n := n) (k := 1) (t := t) (by omega) (by omega) (by omega)
  have hF : fac2 (MvPolynomial.X .q1 : P) (MvPolynomial.X .q2) (c1 1 t) U0 = 1 := by
    unfold fac2
    rw [he0]
    split <;> simp
  have key := qmult_cls ho h1 hf (spD_mem (t := t) (by omega) h0) hU
  rw [str_twist (σ' := spD' n 1 t) h1 (spD'_spD _ _ _) (spD_spD' _ _ _) (fun U hU => spD_mem (by omega) hU) (fun U hU => spD'_mem (by omega) hU)
    (fun p U hU W hW => M2_spin h1 p t hU hW) h0 hl0 hF hU, ev2_bas (spD_mem (by omega) hU), hs0] at key
  have hc := clsD_spin (k := 1) (by omega : 0 < n) (by omega) t hU
  have hb2 : b2n t = t.toNat := by cases t <;> rfl
  have e1 := spinIdx_word (by omega : 0 < n) (by omega : 1 ≤ n + 1) t hU
  have e2 := spinExp_word (by omega : 0 < n) (by omega : 1 ≤ n + 1) t hU
  rw [show n + 1 - 1 = n by omega, hb2] at e1 e2
  have e1' : (Space.mk .D ((1 : ℕ) : Int) n).part2index (labD (spD n 1 t U)) = spinIdx n n t.toNat ((Space.mk .D ((1 : ℕ) : Int) n).part2index (labD U)) := e1
  have e2' : spinExp n n t.toNat ((Space.mk .D ((1 : ℕ) : Int) n).part2index (labD U)) = numD (c1 1 t) U := e2
  refine ⟨labD (spD n 1 t U), by rw [hD]; exact hc, e1', ?_, ?_⟩
  · rw [← e1']
    have hT : DClass (n : Int) n (labD (spD n 1 t U)) := by rw [hD]; exact hc
    exact (C11_part_index_part n n (by omega) _ hX' _ hT).2.2.2
  · rw [e2']
    refine returns_mono one_ne_zero (spinPar_sorted _ _ _) ?_
    have e4 : monoDen (spinPar (numD (c1 1 t) U) t.toNat ++ [.S (labD (spD n 1 t U))]) =
        fac2 (MvPolynomial.X .q1) (MvPolynomial.X .q2) (c1 1 t) U * MvPolynomial.X (.S (labD (spD n 1 t U))) := by
      unfold fac2
      rw [c1_one]
      cases t <;> simp [monoDen, spinPar, mul_assoc]
    rw [e4, MvPolynomial.C_1, one_mul]
    simpa using key

/-- `OG(2, 8)` and the staircase of the second type -/
example : DClass 2 3 [5, 1] ∧ stairD 2 3 true = [3, 2, 0] ∧ (Space.mk .D 2 3).part2index [5, 1] = [1, 6] ∧ spinIdx 2 3 1 [1, 6] = [2, 4] ∧
    spinExp 2 3 1 [1, 6] = 1 ∧ (Space.mk .D 2 3).part2index [4, 2] = [2, 4] ∧
    (Space.mk .D 2 3).qmult id (giamBoundD 2 3) (Poly.sym (.S [3, 2, 0])) (Poly.sym (.S [5, 1])) = .ok [([.q, .S [4, 2]], 1)] := by
  refine ⟨by decide +kernel, by decide +kernel, by decide +kernel, by decide +kernel, by decide +kernel, by decide +kernel, by decide +kernel⟩

/-- `OG(4, 8)` -/
example : DClass 4 3 [3, 1] ∧ stairD 0 3 false = [3, 2, 1] ∧ spinExp 4 3 0 [1, 3, 5, 7] = 1 ∧ spinIdx 4 3 0 [1, 3, 5, 7] = [1, 3, 5, 7] ∧
    (Space.mk .D 0 3).qmult id (giamBoundD 4 3) (Poly.sym (.S [3, 2, 1])) (Poly.sym (.S [3, 1])) = .ok [([.q, .S [3, 1]], 1)] := by
  refine ⟨by decide +kernel, by decide +kernel, by decide +kernel, by decide +kernel, by decide +kernel⟩

/-- `OG(3, 8)` -/
example : DClass 3 3 [3, 1, 0] ∧ stairD 1 3 true = [3, 2, 1, 0] ∧ (Space.mk .D 1 3).part2index [3, 1, 0] = [2, 5, 8] ∧
    spinIdx 3 3 1 [2, 5, 8] = [1, 4, 6] ∧ spinPar (spinExp 3 3 1 [2, 5, 8]) 1 = [.q2] ∧ (Space.mk .D 1 3).part2index [4, 1, 1] = [1, 4, 6] ∧
    (Space.mk .D 1 3).qmult id (giamBoundD 3 3) (Poly.sym (.S [3, 2, 1, 0])) (Poly.sym (.S [3, 1, 0])) = .ok [([.q2, .S [4, 1, 1]], 1)] ∧
    (Space.mk .D 1 3).qmult id (giamBoundD 3 3) (Poly.sym (.S [3, 2, 1, 0])) (Poly.sym (.S [4, 2, 1])) = .ok [([.q1, .q2, .S [4, 1, 0]], 1)] := by
  refine ⟨by decide +kernel, by decide +kernel, by decide +kernel, by decide +kernel, by decide +kernel, by decide +kernel, by decide +kernel, by decide +kernel⟩

end Verif
