import Verif.Proofs.SpinChk
/-!
# Type D: the words read backwards
-/

namespace Verif.Spin
open Verif

section
variable {R : Type*} [CommRing R]

/-! ### The form between two states -/

theorem wtE_zero (x : R) (s : St) (u w : List L3) : wtE (fun _ => (0 : R)) x s u w = 0 := by
  induction u generalizing s w with
  | nil => cases w <;> simp [wtE]
  | cons p u ih =>
    cases w with
    | nil => simp [wtE]
    | cons q w => rw [wtE_cons]; simp [ih, sumSt]

theorem wtE_lin (c : St → R) (e : St → St → R) (x : R) (s : St) (u w : List L3) :
    wtE (fun r => sumSt (fun t => c t * e t r)) x s u w = sumSt (fun t => c t * wtE (e t) x s u w) := by
  induction u generalizing s w with
  | nil =>
    cases w with
    | nil => rfl
    | cons q w => simp [wtE, sumSt]
  | cons p u ih =>
    cases w with
    | nil => simp [wtE, sumSt]
    | cons q w =>
      rw [wtE_cons]
      simp only [wtE_cons, ih]
      simp only [sumSt]; ring

/-- the first matrix between two states; the second one is read backwards -/
def NG (x : R) (s t : St) (u w : List L3) : R := wtE (fun r => gG x r * if t = r.dual then 1 else 0) x s u w

theorem NG_rev (x : R) (s t : St) {u w : List L3} (hl : u.length = w.length) : NG x s t u w = NG x t s (revW u) (revW w) := by
  have h := bilW_rev x (fun r => if t = r then (1 : R) else 0) u w (fun r => if s = r then 1 else 0) hl
  have e : ∀ (s : St) (e : St → R) (u w : List L3), bilW (fun r => if s = r then (1 : R) else 0) e x u w = wtE e x s u w := by
    intro s e u w
    unfold bilW sumSt
    cases s <;> simp
  rw [e, e] at h
  exact h

theorem chA_step {s t : St} {p q : L3} {i j : ℕ} (h : step s p q = some (t, i, j)) (u w : List L3) :
    s.chA + cntA (q :: w) + cntA u = cntA (p :: u) + (t.chA + cntA w) := by
  cases s <;> cases p <;> cases q <;> simp [step] at h <;> obtain ⟨rfl, -⟩ := h <;> simp [St.chA, cntA] <;> omega

theorem NG_cnt (x : R) (t : St) (u w : List L3) (s : St) (h : s.chA + cntA w ≠ cntA u + t.dual.chA) : NG x s t u w = 0 := by
  unfold NG
  induction u generalizing s w with
  | nil =>
    cases w with
    | nil =>
      simp only [wtE]
      rw [if_neg, mul_zero]
      rintro rfl
      apply h
      cases s <;> rfl
    | cons q w => simp [wtE]
  | cons p u ih =>
    cases w with
    | nil => simp [wtE]
    | cons q w =>
      simp only [wtE]
      rcases hst : step s p q with _ | ⟨r, i, j⟩
      · rfl
      · have := chA_step hst u w
        simp only
        rw [ih w r (by omega), mul_zero]

/-- the second matrix between two states -/
def NS (s t : St) (u w : List L3) : R := wtS (fun r => if t = r.dual then 1 else 0) s u w

/-- the weight of one step, second matrix -/
def w1S (s : St) (p q : L3) (t : St) : R :=
  match stepSg s p q with
  | some (t', i) => if t' = t then (i : R) else 0
  | none => 0

theorem wtS_cons (e : St → R) (s : St) (p q : L3) (u w : List L3) :
    wtS e s (p :: u) (q :: w) = sumSt (fun t => w1S s p q t * wtS e t u w) := by
  simp only [wtS, w1S]
  rcases stepSg s p q with _ | ⟨t, i⟩
  · simp [sumSt]
  · cases t <;> simp [sumSt]

theorem wtS_append (e : St → R) (p q : L3) : ∀ (u w : List L3) (s : St), u.length = w.length →
    wtS e s (u ++ [p]) (w ++ [q]) = wtS (fun t => sumSt (fun t' => w1S t p q t' * e t')) s u w := by
  intro u
  induction u with
  | nil =>
    intro w s hl
    obtain rfl : w = [] := List.length_eq_zero_iff.1 (by simpa using hl.symm)
    rw [List.nil_append, List.nil_append, wtS_cons]
    rfl
  | cons r u ih =>
    intro w s hl
    cases w with
    | nil => simp at hl
    | cons r' w =>
      rw [List.cons_append, List.cons_append, wtS_cons, wtS_cons]
      congr 1
      funext t
      rw [ih w t (by simpa using hl)]

theorem wtS_lin (c : St → R) (e : St → St → R) (s : St) (u w : List L3) :
    wtS (fun r => sumSt (fun t => c t * e t r)) s u w = sumSt (fun t => c t * wtS (e t) s u w) := by
  induction u generalizing s w with
  | nil =>
    cases w with
    | nil => rfl
    | cons q w => simp [wtS, sumSt]
  | cons p u ih =>
    cases w with
    | nil => simp [wtS, sumSt]
    | cons q w =>
      rw [wtS_cons]
      simp only [wtS_cons, ih]
      simp only [sumSt]; ring

/-- the sign -/
def sgn (b : Bool) : R := if b then -1 else 1

/-- the number of letters `o` -/
def cntO (u : List L3) : ℕ := u.count .o

theorem NS_rev (t : St) : ∀ (u w : List L3) (s : St), u.length = w.length →
    (NS t s (revW u) (revW w) : R) = sgn (xor (od (cntO u)) (xor (ps s) (ps t))) * NS s t u w := by
  intro u
  induction u with
  | nil =>
    intro w s hl
    obtain rfl : w = [] := List.length_eq_zero_iff.1 (by simpa using hl.symm)
    cases s <;> cases t <;> simp [NS, revW, dualW, wtS, St.dual, sgn, ps, od, cntO]
  | cons p u ih =>
    intro w s hl
    cases w with
    | nil => simp at hl
    | cons q w =>
      have hl' : u.length = w.length := by simpa using hl
      have e1 : (NS s t (p :: u) (q :: w) : R) = sumSt (fun r => w1S s p q r * NS r t u w) := by
        unfold NS; rw [wtS_cons]
      have e2 : (NS t s (revW (p :: u)) (revW (q :: w)) : R) = sumSt (fun r => w1S r.dual p.dual q.dual s.dual * NS t r (revW u) (revW w)) := by
        unfold NS
        rw [revW_cons, revW_cons, wtS_append _ _ _ _ _ _ (by simp [revW, hl']), ← wtS_lin]
        congr 1
        funext r
        cases r <;> cases s <;> simp [sumSt, St.dual]
      rw [e1, e2, sumSt_mul]
      congr 1
      funext r
      rw [ih w r hl', ← mul_assoc, ← mul_assoc]
      congr 1
      have ho : od (cntO (p :: u)) = xor (isO p) (od (cntO u)) := by
        unfold od cntO isO
        rcases Nat.mod_two_eq_zero_or_one (List.count L3.o u) with h | h <;> cases p <;> simp [h, Nat.add_mod]
      rw [ho]
      generalize od (cntO u) = b
      cases b <;> cases s <;> cases r <;> cases t <;> cases p <;> cases q <;> simp [w1S, stepSg, St.dual, L3.dual, sgn, ps, isO]

theorem NS_cnt (t : St) (u w : List L3) (s : St) (h : s.chA + cntA w ≠ cntA u + t.dual.chA) : (NS s t u w : R) = 0 := by
  unfold NS
  induction u generalizing s w with
  | nil =>
    cases w with
    | nil =>
      simp only [wtS]
      rw [if_neg]
      rintro rfl
      apply h
      cases s <;> rfl
    | cons q w => simp [wtS]
  | cons p u ih =>
    cases w with
    | nil => simp [wtS]
    | cons q w =>
      simp only [wtS]
      rcases hst : stepSg s p q with _ | ⟨r, i⟩
      · rfl
      · have : ∃ i j, step s p q = some (r, i, j) := by
          cases s <;> cases p <;> cases q <;> simp [stepSg] at hst <;> simp [step, hst]
        obtain ⟨i', j', h'⟩ := this
        have := chA_step h' u w
        simp only
        rw [ih w r (by omega), mul_zero]

/-! ### Monomials -/

variable (y1 y2 x : R)

/-- the value of a monomial -/
def val (m : M4) : R := sgn m.1 * (y1 ^ m.2.1 * y2 ^ m.2.2.1 * x ^ m.2.2.2)

def valO : Option M4 → R
  | none => 0
  | some m => val y1 y2 x m

def valL (l : List M4) : R := (l.map (val y1 y2 x)).sum

theorem sgn_xor (a b : Bool) : (sgn (xor a b) : R) = sgn a * sgn b := by
  cases a <;> cases b <;> simp [sgn]

theorem val_mm (a b : M4) : val y1 y2 x (mm a b) = val y1 y2 x a * val y1 y2 x b := by
  unfold val mm
  simp only [sgn_xor, pow_add]
  ring

theorem valO_om (a b : Option M4) : valO y1 y2 x (om a b) = valO y1 y2 x a * valO y1 y2 x b := by
  cases a <;> cases b <;> simp [om, valO, val_mm]

theorem valL_opt (a : Option M4) : valL y1 y2 x a.toList = valO y1 y2 x a := by
  cases a <;> simp [valL, valO]

theorem valL_append (a b : List M4) : valL y1 y2 x (a ++ b) = valL y1 y2 x a + valL y1 y2 x b := by
  simp [valL]

theorem valL_mm (m : M4) (l : List M4) : valL y1 y2 x (l.map (mm m)) = val y1 y2 x m * valL y1 y2 x l := by
  unfold valL
  induction l with
  | nil => simp
  | cons a l ih =>
    rw [List.map_cons, List.map_cons, List.sum_cons, ih, val_mm, List.map_cons, List.sum_cons]
    ring

theorem val_m1 : val y1 y2 x m1 = 1 := by simp [val, m1, sgn]

theorem val_mN : val y1 y2 x mN = -1 := by simp [val, mN, sgn]

theorem val_x : val y1 y2 x (false, 0, 0, 1) = x := by simp [val, sgn]

theorem kerE_eq (hp : M4) (g : St → R) (p q : L3) :
    kerE (val y1 y2 x hp) g p q = sumSt (fun s => valO y1 y2 x (kE hp p q s) * g s) := by
  cases p <;> cases q <;> simp [kerE, sumSt, kE, valO, val_m1]

theorem kerO_eq (g : St → R) (p q : L3) : kerO 1 x g p q = sumSt (fun s => valO y1 y2 x (kO p q s) * g s) := by
  cases p <;> cases q <;> simp [kerO, sumSt, kO, valO, val_m1, val_x]

theorem kerSE_eq (g : St → R) (p q : L3) : kerSE g p q = sumSt (fun s => valO y1 y2 x (kSE p q s) * g s) := by
  cases p <;> cases q <;> simp [kerSE, sumSt, kSE, valO, val_m1]

theorem kerSO_eq (g : St → R) (p q : L3) : kerSO 1 g p q = sumSt (fun s => valO y1 y2 x (kSO p q s) * g s) := by
  cases p <;> cases q <;> simp [kerSO, sumSt, kSO, valO, val_m1, val_mN]

theorem gD_eq (s : St) (u w : List L3) (i j : L3) :
    gD x s (u, i) (w, j) = sumSt (fun t => valO y1 y2 x (eG i j t) * NG x s t u w) := by
  unfold gD NG
  rw [← wtE_lin]
  congr 1
  funext r
  cases r <;> cases i <;> cases j <;> simp [endG, sumSt, gG, eG, valO, val_m1, val_x, St.dual]
  ring

theorem sD_eq (s : St) (u w : List L3) (i j : L3) :
    sD s (u, i) (w, j) = sumSt (fun t => valO y1 y2 x (eS i j t) * NS s t u w) := by
  unfold sD NS
  rw [← wtS_lin]
  congr 1
  funext r
  cases r <;> cases i <;> cases j <;> simp [endSg, sumSt, eS, valO, val_m1, val_mN, St.dual]

/-! ### The operators -/

/-- the first operator -/
def opKG (Q : Par) (U W : WordD) : R :=
  opGE (val y1 y2 x Q.hp) x U W + val y1 y2 x (Q.hq U.2 (swD W).2) * opGO 1 x U (swD W)

/-- the second operator -/
def opKS (Q : Par) (U W : WordD) : R := opSE U W + val y1 y2 x (Q.hq U.2 (swD W).2) * opSO 1 U (swD W)

theorem opKG_eq (Q : Par) (p q i j : L3) (u w : List L3) : opKG y1 y2 x Q (p :: u, i) (q :: w, j) =
    sumSt (fun s => sumSt (fun t => valL y1 y2 x (coG Q p q i j s t) * NG x s t u w)) := by
  have e : ∀ s t, valL y1 y2 x (coG Q p q i j s t) = valO y1 y2 x (kE Q.hp p q s) * valO y1 y2 x (eG i j t) +
      val y1 y2 x (Q.hq i j.sw) * valO y1 y2 x (kO p q s) * valO y1 y2 x (eG i j.sw t) := by
    intro s t
    unfold coG
    rw [valL_append, valL_opt, valL_opt, valO_om, valO_om, valO_om]
    rfl
  unfold opKG opGE opGO swD
  simp only [kerE_eq, kerO_eq y1 y2 x, gD_eq y1 y2, e]
  simp only [sumSt]
  ring

theorem opKS_eq (Q : Par) (p q i j : L3) (u w : List L3) : opKS y1 y2 x Q (p :: u, i) (q :: w, j) =
    sumSt (fun s => sumSt (fun t => valL y1 y2 x (coS Q p q i j s t) * NS s t u w)) := by
  have e : ∀ s t, valL y1 y2 x (coS Q p q i j s t) = valO y1 y2 x (kSE p q s) * valO y1 y2 x (eS i j t) +
      val y1 y2 x (Q.hq i j.sw) * valO y1 y2 x (kSO p q s) * valO y1 y2 x (eS i j.sw t) := by
    intro s t
    unfold coS
    rw [valL_append, valL_opt, valL_opt, valO_om, valO_om, valO_om]
    rfl
  unfold opKS opSE opSO swD
  simp only [kerSE_eq y1 y2 x, kerSO_eq y1 y2 x, sD_eq y1 y2 x, e]
  simp only [sumSt]
  ring

end

/-! ### The map of words -/

/-- the half of the inner letter -/
def inn (c : Bool) (p : L3) (u : List L3) (i : L3) : L3 := tw (xor (xor (od (cntA u)) (isA p)) c) i

/-- the word backwards, with the first and the inner letter exchanged -/
def spin (c1 c2 : Bool) : WordD → WordD
  | ([], i) => ([], i)
  | (p :: u, i) => ((inn c1 p u i).dual :: revW u, inn c2 (inn c1 p u i).dual (revW u) p.dual)

/-- the number of letters `a`, the inner letter included -/
def numD (c : Bool) : WordD → ℕ
  | ([], _) => 0
  | (p :: u, i) => cntA u + b2n (isA p) + b2n (isA (inn c p u i))

theorem tw_tw (b : Bool) (i : L3) : tw b (tw b i) = i := by
  cases b <;> simp [tw, L3.sw_sw]

theorem tw_dual (b : Bool) (i : L3) : (tw b i).dual = tw b i.dual := by
  cases b <;> cases i <;> rfl

theorem L3.dual_dual' (p : L3) : p.dual.dual = p := by cases p <;> rfl

theorem spin_spin (c1 c2 : Bool) (U : WordD) : spin c2 c1 (spin c1 c2 U) = U := by
  rcases U with ⟨_ | ⟨p, u⟩, i⟩
  · rfl
  · have e1 : inn c2 (inn c1 p u i).dual (revW u) (inn c2 (inn c1 p u i).dual (revW u) p.dual) = p.dual := tw_tw _ _
    simp only [spin, e1, L3.dual_dual', revW_revW]
    congr 1
    exact tw_tw _ _

theorem tw_k0 (b : Bool) (i : L3) : (tw b i).k0 = i.k0 := by
  cases b <;> cases i <;> rfl

theorem dual_k0 (i : L3) : i.dual.k0 = i.k0 := by cases i <;> rfl

theorem colsW_eq (c : ℕ) (u : List L3) : colsW c u = c + cntO u := by
  unfold cntO
  induction u with
  | nil => rfl
  | cons p u ih => cases p <;> simp [colsW, ih]; omega

theorem k0_isO (i : L3) : i.k0 = b2n (isO i) := by cases i <;> rfl

theorem cntO_cons (p : L3) (u : List L3) : cntO (p :: u) = p.k0 + cntO u := by
  unfold cntO
  cases p <;> simp [L3.k0]; omega

theorem cntO_rev (u : List L3) : cntO (revW u) = cntO u := by
  have := colsW_revW u
  rw [colsW_eq, colsW_eq] at this
  omega

theorem colsD_spin (c1 c2 : Bool) (U : WordD) : colsD (spin c1 c2 U) = colsD U := by
  rcases U with ⟨_ | ⟨p, u⟩, i⟩
  · rfl
  · unfold colsD spin
    simp only [colsW_eq, cntO_cons, cntO_rev, inn, tw_k0, dual_k0]
    omega

theorem length_spin (c1 c2 : Bool) (U : WordD) : (spin c1 c2 U).1.length = U.1.length := by
  rcases U with ⟨_ | ⟨p, u⟩, i⟩
  · rfl
  · simp [spin, revW_length]

theorem cnt_rev (u : List L3) : cntA u + cntA (revW u) + cntO u = u.length := by
  have : cntA (revW u) = u.count .b := by
    unfold cntA revW dualW
    rw [List.count_reverse]
    induction u with
    | nil => rfl
    | cons p u ih => cases p <;> simp [L3.dual, ih]
  rw [this]
  clear this
  unfold cntA cntO
  induction u with
  | nil => rfl
  | cons p u ih => cases p <;> simp <;> omega

/-! ### The identities -/

theorem od_add (a b : ℕ) : od (a + b) = xor (od a) (od b) := by
  unfold od
  rcases Nat.mod_two_eq_zero_or_one a with h | h <;> rcases Nat.mod_two_eq_zero_or_one b with h' | h' <;> simp [h, h', Nat.add_mod]

theorem od_two (c d : ℕ) : od (2 * c + d) = od d := by
  unfold od
  congr 1
  omega

theorem od_split (n : ℕ) : n = 2 * (n / 2) + b2n (od n) := by
  unfold od b2n
  rcases Nat.mod_two_eq_zero_or_one n with h | h <;> simp [h] <;> omega

/-- the table for two words -/
theorem chk_words {Q : Par} {lone c1 c2 : Bool} (hc : chkAll Q lone c1 = true) {p q i j : L3} {u w : List L3} {s t : St}
    (hn : od u.length = xor c1 c2) (hl : lone = true → ((isO p && isO i) = false ∧ (isO q && isO j) = false ∧ od (cntO u) = !xor (isO p) (isO i)))
    (h1 : s.chA + cntA w = cntA u + t.dual.chA) (h2 : t.chA + cntA (revW w) = cntA (revW u) + s.dual.chA) :
    ∃ c d e, numD c1 (p :: u, i) = 2 * c + d ∧ numD c1 (q :: w, j) = 2 * c + e ∧
      (coG Q (inn c1 p u i).dual (inn c1 q w j).dual (spin c1 c2 (p :: u, i)).2 (spin c1 c2 (q :: w, j)).2 t s).map (mm (Q.F d)) =
        (coG Q p q i j s t).map (mm (Q.F e)) ∧
      (coS Q (inn c1 p u i).dual (inn c1 q w j).dual (spin c1 c2 (p :: u, i)).2 (spin c1 c2 (q :: w, j)).2 t s).map
          (mm (mm (Q.F d) (xor (od (cntO u)) (xor (ps s) (ps t)), 0, 0, 0))) = (coS Q p q i j s t).map (mm (Q.F e)) := by
  obtain ⟨N, hN⟩ : ∃ N, N = cntA u - (s.chA - t.dual.chA) := ⟨_, rfl⟩
  have hu : cntA u = 2 * (N / 2) + (b2n (od N) + (s.chA - t.dual.chA)) := by
    have := od_split N
    omega
  have hw : cntA w = 2 * (N / 2) + (b2n (od N) + (t.dual.chA - s.chA)) := by
    have := od_split N
    omega
  have e1 : od (cntA u) = od (b2n (od N) + (s.chA - t.dual.chA)) := by rw [hu, od_two]
  have e2 : od (cntA w) = od (b2n (od N) + (t.dual.chA - s.chA)) := by rw [hw, od_two]
  have e3 : od (cntA (revW w)) = xor (od (cntA (revW u))) (od (t.chA + s.dual.chA)) := by
    have := congrArg od h2
    rw [od_add, od_add] at this
    rw [od_add]
    revert this
    generalize od t.chA = a
    generalize od s.dual.chA = b
    generalize od (cntA (revW w)) = a'
    generalize od (cntA (revW u)) = b'
    cases a <;> cases b <;> cases a' <;> cases b' <;> simp
  have e4 : xor (od (b2n (od N) + (s.chA - t.dual.chA))) (xor (od (cntA (revW u))) (xor (od (cntO u)) (xor c1 c2))) = false := by
    have := congrArg od (cnt_rev u)
    rw [od_add, od_add, hn] at this
    rw [← e1, ← this]
    generalize od (cntA u) = a
    generalize od (cntA (revW u)) = b
    generalize od (cntO u) = c
    cases a <;> cases b <;> cases c <;> rfl
  have key := chkAll_spec hc c2 (od N) (od (cntA (revW u))) (od (cntO u)) p q i j s t
  unfold chk at key
  simp only [← e1, ← e2, ← e3] at key e4
  rw [e4, Bool.or_false] at key
  have hz : (lone && ((isO p && isO i) || (isO q && isO j) || od (cntO u) == xor (isO p) (isO i))) = false := by
    cases hlo : lone
    · rfl
    · obtain ⟨a1, a2, a3⟩ := hl hlo
      rw [a1, a2, a3]
      generalize xor (isO p) (isO i) = b
      cases b <;> rfl
  rw [hz, Bool.false_or, Bool.and_eq_true, beq_iff_eq, beq_iff_eq] at key
  refine ⟨N / 2, _, _, ?_, ?_, key.1, key.2⟩
  · simp only [numD, inn]; omega
  · simp only [numD, inn]; omega

section
variable {R : Type*} [CommRing R] {y1 y2 x : R}

theorem opK_spin {Q : Par} {lone c1 c2 : Bool} (hc : chkAll Q lone c1 = true) {B : R}
    (hB : ∀ c d, val y1 y2 x (Q.F (2 * c + d)) = B ^ c * val y1 y2 x (Q.F d)) {p q i j : L3} {u w : List L3} (hlen : u.length = w.length)
    (hn : od u.length = xor c1 c2)
    (hl : lone = true → ((isO p && isO i) = false ∧ (isO q && isO j) = false ∧ od (cntO u) = !xor (isO p) (isO i))) :
    val y1 y2 x (Q.F (numD c1 (p :: u, i))) * opKG y1 y2 x Q (spin c1 c2 (p :: u, i)) (spin c1 c2 (q :: w, j)) =
        val y1 y2 x (Q.F (numD c1 (q :: w, j))) * opKG y1 y2 x Q (p :: u, i) (q :: w, j) ∧
      val y1 y2 x (Q.F (numD c1 (p :: u, i))) * opKS y1 y2 x Q (spin c1 c2 (p :: u, i)) (spin c1 c2 (q :: w, j)) =
        val y1 y2 x (Q.F (numD c1 (q :: w, j))) * opKS y1 y2 x Q (p :: u, i) (q :: w, j) := by
  have hs : ∀ p u i, spin c1 c2 (p :: u, i) = ((inn c1 p u i).dual :: revW u, (spin c1 c2 (p :: u, i)).2) := fun _ _ _ => rfl
  constructor
  · rw [opKG_eq, hs p, hs q, opKG_eq, sumSt_comm, sumSt_mul, sumSt_mul]
    congr 1
    funext s
    rw [sumSt_mul, sumSt_mul]
    congr 1
    funext t
    rw [← NG_rev x s t hlen]
    by_cases h1 : s.chA + cntA w = cntA u + t.dual.chA
    · by_cases h2 : t.chA + cntA (revW w) = cntA (revW u) + s.dual.chA
      · obtain ⟨c, d, e, a1, a2, a3, -⟩ := chk_words (i := i) (j := j) (p := p) (q := q) hc hn hl h1 h2
        have := congrArg (valL y1 y2 x) a3
        rw [valL_mm, valL_mm] at this
        rw [a1, a2, hB, hB]
        linear_combination B ^ c * NG x s t u w * this
      · rw [NG_rev x s t hlen, NG_cnt x _ _ _ _ h2]; ring
    · rw [NG_cnt x _ _ _ _ h1]; ring
  · rw [opKS_eq, hs p, hs q, opKS_eq, sumSt_comm, sumSt_mul, sumSt_mul]
    congr 1
    funext s
    rw [sumSt_mul, sumSt_mul]
    congr 1
    funext t
    rw [NS_rev t u w s hlen]
    by_cases h1 : s.chA + cntA w = cntA u + t.dual.chA
    · by_cases h2 : t.chA + cntA (revW w) = cntA (revW u) + s.dual.chA
      · obtain ⟨c, d, e, a1, a2, -, a3⟩ := chk_words (i := i) (j := j) (p := p) (q := q) hc hn hl h1 h2
        have := congrArg (valL y1 y2 x) a3
        rw [valL_mm, valL_mm, val_mm] at this
        have e0 : val y1 y2 x (xor (od (cntO u)) (xor (ps s) (ps t)), 0, 0, 0) = sgn (xor (od (cntO u)) (xor (ps s) (ps t))) := by
          simp [val]
        rw [e0] at this
        rw [a1, a2, hB, hB]
        linear_combination B ^ c * NS s t u w * this
      · rw [← NS_rev t u w s hlen, NS_cnt _ _ _ _ h2]
        have : (NS s t u w : R) = 0 := by
          have h3 := NS_rev (R := R) t u w s hlen
          rw [NS_cnt _ _ _ _ h2] at h3
          revert h3
          generalize xor (od (cntO u)) (xor (ps s) (ps t)) = b
          cases b <;> simp [sgn, eq_comm]
        rw [this]; ring
    · rw [NS_cnt _ _ _ _ h1]; ring

end
end Verif.Spin
