import Verif.Proofs.SeidelC
import Verif.Proofs.WordD2
/-!
# Type D: the words read backwards, the finite part

The letters at both ends of two words, the inner ones included, and the states next to them determine the weights at the ends.
That these weights agree when the words are read backwards is a finite table, checked here.
-/

namespace Verif.Spin
open Verif

/-- a sign, the exponents of two parameters and the exponent of `x` -/
abbrev M4 := Bool × ℕ × ℕ × ℕ

def mm (a b : M4) : M4 := (xor a.1 b.1, a.2.1 + b.2.1, a.2.2.1 + b.2.2.1, a.2.2.2 + b.2.2.2)

/-- the unit -/
def m1 : M4 := (false, 0, 0, 0)

/-- the minus sign -/
def mN : M4 := (true, 0, 0, 0)

def om (a b : Option M4) : Option M4 := a.bind fun a => b.map fun b => mm a b

/-- the first letters, first matrix, types kept -/
def kE (hp : M4) : L3 → L3 → St → Option M4
  | .o, .o, .z | .a, .a, .z | .b, .b, .z | .o, .a, .l | .b, .o, .r | .b, .a, .lr => some m1
  | .a, .b, .lr => some hp
  | _, _, _ => none

/-- the first letters, first matrix, types exchanged -/
def kO : L3 → L3 → St → Option M4
  | .o, .o, .lr => some (false, 0, 0, 1)
  | .o, .b, .l | .a, .o, .r => some m1
  | _, _, _ => none

/-- the inner letters, first matrix -/
def eG : L3 → L3 → St → Option M4
  | .o, .o, .z | .a, .a, .z | .b, .b, .z | .a, .a, .lr | .b, .b, .lr => some m1
  | .o, .o, .lr => some (false, 0, 0, 1)
  | .a, .o, .r | .b, .o, .r | .o, .a, .l | .o, .b, .l => some m1
  | _, _, _ => none

/-- the first letters, second matrix, types kept -/
def kSE : L3 → L3 → St → Option M4
  | .a, .a, .z | .b, .b, .z | .o, .a, .l | .b, .o, .r => some m1
  | _, _, _ => none

/-- the first letters, second matrix, types exchanged -/
def kSO : L3 → L3 → St → Option M4
  | .a, .o, .r => some m1
  | .o, .b, .l => some mN
  | _, _, _ => none

/-- the inner letters, second matrix -/
def eS : L3 → L3 → St → Option M4
  | .a, .a, .z | .b, .o, .r | .o, .a, .l => some m1
  | .b, .b, .z | .a, .o, .r | .o, .b, .l => some mN
  | _, _, _ => none

/-- the parameters: the weight of the quantum terms of even degree, of odd degree by inner letters, and the factor of a word by its
number of letters `a` -/
structure Par where
  hp : M4
  hq : L3 → L3 → M4
  F : ℕ → M4

/-- one parameter -/
def one : Par := ⟨(false, 2, 0, 0), fun _ _ => (false, 1, 0, 0), fun d => (false, d, 0, 0)⟩

/-- the parameter of the inner letters -/
def hq2 : L3 → L3 → M4
  | .o, .b | .b, _ => (false, 0, 1, 0)
  | _, _ => (false, 1, 0, 0)

/-- two parameters -/
def two (c : Bool) : Par := ⟨(false, 1, 1, 0), hq2, fun d => if c then (false, d / 2, (d + 1) / 2, 0) else (false, (d + 1) / 2, d / 2, 0)⟩

def coG (Q : Par) (p q i j : L3) (s t : St) : List M4 :=
  (om (kE Q.hp p q s) (eG i j t)).toList ++ (om (om (some (Q.hq i j.sw)) (kO p q s)) (eG i j.sw t)).toList

def coS (Q : Par) (p q i j : L3) (s t : St) : List M4 :=
  (om (kSE p q s) (eS i j t)).toList ++ (om (om (some (Q.hq i j.sw)) (kSO p q s)) (eS i j.sw t)).toList

/-- exchange the types if `b` -/
def tw (b : Bool) (i : L3) : L3 := if b then i.sw else i

def isA (p : L3) : Bool := p == .a

def isO (p : L3) : Bool := p == .o

def b2n (b : Bool) : ℕ := if b then 1 else 0

/-- the parity -/
def od (n : ℕ) : Bool := n % 2 == 1

/-- the sign of a state -/
def ps : St → Bool
  | .l | .r => true
  | _ => false

/-- the table: `pa` is the parity of the smaller of the numbers of letters `a` of the two words without their ends, `du` the parity of that
number for the first word backwards, `po` that of the number of letters `o` -/
def chk (Q : Par) (lone c1 c2 pa du po : Bool) (p q i j : L3) (s t : St) : Bool :=
  let cu := b2n pa + (s.chA - t.dual.chA)
  let cw := b2n pa + (t.dual.chA - s.chA)
  let dw := xor du (od (t.chA + s.dual.chA))
  let I := tw (xor (xor (od cu) (isA p)) c1) i
  let J := tw (xor (xor (od cw) (isA q)) c1) j
  let i' := tw (xor (xor du (isA I.dual)) c2) p.dual
  let j' := tw (xor (xor dw (isA J.dual)) c2) q.dual
  let FU := Q.F (cu + b2n (isA p) + b2n (isA I))
  let FW := Q.F (cw + b2n (isA q) + b2n (isA J))
  (lone && ((isO p && isO i) || (isO q && isO j) || po == xor (isO p) (isO i))) || xor (od cu) (xor du (xor po (xor c1 c2))) ||
  ((coG Q I.dual J.dual i' j' t s).map (mm FU) == (coG Q p q i j s t).map (mm FW) &&
    (coS Q I.dual J.dual i' j' t s).map (mm (mm FU (xor po (xor (ps s) (ps t)), 0, 0, 0))) == (coS Q p q i j s t).map (mm FW))

def allL (f : L3 → Bool) : Bool := f .o && f .a && f .b

theorem allL_spec {f : L3 → Bool} (h : allL f = true) (p : L3) : f p = true := by
  simp only [allL, Bool.and_eq_true] at h
  cases p
  · exact h.1.1
  · exact h.1.2
  · exact h.2

def allS (f : St → Bool) : Bool := f .z && f .lr && f .l && f .r

theorem allS_spec {f : St → Bool} (h : allS f = true) (p : St) : f p = true := by
  simp only [allS, Bool.and_eq_true] at h
  cases p
  · exact h.1.1.1
  · exact h.1.1.2
  · exact h.1.2
  · exact h.2

def allB (f : Bool → Bool) : Bool := f true && f false

theorem allB_spec {f : Bool → Bool} (h : allB f = true) (p : Bool) : f p = true := by
  simp only [allB, Bool.and_eq_true] at h
  cases p
  · exact h.2
  · exact h.1

def chkAll (Q : Par) (lone c1 : Bool) : Bool :=
  allB fun c2 => allB fun pa => allB fun du => allB fun po => allL fun p => allL fun q => allL fun i => allL fun j => allS fun s => allS fun t =>
    chk Q lone c1 c2 pa du po p q i j s t

theorem chkAll_spec {Q : Par} {lone c1 : Bool} (h : chkAll Q lone c1 = true) (c2 pa du po : Bool) (p q i j : L3) (s t : St) :
    chk Q lone c1 c2 pa du po p q i j s t = true :=
  allS_spec (allS_spec (allL_spec (allL_spec (allL_spec (allL_spec (allB_spec (allB_spec (allB_spec (allB_spec h c2) pa) du) po) p) q) i) j) s) t

theorem chk_one (c1 : Bool) : chkAll one false c1 = true := by
  cases c1 <;> decide +kernel

theorem chk_two (c1 : Bool) : chkAll (two c1) true c1 = true := by
  cases c1 <;> decide +kernel

end Verif.Spin
