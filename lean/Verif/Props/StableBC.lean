import Verif.Proofs.StableBC
import Verif.Props.RingBC
import Verif.Props.RingD
import Verif.Props.SchurRing
/-!
# C139: the classical rings for a fixed k

The structure constants of `IG(m,2m+2k)`, `OG(m,2m+2k+1)` and `OG(m,2m+2k)` do not depend on `m`: the classes that do not occur on the
smaller space form an ideal.
-/

namespace Verif
open Spec

theorem stable_mult {X X' : Space} {pieri pieri' : Int → List Int → Except PyErr Poly} {spc spc' : Int → Prop} {cls cls' : List Int → Prop}
    {B B' : Nat} (R : RingOn X pieri spc cls B) (R' : RingOn X' pieri' spc' cls' B')
    (hk : ∀ x y : LMod, (∀ l ∈ x.support, cls' l) → (∀ l ∈ y.support, cls' l) →
      keep cls (R'.Y.prod x y) = R.Y.prod (keep cls x) (keep cls y))
    {fuel fuel' : ℕ} (hf : B ≤ fuel) (hf' : B' ≤ fuel') {a b a' b' : Poly} (ha : LinComb cls a) (hb : LinComb cls b)
    (ha' : LinComb cls' a') (hb' : LinComb cls' b')
    (haa : ∀ (d : ℕ) (l : List Int), cls l → coeffOf (List.replicate d Sym.q ++ [.S l]) a = coeffOf (List.replicate d Sym.q ++ [.S l]) a')
    (hbb : ∀ (d : ℕ) (l : List Int), cls l → coeffOf (List.replicate d Sym.q ++ [.S l]) b = coeffOf (List.replicate d Sym.q ++ [.S l]) b') :
    ∃ w w', gmult X pieri fuel a b = .ok w ∧ gmult X' pieri' fuel' a' b' = .ok w' ∧ LinComb cls w ∧ LinComb cls' w' ∧
      ∀ (d : ℕ) (l : List Int), cls l →
        coeffOf (List.replicate d Sym.q ++ [.S l]) w = coeffOf (List.replicate d Sym.q ++ [.S l]) w' := by
  obtain ⟨x, hx, hxc⟩ := linComb_ev ha.2
  obtain ⟨y, hy, hyc⟩ := linComb_ev hb.2
  obtain ⟨x', hx', hxc'⟩ := linComb_ev ha'.2
  obtain ⟨y', hy', hyc'⟩ := linComb_ev hb'.2
  have key : ∀ {a a' : Poly} {x x' : LMod}, LinComb cls a → LinComb cls' a' → den a = ev x → den a' = ev x' → (∀ l ∈ x.support, cls l) →
      (∀ (d : ℕ) (l : List Int), cls l → coeffOf (List.replicate d Sym.q ++ [.S l]) a = coeffOf (List.replicate d Sym.q ++ [.S l]) a') →
      keep cls x' = x := by
    intro a a' x x' ha ha' hx hx' hxc h
    ext l d
    rw [keep_apply]
    split
    · rename_i hl
      have := h d l hl
      rw [coeffOf_den ha.1 (qmono_sorted d _), coeffOf_den ha'.1 (qmono_sorted d _), hx, hx', expo_qmono, coeff_ev, coeff_ev] at this
      exact this.symm
    · rename_i hl
      rw [Finsupp.notMem_support_iff.1 (fun hc => hl (hxc l hc))]
  obtain ⟨w, h1, h2, h3⟩ := R.mult hf ha.1 hx hxc hb.1 hy hyc
  obtain ⟨w', h1', h2', h3'⟩ := R'.mult hf' ha'.1 hx' hxc' hb'.1 hy' hyc'
  refine ⟨w, w', h1, h1', linComb_of_ev h2 h3 (R.Y.prod_support _ hyc), linComb_of_ev h2' h3' (R'.Y.prod_support _ hyc'), fun d l hl => ?_⟩
  have e := hk x' y' hxc' hyc'
  rw [key ha ha' hx hx' hxc haa, key hb hb' hy hy' hyc hbb] at e
  rw [coeffOf_den h2 (qmono_sorted d _), coeffOf_den h2' (qmono_sorted d _), h3, h3', expo_qmono, coeff_ev, coeff_ev, ← e, keep_apply, if_pos hl]

theorem clsBC_add {n k : ℕ} (j : ℕ) {l : List Int} (h : clsBC n k l) : clsBC (n + j) k l := by
  induction j with
  | zero => exact h
  | succ j ih => exact clsBC_succ ih

theorem clsD_add {n k : ℕ} (j : ℕ) {l : List Int} (h : clsD n k l) : clsD (n + j) k l := by
  induction j with
  | zero => exact h
  | succ j ih => exact clsD_succ ih

theorem stable_add {cls : ℕ → List Int → Prop} {prod : ℕ → LMod → LMod → LMod} {n : ℕ} (hc : ∀ j l, cls n l → cls (n + j) l)
    (h0 : ∀ x y : LMod, (∀ l ∈ x.support, cls n l) → (∀ l ∈ y.support, cls n l) → ∀ l ∈ (prod n x y).support, cls n l)
    (hs : ∀ j, ∀ x y : LMod, (∀ l ∈ x.support, cls (n + j + 1) l) → (∀ l ∈ y.support, cls (n + j + 1) l) →
      keep (cls (n + j)) (prod (n + j + 1) x y) = prod (n + j) (keep (cls (n + j)) x) (keep (cls (n + j)) y)) (j : ℕ) :
    ∀ x y : LMod, (∀ l ∈ x.support, cls (n + j) l) → (∀ l ∈ y.support, cls (n + j) l) →
      keep (cls n) (prod (n + j) x y) = prod n (keep (cls n) x) (keep (cls n) y) := by
  induction j with
  | zero =>
    intro x y hx hy
    rw [add_zero] at hx hy ⊢
    rw [keep_self hx, keep_self hy, keep_self (h0 x y hx hy)]
  | succ j ih =>
    intro x y hx hy
    rw [← keep_keep (hc j), ← keep_keep (hc j) x, ← keep_keep (hc j) y, ← ih _ _ (keep_support _ _) (keep_support _ _)]
    exact congrArg _ (hs j x y hx hy)

/-- **C139**: a class of `IG(m,2n)` or `OG(m,2n+1)` is a class of `IG(m+j,2n+2j)` or `OG(m+j,2n+2j+1)`. -/
theorem C139_classes {m n : Int} (h0 : 0 ≤ m) (hmn : m ≤ n) (j : ℕ) {l : List Int} (h : BCClass m n l) : BCClass (m + j) (n + j) l := by
  obtain ⟨a, rfl⟩ : ∃ a : ℕ, n = a := ⟨n.toNat, by omega⟩
  obtain ⟨b, rfl⟩ : ∃ b : ℕ, m = a - b := ⟨(a - m).toNat, by omega⟩
  rw [bcClass_eq (by omega)] at h
  rw [show (a : ℤ) - b + j = ((a + j : ℕ) : ℤ) - b by push_cast; ring, ← Nat.cast_add, bcClass_eq (by omega)]
  exact clsBC_add j h

/-- **C139**: a class of `OG(m,2n+2)` is a class of `OG(m+j,2n+2j+2)`. -/
theorem C139_classes_D {m n : Int} (h0 : 0 ≤ m) (hn : 0 ≤ n) (hmn : m ≤ n + 1) (j : ℕ) {l : List Int} (h : DClass m n l) : DClass (m + j) (n + j) l := by
  obtain ⟨a, rfl⟩ : ∃ a : ℕ, n = a := ⟨n.toNat, by omega⟩
  obtain ⟨b, rfl⟩ : ∃ b : ℕ, m = a + 1 - b := ⟨(a + 1 - m).toNat, by omega⟩
  rw [dClass_eq (by omega)] at h
  rw [show (a : ℤ) + 1 - b + j = ((a + j : ℕ) : ℤ) + 1 - b by push_cast; ring, ← Nat.cast_add, dClass_eq (by omega)]
  exact clsD_add j h

example : BCClass 1 2 [3] ∧ BCClass (1 + 1) (2 + 1) [3] ∧ ¬ BCClass 1 2 [1, 1] ∧ BCClass (1 + 1) (2 + 1) [1, 1] := by decide +kernel

example : DClass 1 1 [1, 0] ∧ DClass (1 + 1) (1 + 1) [1, 0] ∧ ¬ DClass 1 1 [1, 1, 0] ∧ DClass (1 + 1) (1 + 1) [1, 1, 0] := by decide +kernel

/-- **C139**, type C: let `a, b` on `IG(m,2n)` and `a', b'` on `IG(m+j,2n+2j)` have the same coefficients at the classes of the smaller
space. Then so have their products. -/
theorem C139_IG {m n : Int} {j : ℕ} {X X' : Space} (hX : mkIG m (2 * n) = .ok X) (hX' : mkIG (m + j) (2 * (n + j)) = .ok X') {fuel fuel' : ℕ}
    (hf : giamBoundBC m n ≤ fuel) (hf' : giamBoundBC (m + j) (n + j) ≤ fuel') {a b a' b' : Poly} (ha : LinComb (BCClass m n) a)
    (hb : LinComb (BCClass m n) b) (ha' : LinComb (BCClass (m + j) (n + j)) a') (hb' : LinComb (BCClass (m + j) (n + j)) b')
    (haa : ∀ (d : ℕ) (l : List Int), BCClass m n l → coeffOf (List.replicate d Sym.q ++ [.S l]) a = coeffOf (List.replicate d Sym.q ++ [.S l]) a')
    (hbb : ∀ (d : ℕ) (l : List Int), BCClass m n l → coeffOf (List.replicate d Sym.q ++ [.S l]) b = coeffOf (List.replicate d Sym.q ++ [.S l]) b') :
    ∃ w w', X.mult fuel a b = .ok w ∧ X'.mult fuel' a' b' = .ok w' ∧ LinComb (BCClass m n) w ∧ LinComb (BCClass (m + j) (n + j)) w' ∧
      ∀ (d : ℕ) (l : List Int), BCClass m n l →
        coeffOf (List.replicate d Sym.q ++ [.S l]) w = coeffOf (List.replicate d Sym.q ++ [.S l]) w' := by
  obtain ⟨a1, k, h, rfl, rfl, rfl⟩ := igCase hX
  obtain ⟨a2, k2, h2, e1, e2, rfl⟩ := igCase hX'
  obtain rfl : a2 = a1 + j := by omega
  obtain rfl : k = k2 := by omega
  rw [e2, e1] at hf' ha' hb' ⊢
  rw [giamBoundBC_eq h] at hf
  rw [giamBoundBC_eq h2] at hf'
  rw [bcClass_eq h] at *
  rw [bcClass_eq h2] at *
  refine stable_mult (ringIG a1 k h) (ringIG (a1 + j) k h2) ?_ hf hf' ha hb ha' hb' haa hbb
  have key := stable_add (cls := fun n => clsBC n k)
    (prod := fun n x y => if hn : k ≤ n then (ringIG n k hn).Y.prod x y else 0) (n := a1)
    (fun j l hl => clsBC_add j hl) (fun x y hx hy => by rw [dif_pos h]; exact (ringIG a1 k h).Y.prod_support _ hy)
    (fun j x y hx hy => by rw [dif_pos (by omega), dif_pos (by omega)]; exact stableIG (by omega) (by omega) hx hy) j
  intro x y hx hy
  have := key x y hx hy
  rwa [dif_pos h2, dif_pos h] at this

/-- **C139**, type B: let `a, b` on `OG(m,2n+1)` and `a', b'` on `OG(m+j,2n+2j+1)` have the same coefficients at the classes of the smaller
space. Then so have their products. -/
theorem C139_OG_odd {m n : Int} {j : ℕ} {X X' : Space} (hmn : m ≤ n) (hX : mkOG m (2 * n + 1) = .ok X) (hX' : mkOG (m + j) (2 * (n + j) + 1) = .ok X') {fuel fuel' : ℕ}
    (hf : giamBoundBC m n ≤ fuel) (hf' : giamBoundBC (m + j) (n + j) ≤ fuel') {a b a' b' : Poly} (ha : LinComb (BCClass m n) a)
    (hb : LinComb (BCClass m n) b) (ha' : LinComb (BCClass (m + j) (n + j)) a') (hb' : LinComb (BCClass (m + j) (n + j)) b')
    (haa : ∀ (d : ℕ) (l : List Int), BCClass m n l → coeffOf (List.replicate d Sym.q ++ [.S l]) a = coeffOf (List.replicate d Sym.q ++ [.S l]) a')
    (hbb : ∀ (d : ℕ) (l : List Int), BCClass m n l → coeffOf (List.replicate d Sym.q ++ [.S l]) b = coeffOf (List.replicate d Sym.q ++ [.S l]) b') :
    ∃ w w', X.mult fuel a b = .ok w ∧ X'.mult fuel' a' b' = .ok w' ∧ LinComb (BCClass m n) w ∧ LinComb (BCClass (m + j) (n + j)) w' ∧
      ∀ (d : ℕ) (l : List Int), BCClass m n l →
        coeffOf (List.replicate d Sym.q ++ [.S l]) w = coeffOf (List.replicate d Sym.q ++ [.S l]) w' := by
  obtain ⟨a1, k, h, rfl, rfl, rfl⟩ := ogCase hmn hX
  obtain ⟨a2, k2, h2, e1, e2, rfl⟩ := ogCase (by omega) hX'
  obtain rfl : a2 = a1 + j := by omega
  obtain rfl : k = k2 := by omega
  rw [e2, e1] at hf' ha' hb' ⊢
  rw [giamBoundBC_eq h] at hf
  rw [giamBoundBC_eq h2] at hf'
  rw [bcClass_eq h] at *
  rw [bcClass_eq h2] at *
  refine stable_mult (ringOG a1 k h) (ringOG (a1 + j) k h2) ?_ hf hf' ha hb ha' hb' haa hbb
  have key := stable_add (cls := fun n => clsBC n k)
    (prod := fun n x y => if hn : k ≤ n then (ringOG n k hn).Y.prod x y else 0) (n := a1)
    (fun j l hl => clsBC_add j hl) (fun x y hx hy => by rw [dif_pos h]; exact (ringOG a1 k h).Y.prod_support _ hy)
    (fun j x y hx hy => by rw [dif_pos (by omega), dif_pos (by omega)]; exact stableOG (by omega) (by omega) hx hy) j
  intro x y hx hy
  have := key x y hx hy
  rwa [dif_pos h2, dif_pos h] at this

/-- **C139**, type D: let `a, b` on `OG(m,2n+2)` and `a', b'` on `OG(m+j,2n+2j+2)` have the same coefficients at the classes of the smaller
space. Then so have their products. -/
theorem C139_OG_even {m n : Int} {j : ℕ} {X X' : Space} (hn : 0 ≤ n) (hmn : m ≤ n + 1) (hX : mkOG m (2 * n + 2) = .ok X) (hX' : mkOG (m + j) (2 * (n + j) + 2) = .ok X') {fuel fuel' : ℕ}
    (hf : giamBoundD m n ≤ fuel) (hf' : giamBoundD (m + j) (n + j) ≤ fuel') {a b a' b' : Poly} (ha : LinComb (DClass m n) a)
    (hb : LinComb (DClass m n) b) (ha' : LinComb (DClass (m + j) (n + j)) a') (hb' : LinComb (DClass (m + j) (n + j)) b')
    (haa : ∀ (d : ℕ) (l : List Int), DClass m n l → coeffOf (List.replicate d Sym.q ++ [.S l]) a = coeffOf (List.replicate d Sym.q ++ [.S l]) a')
    (hbb : ∀ (d : ℕ) (l : List Int), DClass m n l → coeffOf (List.replicate d Sym.q ++ [.S l]) b = coeffOf (List.replicate d Sym.q ++ [.S l]) b') :
    ∃ w w', X.mult fuel a b = .ok w ∧ X'.mult fuel' a' b' = .ok w' ∧ LinComb (DClass m n) w ∧ LinComb (DClass (m + j) (n + j)) w' ∧
      ∀ (d : ℕ) (l : List Int), DClass m n l →
        coeffOf (List.replicate d Sym.q ++ [.S l]) w = coeffOf (List.replicate d Sym.q ++ [.S l]) w' := by
  obtain ⟨a1, k, h, rfl, rfl, rfl⟩ := ogdCase hn hmn hX
  obtain ⟨a2, k2, h2, e1, e2, rfl⟩ := ogdCase (by omega) (by omega) hX'
  obtain rfl : a2 = a1 + j := by omega
  obtain rfl : k = k2 := by omega
  rw [e2, e1] at hf' ha' hb' ⊢
  rw [giamBoundD_eq h] at hf
  rw [giamBoundD_eq h2] at hf'
  rw [dClass_eq h] at *
  rw [dClass_eq h2] at *
  refine stable_mult (ringD a1 k h) (ringD (a1 + j) k h2) ?_ hf hf' ha hb ha' hb' haa hbb
  have key := stable_add (cls := fun n => clsD n k)
    (prod := fun n x y => if hn : k ≤ n + 1 then (ringD n k hn).Y.prod x y else 0) (n := a1)
    (fun j l hl => clsD_add j hl) (fun x y hx hy => by rw [dif_pos h]; exact (ringD a1 k h).Y.prod_support _ hy)
    (fun j x y hx hy => by rw [dif_pos (by omega), dif_pos (by omega)]; exact stableD (by omega) (by omega) hx hy) j
  intro x y hx hy
  have := key x y hx hy
  rwa [dif_pos h2, dif_pos h] at this

/-! ### examples -/

/-- `S[2] * S[1]` on `IG(1,4)` and `IG(2,6)`; `[2,1]` is not a class of `IG(1,4)` -/
example : mkIG 1 (2 * 2) = .ok ⟨.C, 1, 2⟩ ∧ mkIG (1 + (1 : ℕ)) (2 * (2 + (1 : ℕ))) = .ok ⟨.C, 1, 3⟩ ∧
    (Space.mk .C 1 2).mult 60 (Poly.sym (.S [2])) (Poly.sym (.S [1])) = .ok [([.S [3]], 1)] ∧
    (Space.mk .C 1 3).mult 60 (Poly.sym (.S [2])) (Poly.sym (.S [1])) = .ok [([.S [3]], 1), ([.S [2, 1]], 1)] := by
  refine ⟨by decide, by decide, by decide +kernel, by decide +kernel⟩

/-- `S[1,1]` vanishes on `IG(1,4)`, and with it `S[1,1] * S[2]`: neither `[4]` nor `[3,1]` is a class of `IG(1,4)` -/
example : (Space.mk .C 1 3).mult 60 (Poly.sym (.S [1, 1])) (Poly.sym (.S [2])) = .ok [([.S [4]], 1), ([.S [3, 1]], 1)] ∧
    ¬ BCClass 1 2 [4] ∧ ¬ BCClass 1 2 [3, 1] := by
  refine ⟨by decide +kernel, by decide +kernel, by decide +kernel⟩

/-- `S[2] * S[1]` on `OG(1,5)` and `OG(2,7)` -/
example : mkOG 1 (2 * 2 + 1) = .ok ⟨.B, 1, 2⟩ ∧ mkOG (1 + (1 : ℕ)) (2 * (2 + (1 : ℕ)) + 1) = .ok ⟨.B, 1, 3⟩ ∧
    (Space.mk .B 1 2).mult 60 (Poly.sym (.S [2])) (Poly.sym (.S [1])) = .ok [([.S [3]], 1)] ∧
    (Space.mk .B 1 3).mult 60 (Poly.sym (.S [2])) (Poly.sym (.S [1])) = .ok [([.S [3]], 1), ([.S [2, 1]], 1)] := by
  refine ⟨by decide, by decide, by decide +kernel, by decide +kernel⟩

/-- `S[1] * S[1]` and `S[1] * S[1,0]` on `OG(1,4)` and `OG(2,6)` -/
example : mkOG 1 (2 * 1 + 2) = .ok ⟨.D, 1, 1⟩ ∧ mkOG (1 + (1 : ℕ)) (2 * (1 + (1 : ℕ)) + 2) = .ok ⟨.D, 1, 2⟩ ∧
    (Space.mk .D 1 1).mult 60 (Poly.sym (.S [1])) (Poly.sym (.S [1])) = .ok [] ∧
    (Space.mk .D 1 2).mult 60 (Poly.sym (.S [1])) (Poly.sym (.S [1])) = .ok [([.S [1, 1]], 1)] ∧
    (Space.mk .D 1 1).mult 60 (Poly.sym (.S [1])) (Poly.sym (.S [1, 0])) = .ok [([.S [2]], 1)] ∧
    (Space.mk .D 1 2).mult 60 (Poly.sym (.S [1])) (Poly.sym (.S [1, 0])) = .ok [([.S [2]], 1)] := by
  refine ⟨by decide, by decide, by decide +kernel, by decide +kernel, by decide +kernel, by decide +kernel⟩

end Verif
