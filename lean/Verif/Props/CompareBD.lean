import Verif.Proofs.RingHom
import Verif.Props.RingBC
import Verif.Props.RingQB
import Verif.Props.RingD
/-!
# C87: the rings of OG(n,2n+1) and of OG(n+1,2n+2)

The two maximal orthogonal Grassmannians are isomorphic varieties. The library computes with them by the formulas of type B and by the
formulas of type D.
-/

namespace Verif
open Spec

section
variable {n : ℕ}

theorem cols0_cons {p : L3} {u : List L3} (h : colsW 0 (p :: u) = 0) : p ≠ .o ∧ colsW 0 u = 0 := by
  cases p <;> simp_all [colsW]

theorem shapeW_one : ∀ {u : List L3}, colsW 0 u = 0 → shapeW 0 1 u = shapeW 0 0 u ++ [0] := by
  intro u
  induction u with
  | nil => intro _; rfl
  | cons p u ih =>
    intro h
    obtain ⟨h1, h2⟩ := cols0_cons h
    cases p with
    | o => exact absurd rfl h1
    | a => simp [shapeW, ih h2]
    | b => simp [shapeW, ih h2]

theorem labD_max {u : List L3} (hu : u ∈ Wd n 0) : labD (u, .a) = labW u := by
  rw [mem_Wd] at hu
  unfold labD clD shD labW
  simp only [L3.k0, L3.r0, reduceCtorEq, if_false, List.append_nil]
  rw [shapeW_one hu.2, partClip_concat_zero]

theorem mem_WdD_a {u : List L3} : (u, L3.a) ∈ WdD n 0 ↔ u ∈ Wd n 0 := by
  rw [mem_WdD, mem_Wd]
  simp [colsD, L3.k0]

theorem cls_BD (l : List Int) : clsBC n 0 l ↔ clsD n 0 l := by
  rw [Wd_cls (Nat.zero_le n), WdD_cls (Nat.zero_le _)]
  constructor
  · rintro ⟨u, hu, rfl⟩
    exact ⟨(u, .a), mem_WdD_a.2 hu, labD_max hu⟩
  · rintro ⟨⟨u, i⟩, hu, rfl⟩
    obtain rfl : i = .a := (mem_WdD.1 hu).2.2 rfl
    exact ⟨u, mem_WdD_a.1 hu, (labD_max (mem_WdD_a.1 hu)).symm⟩

theorem gD_aa {R : Type*} [CommRing R] (x : R) : ∀ (u w : List L3) (s : St), gD x s (u, .a) (w, .a) = wt 2 x s u w := by
  intro u
  unfold gD
  induction u with
  | nil =>
    intro w s
    cases w with
    | nil => cases s <;> rfl
    | cons q w => rfl
  | cons p u ih =>
    intro w s
    cases w with
    | nil => rfl
    | cons q w =>
      simp only [wtE, wt]
      rcases step s p q with _ | ⟨t, i, j⟩
      · rfl
      · simp only
        rw [← ih w t]

theorem opG_aa {R : Type*} [CommRing R] (h h' x : R) {u w : List L3} (hu : colsW 0 u = 0) (hw : colsW 0 w = 0) (hl : u.length = w.length) :
    opG 0 h' x (u, .a) (w, .a) = opQ 2 h h' x u w := by
  unfold opG opGE opGO swD
  cases u with
  | nil =>
    cases w with
    | nil => simp [opQ, gD_z_nil]
    | cons q w => simp at hl
  | cons p u =>
    cases w with
    | nil => simp at hl
    | cons q w =>
      have h1 := (cols0_cons hu).1
      have h2 := (cols0_cons hw).1
      cases p <;> cases q <;> simp_all [kerE, kerO, opQ, gD_aa]

theorem opG_aa0 {R : Type*} [CommRing R] (x : R) {u w : List L3} (hu : colsW 0 u = 0) (hw : colsW 0 w = 0) (hl : u.length = w.length) :
    opG 0 0 x (u, .a) (w, .a) = opW 2 0 x u w := by
  unfold opG opGE opGO swD opW
  cases u with
  | nil =>
    cases w with
    | nil => simp [gD_z_nil, wt, endW]
    | cons q w => simp at hl
  | cons p u =>
    cases w with
    | nil => simp at hl
    | cons q w =>
      have h1 := (cols0_cons hu).1
      have h2 := (cols0_cons hw).1
      cases p <;> cases q <;> simp_all [kerE, kerO, wt, step, gD_aa]

theorem MD_MB {p : ℕ} (hp : p ≠ 0) {u w : List L3} (hu : u ∈ Wd n 0) (hw : w ∈ Wd n 0) : MDg 0 0 0 p (u, .a) (w, .a) = MB 0 p u w := by
  rw [mem_Wd] at hu hw
  have e : (Polynomial.C 2 : Polynomial (Polynomial ℚ)) = 2 := map_ofNat _ 2
  unfold MDg MB alD beD
  rw [Polynomial.C_0, e, opG_aa0 _ hu.2 hw.2 (by omega)]
  simp [hp]

theorem MD_MQB {p : ℕ} (hp : p ≠ 0) {u w : List L3} (hu : u ∈ Wd n 0) (hw : w ∈ Wd n 0) :
    MDg (hQ 0) (hQ' 0) 0 p (u, .a) (w, .a) = MQB 0 p u w := by
  rw [mem_Wd] at hu hw
  have e : (Polynomial.C 2 : Polynomial (Polynomial ℚ)) = 2 := map_ofNat _ 2
  unfold MDg MQB alD beD hQ hQ' scB
  simp only [if_true]
  rw [Polynomial.C_0, e, opG_aa (Polynomial.C (Polynomial.X : Polynomial ℚ)) _ _ hu.2 hw.2 (by omega)]
  simp [hp]

/-- the two modules have the same special operators -/
theorem tBD {h h' : Polynomial ℚ} {M : ℕ → List L3 → List L3 → Polynomial ℚ} {p : ℕ} (hM : ∀ u ∈ Wd n 0, ∀ w ∈ Wd n 0, MDg h h' 0 p (u, .a) (w, .a) = M p u w)
    {l : List Int} (hl : clsBC n 0 l) : tDD h h' n 0 p l = tM (Wd n 0) labW M p l := by
  obtain ⟨u, hu, rfl⟩ := (Wd_cls (Nat.zero_le n) l).1 hl
  rw [tM_lab _ Wd_inj _ hu, ← labD_max hu, tDD_lab h h' _ (mem_WdD_a.2 hu)]
  refine Finset.sum_bij' (fun W _ => W.1) (fun w _ => (w, .a)) ?_ ?_ ?_ ?_ ?_
  · rintro ⟨w, i⟩ hW
    obtain rfl : i = .a := (mem_WdD.1 hW).2.2 rfl
    exact mem_WdD_a.1 hW
  · intro w hw
    exact mem_WdD_a.2 hw
  · rintro ⟨w, i⟩ hW
    obtain rfl : i = .a := (mem_WdD.1 hW).2.2 rfl
    rfl
  · intro w _
    rfl
  · rintro ⟨w, i⟩ hW
    obtain rfl : i = .a := (mem_WdD.1 hW).2.2 rfl
    rw [mem_WdD_a] at hW
    rw [hM u hu w hW, labD_max hW]

theorem same_prod {k : ℤ} {pieri pieri' : Int → List Int → Except PyErr Poly} (Y : GiamSys k pieri (stdSpc n) (clsBC n 0))
    (Z : GiamSys k pieri' (spcD n 0) (clsD n 0)) (hYZ : ∀ p, stdSpc n p → ∀ l, clsBC n 0 l → Z.t p l = Y.t p l)
    {x y : LMod} (hx : ∀ l ∈ x.support, clsBC n 0 l) (hy : ∀ l ∈ y.support, clsBC n 0 l) : Y.prod x y = Z.prod x y := by
  refine GiamSys.hom Y Z LinearMap.id (fun l hl => ?_) rfl (fun p hp => ?_) hx hy
  · exact supp_single ((cls_BD l).1 hl) 1
  · refine ⟨Z.t p [], Z.closed p [], fun l hl => ?_⟩
    have e1 : Z.t p [] = lin (Z.t p) (Finsupp.single [] 1) := by simp [lin]
    have hs : spcD n 0 p := Or.inl (by simpa [stdSpc] using hp)
    rw [LinearMap.id_apply, LinearMap.id_apply, e1, GiamSys.prod_lin _ hs (supp_single (clsD_nil (Nat.zero_le _)) 1)
      (supp_single ((cls_BD l).1 hl) 1), GiamSys.one_prod, ← hYZ p hp l hl]
    simp [lin]

theorem same_BD {pieri pieri' : Int → List Int → Except PyErr Poly} (R : RingOn ⟨.B, 0, n⟩ pieri (stdSpc n) (clsBC n 0) (boundBC n 0))
    (R' : RingOn ⟨.D, 0, n⟩ pieri' (spcD n 0) (clsD n 0) (boundD n 0))
    (h : ∀ p, stdSpc n p → ∀ l, clsBC n 0 l → R'.Y.t p l = R.Y.t p l) {fuel : ℕ} (hf : boundBC n 0 ≤ fuel) (hf' : boundD n 0 ≤ fuel)
    {a b : Poly} (ha : LinComb (clsBC n 0) a) (hb : LinComb (clsBC n 0) b) :
    SameResult (gmult ⟨.B, 0, n⟩ pieri fuel a b) (gmult ⟨.D, 0, n⟩ pieri' fuel a b) := by
  obtain ⟨x, hx, hxc⟩ := linComb_ev ha.2
  obtain ⟨y, hy, hyc⟩ := linComb_ev hb.2
  obtain ⟨w, h1, h2, h3⟩ := R.mult hf ha.1 hx hxc hb.1 hy hyc
  obtain ⟨w', h1', h2', h3'⟩ := R'.mult hf' ha.1 hx (fun l hl => (cls_BD l).1 (hxc l hl)) hb.1 hy (fun l hl => (cls_BD l).1 (hyc l hl))
  exact ⟨w, w', h1, h1', perm_of_den_eq h2 h2' (by rw [h3, h3', same_prod R.Y R'.Y h hxc hyc])⟩

end

/-- **C87**: the classes of the two maximal orthogonal Grassmannians are the same. -/
theorem C87_classes {n : Int} (hn : 0 ≤ n) (l : List Int) : BCClass n n l ↔ DClass (n + 1) n l := by
  obtain ⟨a, rfl⟩ : ∃ a : ℕ, n = a := ⟨n.toNat, by omega⟩
  have e1 := bcClass_eq (Nat.zero_le a)
  have e2 := dClass_eq (Nat.zero_le (a + 1))
  simp only [Nat.cast_zero, sub_zero] at e1 e2
  rw [e1, e2]
  exact cls_BD l

example : BCClass 3 3 [3, 1] ∧ DClass (3 + 1) 3 [3, 1] ∧ ¬ BCClass 3 3 [2, 2] ∧ ¬ DClass (3 + 1) 3 [2, 2] := by
  decide +kernel

/-- **C87**: `mult` of type B on `OG(n,2n+1)` and `mult` of type D on `OG(n+1,2n+2)` agree. -/
theorem C87_mult {n : Int} (hn : 0 ≤ n) {X X' : Space} (hX : mkOG n (2 * n + 1) = .ok X) (hX' : mkOG (n + 1) (2 * n + 2) = .ok X') {fuel : Nat}
    (hf : giamBoundBC n n ≤ fuel) (hf' : giamBoundD (n + 1) n ≤ fuel) {a b : Poly} (ha : LinComb (BCClass n n) a) (hb : LinComb (BCClass n n) b) :
    SameResult (X.mult fuel a b) (X'.mult fuel a b) := by
  obtain ⟨a, b, h, rfl, h1, rfl⟩ := ogCase le_rfl hX
  obtain ⟨a', b', h', e1, e2, rfl⟩ := ogdCase hn le_rfl hX'
  obtain rfl : a = a' := by omega
  obtain rfl : b = 0 := by omega
  obtain rfl : b' = 0 := by omega
  have e1 := bcClass_eq (Nat.zero_le a)
  have e2 := giamBoundBC_eq (Nat.zero_le a)
  have e3 := giamBoundD_eq (Nat.zero_le (a + 1))
  simp only [Nat.cast_zero, sub_zero] at e1 e2 e3
  rw [e1] at ha hb
  rw [e2] at hf
  rw [e3] at hf'
  refine same_BD (ringOG a 0 h) (ringD a 0 h') (fun p hp l hl => ?_) hf hf' ha hb
  obtain ⟨p, rfl⟩ : ∃ p' : ℕ, p = p' := ⟨p.toNat, by have := hp.1; omega⟩
  exact tBD (fun u hu w hw => MD_MB (by have := hp.1; omega) hu hw) hl

example : (Space.mk .B 0 3).mult 30 (Poly.sym (.S [2, 1])) (Poly.sym (.S [2])) = .ok [([.S [3, 2]], 1)] ∧
    (Space.mk .D 0 3).mult 30 (Poly.sym (.S [2, 1])) (Poly.sym (.S [2])) = .ok [([.S [3, 2]], 1)] := by decide +kernel

/-- **C87**: `qmult` of type B on `OG(n,2n+1)` and `qmult` of type D on `OG(n+1,2n+2)` agree. -/
theorem C87_qmult (ord ord' : List Int → List Int) {n : Int} (hn : 0 < n) {X X' : Space} (hX : mkOG n (2 * n + 1) = .ok X)
    (hX' : mkOG (n + 1) (2 * n + 2) = .ok X') {fuel : Nat}
    (hf : giamBoundBC n n ≤ fuel) (hf' : giamBoundD (n + 1) n ≤ fuel) {a b : Poly} (ha : LinComb (BCClass n n) a) (hb : LinComb (BCClass n n) b) :
    SameResult (X.qmult ord fuel a b) (X'.qmult ord' fuel a b) := by
  obtain ⟨a, b, h, rfl, h1, rfl⟩ := ogCase' hn le_rfl hX
  obtain ⟨a', b', h', hb1, e1, e2, rfl⟩ := ogdCase' (by omega) le_rfl (by omega) hX'
  obtain rfl : a = a' := by omega
  obtain rfl : b = 0 := by omega
  obtain rfl : b' = 0 := by omega
  have e1 := bcClass_eq (Nat.zero_le a)
  have e2 := giamBoundBC_eq (Nat.zero_le a)
  have e3 := giamBoundD_eq (Nat.zero_le (a + 1))
  simp only [Nat.cast_zero, sub_zero] at e1 e2 e3
  rw [e1] at ha hb
  rw [e2] at hf
  rw [e3] at hf'
  refine same_BD (ringQOG ord a 0 h) (ringQD ord' a 0 h' hb1) (fun p hp l hl => ?_) hf hf' ha hb
  obtain ⟨p, rfl⟩ : ∃ p' : ℕ, p = p' := ⟨p.toNat, by have := hp.1; omega⟩
  exact tBD (fun u hu w hw => MD_MQB (by have := hp.1; omega) hu hw) hl

/-- On `OG(3,7)` and `OG(4,8)`: a quantum product. -/
example : (do let X ← mkOG 3 7; X.qmult id 30 (Poly.sym (.S [3, 1])) (Poly.sym (.S [2, 1]))) = .ok [([.q, .S [1]], 1)] ∧
    (do let X ← mkOG 4 8; X.qmult id 30 (Poly.sym (.S [3, 1])) (Poly.sym (.S [2, 1]))) = .ok [([.q, .S [1]], 1)] := by decide +kernel

end Verif
