import Verif.Spec.Dec
import Verif.Proofs.QPieriD1
import Verif.Props.PieriBCD
/-!
# C34: the quantum Pieri rules of types B, C, D are homogeneous

The variable `q` (in type D with `k = 1`: each of `q1`, `q2`) counts with weight `degree_q()`. The classes are those of
C06 and C07, as in `Props/PieriBCD.lean`.
-/

namespace Verif
open Spec MvPolynomial

theorem apply_sym_all {f : List Int → Except PyErr Poly} {l : List Int} {Q : Mono → Prop} (h : RetAll Q (f l)) :
    ∃ w, Poly.apply f (Poly.sym (.S l)) = .ok w ∧ ∀ t ∈ w, Q t.1 := by
  obtain ⟨w, h1, h2, h3⟩ := h
  obtain ⟨w', h4, h5, h6⟩ := apply_sym_perm h1 h2
  exact ⟨w', h4, fun t ht => h3 _ (List.mem_map.2 ⟨t, h6.mem_iff.1 ht, rfl⟩)⟩

/-- **C34**, type C. -/
theorem C34_qpieri_IG (ord : List Int → List Int) (m n p : Int) (X : Space) (hX : mkIG m (2 * n) = .ok X)
    (lam : List Int) (hl : ReducedPart lam) (hs : KStrict (n - m) lam) (hr : InRect lam m.toNat (2 * n - m)) :
    ∃ w, X.qpieri ord p (Poly.sym (.S lam)) = .ok w ∧ ∀ t ∈ w, ∃ (d : Nat) (nu : List Int),
      t.1 = List.replicate d .q ++ [.S nu] ∧
      ReducedPart nu ∧ KStrict (n - m) nu ∧ InRect nu m.toNat (2 * n - m) ∧
      nu.sum + d * X.degreeQ = lam.sum + p := by
  obtain ⟨hm, hn, hmn, rfl⟩ := mkIG_even hX
  obtain ⟨k, hk⟩ : ∃ k : Nat, n - m = k := ⟨(n - m).toNat, by omega⟩
  rw [hk] at hs ⊢
  have hb : InBox k n 0 lam := inBox_of_class (d := 0) (m := m.toNat) (by omega) (c := 2 * n - m) (by omega) hn hl hs hr
  obtain ⟨w, R, N, h1, h2, h3, h4, h5, h6, h7, h8⟩ := qpieriC_terms p hb hn (by omega)
  obtain ⟨w', h1', h2', h3'⟩ := apply_sym_perm (f := Space.qpieriFn ord ⟨.C, (k : Int), n⟩ p) (l := lam) (by
    show qpieriC p lam (k : Int).toNat n = _
    rw [Int.toNat_natCast]; exact h1) h2
  refine ⟨w', h1', ?_⟩
  intro t ht
  rcases List.mem_append.1 ((h3'.trans h8).mem_iff.1 ht) with ht | ht
  · obtain ⟨mu, hmu, rfl⟩ := List.mem_map.1 ht
    obtain ⟨a, b, c, _⟩ := (h5 mu).1 hmu
    obtain ⟨u, v⟩ := class_of_inBox (m := m.toNat) (c := 2 * n - m) (by omega) (by omega) a b
    exact ⟨0, mu, rfl, a, u, v, by simpa using c⟩
  · obtain ⟨nu, hnu, rfl⟩ := List.mem_map.1 ht
    obtain ⟨a, b, c, _⟩ := (h6 nu).1 hnu
    obtain ⟨u, v⟩ := class_of_inBox (m := m.toNat) (c := 2 * n - m) (by omega) (by omega) a b
    refine ⟨1, nu, rfl, a, u, v, ?_⟩
    show nu.sum + ((1 : Nat) : Int) * (n + 1 + k) = _
    push_cast
    omega

example : (Space.mk .C 1 3).qpieri id 4 (Poly.sym (.S [4, 1])) = .ok [([.q, .S [4]], 1), ([.q, .S [3, 1]], 1)] ∧
    (Space.mk .C 1 3).degreeQ = 5 := by decide +kernel

theorem degreeQ_B (k : Nat) (n : Int) : (Space.mk .B k n).degreeQ = degBD k n := by
  unfold Space.degreeQ degBD
  simp

theorem degreeQ_D (k : Nat) (n : Int) : (Space.mk .D k n).degreeQ = degBD k n := by
  unfold Space.degreeQ degBD
  simp

/-- **C34**, type B. For `m = 0 < n` the code fails, see `C34_qpieri_OG_point`. -/
theorem C34_qpieri_OG_partial (ord : List Int → List Int) (m n p : Int) (hmn : m ≤ n) (h0 : 0 < m ∨ n = 0) (X : Space)
    (hX : mkOG m (2 * n + 1) = .ok X)
    (lam : List Int) (hl : ReducedPart lam) (hs : KStrict (n - m) lam) (hr : InRect lam m.toNat (2 * n - m)) :
    ∃ w, X.qpieri ord p (Poly.sym (.S lam)) = .ok w ∧ ∀ t ∈ w, ∃ (d : Nat) (nu : List Int),
      t.1 = List.replicate d .q ++ [.S nu] ∧
      ReducedPart nu ∧ KStrict (n - m) nu ∧ InRect nu m.toNat (2 * n - m) ∧
      nu.sum + d * X.degreeQ = lam.sum + p := by
  obtain ⟨hm, hn, rfl⟩ := mkOG_odd hX
  obtain ⟨k, hk⟩ : ∃ k : Nat, n - m = k := ⟨(n - m).toNat, by omega⟩
  rw [hk] at hs ⊢
  have hb : InBox k n 0 lam := inBox_of_class (d := 0) (m := m.toNat) (by omega) (c := 2 * n - m) (by omega) hn hl hs hr
  obtain ⟨w, h1, h2⟩ := apply_sym_all (f := Space.qpieriFn ord ⟨.B, (k : Int), n⟩ p) (l := lam)
    (Q := QTerm (fun d => ClsB k n (lam.sum + p - d * degBD k n)))
    (qpieriB_all (k := k) (n := n) p hb hn (by omega) (by omega))
  refine ⟨w, h1, ?_⟩
  intro t ht
  obtain ⟨d, nu, e, a, b, c⟩ := h2 t ht
  obtain ⟨u, v⟩ := class_of_inBox (m := m.toNat) (c := 2 * n - m) (by omega) (by omega) a b
  refine ⟨d, nu, e, a, u, v, ?_⟩
  rw [degreeQ_B, c]
  ring

example : (Space.mk .B 1 3).qpieri id 4 (Poly.sym (.S [4, 1])) = .ok [([.q, .q, .S [1]], 1)] ∧
    (Space.mk .B 1 3).degreeQ = 4 := by decide +kernel

/-- The space `OG(0, 2n+1)` is a point with `k = n`; `qpieri` fails there on its only class (`lam[-1]` of the empty
list, orthogonal_grassmannian.py:292). -/
theorem C34_qpieri_OG_point (ord : List Int → List Int) (n p : Int) (hn : 0 < n) (X : Space)
    (hX : mkOG 0 (2 * n + 1) = .ok X) : X.qpieri ord p (Poly.sym (.S [])) = .error .indexError := by
  obtain ⟨_, _, rfl⟩ := mkOG_odd hX
  obtain ⟨k, rfl⟩ : ∃ k : Nat, n = k := ⟨n.toNat, by omega⟩
  have hb : InBox k k 0 [] := inBox_of_class (d := 0) (m := 0) (by omega) (c := 2 * k) (by omega) (by omega)
    ⟨List.Pairwise.nil, by simp⟩ List.Pairwise.nil ⟨by simp, by simp⟩
  obtain ⟨w, h1, _⟩ := pieriB_all p hb (by omega) (by omega)
  have : qpieriB p [] k k = .error .indexError := by
    unfold qpieriB
    rw [h1]
    show (if k = 0 then _ else if _ then _ else _) = _
    rw [if_neg (by omega), if_pos (by simp)]
  have h2 : Space.qpieriFn ord ⟨.B, (k : Int) - 0, k⟩ p [] = .error .indexError := by
    show qpieriB p [] ((k : Int) - 0).toNat k = _
    rw [Int.sub_zero, Int.toNat_natCast, this]
  show Poly.apply _ [([Sym.S []], 1)] = _
  unfold Poly.apply Poly.applyMono Poly.applySym
  dsimp only
  rw [h2]
  rfl

example : (Space.mk .B 3 3).qpieri id 1 (Poly.sym (.S [])) = .error .indexError := by decide +kernel

/-- Likewise for the point `OG(0, 2n+2)` (`lam[-1]` in orthogonal_grassmannian.py:321 or 356). -/
theorem C34_qpieri_OGeven_point (ord : List Int → List Int) (n p : Int) (hn : 0 ≤ n) (X : Space)
    (hX : mkOG 0 (2 * n + 2) = .ok X) : X.qpieri ord p (Poly.sym (.S [])) = .error .indexError := by
  obtain ⟨_, _, rfl⟩ := mkOG_even hX
  obtain ⟨k, rfl⟩ : ∃ k : Nat, n = k := ⟨n.toNat, by omega⟩
  have hb : InBox (k + 1) k 1 [] := inBox_of_class (d := 1) (m := 0) (by omega) (c := 2 * k + 1) (by omega) (by omega)
    ⟨List.Pairwise.nil, by simp⟩ List.Pairwise.nil ⟨by simp, by simp⟩
  obtain ⟨w, h1, _⟩ := pieriD_all p hb (by omega) (by omega)
  have : qpieriD ord p [] (k + 1) k = .error .indexError := by
    have hK : k + 1 ≠ 0 := by omega
    have hK' : (k : Int) + 1 = (k + 1 : Nat) := by omega
    revert h1 hK hK'
    generalize k + 1 = K
    intro h1 hK hK'
    unfold qpieriD
    rw [h1]
    show (if K = 0 then _ else if _ then _ else _) = _
    rw [if_neg hK, if_pos ⟨rfl, hK'⟩]
  have h2 : Space.qpieriFn ord ⟨.D, (k : Int) + 1 - 0, k⟩ p [] = .error .indexError := by
    show qpieriD ord p [] ((k : Int) + 1 - 0).toNat k = _
    rw [show ((k : Int) + 1 - 0).toNat = k + 1 by omega, this]
  show Poly.apply _ [([Sym.S []], 1)] = _
  unfold Poly.apply Poly.applyMono Poly.applySym
  dsimp only
  rw [h2]
  rfl

example : (Space.mk .D 4 3).qpieri id 1 (Poly.sym (.S [])) = .error .indexError := by decide +kernel

/-- **C34**, type D with `k ≠ 1`. For `m = 0` the code fails, see `C34_qpieri_OGeven_point`. -/
theorem C34_qpieri_OGeven_partial (ord : List Int → List Int) (m n p : Int) (hn : 0 ≤ n) (hmn : m ≤ n + 1)
    (h1 : m ≠ n) (h0 : 0 < m) (X : Space)
    (hX : mkOG m (2 * n + 2) = .ok X) (lam : List Int) (hl : TypedClass (n + 1 - m) m.toNat (2 * n + 1 - m) lam) :
    ∃ w, X.qpieri ord p (Poly.sym (.S lam)) = .ok w ∧ ∀ t ∈ w, ∃ (d : Nat) (nu : List Int),
      t.1 = List.replicate d .q ++ [.S nu] ∧ TypedClass (n + 1 - m) m.toNat (2 * n + 1 - m) nu ∧
      nu.sum + d * X.degreeQ = lam.sum + p.natAbs := by
  obtain ⟨hm, _, rfl⟩ := mkOG_even hX
  obtain ⟨k, hk⟩ : ∃ k : Nat, n + 1 - m = k := ⟨(n + 1 - m).toNat, by omega⟩
  rw [hk] at hl ⊢
  have hb : InBox k n 1 lam := inBox_of_typed (m := m.toNat) (by omega) (c := 2 * n + 1 - m) (by omega) hn hl
  obtain ⟨w, h1, h2⟩ := apply_sym_all (f := Space.qpieriFn ord ⟨.D, (k : Int), n⟩ p) (l := lam)
    (Q := QTerm (fun d => ClsD k n (lam.sum + p.natAbs - d * degBD k n)))
    (qpieriD_all ord p (k := k) (n := n) (by omega) hb hn (by omega) (by omega))
  refine ⟨w, h1, ?_⟩
  intro t ht
  obtain ⟨d, nu, e, h⟩ := h2 t ht
  obtain ⟨u, v⟩ := typed_of_cls (m := m.toNat) (c := 2 * n + 1 - m) (by omega) (by omega) h
  refine ⟨d, nu, e, u, ?_⟩
  rw [degreeQ_D, v]
  ring

example : (Space.mk .D 2 3).qpieri id 4 (Poly.sym (.S [5, 2, 0])) = .ok [([.q, .q, .S [1]], 1), ([.q, .S [4, 2]], 1)] ∧
    (Space.mk .D 2 3).degreeQ = 5 := by decide +kernel

/-- **C34**, type D with `k = 1`, provided that Python iterates over sets of integers in increasing order. -/
theorem C34_qpieri_OGeven_one_partial (ord : List Int → List Int) (ho : Ascending ord) (n p : Int) (hn : 1 ≤ n)
    (X : Space) (hX : mkOG n (2 * n + 2) = .ok X) (lam : List Int) (hl : TypedClass 1 n.toNat (n + 1) lam) :
    ∃ w, X.qpieri ord p (Poly.sym (.S lam)) = .ok w ∧ ∀ t ∈ w, ∃ (qs : List Sym) (nu : List Int),
      t.1 = qs ++ [.S nu] ∧ (qs = [] ∨ qs = [.q1] ∨ qs = [.q2] ∨ qs = [.q1, .q2]) ∧
      TypedClass 1 n.toNat (n + 1) nu ∧ nu.sum + qs.length * X.degreeQ = lam.sum + p.natAbs := by
  obtain ⟨hm, _, rfl⟩ := mkOG_even hX
  have hk : n + 1 - n = ((1 : Nat) : Int) := by push_cast; omega
  rw [hk]
  obtain ⟨w, h1, h2⟩ := apply_sym_all (f := Space.qpieriFn ord ⟨.D, ((1 : Nat) : Int), n⟩ p) (l := lam)
    (qpieriD_all_one ho p (cls_of_typed (m := n.toNat) (c := n + 1) (by push_cast; omega) (by push_cast; omega) (by omega) hl) hn)
  refine ⟨w, h1, ?_⟩
  intro t ht
  obtain ⟨qs, nu, e, hq, h⟩ := h2 t ht
  obtain ⟨u, v⟩ := typed_of_cls (m := n.toNat) (c := n + 1) (by push_cast; omega) (by push_cast; omega) h
  refine ⟨qs, nu, e, hq, u, ?_⟩
  rw [degreeQ_D, v]
  simp [degBD]

example : (Space.mk .D 1 3).qpieri id 4 (Poly.sym (.S [4, 3, 1])) = .ok [([.q1, .q2, .S [3, 1]], 1)] ∧
    (Space.mk .D 1 3).degreeQ = 4 := by decide +kernel

/-- The order in which CPython iterates over a set of at most four of the integers `1, ..., 8`: they are kept in a
table of eight slots, indexed by the remainder modulo 8. -/
def order8 (l : List Int) : List Int := if 8 ∈ l then 8 :: l.erase 8 else l

/-- With that order the code leaves the set of classes: in `OG(8, 18)` the product of `S[2]` and
`S[5,4,3,2,1,1,1,1]` has a term `q1*S[5,3,2,1,-3,1,1,1,0]`. With increasing order it is `q1*S[4,3,2,1,1,0]`. -/
theorem C34_set_order : order8 [4, 6, 7, 8] = [8, 4, 6, 7] ∧ TypedClass 1 8 9 [5, 4, 3, 2, 1, 1, 1, 1] ∧
    (∃ w, (Space.mk .D 1 8).qpieri order8 2 (Poly.sym (.S [5, 4, 3, 2, 1, 1, 1, 1])) = .ok w ∧
      ([.q1, .S [5, 3, 2, 1, -3, 1, 1, 1, 0]], 1) ∈ w ∧ ¬ TypedClass 1 8 9 [5, 3, 2, 1, -3, 1, 1, 1, 0]) ∧
    (∃ w, (Space.mk .D 1 8).qpieri id 2 (Poly.sym (.S [5, 4, 3, 2, 1, 1, 1, 1])) = .ok w ∧
      ([.q1, .S [4, 3, 2, 1, 1, 0]], 1) ∈ w) := by
  refine ⟨by decide, ⟨_, ⟨by decide, by decide⟩, by unfold KStrict; decide, ⟨by decide, by decide⟩, Or.inl rfl⟩,
    ⟨[([.q1, .S [5, 3, 2, 1, -3, 1, 1, 1, 0]], 1), ([.S [7, 4, 3, 2, 1, 1, 1, 1]], 1),
      ([.S [9, 4, 3, 2, 1, 1]], 1), ([.S [6, 5, 3, 2, 1, 1, 1, 1]], 1)], by decide +kernel, by decide, ?_⟩,
    ⟨[([.q1, .S [4, 3, 2, 1, 1, 0]], 1), ([.S [7, 4, 3, 2, 1, 1, 1, 1]], 1),
      ([.S [9, 4, 3, 2, 1, 1]], 1), ([.S [6, 5, 3, 2, 1, 1, 1, 1]], 1)], by decide +kernel, by decide⟩⟩
  rintro ⟨mu, h1, _, _, h4⟩
  have h5 : (-3 : Int) ∈ mu := by
    rcases h4 with h4 | ⟨_, h4⟩
    · rw [← h4]; decide
    · have : (-3 : Int) ∈ mu ++ [0] := by rw [← h4]; decide
      simpa using this
  have := h1.2 _ h5
  omega

/-! ### examples -/

/-- type C, `IG(2, 6)` -/
example : mkIG 2 (2 * 3) = .ok ⟨.C, 1, 3⟩ ∧ (Space.mk .C 1 3).degreeQ = 5 ∧
    (Space.mk .C 1 3).qpieri id 3 (Poly.sym (.S [3, 1])) = .ok [([.q, .S [1, 1]], 1), ([.q, .S [2]], 1)] := by
  decide +kernel

/-- type B, `OG(2, 7)` and `OG(3, 7)`, the latter with `deg q = 6` -/
example : mkOG 2 (2 * 3 + 1) = .ok ⟨.B, 1, 3⟩ ∧ (Space.mk .B 1 3).degreeQ = 4 ∧
    (Space.mk .B 1 3).qpieri id 2 (Poly.sym (.S [4, 1])) = .ok [([.S [4, 3]], 1), ([.q, .S [2, 1]], 1)] ∧
    (Space.mk .B 1 3).qpieri id 4 (Poly.sym (.S [4, 3])) = .ok [([.q, .q, .S [3]], 1)] ∧
    mkOG 3 (2 * 3 + 1) = .ok ⟨.B, 0, 3⟩ ∧ (Space.mk .B 0 3).degreeQ = 6 ∧
    (Space.mk .B 0 3).qpieri id 2 (Poly.sym (.S [3, 1])) = .ok [([.q, .S []], 1), ([.S [3, 2, 1]], 1)] := by
  decide +kernel

/-- type D, `OG(2, 8)` and `OG(4, 8)` -/
example : mkOG 2 (2 * 3 + 2) = .ok ⟨.D, 2, 3⟩ ∧ (Space.mk .D 2 3).degreeQ = 5 ∧
    (Space.mk .D 2 3).qpieri id 2 (Poly.sym (.S [4, 2, 0])) = .ok [([.q, .S [2, 1]], 1), ([.q, .S [3]], 1)] ∧
    mkOG 4 (2 * 3 + 2) = .ok ⟨.D, 0, 3⟩ ∧ (Space.mk .D 0 3).degreeQ = 6 ∧
    (Space.mk .D 0 3).qpieri id 2 (Poly.sym (.S [3, 1])) = .ok [([.q, .S []], 1), ([.S [3, 2, 1]], 1)] := by
  decide +kernel

/-- type D with `k = 1`, `OG(3, 8)`; reading a set in increasing order -/
example : Ascending id ∧ mkOG 3 (2 * 3 + 2) = .ok ⟨.D, 1, 3⟩ ∧ (Space.mk .D 1 3).degreeQ = 4 ∧
    TypedClass 1 3 4 [4, 1, 1, 0] ∧
    (Space.mk .D 1 3).qpieri id 2 (Poly.sym (.S [4, 1, 1, 0])) =
      .ok [([.q1, .q2, .S []], 1), ([.S [4, 3, 1, 0]], 1), ([.q2, .S [2, 1, 1]], 1)] := by
  refine ⟨fun l _ => rfl, by decide, by decide,
    ⟨[4, 1, 1], ⟨by decide, by decide⟩, by unfold KStrict; decide, ⟨by decide, by decide⟩, Or.inr ⟨by decide, rfl⟩⟩, ?_⟩
  decide +kernel

end Verif
