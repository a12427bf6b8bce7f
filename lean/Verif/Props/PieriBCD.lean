import Verif.Spec.Dec
import Verif.Proofs.QPieriC
import Verif.Proofs.PieriD
import Verif.Model.RingBCD
import Verif.Props.PieriA
/-!
# C32, C33, C35, C43: the Pieri rules of types B, C, D

The classes are those of C06 and C07: in types B and C the partitions `lam` with
`ReducedPart lam ∧ KStrict (n - m) lam ∧ InRect lam m (2n - m)`, in type D `TypedClass`.
-/

namespace Verif
open Spec MvPolynomial

theorem apply_sym_perm {f : List Int → Except PyErr Poly} {l : List Int} {w : Poly} (h : f l = .ok w) (hw : WF w) :
    ∃ w', Poly.apply f (Poly.sym (.S l)) = .ok w' ∧ WF w' ∧ w'.Perm w := by
  obtain ⟨w', h1, h2, h3⟩ := apply_sym (v := den w) (f := f) (l := l) ⟨w, h, hw, rfl⟩
  exact ⟨w', h1, h2, perm_of_den_eq h2 hw h3⟩

theorem mkIG_even {m n : Int} {X : Space} (hX : mkIG m (2 * n) = .ok X) :
    0 ≤ m ∧ 0 ≤ n ∧ m ≤ n ∧ X = ⟨.C, n - m, n⟩ := by
  unfold mkIG at hX
  split at hX
  · cases hX
  split at hX
  · cases hX
  split at hX
  · cases hX
  injection hX with hX
  refine ⟨by omega, by omega, by omega, ?_⟩
  rw [← hX]
  congr <;> omega

theorem mkOG_odd {m n : Int} {X : Space} (hX : mkOG m (2 * n + 1) = .ok X) :
    0 ≤ m ∧ 0 ≤ n ∧ X = ⟨.B, n - m, n⟩ := by
  unfold mkOG at hX
  split at hX
  · cases hX
  rw [if_pos (by omega)] at hX
  injection hX with hX
  refine ⟨by omega, by omega, ?_⟩
  rw [← hX]
  congr <;> omega

theorem mkOG_even {m n : Int} {X : Space} (hX : mkOG m (2 * n + 2) = .ok X) :
    0 ≤ m ∧ -1 ≤ n ∧ X = ⟨.D, n + 1 - m, n⟩ := by
  unfold mkOG at hX
  split at hX
  · cases hX
  rw [if_neg (by omega)] at hX
  injection hX with hX
  refine ⟨by omega, by omega, ?_⟩
  rw [← hX]
  congr <;> omega

/-- the terms of `pieri` in type C -/
theorem pieri_IG_terms (m n p : Int) (X : Space) (hX : mkIG m (2 * n) = .ok X) (lam : List Int)
    (hl : ReducedPart lam) (hs : KStrict (n - m) lam) (hr : InRect lam m.toNat (2 * n - m)) :
    ∃ w R, X.pieri p (Poly.sym (.S lam)) = .ok w ∧ WF w ∧ R.Nodup ∧
      (∀ mu, mu ∈ R ↔ ReducedPart mu ∧ KStrict (n - m) mu ∧ InRect mu m.toNat (2 * n - m) ∧
        mu.sum = lam.sum + p ∧ PieriArrow (n - m).toNat 0 lam mu) ∧
      w.Perm (termsOf (fun mu => 2 ^ countComps lam mu true (n - m).toNat 0) R) := by
  obtain ⟨hm, hn, hmn, rfl⟩ := mkIG_even hX
  obtain ⟨k, hk⟩ : ∃ k : Nat, n - m = k := ⟨(n - m).toNat, by omega⟩
  rw [hk] at hs ⊢
  have hb : InBox k n 0 lam := inBox_of_class (d := 0) (m := m.toNat) (by omega) (c := 2 * n - m) (by omega) hn hl hs hr
  obtain ⟨w, R, h1, h2, h3, h4, h5⟩ := pieriC_terms p hb hn (by omega)
  obtain ⟨w', h1', h2', h3'⟩ := apply_sym_perm (f := Space.pieriFn ⟨.C, (k : Int), n⟩ p) (l := lam) (by
    show pieriC p lam (k : Int).toNat n = _
    rw [Int.toNat_natCast]; exact h1) h2
  refine ⟨w', R, h1', h2', h3, ?_, h3'.trans h5⟩
  intro mu
  rw [h4, Int.toNat_natCast]
  constructor
  · rintro ⟨a, b, c, e⟩
    obtain ⟨u, v⟩ := class_of_inBox (m := m.toNat) (c := 2 * n - m) (by omega) (by omega) a b
    exact ⟨a, u, v, c, e⟩
  · rintro ⟨a, u, v, c, e⟩
    exact ⟨a, inBox_of_class (d := 0) (m := m.toNat) (by omega) (c := 2 * n - m) (by omega) hn a u v, c, e⟩

/-- the terms of `pieri` in type B -/
theorem pieri_OG_terms (m n p : Int) (hmn : m ≤ n) (X : Space) (hX : mkOG m (2 * n + 1) = .ok X) (lam : List Int)
    (hl : ReducedPart lam) (hs : KStrict (n - m) lam) (hr : InRect lam m.toNat (2 * n - m)) :
    ∃ w R, X.pieri p (Poly.sym (.S lam)) = .ok w ∧ WF w ∧ R.Nodup ∧
      (∀ mu, mu ∈ R ↔ ReducedPart mu ∧ KStrict (n - m) mu ∧ InRect mu m.toNat (2 * n - m) ∧
        mu.sum = lam.sum + p ∧ PieriArrow (n - m).toNat 0 lam mu) ∧
      (∀ mu ∈ R, n - m < p → 1 ≤ countComps lam mu false (n - m).toNat 0) ∧
      w.Perm (termsOf (fun mu => 2 ^ (countComps lam mu false (n - m).toNat 0 - if p ≤ n - m then 0 else 1)) R) := by
  obtain ⟨hm, hn, rfl⟩ := mkOG_odd hX
  obtain ⟨k, hk⟩ : ∃ k : Nat, n - m = k := ⟨(n - m).toNat, by omega⟩
  rw [hk] at hs ⊢
  have hb : InBox k n 0 lam := inBox_of_class (d := 0) (m := m.toNat) (by omega) (c := 2 * n - m) (by omega) hn hl hs hr
  obtain ⟨w, R, h1, h2, h3, h4, h5, h6⟩ := pieriB_terms p hb hn (by omega)
  obtain ⟨w', h1', h2', h3'⟩ := apply_sym_perm (f := Space.pieriFn ⟨.B, (k : Int), n⟩ p) (l := lam) (by
    show pieriB p lam (k : Int).toNat n = _
    rw [Int.toNat_natCast]; exact h1) h2
  refine ⟨w', R, h1', h2', h3, ?_, ?_, ?_⟩
  · intro mu
    rw [h4, Int.toNat_natCast]
    constructor
    · rintro ⟨a, b, c, e⟩
      obtain ⟨u, v⟩ := class_of_inBox (m := m.toNat) (c := 2 * n - m) (by omega) (by omega) a b
      exact ⟨a, u, v, c, e⟩
    · rintro ⟨a, u, v, c, e⟩
      exact ⟨a, inBox_of_class (d := 0) (m := m.toNat) (by omega) (c := 2 * n - m) (by omega) hn a u v, c, e⟩
  · rw [Int.toNat_natCast]; exact h5
  · rw [Int.toNat_natCast]; exact h3'.trans h6

/-- the terms of `pieri` in type D -/
theorem pieri_OGeven_terms (m n p : Int) (hn : 0 ≤ n) (hmn : m ≤ n + 1) (X : Space) (hX : mkOG m (2 * n + 2) = .ok X)
    (lam : List Int) (hl : TypedClass (n + 1 - m) m.toNat (2 * n + 1 - m) lam) :
    ∃ (w : Poly) (R : List (List Int)), X.pieri p (Poly.sym (.S lam)) = .ok w ∧ WF w ∧ R.Nodup ∧
      (∀ mu, mu ∈ R ↔ ReducedPart mu ∧ KStrict (n + 1 - m) mu ∧ InRect mu m.toNat (2 * n + 1 - m) ∧
        mu.sum = lam.sum + p.natAbs ∧ PieriArrow (n + 1 - m).toNat 1 lam mu) ∧
      w.Perm (R.flatMap (fun mu => dcoef p lam mu (typeOf lam (n + 1 - m)) (n + 1 - m).toNat)) := by
  obtain ⟨hm, _, rfl⟩ := mkOG_even hX
  obtain ⟨k, hk⟩ : ∃ k : Nat, n + 1 - m = k := ⟨(n + 1 - m).toNat, by omega⟩
  rw [hk] at hl ⊢
  have hb : InBox k n 1 lam := inBox_of_typed (m := m.toNat) (by omega) (c := 2 * n + 1 - m) (by omega) hn hl
  obtain ⟨w, R, h1, h2, h3, h4, h5⟩ := pieriD_terms p hb hn (by omega)
  obtain ⟨w', h1', h2', h3'⟩ := apply_sym_perm (f := Space.pieriFn ⟨.D, (k : Int), n⟩ p) (l := lam) (by
    show pieriD p lam (k : Int).toNat n = _
    rw [Int.toNat_natCast]; exact h1) h2
  refine ⟨w', R, h1', h2', h3, ?_, ?_⟩
  · intro mu
    rw [h4, Int.toNat_natCast]
    constructor
    · rintro ⟨a, b, c, e⟩
      obtain ⟨u, v⟩ := class_of_inBox (m := m.toNat) (c := 2 * n + 1 - m) (by omega) (by omega) a b
      exact ⟨a, u, v, c, e⟩
    · rintro ⟨a, u, v, c, e⟩
      exact ⟨a, inBox_of_class (d := 1) (m := m.toNat) (by omega) (c := 2 * n + 1 - m) (by omega) hn a u v, c, e⟩
  · rw [Int.toNat_natCast]; exact h3'.trans h5

theorem mem_perm_terms {c : List Int → ℚ} {w : Poly} {R : List (List Int)} (h : w.Perm (termsOf c R)) {t : Mono × ℚ}
    (ht : t ∈ w) : ∃ mu ∈ R, t = ([Sym.S mu], c mu) := by
  obtain ⟨mu, h1, h2⟩ := List.mem_map.1 (h.mem_iff.1 ht)
  exact ⟨mu, h1, h2.symm⟩

/-! ### C32 -/

/-- **C32**, type C: every term of `pieri(p, S[lam])` is a class of degree `|lam| + p`, and no class occurs twice. -/
theorem C32_pieri_IG (m n p : Int) (X : Space) (hX : mkIG m (2 * n) = .ok X) (lam : List Int)
    (hl : ReducedPart lam) (hs : KStrict (n - m) lam) (hr : InRect lam m.toNat (2 * n - m)) :
    ∃ w, X.pieri p (Poly.sym (.S lam)) = .ok w ∧ (w.map Prod.fst).Nodup ∧
      ∀ t ∈ w, ∃ mu, t.1 = [.S mu] ∧ ReducedPart mu ∧ KStrict (n - m) mu ∧ InRect mu m.toNat (2 * n - m) ∧
        mu.sum = lam.sum + p := by
  obtain ⟨w, R, h1, h2, h3, h4, h5⟩ := pieri_IG_terms m n p X hX lam hl hs hr
  refine ⟨w, h1, h2.1, ?_⟩
  intro t ht
  obtain ⟨mu, hmu, rfl⟩ := mem_perm_terms h5 ht
  obtain ⟨a, b, c, d, _⟩ := (h4 mu).1 hmu
  exact ⟨mu, rfl, a, b, c, d⟩

/-- `IG(2,6)`: degree `3 + 2` -/
example : ReducedPart [2, 1] ∧ KStrict (3 - 2) [2, 1] ∧
    (Space.mk .C 1 3).pieri 2 (Poly.sym (.S [2, 1])) = .ok [([.S [3, 2]], 1), ([.S [4, 1]], 2)] := by decide +kernel

/-- **C32**, type B. -/
theorem C32_pieri_OG (m n p : Int) (hmn : m ≤ n) (X : Space) (hX : mkOG m (2 * n + 1) = .ok X) (lam : List Int)
    (hl : ReducedPart lam) (hs : KStrict (n - m) lam) (hr : InRect lam m.toNat (2 * n - m)) :
    ∃ w, X.pieri p (Poly.sym (.S lam)) = .ok w ∧ (w.map Prod.fst).Nodup ∧
      ∀ t ∈ w, ∃ mu, t.1 = [.S mu] ∧ ReducedPart mu ∧ KStrict (n - m) mu ∧ InRect mu m.toNat (2 * n - m) ∧
        mu.sum = lam.sum + p := by
  obtain ⟨w, R, h1, h2, h3, h4, _, h5⟩ := pieri_OG_terms m n p hmn X hX lam hl hs hr
  refine ⟨w, h1, h2.1, ?_⟩
  intro t ht
  obtain ⟨mu, hmu, rfl⟩ := mem_perm_terms h5 ht
  obtain ⟨a, b, c, d, _⟩ := (h4 mu).1 hmu
  exact ⟨mu, rfl, a, b, c, d⟩

example : (Space.mk .B 1 3).pieri 2 (Poly.sym (.S [3])) = .ok [([.S [3, 2]], 1), ([.S [4, 1]], 1)] := by decide +kernel

/-- **C32**, type D; `p < 0` stands for the second special class of degree `|p|`. -/
theorem C32_pieri_OGeven (m n p : Int) (hn : 0 ≤ n) (hmn : m ≤ n + 1) (X : Space)
    (hX : mkOG m (2 * n + 2) = .ok X) (lam : List Int) (hl : TypedClass (n + 1 - m) m.toNat (2 * n + 1 - m) lam) :
    ∃ w, X.pieri p (Poly.sym (.S lam)) = .ok w ∧ (w.map Prod.fst).Nodup ∧
      ∀ t ∈ w, ∃ x, t.1 = [.S x] ∧ TypedClass (n + 1 - m) m.toNat (2 * n + 1 - m) x ∧
        x.sum = lam.sum + p.natAbs := by
  obtain ⟨w, R, h1, h2, h3, h4, h5⟩ := pieri_OGeven_terms m n p hn hmn X hX lam hl
  refine ⟨w, h1, h2.1, ?_⟩
  intro t ht
  obtain ⟨mu, hmu, ht⟩ := List.mem_flatMap.1 (h5.mem_iff.1 ht)
  obtain ⟨a, b, c, d, _⟩ := (h4 mu).1 hmu
  obtain ⟨hm, _, _⟩ := mkOG_even hX
  rcases ((dcoef_terms _ _ _ _ _).2 t ht).2 with e | ⟨hk, e⟩
  · exact ⟨mu, e, ⟨mu, a, b, c, Or.inl rfl⟩, d⟩
  · refine ⟨mu ++ [0], e, ⟨mu, a, b, c, Or.inr ⟨?_, rfl⟩⟩, by simpa using d⟩
    have : ((n + 1 - m).toNat : Int) = n + 1 - m := by omega
    rwa [this] at hk

example : TypedClass (3 + 1 - 2) 2 (2 * 3 + 1 - 2) [2, 1, 0] ∧
    (Space.mk .D 2 3).pieri 2 (Poly.sym (.S [2, 1, 0])) = .ok [([.S [3, 2, 0]], 1), ([.S [4, 1]], 1)] ∧
    (Space.mk .D 2 3).pieri (-2) (Poly.sym (.S [2, 1, 0])) = .ok [([.S [3, 2, 0]], 1), ([.S [5]], 1), ([.S [4, 1]], 1)] := by
  decide +kernel

/-- **C32**, the function `pieri_set` itself, with `d = 0` for types B and C and `d = 1` for type D. -/
theorem C32_pieri_set (p n d : Int) (k : Nat) (hd : d = 0 ∨ d = 1) (hn : 0 ≤ n) (hk : k ≤ n + d) (lam : List Int)
    (hl : ReducedPart lam) (hs : KStrict k lam) (hr : InRect lam (n + d - k).toNat (n + k)) :
    ∃ R, pieriSet p lam k n d = .ok R ∧ R.Nodup ∧ ∀ mu ∈ R, ReducedPart mu ∧ KStrict k mu ∧
      InRect mu (n + d - k).toNat (n + k) ∧ mu.sum = lam.sum + p := by
  obtain ⟨R, h1, h2, h3⟩ := pieriSet_arrow p (inBox_of_class (d := d) (by omega) rfl hn hl hs hr) hd hn (by omega)
  refine ⟨R, h1, h2, ?_⟩
  intro mu hmu
  obtain ⟨a, b, c, e⟩ := (h3 mu).1 hmu
  obtain ⟨u, v⟩ := class_of_inBox (m := (n + d - k).toNat) (c := n + k) (by omega) rfl a b
  exact ⟨a, u, v, c⟩

/-- `IG(2, 6)`, `IG(2, 7)`-like orthogonal spaces: the hypotheses hold for non-trivial classes -/
example : mkIG 2 (2 * 3) = .ok ⟨.C, 1, 3⟩ ∧ ReducedPart [2, 1] ∧ KStrict (3 - 2) [2, 1] ∧
    InRect [2, 1] (2 : Int).toNat (2 * 3 - 2) ∧
    (Space.mk .C 1 3).pieri 2 (Poly.sym (.S [2, 1])) = .ok [([.S [3, 2]], 1), ([.S [4, 1]], 2)] := by
  refine ⟨by decide, ⟨by decide, by decide⟩, by unfold KStrict; decide, ⟨by decide, by decide⟩, ?_⟩
  decide +kernel

example : mkOG 2 (2 * 3 + 1) = .ok ⟨.B, 1, 3⟩ ∧
    (Space.mk .B 1 3).pieri 2 (Poly.sym (.S [2, 1])) = .ok [([.S [3, 2]], 1), ([.S [4, 1]], 1)] := by
  refine ⟨by decide, ?_⟩
  decide +kernel

example : mkOG 3 (2 * 3 + 2) = .ok ⟨.D, 1, 3⟩ ∧ TypedClass (3 + 1 - 3) (3 : Int).toNat (2 * 3 + 1 - 3) [2, 1, 0] ∧
    (Space.mk .D 1 3).pieri 2 (Poly.sym (.S [2, 1, 0])) = .ok [([.S [3, 1, 1, 0]], 1), ([.S [4, 1, 0]], 1)] := by
  refine ⟨by decide, ⟨[2, 1], ⟨by decide, by decide⟩, by unfold KStrict; decide, ⟨by decide, by decide⟩, Or.inr ⟨by decide, rfl⟩⟩, ?_⟩
  decide +kernel

/-! ### C33 -/

/-- **C33**, type C: the coefficients of `pieri(p, S[lam])` are powers of two. -/
theorem C33_coefficients_IG (m n p : Int) (X : Space) (hX : mkIG m (2 * n) = .ok X) (lam : List Int)
    (hl : ReducedPart lam) (hs : KStrict (n - m) lam) (hr : InRect lam m.toNat (2 * n - m)) :
    ∃ w, X.pieri p (Poly.sym (.S lam)) = .ok w ∧ ∀ t ∈ w, ∃ e : Nat, t.2 = 2 ^ e := by
  obtain ⟨w, R, h1, h2, h3, h4, h5⟩ := pieri_IG_terms m n p X hX lam hl hs hr
  refine ⟨w, h1, ?_⟩
  intro t ht
  obtain ⟨mu, hmu, rfl⟩ := mem_perm_terms h5 ht
  exact ⟨_, rfl⟩

example : (Space.mk .C 1 4).pieri 3 (Poly.sym (.S [4, 1, 1])) = .ok [([.S [5, 3, 1]], 1)] := by decide +kernel

/-- **C33**, type B: the exponent `count_comps(lam, mu, False, k, 0) - b` is never negative, and the coefficients
are powers of two. -/
theorem C33_coefficients_OG (m n p : Int) (hmn : m ≤ n) (X : Space) (hX : mkOG m (2 * n + 1) = .ok X)
    (lam : List Int) (hl : ReducedPart lam) (hs : KStrict (n - m) lam) (hr : InRect lam m.toNat (2 * n - m)) :
    (∃ R, pieriSet p lam (n - m).toNat n 0 = .ok R ∧ ∀ mu ∈ R,
      0 ≤ (countComps lam mu false (n - m).toNat 0 : Int) - (if p ≤ n - m then 0 else 1)) ∧
    ∃ w, X.pieri p (Poly.sym (.S lam)) = .ok w ∧ ∀ t ∈ w, ∃ e : Nat, t.2 = 2 ^ e := by
  obtain ⟨w, R, h1, h2, h3, h4, h6, h5⟩ := pieri_OG_terms m n p hmn X hX lam hl hs hr
  refine ⟨?_, w, h1, ?_⟩
  · obtain ⟨hm, hn, _⟩ := mkOG_odd hX
    have hk : ((n - m).toNat : Int) = n - m := by omega
    obtain ⟨R', h7, _, h8⟩ := pieriSet_arrow p (k := (n - m).toNat) (n := n) (d := 0) (lam := lam)
      (inBox_of_class (m := m.toNat) (c := 2 * n - m) (by omega) (by omega) hn hl (by rwa [hk]) hr) (Or.inl rfl) hn
      (by omega)
    refine ⟨R', h7, ?_⟩
    intro mu hmu
    obtain ⟨a, b, c, e⟩ := (h8 mu).1 hmu
    obtain ⟨u, v⟩ := class_of_inBox (m := m.toNat) (c := 2 * n - m) (by omega) (by omega) a b
    rw [hk] at u
    have := h6 mu ((h4 mu).2 ⟨a, u, v, c, e⟩)
    split <;> omega
  · intro t ht
    obtain ⟨mu, hmu, rfl⟩ := mem_perm_terms h5 ht
    exact ⟨_, rfl⟩

example : (Space.mk .B 1 4).pieri 3 (Poly.sym (.S [4, 1, 1])) = .ok [([.S [5, 3, 1]], 1)] := by decide +kernel

/-- **C33**, extended to type D: there the code treats a negative exponent separately, and again all coefficients
are powers of two. -/
theorem C33_coefficients_OGeven (m n p : Int) (hn : 0 ≤ n) (hmn : m ≤ n + 1) (X : Space)
    (hX : mkOG m (2 * n + 2) = .ok X) (lam : List Int) (hl : TypedClass (n + 1 - m) m.toNat (2 * n + 1 - m) lam) :
    ∃ w, X.pieri p (Poly.sym (.S lam)) = .ok w ∧ ∀ t ∈ w, ∃ e : Nat, t.2 = 2 ^ e := by
  obtain ⟨w, R, h1, h2, h3, h4, h5⟩ := pieri_OGeven_terms m n p hn hmn X hX lam hl
  refine ⟨w, h1, ?_⟩
  intro t ht
  obtain ⟨mu, hmu, ht⟩ := List.mem_flatMap.1 (h5.mem_iff.1 ht)
  exact ((dcoef_terms _ _ _ _ _).2 t ht).1

/-- coefficients `1`, `2`, `4` in `IG(5, 10)` and `1`, `1`, `4` in `OG(5, 11)`, where `p > k` -/
example : (Space.mk .C 0 5).pieri 3 (Poly.sym (.S [4, 2])) =
      .ok [([.S [4, 3, 2]], 1), ([.S [5, 4]], 2), ([.S [5, 3, 1]], 4)] ∧
    (Space.mk .B 0 5).pieri 3 (Poly.sym (.S [4, 2])) =
      .ok [([.S [4, 3, 2]], 1), ([.S [5, 4]], 1), ([.S [5, 3, 1]], 4)] := by
  decide +kernel

/-! ### C35 -/

/-- **C35**: the coefficients of `qpieri(p, S[lam])` in `IG(m, 2n)` are integers for `p ≤ n + k`; in fact they are
powers of two. -/
theorem C35_qpieri_IG_integral (ord : List Int → List Int) (m n p : Int) (X : Space)
    (hX : mkIG m (2 * n) = .ok X) (lam : List Int)
    (hl : ReducedPart lam) (hs : KStrict (n - m) lam) (hr : InRect lam m.toNat (2 * n - m)) (hp : p ≤ 2 * n - m) :
    ∃ w, X.qpieri ord p (Poly.sym (.S lam)) = .ok w ∧ ∀ t ∈ w, ∃ e : Nat, t.2 = 2 ^ e := by
  obtain ⟨hm, hn, hmn, rfl⟩ := mkIG_even hX
  obtain ⟨k, hk⟩ : ∃ k : Nat, n - m = k := ⟨(n - m).toNat, by omega⟩
  rw [hk] at hs ⊢
  have hb : InBox k n 0 lam := inBox_of_class (d := 0) (m := m.toNat) (by omega) (c := 2 * n - m) (by omega) hn hl hs hr
  obtain ⟨w, R, N, h1, h2, h3, h4, h5, h6, h7, h8⟩ := qpieriC_terms p hb hn (by omega)
  obtain ⟨w', h1', h2', h3'⟩ := apply_sym_perm (f := Space.qpieriFn ord ⟨.C, (k : Int), n⟩ p) (l := lam) (by
    show qpieriC p lam (k : Int).toNat n = _
    rw [Int.toNat_natCast]; exact h1) h2
  refine ⟨w', h1', ?_⟩
  intro t ht
  rcases List.mem_append.1 ((h3'.trans h8).mem_iff.1 ht) with ht | ht
  · obtain ⟨mu, _, rfl⟩ := List.mem_map.1 ht
    exact ⟨_, rfl⟩
  · obtain ⟨nu, hnu, rfl⟩ := List.mem_map.1 ht
    have := h7 (by omega) nu hnu
    refine ⟨countComps lam ((n + k + 1) :: nu) true k 0 - 1, ?_⟩
    obtain ⟨c, hc⟩ : ∃ c, countComps lam ((n + k + 1) :: nu) true k 0 = c + 1 :=
      ⟨countComps lam ((n + k + 1) :: nu) true k 0 - 1, by omega⟩
    dsimp only
    rw [hc, pow_succ]
    simp

example : (Space.mk .C 1 3).qpieri id 3 (Poly.sym (.S [3, 1])) =
    .ok [([.q, .S [1, 1]], 1), ([.q, .S [2]], 1)] := by decide +kernel

/-- the bound is sharp: for `p = n + k + 1` the code answers with a half -/
example : (Space.mk .C 1 3).qpieri id 5 (Poly.sym (.S [3, 1])) = .ok [([.q, .S [3, 1]], 1 / 2)] := by decide +kernel

/-! ### C43 -/

/-- **C43**, type C: the classes in `pieri(p, S[lam])` are exactly the classes `mu` with `lam → mu` and
`|mu| = |lam| + p`. -/
theorem C43_pieri_IG (m n p : Int) (X : Space) (hX : mkIG m (2 * n) = .ok X) (lam : List Int)
    (hl : ReducedPart lam) (hs : KStrict (n - m) lam) (hr : InRect lam m.toNat (2 * n - m)) :
    ∃ w, X.pieri p (Poly.sym (.S lam)) = .ok w ∧ ∀ s, s ∈ w.map Prod.fst ↔
      ∃ mu, s = [.S mu] ∧ ReducedPart mu ∧ KStrict (n - m) mu ∧ InRect mu m.toNat (2 * n - m) ∧
        mu.sum = lam.sum + p ∧ PieriArrow (n - m).toNat 0 lam mu := by
  obtain ⟨w, R, h1, h2, h3, h4, h5⟩ := pieri_IG_terms m n p X hX lam hl hs hr
  refine ⟨w, h1, ?_⟩
  intro s
  rw [(h5.map Prod.fst).mem_iff, termsOf, List.map_map, List.mem_map]
  constructor
  · rintro ⟨mu, hmu, rfl⟩; exact ⟨mu, rfl, (h4 mu).1 hmu⟩
  · rintro ⟨mu, rfl, hmu⟩; exact ⟨mu, (h4 mu).2 hmu, rfl⟩

example : (Space.mk .C 2 3).pieri 3 (Poly.sym (.S [2])) = .ok [([.S [5]], 1)] := by decide +kernel

/-- **C43**, type B. -/
theorem C43_pieri_OG (m n p : Int) (hmn : m ≤ n) (X : Space) (hX : mkOG m (2 * n + 1) = .ok X) (lam : List Int)
    (hl : ReducedPart lam) (hs : KStrict (n - m) lam) (hr : InRect lam m.toNat (2 * n - m)) :
    ∃ w, X.pieri p (Poly.sym (.S lam)) = .ok w ∧ ∀ s, s ∈ w.map Prod.fst ↔
      ∃ mu, s = [.S mu] ∧ ReducedPart mu ∧ KStrict (n - m) mu ∧ InRect mu m.toNat (2 * n - m) ∧
        mu.sum = lam.sum + p ∧ PieriArrow (n - m).toNat 0 lam mu := by
  obtain ⟨w, R, h1, h2, h3, h4, _, h5⟩ := pieri_OG_terms m n p hmn X hX lam hl hs hr
  refine ⟨w, h1, ?_⟩
  intro s
  rw [(h5.map Prod.fst).mem_iff, termsOf, List.map_map, List.mem_map]
  constructor
  · rintro ⟨mu, hmu, rfl⟩; exact ⟨mu, rfl, (h4 mu).1 hmu⟩
  · rintro ⟨mu, rfl, hmu⟩; exact ⟨mu, (h4 mu).2 hmu, rfl⟩

example : (Space.mk .B 1 3).pieri 1 (Poly.sym (.S [2, 1])) = .ok [([.S [3, 1]], 2), ([.S [4]], 1)] := by decide +kernel

/-- **C43**, `pieri_set` itself, for all types (`d = 1` in type D). -/
theorem C43_pieri_set (p n d : Int) (k : Nat) (hd : d = 0 ∨ d = 1) (hn : 0 ≤ n) (hk : k ≤ n + d) (lam : List Int)
    (hl : ReducedPart lam) (hs : KStrict k lam) (hr : InRect lam (n + d - k).toNat (n + k)) :
    ∃ R, pieriSet p lam k n d = .ok R ∧ R.Nodup ∧ ∀ mu, mu ∈ R ↔ ReducedPart mu ∧ KStrict k mu ∧
      InRect mu (n + d - k).toNat (n + k) ∧ mu.sum = lam.sum + p ∧ PieriArrow k d lam mu := by
  obtain ⟨R, h1, h2, h3⟩ := pieriSet_arrow p (inBox_of_class (d := d) (by omega) rfl hn hl hs hr) hd hn (by omega)
  refine ⟨R, h1, h2, ?_⟩
  intro mu
  rw [h3]
  constructor
  · rintro ⟨a, b, c, e⟩
    obtain ⟨u, v⟩ := class_of_inBox (m := (n + d - k).toNat) (c := n + k) (by omega) rfl a b
    exact ⟨a, u, v, c, e⟩
  · rintro ⟨a, u, v, c, e⟩
    exact ⟨a, inBox_of_class (d := d) (by omega) rfl hn a u v, c, e⟩

/-- shapes with shortened columns: `[2, 2] → [5, 1]` in `IG(2, 8)` and the relation that follows for it -/
example : PieriArrow 2 0 [2, 2] [5, 1] := by
  obtain ⟨R, h1, _, h2⟩ := C43_pieri_set 2 4 0 2 (Or.inl rfl) (by omega) (by omega) [2, 2]
    ⟨by decide, by decide⟩ (by unfold KStrict; decide) ⟨by decide, by decide⟩
  have h3 : pieriSet 2 [2, 2] 2 4 0 = .ok [[5, 1], [4, 2]] := by decide +kernel
  rw [h3] at h1
  injection h1 with h1
  exact ((h2 [5, 1]).1 (by rw [← h1]; simp)).2.2.2.2

end Verif
