import Verif.Spec.Dec
import Verif.Props.PieriBCD
import Verif.Proofs.PieriDExact
/-!
# The Pieri rules of Buch, Kresch and Tamvakis with their coefficients

Properties C48, C49 and C50 of properties.jsonl.
-/

namespace Verif
open Spec

/-! ### C48 -/

/-- **C48**: `count_comps` counts the connected components of the set `𝔸` of a Pieri relation `lam → mu`; with
`skipfirst` it does not count the component that has a box in column `k`. -/
theorem C48_count_comps (n d : Int) (k : Nat) (hd : d = 0 ∨ d = 1) (hn : 0 ≤ n) (hk : k ≤ n + d) (lam mu : List Int)
    (hl : ReducedPart lam) (hs : KStrict k lam) (hr : InRect lam (n + d - k).toNat (n + k))
    (hl' : ReducedPart mu) (hs' : KStrict k mu) (hr' : InRect mu (n + d - k).toNat (n + k))
    (harr : PieriArrow k d lam mu) :
    countComps lam mu false k d = numComps k d lam mu ∧ countComps lam mu true k d = numCompsOff k d lam mu := by
  have hb := inBox_of_class (d := d) (by omega) rfl hn hl hs hr
  have hb' := inBox_of_class (d := d) (by omega) rfl hn hl' hs' hr'
  exact countComps_numComps hb hb' hd hn (by omega) ((shapeRel_iff hb hb' hd hn (by omega)).2 harr)

/-- **C48**, type C: the Pieri rule. The terms of `pieri(p, S[lam])` are `2^N(lam,mu) * S[mu]` for the classes `mu` with
`lam → mu` and `|mu| = |lam| + p`, each of them once. -/
theorem C48_pieri_IG (m n p : Int) (X : Space) (hX : mkIG m (2 * n) = .ok X) (lam : List Int)
    (hl : ReducedPart lam) (hs : KStrict (n - m) lam) (hr : InRect lam m.toNat (2 * n - m)) :
    ∃ w, X.pieri p (Poly.sym (.S lam)) = .ok w ∧ (w.map Prod.fst).Nodup ∧ ∀ t, t ∈ w ↔
      ∃ mu, (ReducedPart mu ∧ KStrict (n - m) mu ∧ InRect mu m.toNat (2 * n - m) ∧
        mu.sum = lam.sum + p ∧ PieriArrow (n - m).toNat 0 lam mu) ∧
        t = ([.S mu], 2 ^ numCompsOff (n - m).toNat 0 lam mu) := by
  obtain ⟨w, R, h1, h2, h3, h4, h5⟩ := pieri_IG_terms m n p X hX lam hl hs hr
  obtain ⟨hm, hn, hmn, _⟩ := mkIG_even hX
  have hk : ((n - m).toNat : Int) = n - m := by omega
  refine ⟨w, h1, h2.1, ?_⟩
  intro t
  rw [h5.mem_iff, termsOf, List.mem_map]
  have key : ∀ mu ∈ R, countComps lam mu true (n - m).toNat 0 = numCompsOff (n - m).toNat 0 lam mu := by
    intro mu hmu
    obtain ⟨a, b, c, _, e⟩ := (h4 mu).1 hmu
    exact (C48_count_comps n 0 (n - m).toNat (Or.inl rfl) hn (by omega) lam mu hl (by rw [hk]; exact hs)
      (by rw [show (n + 0 - ((n - m).toNat : Int)).toNat = m.toNat by omega, show n + ((n - m).toNat : Int) = 2 * n - m by omega]; exact hr)
      a (by rw [hk]; exact b)
      (by rw [show (n + 0 - ((n - m).toNat : Int)).toNat = m.toNat by omega, show n + ((n - m).toNat : Int) = 2 * n - m by omega]; exact c) e).2
  constructor
  · rintro ⟨mu, hmu, rfl⟩
    exact ⟨mu, (h4 mu).1 hmu, by rw [key mu hmu]⟩
  · rintro ⟨mu, hmu, rfl⟩
    have hmu := (h4 mu).2 hmu
    exact ⟨mu, hmu, by rw [key mu hmu]⟩

example :
    (Space.mk .C 0 5).pieri 3 (Poly.sym (.S [4, 2])) = .ok [([.S [4, 3, 2]], 1), ([.S [5, 4]], 2), ([.S [5, 3, 1]], 4)] := by
  decide +kernel

/-- **C48**, type B: the same with the exponent `N'(lam,mu)`, the number of all components for `p ≤ k` and one less (the
set is then not empty) for `p > k`. -/
theorem C48_pieri_OG (m n p : Int) (hmn : m ≤ n) (X : Space) (hX : mkOG m (2 * n + 1) = .ok X) (lam : List Int)
    (hl : ReducedPart lam) (hs : KStrict (n - m) lam) (hr : InRect lam m.toNat (2 * n - m)) :
    ∃ w, X.pieri p (Poly.sym (.S lam)) = .ok w ∧ (w.map Prod.fst).Nodup ∧ ∀ t, t ∈ w ↔
      ∃ mu e, (ReducedPart mu ∧ KStrict (n - m) mu ∧ InRect mu m.toNat (2 * n - m) ∧
        mu.sum = lam.sum + p ∧ PieriArrow (n - m).toNat 0 lam mu) ∧
        numComps (n - m).toNat 0 lam mu = (if p ≤ n - m then e else e + 1) ∧ t = ([.S mu], 2 ^ e) := by
  obtain ⟨w, R, h1, h2, h3, h4, h6, h5⟩ := pieri_OG_terms m n p hmn X hX lam hl hs hr
  obtain ⟨hm, hn, _⟩ := mkOG_odd hX
  have hk : ((n - m).toNat : Int) = n - m := by omega
  refine ⟨w, h1, h2.1, ?_⟩
  intro t
  rw [h5.mem_iff, termsOf, List.mem_map]
  have key : ∀ mu ∈ R, countComps lam mu false (n - m).toNat 0 = numComps (n - m).toNat 0 lam mu := by
    intro mu hmu
    obtain ⟨a, b, c, _, e⟩ := (h4 mu).1 hmu
    exact (C48_count_comps n 0 (n - m).toNat (Or.inl rfl) hn (by omega) lam mu hl (by rw [hk]; exact hs)
      (by rw [show (n + 0 - ((n - m).toNat : Int)).toNat = m.toNat by omega, show n + ((n - m).toNat : Int) = 2 * n - m by omega]; exact hr)
      a (by rw [hk]; exact b)
      (by rw [show (n + 0 - ((n - m).toNat : Int)).toNat = m.toNat by omega, show n + ((n - m).toNat : Int) = 2 * n - m by omega]; exact c) e).1
  constructor
  · rintro ⟨mu, hmu, rfl⟩
    refine ⟨mu, _, (h4 mu).1 hmu, ?_, rfl⟩
    have := h6 mu hmu
    rw [← key mu hmu]
    split <;> omega
  · rintro ⟨mu, e, hmu, he, rfl⟩
    have hmu := (h4 mu).2 hmu
    refine ⟨mu, hmu, ?_⟩
    rw [← key mu hmu] at he
    rw [he]
    congr 2
    split <;> omega

example :
    (Space.mk .B 0 5).pieri 3 (Poly.sym (.S [4, 2])) = .ok [([.S [4, 3, 2]], 1), ([.S [5, 4]], 1), ([.S [5, 3, 1]], 4)] := by
  decide +kernel

/-- two components of `𝔸` without a box in the first column, hence the coefficient `4` of `S[5,3,1]` in
`S[3] * S[4,2]` on `IG(5, 10)` -/
example : numCompsOff 0 0 [4, 2] [5, 3, 1] = 2 ∧ numComps 0 0 [4, 2] [5, 3, 1] = 3 := by
  obtain ⟨R, h1, _, h2⟩ := C43_pieri_set 3 5 0 0 (Or.inl rfl) (by omega) (by omega) [4, 2]
    ⟨by decide, by decide⟩ (by unfold KStrict; decide) ⟨by decide, by decide⟩
  have h3 : pieriSet 3 [4, 2] 0 5 0 = .ok [[5, 4], [5, 3, 1], [4, 3, 2]] := by decide +kernel
  rw [h3] at h1
  injection h1 with h1
  obtain ⟨a, b, c, _, e⟩ := (h2 [5, 3, 1]).1 (by rw [← h1]; simp)
  have := C48_count_comps 5 0 0 (Or.inl rfl) (by omega) (by omega) [4, 2] [5, 3, 1]
    ⟨by decide, by decide⟩ (by unfold KStrict; decide) ⟨by decide, by decide⟩ a b c e
  rw [← this.1, ← this.2]
  decide +kernel

/-! ### C49 -/

/-- **C49**, type D: the Pieri rule. The terms of `pieri(p, S[lam])` are `c * S[mu]` for the classes `mu` with
`lam → mu`, `|mu| = |lam| + |p|`, types that do not add up to 3, and the coefficient `c` of Buch, Kresch and Tamvakis
(no term if the tie breaking rule excludes `mu`). -/
theorem C49_pieri_OGeven (m n p : Int) (hn : 0 ≤ n) (hmn : m ≤ n + 1) (X : Space) (hX : mkOG m (2 * n + 2) = .ok X)
    (lam : List Int) (hl : TypedClass (n + 1 - m) m.toNat (2 * n + 1 - m) lam) :
    ∃ w, X.pieri p (Poly.sym (.S lam)) = .ok w ∧ (w.map Prod.fst).Nodup ∧ ∀ t, t ∈ w ↔
      ∃ mu c, (TypedClass (n + 1 - m) m.toNat (2 * n + 1 - m) mu ∧ mu.sum = lam.sum + p.natAbs ∧
        PieriArrow (n + 1 - m).toNat 1 lam mu ∧ clsType (n + 1 - m) lam + clsType (n + 1 - m) mu ≠ 3) ∧
        CoefD (n + 1 - m).toNat p lam mu c ∧ t = ([.S mu], c) := by
  obtain ⟨w, R, h1, h2, h3, h4, h5⟩ := pieri_OGeven_terms m n p hn hmn X hX lam hl
  obtain ⟨hm, _, _⟩ := mkOG_even hX
  refine ⟨w, h1, h2.1, ?_⟩
  intro t
  rw [h5.mem_iff, List.mem_flatMap]
  obtain ⟨k, hk⟩ : ∃ k : Nat, n + 1 - m = k := ⟨(n + 1 - m).toNat, by omega⟩
  rw [hk] at hl h4 ⊢
  rw [Int.toNat_natCast] at h4 ⊢
  have hb : InBox k n 1 lam := inBox_of_typed (m := m.toNat) (by omega) (c := 2 * n + 1 - m) (by omega) hn hl
  have key : ∀ mu ∈ R, ∀ t, t ∈ dcoef p lam mu (typeOf lam k) k ↔
      ∃ y, (y = mu ∨ ((k : Int) ∈ mu ∧ y = mu ++ [0])) ∧
      clsType k lam + clsType k y ≠ 3 ∧ ∃ c, CoefD k p lam y c ∧ t = ([.S y], c) := by
    intro mu hmu t
    obtain ⟨a, b, c, e, f⟩ := (h4 mu).1 hmu
    have hb' : InBox k n 1 mu :=
      inBox_of_class (d := 1) (m := m.toNat) (by omega) (c := 2 * n + 1 - m) (by omega) hn a b c
    exact dcoef_mem hb hb' hn (by omega) ((shapeRel_iff hb hb' (Or.inr rfl) hn (by omega)).2 f) e a hl t
  constructor
  · rintro ⟨mu, hmu, ht⟩
    obtain ⟨y, hy, hty, c, hc, rfl⟩ := (key mu hmu t).1 ht
    obtain ⟨a1, a2, a3, a4, a5⟩ := (h4 mu).1 hmu
    refine ⟨y, c, ⟨⟨mu, a1, a2, a3, hy⟩, ?_, ?_, hty⟩, hc, rfl⟩
    · rcases hy with rfl | ⟨_, rfl⟩
      · exact a4
      · simpa using a4
    · rcases hy with rfl | ⟨_, rfl⟩
      · exact a5
      · exact (pieriArrow_append_zero _ _ _ _).2 a5
  · rintro ⟨y, c, ⟨⟨mu, a1, a2, a3, hy⟩, hsum, harr, hty⟩, hc, rfl⟩
    have hmu : mu ∈ R := by
      rw [h4]
      refine ⟨a1, a2, a3, ?_, ?_⟩
      · rcases hy with rfl | ⟨_, rfl⟩
        · exact hsum
        · simpa using hsum
      · rcases hy with rfl | ⟨_, rfl⟩
        · exact harr
        · exact (pieriArrow_append_zero _ _ _ _).1 harr
    exact ⟨mu, hmu, (key mu hmu _).2 ⟨y, hy, hty, c, hc, rfl⟩⟩

/-- tie breaking in `OG(3, 10)`: of the two classes with the parts `[2, 1, 1]` one occurs in `τ_2 * S[1,1]`, the other one
in `τ'_2 * S[1,1]` -/
example : mkOG 3 (2 * 4 + 2) = .ok ⟨.D, 2, 4⟩ ∧ TypedClass (4 + 1 - 3) (3 : Int).toNat (2 * 4 + 1 - 3) [1, 1] ∧
    (Space.mk .D 2 4).pieri 2 (Poly.sym (.S [1, 1])) = .ok [([.S [2, 1, 1]], 1), ([.S [3, 1]], 1)] ∧
    (Space.mk .D 2 4).pieri (-2) (Poly.sym (.S [1, 1])) = .ok [([.S [2, 1, 1, 0]], 1), ([.S [3, 1]], 1)] :=
  ⟨by decide, ⟨[1, 1], ⟨by decide, by decide⟩, by unfold KStrict; decide, ⟨by decide, by decide⟩, Or.inl rfl⟩,
    by decide +kernel, by decide +kernel⟩

/-! ### C50 -/

/-- **C50**, type C: the quantum Pieri rule (Theorem 1.2 of Buch, Kresch and Tamvakis). The terms of `qpieri(p, S[lam])`
on `IG(m, 2n)`, `p ≤ n + k`, are the terms of `pieri(p, S[lam])` and `2^(N(lam,mu)-1) * q * S[nu]` for the classes `nu` such
that `mu = (n+k+1, nu)` satisfies `lam → mu` and `|mu| = |lam| + p`; here `N(lam,mu) ≥ 1`. -/
theorem C50_qpieri_IG (ord : List Int → List Int) (m n p : Int) (X : Space)
    (hX : mkIG m (2 * n) = .ok X) (lam : List Int)
    (hl : ReducedPart lam) (hs : KStrict (n - m) lam) (hr : InRect lam m.toNat (2 * n - m)) (hp : p ≤ 2 * n - m) :
    ∃ w, X.qpieri ord p (Poly.sym (.S lam)) = .ok w ∧ (w.map Prod.fst).Nodup ∧ ∀ t, t ∈ w ↔
      (∃ mu, (ReducedPart mu ∧ KStrict (n - m) mu ∧ InRect mu m.toNat (2 * n - m) ∧
        mu.sum = lam.sum + p ∧ PieriArrow (n - m).toNat 0 lam mu) ∧
        t = ([.S mu], 2 ^ numCompsOff (n - m).toNat 0 lam mu)) ∨
      (∃ nu e, (ReducedPart nu ∧ KStrict (n - m) nu ∧ InRect nu m.toNat (2 * n - m) ∧
        nu.sum + (2 * n - m + 1) = lam.sum + p ∧ PieriArrow (n - m).toNat 0 lam ((2 * n - m + 1) :: nu)) ∧
        numCompsOff (n - m).toNat 0 lam ((2 * n - m + 1) :: nu) = e + 1 ∧ t = ([.q, .S nu], 2 ^ e)) := by
  obtain ⟨hm, hn, hmn, rfl⟩ := mkIG_even hX
  obtain ⟨k, hk⟩ : ∃ k : Nat, n - m = k := ⟨(n - m).toNat, by omega⟩
  rw [hk] at hs ⊢
  have hb : InBox k n 0 lam := inBox_of_class (d := 0) (m := m.toNat) (by omega) (c := 2 * n - m) (by omega) hn hl hs hr
  obtain ⟨w, R, N, h1, h2, h3, h4, h5, h6, h7, h8⟩ := qpieriC_terms p hb hn (by omega)
  obtain ⟨w', h1', h2', h3'⟩ := apply_sym_perm (f := Space.qpieriFn ord ⟨.C, (k : Int), n⟩ p) (l := lam) (by
    show qpieriC p lam (k : Int).toNat n = _
    rw [Int.toNat_natCast]; exact h1) h2
  refine ⟨w', h1', h2'.1, ?_⟩
  intro t
  rw [(h3'.trans h8).mem_iff, List.mem_append, termsOf, qtermsOf, List.mem_map, List.mem_map, Int.toNat_natCast]
  have ek : n + k + 1 = 2 * n - m + 1 := by omega
  rw [ek] at h6 h7 ⊢
  have key : ∀ mu ∈ R, countComps lam mu true k 0 = numCompsOff k 0 lam mu := by
    intro mu hmu
    obtain ⟨_, b, _, e⟩ := (h5 mu).1 hmu
    exact (countComps_numComps hb b (Or.inl rfl) hn (by omega) ((shapeRel_iff hb b (Or.inl rfl) hn (by omega)).2 e)).2
  have key' : ∀ nu ∈ N, countComps lam ((2 * n - m + 1) :: nu) true k 0 = numCompsOff k 0 lam ((2 * n - m + 1) :: nu) := by
    intro nu hnu
    obtain ⟨a, b, _, e⟩ := (h6 nu).1 hnu
    have hb1 : InBox k (n + 1) 0 lam := inBox_mono hb
    have hb2 : InBox k (n + 1) 0 ((2 * n - m + 1) :: nu) := by
      have := (inBox_cons (k := k) hn (by omega) (nu := nu)).2 ⟨a, b⟩
      rw [ek] at this
      exact this.2
    exact (countComps_numComps hb1 hb2 (Or.inl rfl) (by omega) (by omega)
      ((shapeRel_iff hb1 hb2 (Or.inl rfl) (by omega) (by omega)).2 e)).2
  have cls : ∀ mu, ReducedPart mu ∧ InBox k n 0 mu ↔ ReducedPart mu ∧ KStrict k mu ∧ InRect mu m.toNat (2 * n - m) := by
    intro mu
    constructor
    · rintro ⟨a, b⟩
      obtain ⟨u, v⟩ := class_of_inBox (m := m.toNat) (c := 2 * n - m) (by omega) (by omega) a b
      exact ⟨a, u, v⟩
    · rintro ⟨a, u, v⟩
      exact ⟨a, inBox_of_class (d := 0) (m := m.toNat) (by omega) (c := 2 * n - m) (by omega) hn a u v⟩
  apply or_congr
  · constructor
    · rintro ⟨mu, hmu, rfl⟩
      have h := (h5 mu).1 hmu
      have h' := (cls mu).1 ⟨h.1, h.2.1⟩
      exact ⟨mu, ⟨h'.1, h'.2.1, h'.2.2, h.2.2⟩, by rw [key mu hmu]⟩
    · rintro ⟨mu, ⟨a, b, c, d⟩, rfl⟩
      have h' := (cls mu).2 ⟨a, b, c⟩
      have hmu := (h5 mu).2 ⟨h'.1, h'.2, d⟩
      exact ⟨mu, hmu, by rw [key mu hmu]⟩
  · constructor
    · rintro ⟨nu, hnu, rfl⟩
      have h := (h6 nu).1 hnu
      have h' := (cls nu).1 ⟨h.1, h.2.1⟩
      have hpos := h7 (by omega) nu hnu
      rw [key' nu hnu] at hpos ⊢
      refine ⟨nu, _, ⟨h'.1, h'.2.1, h'.2.2, h.2.2⟩, (Nat.succ_pred_eq_of_pos hpos).symm, ?_⟩
      congr 1
      obtain ⟨e, he⟩ : ∃ e, numCompsOff k 0 lam ((2 * n - m + 1) :: nu) = e + 1 := ⟨_, (Nat.succ_pred_eq_of_pos hpos).symm⟩
      rw [he]
      simp [pow_succ]
    · rintro ⟨nu, e, ⟨a, b, c, d⟩, he, rfl⟩
      have h' := (cls nu).2 ⟨a, b, c⟩
      have hnu := (h6 nu).2 ⟨h'.1, h'.2, d⟩
      refine ⟨nu, hnu, ?_⟩
      rw [key' nu hnu, he]
      simp [pow_succ]

/-- two quantum terms in `IG(2, 6)` -/
example : mkIG 2 (2 * 3) = .ok ⟨.C, 1, 3⟩ ∧ ReducedPart [3, 1] ∧ KStrict (3 - 2) [3, 1] ∧
    InRect [3, 1] (2 : Int).toNat (2 * 3 - 2) ∧ (3 : Int) ≤ 2 * 3 - 2 ∧
    (Space.mk .C 1 3).qpieri id 3 (Poly.sym (.S [3, 1])) = .ok [([.q, .S [1, 1]], 1), ([.q, .S [2]], 1)] :=
  ⟨by decide, ⟨by decide, by decide⟩, by unfold KStrict; decide, ⟨by decide, by decide⟩, by decide, by decide +kernel⟩

end Verif
