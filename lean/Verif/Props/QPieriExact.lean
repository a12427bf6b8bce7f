import Verif.Props.PieriExact
import Verif.Proofs.QPieriExact
import Verif.Proofs.QPieriD1Exact
import Verif.Props.SchurPol
import Verif.Spec.QPieri
/-!
# The quantum Pieri rules of types B and D with their coefficients

Property C50 of properties.jsonl (type C is in Props/PieriExact.lean).
-/

namespace Verif
open Spec

theorem termB_iff {k m : Nat} {n cols p : Int} (hm : (m : Int) = n - k) (hc : cols = n + k) (hn : 0 ≤ n)
    (lam mu : List Int) (c : ℚ) : TermB k n p lam mu c ↔ PieriTermB k m cols p lam mu c := by
  unfold TermB PieriTermB
  constructor
  · rintro ⟨a, b, r⟩
    exact ⟨⟨a, class_of_inBox (d := 0) (by omega) hc a b⟩, r⟩
  · rintro ⟨⟨a, u, v⟩, r⟩
    exact ⟨a, inBox_of_class (d := 0) (m := m) (by omega) hc hn a u v, r⟩

theorem termD_iff {k m : Nat} {n cols p : Int} (hm : (m : Int) = n + 1 - k) (hc : cols = n + k) (hn : 0 ≤ n)
    (lam y : List Int) (c : ℚ) : TermD k n p lam y c ↔ PieriTermD k m cols p lam y c := by
  unfold TermD PieriTermD
  constructor
  · rintro ⟨mu, a, b, e, f, hy, r⟩
    obtain ⟨u, v⟩ := class_of_inBox (d := 1) hm hc a b
    refine ⟨⟨mu, a, u, v, hy⟩, ?_, ?_, r⟩
    · rcases hy with rfl | ⟨_, rfl⟩
      · exact e
      · simpa using e
    · rcases hy with rfl | ⟨_, rfl⟩
      · exact f
      · exact (pieriArrow_append_zero _ _ _ _).2 f
  · rintro ⟨⟨mu, a, u, v, hy⟩, e, f, r⟩
    refine ⟨mu, a, inBox_of_class (d := 1) hm hc hn a u v, ?_, ?_, hy, r⟩
    · rcases hy with rfl | ⟨_, rfl⟩
      · exact e
      · simpa using e
    · rcases hy with rfl | ⟨_, rfl⟩
      · exact f
      · exact (pieriArrow_append_zero _ _ _ _).1 f

theorem RetTerms.apply {T : Mono → List Int → ℚ → Prop} {f : List Int → Except PyErr Poly} {l : List Int}
    (h : RetTerms T (f l)) : ∃ w, Poly.apply f (Poly.sym (.S l)) = .ok w ∧ (w.map Prod.fst).Nodup ∧
      ∀ t, t ∈ w ↔ ∃ qs x c, T qs x c ∧ t = (qs ++ [Sym.S x], c) := by
  obtain ⟨w, h1, h2⟩ := h
  obtain ⟨w', h1', h2', h3'⟩ := apply_sym_perm h1 h2.1
  exact ⟨w', h1', h2'.1, fun t => by rw [h3'.mem_iff]; exact h2.2 t⟩

/-- **C50**, type B: the quantum Pieri rule. Let `k = n - m`. The terms of `qpieri(p, S[lam])` on `OG(m, 2n+1)` are
* the terms of `pieri(p, S[lam])`;
* if `m < n`, `c * q * S[ν̃]` for the terms `c * τ_ν` of the same product computed in the `(m+1) × (2n-m+1)` rectangle for
  which `ν̃` exists (`ν` has `m + 1` rows and `ν_1 ≤ 2n-m`);
* if `lam_1 = 2n-m`, `c * q^2 * S[x]` (`c * q * S[x]` if `m = n`) for the terms `c * S[2n-m, x]` of
  `pieri(p, S[lam_2, lam_3, ...])`. -/
theorem C50_qpieri_OG (ord : List Int → List Int) (m n p : Int) (hmn : m ≤ n) (hm0 : m = n ∨ 0 < m) (X : Space)
    (hX : mkOG m (2 * n + 1) = .ok X) (lam : List Int)
    (hl : ReducedPart lam) (hs : KStrict (n - m) lam) (hr : InRect lam m.toNat (2 * n - m)) :
    ∃ w, X.qpieri ord p (Poly.sym (.S lam)) = .ok w ∧ (w.map Prod.fst).Nodup ∧ ∀ t, t ∈ w ↔
      ∃ qs x c,
        ((qs = [] ∧ PieriTermB (n - m).toNat m.toNat (2 * n - m) p lam x c) ∨
        (m < n ∧ qs = [.q] ∧ ∃ nu, PieriTermB (n - m).toNat (m + 1).toNat (2 * n - m + 1) p lam nu c ∧
          Tilde (m + 1) (2 * n - m) nu x) ∨
        (qs = (if m = n then [.q] else [.q, .q]) ∧ part lam 0 = 2 * n - m ∧
          PieriTermB (n - m).toNat m.toNat (2 * n - m) p lam.tail ((2 * n - m) :: x) c)) ∧
        t = (qs ++ [.S x], c) := by
  obtain ⟨hm, hn, rfl⟩ := mkOG_odd hX
  obtain ⟨k, hk⟩ : ∃ k : Nat, n - m = k := ⟨(n - m).toNat, by omega⟩
  rw [hk] at hs ⊢
  have hb : InBox k n 0 lam := inBox_of_class (d := 0) (m := m.toNat) (by omega) (c := 2 * n - m) (by omega) hn hl hs hr
  refine RetTerms.apply (f := Space.qpieriFn ord ⟨.B, (k : Int), n⟩ p) (RetTerms.congr (T := QTermB k n p lam) ?_ ?_)
  · show RetTerms _ (qpieriB p lam (k : Int).toNat n)
    rw [Int.toNat_natCast]
    exact qpieriB_ret p hb hl hn (by omega) (by omega)
  · intro qs x c
    unfold QTermB
    have e1 : n + k = 2 * n - m := by omega
    have e2 : n - k + 1 = m + 1 := by omega
    have e3 : (k = 0) = (m = n) := propext (by omega)
    have e4 : (0 < k) = (m < n) := propext (by omega)
    rw [e1, e2, Int.toNat_natCast, if_congr (iff_of_eq e3) rfl rfl, e4]
    have t1 : ∀ l x c, TermB k n p l x c ↔ PieriTermB k m.toNat (2 * n - m) p l x c :=
      fun l x c => termB_iff (by omega) (by omega) hn l x c
    have t2 : ∀ x c, TermB k (n + 1) p lam x c ↔ PieriTermB k (m + 1).toNat (2 * n - m + 1) p lam x c :=
      fun x c => termB_iff (by omega) (by omega) (by omega) lam x c
    simp only [t1, t2]

/-- terms with `1`, `q` and `q^2` in `OG(2, 7)` -/
example : mkOG 2 (2 * 3 + 1) = .ok ⟨.B, 1, 3⟩ ∧ ReducedPart [4, 2] ∧ KStrict (3 - 2) [4, 2] ∧
    InRect [4, 2] (2 : Int).toNat (2 * 3 - 2) ∧
    (Space.mk .B 1 3).qpieri id 1 (Poly.sym (.S [4, 2])) = .ok [([.S [4, 3]], 1), ([.q, .S [2, 1]], 1)] ∧
    (Space.mk .B 1 3).qpieri id 4 (Poly.sym (.S [4, 3])) = .ok [([.q, .q, .S [3]], 1)] :=
  ⟨by decide, ⟨by decide, by decide⟩, by unfold KStrict; decide, ⟨by decide, by decide⟩, by decide +kernel,
    by decide +kernel⟩

/-- **C50**, type D with `k ≠ 1`: the quantum Pieri rule. Let `k = n + 1 - m`. The terms of `qpieri(p, S[lam])` on
`OG(m, 2n+2)` are
* the terms of `pieri(p, S[lam])`;
* if `m ≤ n`, `c * q * S[y]` for the terms `c * τ_ν` of the same product computed in the `(m+1) × (2n-m+2)` rectangle, where
  `y` has the parts of `ν̃` and the type opposite to that of `ν`;
* if `lam_1 = 2n+1-m`, `c * q^2 * S[x]` (`c * q * S[x]` if `m = n+1`) for the terms `c * S[2n+1-m, x]` of
  `pieri(p, S[lam_2, lam_3, ...])`. -/
theorem C50_qpieri_OGeven (ord : List Int → List Int) (m n p : Int) (hn : 0 ≤ n) (hmn : m ≤ n + 1)
    (hm0 : m = n + 1 ∨ 0 < m) (hk1 : m ≠ n) (X : Space) (hX : mkOG m (2 * n + 2) = .ok X) (lam : List Int)
    (hl : TypedClass (n + 1 - m) m.toNat (2 * n + 1 - m) lam) :
    ∃ w, X.qpieri ord p (Poly.sym (.S lam)) = .ok w ∧ (w.map Prod.fst).Nodup ∧ ∀ t, t ∈ w ↔
      ∃ qs x c,
        ((qs = [] ∧ PieriTermD (n + 1 - m).toNat m.toNat (2 * n + 1 - m) p lam x c) ∨
        (m ≤ n ∧ qs = [.q] ∧ ∃ nu, PieriTermD (n + 1 - m).toNat (m + 1).toNat (2 * n + 2 - m) p lam nu c ∧
          TildeD (n + 1 - m) (m + 1) (2 * n + 1 - m) nu x) ∨
        (qs = (if m = n + 1 then [.q] else [.q, .q]) ∧ part lam 0 = 2 * n + 1 - m ∧
          PieriTermD (n + 1 - m).toNat m.toNat (2 * n + 1 - m) p lam.tail ((2 * n + 1 - m) :: x) c)) ∧
        t = (qs ++ [.S x], c) := by
  obtain ⟨hm, _, rfl⟩ := mkOG_even hX
  obtain ⟨k, hk⟩ : ∃ k : Nat, n + 1 - m = k := ⟨(n + 1 - m).toNat, by omega⟩
  rw [hk] at hl ⊢
  have hb : InBox k n 1 lam := inBox_of_typed (m := m.toNat) (by omega) (c := 2 * n + 1 - m) (by omega) hn hl
  refine RetTerms.apply (f := Space.qpieriFn ord ⟨.D, (k : Int), n⟩ p) (RetTerms.congr (T := QTermD k n p lam) ?_ ?_)
  · show RetTerms _ (qpieriD ord p lam (k : Int).toNat n)
    rw [Int.toNat_natCast]
    exact qpieriD_ret ord p (by omega) hb hn (by omega) (by omega) hl
  · intro qs x c
    unfold QTermD
    have e1 : n + k = 2 * n + 1 - m := by omega
    have e2 : n - k + 2 = m + 1 := by omega
    have e3 : (k = 0) = (m = n + 1) := propext (by omega)
    have e4 : (0 < k) = (m ≤ n) := propext (by omega)
    rw [e1, e2, Int.toNat_natCast, if_congr (iff_of_eq e3) rfl rfl, e4]
    have t1 : ∀ l x c, TermD k n p l x c ↔ PieriTermD k m.toNat (2 * n + 1 - m) p l x c :=
      fun l x c => termD_iff (by omega) (by omega) hn l x c
    have t2 : ∀ x c, TermD k (n + 1) p lam x c ↔ PieriTermD k (m + 1).toNat (2 * n + 2 - m) p lam x c :=
      fun x c => termD_iff (by omega) (by omega) (by omega) lam x c
    simp only [t1, t2]

/-- the type changes in the term with `q` in `OG(3, 10)`; a term with `q^2` in `OG(2, 8)` -/
example : mkOG 3 (2 * 4 + 2) = .ok ⟨.D, 2, 4⟩ ∧ TypedClass (4 + 1 - 3) (3 : Int).toNat (2 * 4 + 1 - 3) [4, 2, 1] ∧
    (Space.mk .D 2 4).qpieri id 3 (Poly.sym (.S [4, 2, 1])) = .ok [([.q, .S [3, 1]], 1), ([.q, .S [2, 1, 1, 0]], 1),
      ([.q, .S [2, 2, 0]], 1), ([.S [5, 4, 1]], 1), ([.S [6, 3, 1]], 1), ([.S [6, 2, 2]], 1), ([.S [5, 3, 2]], 2)] ∧
    (Space.mk .D 2 3).qpieri id 5 (Poly.sym (.S [5, 4])) = .ok [([.q, .q, .S [4]], 1)] :=
  ⟨by decide, ⟨[4, 2, 1], ⟨by decide, by decide⟩, by unfold KStrict; decide, ⟨by decide, by decide⟩, Or.inl rfl⟩,
    by decide +kernel, by decide +kernel⟩

theorem dropColumn_eq {lam : List Int} (h : IsPartition lam) :
    partClip (lam.map (fun x => max (x - 1) 0)) = dropColumn lam := by
  rw [partClip_eq_filter (isPartition_map_max h)]
  unfold dropColumn
  clear h
  induction lam with
  | nil => rfl
  | cons x lam ih =>
    rw [List.map_cons, List.map_cons]
    by_cases hx : 0 < x - 1
    · rw [List.filter_cons_of_pos (by simp; omega), List.filter_cons_of_pos (by simp; omega), ih]
      congr 1
      omega
    · rw [List.filter_cons_of_neg (by simp; omega), List.filter_cons_of_neg (by simp; omega), ih]

/-- **C50**, type D with `k = 1`: the quantum Pieri rule of `OG(n, 2n+2)`, which has two parameters `q1` and `q2`. The terms
of `qpieri(p, S[lam])` are
* the terms of `pieri(p, S[lam])`;
* if `lam` has `n` rows, for each term `c * τ_mu` of `ReducedTerm`: `c * q1 * S[y]` if `p > 0` and `lam` is not of type 2, and
  `c * q2 * S[y']` if `p > 1` or `p = -1` and `lam` is not of type 1, where `y` and `y'` both come from `mu` by removing the
  first row and adding a column of that length, `y` of type 2 and `y'` of type 1;
* if `lam_1 = n+1`, `c * q1 * q2 * S[x]` for the terms `c * S[n+1, x]` of `pieri(p, S[lam_2, lam_3, ...])`.

Set iteration is assumed to be in increasing order (see C34). -/
theorem C50_qpieri_OGeven_one (ord : List Int → List Int) (hord : Ascending ord) (n p : Int) (hn : 1 ≤ n) (X : Space)
    (hX : mkOG n (2 * n + 2) = .ok X) (lam : List Int) (hl : TypedClass 1 n.toNat (n + 1) lam) :
    ∃ w, X.qpieri ord p (Poly.sym (.S lam)) = .ok w ∧ (w.map Prod.fst).Nodup ∧ ∀ t, t ∈ w ↔
      ∃ qs x c,
        ((qs = [] ∧ PieriTermD 1 n.toNat (n + 1) p lam x c) ∨
        (qs = [.q1] ∧ 0 < part lam (n - 1).toNat ∧ clsType 1 lam ≠ 2 ∧ 0 < p ∧
          ∃ mu, ReducedTerm n p lam mu c ∧ x = typeTwo 1 (rowToColumn mu)) ∨
        (qs = [.q2] ∧ 0 < part lam (n - 1).toNat ∧ clsType 1 lam ≠ 1 ∧ (p = -1 ∨ 1 < p) ∧
          ∃ mu, ReducedTerm n p lam mu c ∧ x = rowToColumn mu) ∨
        (qs = [.q1, .q2] ∧ part lam 0 = n + 1 ∧ PieriTermD 1 n.toNat (n + 1) p lam.tail ((n + 1) :: x) c)) ∧
        t = (qs ++ [.S x], c) := by
  obtain ⟨_, _, rfl⟩ := mkOG_even hX
  rw [show n + 1 - n = ((1 : Nat) : Int) by push_cast; omega]
  have hcls : ClsD 1 n lam.sum lam := cls_of_typed (k := 1) (by push_cast; omega) (by push_cast; rfl) (by omega) hl
  refine RetTerms.apply (f := Space.qpieriFn ord ⟨.D, ((1 : Nat) : Int), n⟩ p)
    (RetTerms.congr (T := QTermD1Full n p lam) ?_ ?_)
  · show RetTerms _ (qpieriD ord p lam ((1 : Nat) : Int).toNat n)
    rw [Int.toNat_natCast]
    exact qpieriD_ret_one hord p hcls hn
  · intro qs x c
    have t1 : ∀ l x c, TermD 1 n p l x c ↔ PieriTermD 1 n.toNat (n + 1) p l x c :=
      fun l x c => termD_iff (by push_cast; omega) (by push_cast; rfl) (by omega) l x c
    obtain ⟨mu, h1, h2, h3, h4⟩ := hl
    have hip : IsPartition lam := by
      rcases h4 with rfl | ⟨_, rfl⟩
      · exact reduced_isPart h1
      · refine ⟨?_, ?_⟩
        · rw [List.pairwise_append]
          exact ⟨h1.1, by simp, fun a ha b hb => by
            have := h1.2 a ha
            simp at hb; omega⟩
        · intro a ha
          rcases List.mem_append.1 ha with ha | ha
          · exact le_of_lt (h1.2 a ha)
          · simp at ha; omega
    have t2 : ∀ x c, TermLb n p (partClip (lam.map (fun x => max (x - 1) 0))) x c ↔ ReducedTerm n p lam x c := by
      intro x c
      rw [dropColumn_eq hip]
      unfold TermLb ReducedTerm
      split
      · rfl
      · exact termD_iff (by push_cast; omega) (by push_cast; omega) (by omega) _ x c
    have h0mu : (0 : Int) ∉ mu := fun hc => by have := h1.2 0 hc; omega
    have c1 : 0 < part lam (n - 1).toNat → (last' lam > 0 ↔ clsType 1 lam ≠ 2) := by
      intro hpos
      unfold clsType
      rcases h4 with rfl | ⟨h5, rfl⟩
      · have hne : lam.length > 0 := by
          by_contra hc
          rw [part_of_ge (by omega)] at hpos
          omega
        have : last' lam > 0 := by
          unfold last'
          rw [List.getLastD_eq_getLast?, List.getLast?_eq_getLast_of_ne_nil (by rintro rfl; simp at hne)]
          exact h1.2 _ (List.getLast_mem (l := lam) (by rintro rfl; simp at hne))
        rw [if_neg h0mu]
        constructor
        · intro _; split <;> omega
        · intro _; exact this
      · have : last' (mu ++ [0]) = 0 := by simp [last']
        rw [this, if_pos (by simp [h5]), if_pos (by simp)]
        simp
    have c2 : 0 < part lam (n - 1).toNat → ((last' lam = 0 ∨ (1 : Int) ∉ lam) ↔ clsType 1 lam ≠ 1) := by
      intro hpos
      unfold clsType
      rcases h4 with rfl | ⟨h5, rfl⟩
      · have hne : lam.length > 0 := by
          by_contra hc
          rw [part_of_ge (by omega)] at hpos
          omega
        have := last'_reduced h1 hne
        rw [if_neg h0mu]
        by_cases h6 : (1 : Int) ∈ lam <;> simp [h6, this]
      · have : last' (mu ++ [0]) = 0 := by simp [last']
        rw [this, if_pos (by simp [h5]), if_pos (by simp)]
        simp
    unfold QTermD1Full QTermD1
    simp only [t1, t2, at'_eq_part]
    constructor
    · rintro (g | ⟨g0, ⟨g1, g2, g3⟩ | ⟨g1, g2, g3⟩⟩ | g)
      · exact Or.inl g
      · exact Or.inr (Or.inl ⟨g1, g0, (c1 g0).1 g2.1, g2.2, g3⟩)
      · exact Or.inr (Or.inr (Or.inl ⟨g1, g0, (c2 g0).1 g2.1, g2.2, g3⟩))
      · exact Or.inr (Or.inr (Or.inr g))
    · rintro (g | ⟨g1, g0, g2, g3, g4⟩ | ⟨g1, g0, g2, g3, g4⟩ | g)
      · exact Or.inl g
      · exact Or.inr (Or.inl ⟨g0, Or.inl ⟨g1, ⟨(c1 g0).2 g2, g3⟩, g4⟩⟩)
      · exact Or.inr (Or.inl ⟨g0, Or.inr ⟨g1, ⟨(c2 g0).2 g2, g3⟩, g4⟩⟩)
      · exact Or.inr (Or.inr g)

/-- terms with `q1`, `q2` and `q1 * q2` in `OG(3, 8)`; the types are exchanged -/
example : mkOG 3 (2 * 3 + 2) = .ok ⟨.D, 1, 3⟩ ∧ TypedClass 1 (3 : Int).toNat (3 + 1) [4, 3, 1, 0] ∧
    (Space.mk .D 1 3).qpieri id (-1) (Poly.sym (.S [4, 3, 1, 0])) =
      .ok [([.q1, .q2, .S [1, 0]], 1), ([.q2, .S [3, 1, 1]], 1)] ∧
    (Space.mk .D 1 3).qpieri id 2 (Poly.sym (.S [3, 2, 1])) = .ok [([.q1, .S [2, 1, 1, 0]], 1)] ∧
    dropColumn [4, 3, 1, 0] = [3, 2] ∧ rowToColumn [3, 2] = [3, 1, 1] ∧ typeTwo 1 (rowToColumn [3, 1]) = [2, 1, 1, 0] :=
  ⟨by decide, ⟨[4, 3, 1], ⟨by decide, by decide⟩, by unfold KStrict; decide, ⟨by decide, by decide⟩,
    Or.inr ⟨by decide, rfl⟩⟩, by decide +kernel, by decide +kernel, by decide, by decide, by decide⟩

end Verif
