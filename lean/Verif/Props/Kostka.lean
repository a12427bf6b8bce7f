import Verif.Proofs.Kostka
import Verif.Props.Degree
/-!
# C108: products of special classes on `Gr(m, n)` count semistandard tableaux
-/

namespace Verif
open Spec

theorem special_mono {K : ℕ} {a : List ℕ} (ha : ∀ p ∈ a, 1 ≤ p ∧ p ≤ K) {s : Mono} (hs : s.Perm (a.map (fun p : ℕ => Sym.S [(p : Int)])))
    (hso : MSorted s) : SpecialPoly K [(s, 1)] := by
  refine ⟨⟨by simp, ?_⟩, ?_⟩
  · intro t ht
    rw [List.mem_singleton] at ht
    subst ht
    exact ⟨one_ne_zero, hso⟩
  · intro t ht y hy
    rw [List.mem_singleton] at ht
    subst ht
    obtain ⟨p, hp, rfl⟩ := List.mem_map.1 (hs.mem_iff.1 hy)
    exact Or.inr ⟨p, by exact_mod_cast (ha p hp).1, by exact_mod_cast (ha p hp).2, rfl⟩

variable {m : ℕ} {n : ℤ} {X : Space}

/-- **C108.** For numbers `a_0, …, a_{r-1}` between `1` and `n - m`, the product `S[a_0] * ⋯ * S[a_{r-1}]` on `Gr(m, n)`
has as coefficient of `S[lam]` the number of semistandard tableaux of shape `lam` with `a_i` entries `i + 1`. -/
theorem C108_Gr (hm : 1 ≤ m) (hmn : (m : ℤ) < n) (hX : mkGr m n = .ok X) {a : List ℕ} (ha : ∀ p ∈ a, 1 ≤ p ∧ (p : ℤ) ≤ n - m)
    {s : Mono} (hs : s.Perm (a.map (fun p : ℕ => Sym.S [(p : Int)]))) (hso : MSorted s) :
    ∃ w, Gr.act X [(s, 1)] (Poly.sym (.S [])) = .ok w ∧ LinComb (GrClass m n) w ∧
      ∀ lam, GrClass m n lam →
        (∃ F : Finset (List (List ℕ)), (∀ T, T ∈ F ↔ Tableau a.length lam T ∧ Content T a) ∧ coeffOf [.S lam] w = (F.card : ℚ)) ∧
        ∀ d : ℕ, 1 ≤ d → coeffOf (List.replicate d Sym.q ++ [.S lam]) w = 0 := by
  have hnil : GrClass m n [] := ⟨by decide, by simp, by simp⟩
  have hsing : ∀ a ∈ (Finsupp.single [] (1 : Polynomial ℚ)).support, GrClass m n a := by
    intro a ha
    rw [Finset.mem_singleton.1 (Finsupp.support_single_subset ha)]
    exact hnil
  have hsp : SpecialPoly (n - m).toNat [(s, 1)] := special_mono (a := a) (fun p hp => ⟨(ha p hp).1, by have := (ha p hp).2; omega⟩) hs hso
  obtain ⟨w, hw, hw1, hw2⟩ := (ringC hm hX).act hsp (wf_sym (.S [])) (y := Finsupp.single [] 1) (by simp [inq]) hsing
  have hsup := (ringC hm hX).Y.act_support (den [(s, 1)]) hsing
  refine ⟨w, hw, linComb_of_ev hw1 hw2 hsup, fun lam hlam => ?_⟩
  cases m with
  | zero => omega
  | succ m =>
    obtain ⟨k, hk⟩ : ∃ k : ℕ, (k : ℤ) = n - (m + 1 : ℕ) := ⟨(n - (m + 1 : ℕ)).toNat, by omega⟩
    have hcl : clsA (m + 1) k lam := by rw [hk]; exact hlam
    have hn : n = m + 1 + k := by rw [hk]; push_cast; ring
    have hden : den [(s, 1)] = (a.map (fun p : ℕ => (MvPolynomial.X (.S [(p : Int)]) : P))).prod := by
      have : den [(s, 1)] = monoDen s := by simp [den]
      rw [this, monoDen_perm hs, monoDen, List.map_map]
      rfl
    have key : ∀ d : ℕ, coeffOf (List.replicate d Sym.q ++ [.S lam]) w =
        (Polynomial.C (MvPolynomial.coeff (Kostka.ct a) (Kostka.ts a.length (Kostka.pad m lam)))).coeff d := by
      intro d
      rw [coeffOf_den hw1 (qmono_sorted d _), hw2, expo_qmono, coeff_ev, ringC_act hm hX hn, hden,
        Kostka.act_coeff hn a (fun p hp => ⟨(ha p hp).1, by have := (ha p hp).2; omega⟩) lam hcl]
    refine ⟨?_, fun d hd => ?_⟩
    · obtain ⟨F, hF, hc⟩ := Kostka.count_tableaux hcl a
      refine ⟨F, hF, ?_⟩
      have := key 0
      rw [List.replicate_zero, List.nil_append, Polynomial.coeff_C_zero] at this
      rw [this, hc]
    · rw [key d, Polynomial.coeff_C, if_neg (by omega)]

/-- **C108.** Only classes of size `a_0 + ⋯ + a_{r-1}` occur. -/
theorem C108_size {lam : List Int} {a : List ℕ} {T : List (List ℕ)} (hT : Tableau a.length lam T)
    (hc : Content T a) : lam.sum = (a.sum : ℕ) := by
  have h1 : lam = T.map (fun r => (r.length : ℤ)) := by
    apply SchurSym.ext_part (by rw [List.length_map, hT.1])
    intro i
    rw [← hT.2.1 i, part, row]
    by_cases hi : i < T.length
    · rw [List.getD_eq_getElem _ _ hi, List.getD_eq_getElem _ _ (by simpa using hi), List.getElem_map]
    · rw [List.getD_eq_default _ _ (by omega), List.getD_eq_default _ _ (by simpa using hi)]
      rfl
  have h2 : lam.sum = (T.flatten.length : ℤ) := by
    rw [h1, List.length_flatten]
    simp [Function.comp_def]
  rw [h2]
  have h3 : ∀ b : List ℕ, (Finsupp.toMultiset (Kostka.ct b)).card = b.sum := by
    intro b
    induction b using List.reverseRecOn with
    | nil => simp [Kostka.ct]
    | append_singleton b p ih => rw [Kostka.ct_snoc, map_add, Multiset.card_add, ih]; simp
  rw [← h3 a, ← (Kostka.tct_eq hT a).2 hc, Kostka.tct, Multiset.toFinsupp_toMultiset, Multiset.coe_card,
    List.length_map]

/-- On `Gr(2, 5)`: `S[2] * S[1] * S[1] = S[2,2] + 2*S[3,1]`, and the two tableaux of shape `[3,1]` with one `1`, one `2` and
two `3`. -/
example : ∃ X, mkGr 2 5 = .ok X ∧ [Sym.S [1], .S [1], .S [2]].Perm (([1, 1, 2] : List ℕ).map (fun p : ℕ => Sym.S [(p : Int)])) ∧
    MSorted [Sym.S [1], .S [1], .S [2]] ∧ GrClass 2 5 [3, 1] ∧
    Gr.act X [([.S [1], .S [1], .S [2]], 1)] (Poly.sym (.S [])) = .ok [([.S [2, 2]], 1), ([.S [3, 1]], 2)] :=
  ⟨_, rfl, by decide +kernel, by unfold MSorted; decide +kernel, by unfold GrClass ReducedPart InRect; decide +kernel, by decide +kernel⟩

example : (Tableau 3 [3, 1] [[1, 2, 3], [3]] ∧ Content [[1, 2, 3], [3]] [1, 1, 2]) ∧
    Tableau 3 [3, 1] [[1, 3, 3], [2]] ∧ Content [[1, 3, 3], [2]] [1, 1, 2] := by
  have key : ∀ T : List (List ℕ), T = [[1, 2, 3], [3]] ∨ T = [[1, 3, 3], [2]] → Tableau 3 [3, 1] T ∧ Content T [1, 1, 2] := by
    rintro T (rfl | rfl) <;>
    · refine ⟨⟨rfl, fun i => ?_, fun i => ?_, fun i => ?_, fun i j hj => ?_⟩, fun i => ?_⟩
      · rcases i with _ | _ | i <;> simp [row, part]
      · rcases i with _ | _ | i <;> simp [row]
      · rcases i with _ | _ | i <;> simp [row]
      · rcases i with _ | i
        · have : j = 0 := by simpa [row] using hj
          subst this
          simp [entry, row]
        · simp [row] at hj
      · rcases i with _ | _ | _ | i <;> simp
  exact ⟨key _ (Or.inl rfl), key _ (Or.inr rfl)⟩

end Verif
