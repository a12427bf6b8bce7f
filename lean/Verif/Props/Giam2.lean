import Verif.Proofs.Giam2
import Verif.Props.RowRow
/-!
# C111: Giambelli polynomials of two rows on IG(m,2n) and OG(m,2n+1)
-/

namespace Verif
open Spec MvPolynomial

namespace Giam2
open RowRow

/-- a class with two rows -/
def IsTwo (m k a b : ℕ) : Prop := 1 ≤ b ∧ b ≤ a ∧ a ≤ m + 2 * k ∧ ¬ (a = b ∧ k < b)

section
variable {m k : ℕ} (hm : 2 ≤ m)
include hm

theorem cls_row {c : ℕ} (h : c ≤ m + 2 * k) : clsBC (m + k) k (two c 0) := by
  have := row_box (k := k) (show 1 ≤ m by omega) h
  refine ⟨reduced_two (Nat.zero_le _), ?_⟩
  push_cast; exact this

theorem cls_two {a b : ℕ} (h : IsTwo m k a b) : clsBC (m + k) k [(a : Int), b] ∧ two a b = [(a : Int), b] := by
  obtain ⟨h1, h2, h3, h4⟩ := h
  have e : two a b = [(a : Int), b] := by
    rw [two_eq, if_pos (show 0 < a by omega), if_pos (show 0 < b by omega)]; rfl
  have := box (k := k) (m := m) h2 h3 (by rw [length_two h2]; split_ifs <;> omega) h4
  rw [← e]
  refine ⟨⟨reduced_two h2, ?_⟩, rfl⟩
  push_cast; exact this

variable {X : Space} {pieri : Int → List Int → Except PyErr Poly} {B : ℕ}
  (Z : RingOn X pieri (stdSpc (m + k + k)) (clsBC (m + k) k) B)

theorem G_row' {c : ℕ} (h1 : 1 ≤ c) (h2 : c ≤ m + 2 * k) : Z.Y.G (two c 0) = MvPolynomial.X (.S [(c : Int)]) := by
  have := cls_row hm h2
  rw [row_eq h1] at this ⊢
  exact G_row Z h1 (by omega) this

/-- type C; `T a b` are the terms with `q`, which contribute `2 h ϑ_{a+b-N-1}` -/
theorem G_twoC (h : P) (T : ℕ → ℕ → Poly)
    (hL : ∀ a b, IsTwo m k a b → ∃ w, gmult X pieri B (Poly.sym (.S [(a : Int)])) (Poly.sym (.S [(b : Int)])) = .ok w ∧
      w.Perm (rowRowC m k a b ++ T a b))
    (hT : ∀ a b, IsTwo m k a b → subst Z.Y.G (den (T a b)) =
      if m + 2 * k < a + b then 2 * (h * thetaC (m + 2 * k) h (a + b - (m + 2 * k + 1))) else 0) :
    ∀ a b, IsTwo m k a b → Z.Y.G (two a b) = twoRow k (thetaC (m + 2 * k) h) a b := by
  have h0 : thetaC (m + 2 * k) h 0 = 1 := if_pos rfl
  have hrow : ∀ a ≤ m + 2 * k, Z.Y.G (two a 0) = thetaC (m + 2 * k) h a := by
    intro a ha
    unfold thetaC
    rcases Nat.eq_zero_or_pos a with rfl | hp
    · rfl
    · rw [if_neg (by omega), if_pos ha, G_row' hm Z hp ha]
  have hbig : ∀ p, m + 2 * k + 1 < p → thetaC (m + 2 * k) h p = 0 := by
    intro p hp; unfold thetaC; rw [if_neg (by omega), if_neg (by omega), if_neg (by omega)]
  have htop : thetaC (m + 2 * k) h (m + 2 * k + 1) = h := by
    unfold thetaC; rw [if_neg (by omega), if_neg (by omega), if_pos rfl]
  intro a b hab
  refine twoRow_unique h0 (H := fun a b => Z.Y.G (two a b)) hrow ?_ b a hab.2.1 hab.2.2.1 hab.2.2.2
  intro a b h1 h2 h3 h4
  have hab : IsTwo m k a b := ⟨h1, h2, h3, h4⟩
  have ca := cls_row hm h3
  have cb := cls_row hm (show b ≤ m + 2 * k by omega)
  rw [row_eq (by omega)] at ca cb
  have key := G_prod Z h1 h2 (by omega) ca cb (cls_two hm hab).1 (hL a b hab)
  rw [den_app, map_add, rowRowC, subst_terms, sum_rowIdx hm h2 h3 h4, hT a b hab] at key
  have e1 : thetaC (m + 2 * k) h a * thetaC (m + 2 * k) h b = MvPolynomial.X (.S [(a : Int)]) * MvPolynomial.X (.S [(b : Int)]) := by
    rw [← hrow a h3, ← hrow b (by omega), G_row' hm Z (by omega) h3, G_row' hm Z h1 (by omega)]
  rw [e1, ← key]
  have e2 : cf k (a + b) * (∑ i ∈ Finset.range b, if a + (i + 1) ≤ m + 2 * k then Z.Y.G (two (a + (i + 1)) (b - (i + 1))) else
        twoRow k (thetaC (m + 2 * k) h) (a + (i + 1)) (b - (i + 1))) =
      (∑ i ∈ Finset.range b, if a + (i + 1) ≤ m + 2 * k then C (rowCoefC k a b (i + 1)) * Z.Y.G (two (a + (i + 1)) (b - (i + 1))) else 0) +
      cf k (a + b) * ∑ i ∈ Finset.range b, if a + (i + 1) ≤ m + 2 * k then 0 else
        twoRow k (thetaC (m + 2 * k) h) (a + (i + 1)) (b - (i + 1)) := by
    have ec : ∀ i, C (rowCoefC k a b (i + 1)) = cf k (a + b) := by
      intro i
      unfold rowCoefC cf
      by_cases hs : a + b ≤ 2 * k + 1
      · rw [if_pos (Or.inr hs), if_pos hs, map_one]
      · rw [if_neg (by omega), if_neg hs, map_ofNat]
    rw [Finset.mul_sum, Finset.mul_sum, ← Finset.sum_add_distrib]
    refine Finset.sum_congr rfl (fun i _ => ?_)
    rw [ec]
    split_ifs <;> simp
  have e3 : cf k (a + b) * (∑ i ∈ Finset.range b, if a + (i + 1) ≤ m + 2 * k then 0 else
        twoRow k (thetaC (m + 2 * k) h) (a + (i + 1)) (b - (i + 1))) =
      if m + 2 * k < a + b then 2 * (h * thetaC (m + 2 * k) h (a + b - (m + 2 * k + 1))) else 0 := by
    by_cases hs : m + 2 * k < a + b
    · rw [if_pos hs, show cf k (a + b) = 2 from if_neg (by omega), Finset.sum_eq_single (m + 2 * k - a)]
      · rw [if_neg (by omega), show a + (m + 2 * k - a + 1) = m + 2 * k + 1 by omega, twoRow_top hbig, htop,
          show b - (m + 2 * k - a + 1) = a + b - (m + 2 * k + 1) by omega]
      · intro i hi hne
        rw [Finset.mem_range] at hi
        split_ifs with hi'
        · rfl
        · exact twoRow_big hbig k _ (by omega)
      · intro hn; exact absurd (Finset.mem_range.2 (by omega)) hn
    · rw [if_neg hs, Finset.sum_eq_zero, mul_zero]
      intro i hi
      rw [Finset.mem_range] at hi
      rw [if_pos (by omega)]
  have e4 : C (rowCoefC k a b 0) * Z.Y.G (two (a + 0) (b - 0)) = Z.Y.G (two a b) := by
    unfold rowCoefC; rw [if_pos (Or.inl rfl), map_one, one_mul]; rfl
  show Z.Y.G (two a b) + _ = _
  rw [e2, e3, e4]
  exact (add_assoc _ _ _).symm

/-- `2` for the classes of degree greater than `k` -/
def sB (k p : ℕ) : ℚ := if p ≤ k then 1 else 2

omit hm in
theorem sB_coef {a b i : ℕ} (hba : b ≤ a) (hi : i ≤ b) : sB k a * sB k b * rowCoefB k a b i = rowCoefC k a b i * (sB k (a + i) * sB k (b - i)) := by
  unfold sB rowCoefB rowCoefC
  split_ifs <;> first | omega | norm_num

/-- type B -/
theorem G_twoB (hL : ∀ a b, IsTwo m k a b → ∃ w, gmult X pieri B (Poly.sym (.S [(a : Int)])) (Poly.sym (.S [(b : Int)])) = .ok w ∧
      w.Perm (rowRowB m k a b)) :
    ∀ a b, IsTwo m k a b → C (sB k a * sB k b) * Z.Y.G (two a b) = twoRow k (thetaB (m + 2 * k) k) a b := by
  have h0 : thetaB (m + 2 * k) k 0 = 1 := if_pos rfl
  have s0 : sB k 0 = 1 := if_pos (by omega)
  have hrow : ∀ a ≤ m + 2 * k, C (sB k a * sB k 0) * Z.Y.G (two a 0) = thetaB (m + 2 * k) k a := by
    intro a ha
    unfold thetaB
    rw [s0, mul_one]
    rcases Nat.eq_zero_or_pos a with rfl | hp
    · rw [s0, map_one, one_mul, if_pos rfl]; rfl
    · rw [if_neg (by omega), if_pos ha, G_row' hm Z hp ha]
      congr 1
      unfold sB
      split_ifs
      · exact map_one _
      · exact map_ofNat _ 2
  have hbig : ∀ p, m + 2 * k < p → thetaB (m + 2 * k) k p = 0 := by
    intro p hp; unfold thetaB; rw [if_neg (by omega), if_neg (by omega)]
  intro a b hab
  refine twoRow_unique h0 (H := fun a b => C (sB k a * sB k b) * Z.Y.G (two a b)) hrow ?_ b a hab.2.1 hab.2.2.1 hab.2.2.2
  intro a b h1 h2 h3 h4
  have hab : IsTwo m k a b := ⟨h1, h2, h3, h4⟩
  have ca := cls_row hm h3
  have cb := cls_row hm (show b ≤ m + 2 * k by omega)
  rw [row_eq (by omega)] at ca cb
  have key := G_prod Z h1 h2 (by omega) ca cb (cls_two hm hab).1 (hL a b hab)
  rw [rowRowB, subst_terms, sum_rowIdx hm h2 h3 h4] at key
  have e1 : thetaB (m + 2 * k) k a * thetaB (m + 2 * k) k b =
      C (sB k a * sB k b) * (MvPolynomial.X (.S [(a : Int)]) * MvPolynomial.X (.S [(b : Int)])) := by
    rw [← hrow a h3, ← hrow b (by omega), G_row' hm Z (by omega) h3, G_row' hm Z h1 (by omega), s0, mul_one, mul_one, map_mul]
    ring
  rw [e1, ← key, mul_add, Finset.mul_sum, Finset.mul_sum]
  have hc : ∀ i, i ≤ b → (C (sB k a * sB k b) * (C (rowCoefB k a b i) * Z.Y.G (two (a + i) (b - i))) : P) =
      C (rowCoefC k a b i) * (C (sB k (a + i) * sB k (b - i)) * Z.Y.G (two (a + i) (b - i))) := by
    intro i hi
    rw [← mul_assoc, ← map_mul, sB_coef h2 hi, map_mul]
    ring
  rw [hc 0 (by omega)]
  have ec : ∀ i, C (rowCoefC k a b (i + 1)) = cf k (a + b) := by
    intro i
    unfold rowCoefC cf
    by_cases hs : a + b ≤ 2 * k + 1
    · rw [if_pos (Or.inr hs), if_pos hs, map_one]
    · rw [if_neg (by omega), if_neg hs, map_ofNat]
  congr 1
  · unfold rowCoefC; rw [if_pos (Or.inl rfl), map_one, one_mul]; rfl
  · refine Finset.sum_congr rfl (fun i hi => ?_)
    rw [Finset.mem_range] at hi
    split_ifs with hN
    · rw [hc (i + 1) (by omega), ec]
    · rw [twoRow_big hbig k _ (by omega), mul_zero, mul_zero]

end
end Giam2

open Giam2

theorem giam_of_G {X : Space} {pieri : Int → List Int → Except PyErr Poly} {K : ℕ} {cls : List Int → Prop} {B fuel : ℕ}
    (Z : RingOn X pieri (stdSpc K) cls B) (hf : B ≤ fuel) {l : List Int} (hl : cls l) :
    ∃ g, giamRec pieri X.k fuel (Poly.sym (.S l)) = .ok g ∧ WF g ∧ den g = Z.Y.G l := by
  obtain ⟨g, h1, h2, h3⟩ := Z.Y.giamRec_returns fuel (wf_sym (.S l)) (x := Finsupp.single l 1) (by simp [inq]) (supp_single hl 1)
    (fun l hl => lt_of_lt_of_le (Z.fuel l hl) hf)
  refine ⟨g, h1, h2, ?_⟩
  rw [h3, GiamSys.GL, ev_single]
  simp [inq]

/-- the terms with `q` of the product of two special classes -/
def qtail (m k a b : ℕ) : Poly :=
  if m + 2 * k < a + b then [([Sym.q, Sym.S (two (a + b - (m + 2 * k + 1)) 0)], 1)] else []

theorem tail_subst {m k a b : ℕ} (hm : 2 ≤ m) {X : Space} {pieri : Int → List Int → Except PyErr Poly} {B : ℕ}
    (Z : RingOn X pieri (stdSpc (m + k + k)) (clsBC (m + k) k) B) (c2 : b ≤ a) (c3 : a ≤ m + 2 * k) :
    subst Z.Y.G (den (qtail m k a b)) =
      if m + 2 * k < a + b then 2 * (C (1 / 2) * MvPolynomial.X .q *
        thetaC (m + 2 * k) (C (1 / 2) * MvPolynomial.X .q) (a + b - (m + 2 * k + 1))) else 0 := by
  unfold qtail
  by_cases hs : m + 2 * k < a + b
  · rw [if_pos hs, if_pos hs]
    have e : (2 : P) * (C (1 / 2) * MvPolynomial.X .q) = MvPolynomial.X .q := by
      rw [← mul_assoc, show (2 : P) = C 2 from (map_ofNat _ 2).symm, ← map_mul]; norm_num
    rw [← mul_assoc 2, e]
    obtain ⟨d, hd⟩ : ∃ d, d = a + b - (m + 2 * k + 1) := ⟨_, rfl⟩
    rw [← hd]
    have e3 : Z.Y.G (two d 0) = thetaC (m + 2 * k) (C (1 / 2) * MvPolynomial.X .q) d := by
      unfold thetaC
      rcases Nat.eq_zero_or_pos d with h0 | hp
      · rw [h0, if_pos rfl]; exact Z.Y.G_nil
      · rw [if_neg (by omega), if_pos (by omega), G_row' hm _ hp (by omega)]
    rw [← e3]
    simp [monoDen]
  · rw [if_neg hs, if_neg hs]; simp

theorem G_twoQ {m k : ℕ} (hm : 2 ≤ m) {X : Space} {pieri : Int → List Int → Except PyErr Poly} {B : ℕ}
    (Z : RingOn X pieri (stdSpc (m + k + k)) (clsBC (m + k) k) B)
    (hL : ∀ a b, IsTwo m k a b → ∃ w, gmult X pieri B (Poly.sym (.S [(a : Int)])) (Poly.sym (.S [(b : Int)])) = .ok w ∧
      w.Perm (qrowRowC m k a b)) :
    ∀ a b, IsTwo m k a b → Z.Y.G (two a b) = twoRow k (thetaC (m + 2 * k) (C (1 / 2) * MvPolynomial.X .q)) a b := by
  have hT : ∀ a b, IsTwo m k a b → _ := fun a b h => tail_subst hm Z h.2.1 h.2.2.1
  generalize (C (1 / 2) * MvPolynomial.X Sym.q : P) = h at hT ⊢
  exact G_twoC hm Z h (qtail m k) hL hT

section
variable {m k a b : ℕ} (hm : 2 ≤ m) (hb : 1 ≤ b) (hba : b ≤ a) (ha : a ≤ m + 2 * k) (hne : ¬ (a = b ∧ k < b)) {X : Space} {fuel : ℕ}
  (hf : giamBoundBC m (m + k) ≤ fuel)
include hm hb hba ha hne hf

/-- **C111**, type C: `giambelli(S[a,b])` on `IG(m,2n)`. -/
theorem C111_giambelli_IG (hX : mkIG m (2 * (m + k)) = .ok X) :
    ∃ g, X.giambelli fuel (Poly.sym (.S [(a : Int), b])) = .ok g ∧ WF g ∧ den g = twoRow k (thetaC (m + 2 * k) 0) a b := by
  have hab : IsTwo m k a b := ⟨hb, hba, ha, hne⟩
  have hX' := hX
  obtain ⟨n', k', h, e1, e2, rfl⟩ := igCase hX
  obtain rfl : k = k' := by omega
  obtain rfl : n' = m + k := by omega
  have hB : giamBoundBC m (m + k) = boundBC (m + k) k := by
    rw [← giamBoundBC_eq h]; congr 1
  have hf' : boundBC (m + k) k ≤ fuel := by rw [← hB]; exact hf
  obtain ⟨g, h1, h2, h3⟩ := giam_of_G (ringIG (m + k) k h) hf' (cls_two hm hab).1
  refine ⟨g, h1, h2, ?_⟩
  rw [h3, ← (cls_two hm hab).2]
  refine G_twoC hm (ringIG (m + k) k h) 0 (fun _ _ => []) ?_ ?_ a b hab
  · intro a b ⟨c1, c2, c3, c4⟩
    obtain ⟨w, w', g1, -, g2, -⟩ := C110_IG (fuel := boundBC (m + k) k) (by omega) c1 c2 c3 (by rw [hB]) hX'
    exact ⟨w, g1, by rw [List.append_nil]; exact g2⟩
  · intro a b _
    simp

/-- **C111**, type C: `qgiambelli(S[a,b])` on `IG(m,2n)`: the same polynomial with `q/2` for the special class of degree `2n-m+1`. -/
theorem C111_qgiambelli_IG (ord : List Int → List Int) (hX : mkIG m (2 * (m + k)) = .ok X) :
    ∃ g, X.qgiambelli ord fuel (Poly.sym (.S [(a : Int), b])) = .ok g ∧ WF g ∧
      den g = twoRow k (thetaC (m + 2 * k) (C (1 / 2) * MvPolynomial.X .q)) a b := by
  have hab : IsTwo m k a b := ⟨hb, hba, ha, hne⟩
  have hX' := hX
  obtain ⟨n', k', h, e1, e2, rfl⟩ := igCase hX
  obtain rfl : k = k' := by omega
  obtain rfl : n' = m + k := by omega
  have hB : giamBoundBC m (m + k) = boundBC (m + k) k := by
    rw [← giamBoundBC_eq h]; congr 1
  have hf' : boundBC (m + k) k ≤ fuel := by rw [← hB]; exact hf
  obtain ⟨g, h1, h2, h3⟩ := giam_of_G (ringQIG ord (m + k) k h) hf' (cls_two hm hab).1
  refine ⟨g, h1, h2, ?_⟩
  rw [h3, ← (cls_two hm hab).2]
  refine G_twoQ hm (ringQIG ord (m + k) k h) ?_ a b hab
  intro a b ⟨c1, c2, c3, c4⟩
  obtain ⟨w, w', g1, -, g2, -⟩ := C110_qIG (fuel := boundBC (m + k) k) (by omega) c1 c2 c3 (by rw [hB]) ord hX'
  exact ⟨w, g1, g2⟩

/-- **C111**, type B: `giambelli(S[a,b])` on `OG(m,2n+1)`, in terms of the Chern classes; one factor 2 for every part greater than
`n-m`. -/
theorem C111_giambelli_OG (hX : mkOG m (2 * (m + k) + 1) = .ok X) :
    ∃ g, X.giambelli fuel (Poly.sym (.S [(a : Int), b])) = .ok g ∧ WF g ∧
      (if a ≤ k then 1 else 2) * (if b ≤ k then 1 else 2) * den g = twoRow k (thetaB (m + 2 * k) k) a b := by
  have hab : IsTwo m k a b := ⟨hb, hba, ha, hne⟩
  have hX' := hX
  obtain ⟨n', k', h, e1, e2, rfl⟩ := ogCase (by omega) hX
  obtain rfl : k = k' := by omega
  obtain rfl : n' = m + k := by omega
  have hB : giamBoundBC m (m + k) = boundBC (m + k) k := by
    rw [← giamBoundBC_eq h]; congr 1
  have hf' : boundBC (m + k) k ≤ fuel := by rw [← hB]; exact hf
  obtain ⟨g, h1, h2, h3⟩ := giam_of_G (ringOG (m + k) k h) hf' (cls_two hm hab).1
  refine ⟨g, h1, h2, ?_⟩
  rw [h3, ← (cls_two hm hab).2, ← G_twoB hm (ringOG (m + k) k h) ?_ a b hab]
  · congr 1; rw [map_mul]; unfold sB; congr 1 <;> split_ifs <;> simp [← map_ofNat (C : ℚ →+* P)]
  · intro a b ⟨c1, c2, c3, c4⟩
    obtain ⟨w, w', g1, -, g2, -⟩ := C110_OG (fuel := boundBC (m + k) k) (by omega) c1 c2 c3 (by rw [hB]) hX'
    exact ⟨w, g1, g2⟩

/-- **C111**, type B: `qgiambelli(S[a,b])` on `OG(m,2n+1)` is the same polynomial. -/
theorem C111_qgiambelli_OG (ord : List Int → List Int) (hX : mkOG m (2 * (m + k) + 1) = .ok X) :
    ∃ g, X.qgiambelli ord fuel (Poly.sym (.S [(a : Int), b])) = .ok g ∧ WF g ∧
      (if a ≤ k then 1 else 2) * (if b ≤ k then 1 else 2) * den g = twoRow k (thetaB (m + 2 * k) k) a b := by
  have hab : IsTwo m k a b := ⟨hb, hba, ha, hne⟩
  have hX' := hX
  obtain ⟨n', k', h, e1, e2, rfl⟩ := ogCase' (by omega) (by omega) hX
  obtain rfl : k = k' := by omega
  obtain rfl : n' = m + k := by omega
  have hB : giamBoundBC m (m + k) = boundBC (m + k) k := by
    rw [← giamBoundBC_eq h.le]; congr 1
  have hf' : boundBC (m + k) k ≤ fuel := by rw [← hB]; exact hf
  obtain ⟨g, h1, h2, h3⟩ := giam_of_G (ringQOG ord (m + k) k h) hf' (cls_two hm hab).1
  refine ⟨g, h1, h2, ?_⟩
  rw [h3, ← (cls_two hm hab).2, ← G_twoB hm (ringQOG ord (m + k) k h) ?_ a b hab]
  · congr 1; rw [map_mul]; unfold sB; congr 1 <;> split_ifs <;> simp [← map_ofNat (C : ℚ →+* P)]
  · intro a b ⟨c1, c2, c3, c4⟩
    obtain ⟨w, w', g1, -, g2, -⟩ := C110_qOG (fuel := boundBC (m + k) k) (by omega) c1 c2 c3 (by rw [hB]) ord hm hX'
    refine ⟨w, g1, ?_⟩
    rw [qrowRowB, if_neg (by omega), List.append_nil] at g2
    exact g2

end

/-- `IG(2,6)`: `S[2,1] = S[2]*S[1] - S[3]`, and `S[4,3] = S[4]*S[3]`, in the quantum ring `S[4]*S[3] - q*S[2]`. -/
example : mkIG (2 : ℕ) (2 * ((2 : ℕ) + (1 : ℕ))) = .ok ⟨.C, 1, 3⟩ ∧
    (Space.mk .C 1 3).giambelli 45 (Poly.sym (.S [2, 1])) = .ok [([.S [3]], -1), ([.S [1], .S [2]], 1)] ∧
    (Space.mk .C 1 3).giambelli 45 (Poly.sym (.S [4, 3])) = .ok [([.S [3], .S [4]], 1)] ∧
    (Space.mk .C 1 3).qgiambelli id 45 (Poly.sym (.S [4, 3])) = .ok [([.q, .S [2]], -1), ([.S [3], .S [4]], 1)] := by
  refine ⟨by decide, by decide +kernel, by decide +kernel, by decide +kernel⟩

example : twoRow 1 (thetaC 4 0) 2 1 = MvPolynomial.X (.S [2]) * MvPolynomial.X (.S [1]) - MvPolynomial.X (.S [3]) := by
  simp [twoRow, thetaC]

example : twoRow 1 (thetaC 4 (C (1 / 2) * MvPolynomial.X .q)) 4 3 =
    MvPolynomial.X (.S [4]) * MvPolynomial.X (.S [3]) - MvPolynomial.X .q * MvPolynomial.X (.S [2]) := by
  have e : (2 : P) * C (1 / 2) = 1 := by rw [show (2 : P) = C 2 from (map_ofNat _ 2).symm, ← map_mul]; norm_num
  simp only [twoRow, thetaC, Finset.sum_range_succ, Finset.sum_range_zero]
  norm_num
  linear_combination (-MvPolynomial.X Sym.q * MvPolynomial.X (Sym.S [2])) * e

/-- `OG(2,7)`: `S[3,2] = S[3]*S[2] - S[4]*S[1]`, where the formula reads `2*2*S[3,2] = (2*S[3])*(2*S[2]) - 2*(2*S[4])*S[1]`. -/
example : mkOG (2 : ℕ) (2 * ((2 : ℕ) + (1 : ℕ)) + 1) = .ok ⟨.B, 1, 3⟩ ∧
    (Space.mk .B 1 3).giambelli 45 (Poly.sym (.S [3, 2])) = .ok [([.S [1], .S [4]], -1), ([.S [2], .S [3]], 1)] ∧
    (Space.mk .B 1 3).qgiambelli id 45 (Poly.sym (.S [3, 1])) = .ok [([.S [4]], -2), ([.S [1], .S [3]], 1)] := by
  refine ⟨by decide, by decide +kernel, by decide +kernel⟩

end Verif
