import Verif.Props.QTilde
/-!
# The point of the ring of `IG(n, 2n)` at which different elements have different values
-/

namespace Verif
open Spec MvPolynomial

/-- the point with coordinates the classes modulo the relations -/
noncomputable def eU (I : Ideal P) (n : ℕ) (top : P ⧸ I) (p : ℕ) : P ⧸ I :=
  if p = 0 then 1 else if p ≤ n then Ideal.Quotient.mk I (X (.S [(p : Int)])) else if p = n + 1 then top else 0

noncomputable def fU (I : Ideal P) (n : ℕ) (top : P ⧸ I) : Sym → P ⧸ I
  | .S l => qTilde (eU I n top) l
  | s => Ideal.Quotient.mk I (X s)

section
variable {I : Ideal P} {n : ℕ} {top : P ⧸ I}

theorem eU_zero : eU I n top 0 = 1 := if_pos rfl

theorem eU_top : eU I n top (n + 1) = top := by unfold eU; rw [if_neg (by omega), if_neg (by omega), if_pos rfl]

theorem eU_high (p : ℕ) (hp : n + 1 < p) : eU I n top p = 0 := by
  unfold eU; rw [if_neg (by omega), if_neg (by omega), if_neg (by omega)]

theorem fU_q : fU I n top .q = Ideal.Quotient.mk I (X .q) := rfl

theorem fU_row (p : ℕ) : fU I n top (.S [(p : Int)]) = eU I n top p := qTilde_row _ p

theorem fU_aeval {x : P} (hx : x ∈ supported ℚ (specialSet (stdSpc n))) : aeval (fU I n top) x = Ideal.Quotient.mk I x := by
  have h : Set.EqOn (aeval (fU I n top)) (Ideal.Quotient.mkₐ ℚ I) (Algebra.adjoin ℚ (X '' specialSet (stdSpc n)) : Subalgebra ℚ P) := by
    rw [AlgHom.eqOn_adjoin_iff]
    rintro _ ⟨s, hs, rfl⟩
    rw [aeval_X, Ideal.Quotient.mkₐ_eq_mk]
    rcases hs with rfl | ⟨p, ⟨h1, h2⟩, rfl⟩
    · rfl
    · rw [num2spec_pos h1]
      obtain ⟨p, rfl⟩ := Int.eq_ofNat_of_zero_le (show 0 ≤ p by omega)
      rw [fU_row, eU, if_neg (by omega), if_pos (by omega)]
  exact h hx

variable {X : Space} {pieri : Int → List Int → Except PyErr Poly} {B : ℕ} (Z : RingOn X pieri (stdSpc n) (clsBC n 0) B)

theorem fU_inj (hz : ∀ e ∈ supported ℚ (specialSet (stdSpc n)), Z.Y.act e (Finsupp.single [] 1) = 0 ↔ e ∈ I) {x : LMod}
    (hx : ∀ l ∈ x.support, clsBC n 0 l) (h : phi Z (fU I n top) x = 0) : x = 0 := by
  unfold phi at h
  rw [fU_aeval (Z.Y.GL_supported hx), Ideal.Quotient.eq_zero_iff_mem, ← hz _ (Z.Y.GL_supported hx), Z.Y.act_GL hx] at h
  exact h

end

variable {n : ℕ}

theorem hvar_supp (p : ℤ) : hvar n p ∈ supported ℚ (specialSet (stdSpc n)) := by
  unfold hvar
  split
  · exact Subalgebra.one_mem _
  · split
    · refine X_mem_supported.2 (Or.inr ⟨p, ⟨by omega, by omega⟩, ?_⟩)
      rw [num2spec_pos (by omega)]
    · exact Subalgebra.zero_mem _

theorem rel_supp {c : ℕ → ℚ} (r d : ℕ) (a : Polynomial ℚ) :
    hvar n (r : ℕ) ^ 2 - (∑ i ∈ Finset.Icc 1 r, C (c i) * (hvar n ((r + i : ℕ) : ℤ) * hvar n ((r - i : ℕ) : ℤ)) + inq a * hvar n (d : ℤ)) ∈
      supported ℚ (specialSet (stdSpc n)) := by
  refine Subalgebra.sub_mem _ (Subalgebra.pow_mem _ (hvar_supp _) 2) (Subalgebra.add_mem _ (Subalgebra.sum_mem _ (fun i _ => ?_))
    (Subalgebra.mul_mem _ (inq_mem _ (Or.inl rfl) _) (hvar_supp _)))
  exact Subalgebra.mul_mem _ (Subalgebra.algebraMap_mem _ (c i)) (Subalgebra.mul_mem _ (hvar_supp _) (hvar_supp _))

/-- The universal point of the classical ring of `IG(n, 2n)`. -/
theorem universal_classical (hn : 0 < n) : ∃ (R : Type) (_ : CommRing R) (_ : Algebra ℚ R) (f : Sym → R) (e : ℕ → R), LGPoint n 0 e ∧
    (∀ l, f (.S l) = qTilde e l) ∧ ∀ x : LMod, (∀ l ∈ x.support, clsBC n 0 l) → aeval f (ev x) = 0 → x = 0 := by
  have hfr : ∀ p : ℕ, 1 ≤ p → p ≤ n → fU (Ideal.span (relLG n)) n 0 (.S [(p : Int)]) = eU (Ideal.span (relLG n)) n 0 p := fun p _ _ => fU_row p
  have hz := fun e he => ringIG_zero hn (e := e) he
  have ht : 2 * eU (Ideal.span (relLG n)) n 0 (n + 1) = 0 := by rw [eU_top, mul_zero]
  have hp : LGPoint n 0 (eU (Ideal.span (relLG n)) n 0) := by
    refine ⟨eU_zero, eU_high, ht, fun r h1 h2 => ?_⟩
    have hr := lg_rel_eq eU_zero eU_high ht hfr h2 (y := inq 0 * hvar n ((0 : ℕ) : ℤ)) (by simp [inq])
    rw [← hr, fU_aeval (rel_supp _ _ _), Ideal.Quotient.eq_zero_iff_mem]
    exact Ideal.subset_span ((relLG_iff n _).2 ⟨r, h1, h2, rfl⟩)
  have hI : ∀ x ∈ supported ℚ (specialSet (stdSpc n)), (ringIG n 0 hn.le).Y.act x (Finsupp.single [] 1) = 0 →
      aeval (fU (Ideal.span (relLG n)) n 0) x = 0 := fun x hx h => by
    rw [fU_aeval hx, Ideal.Quotient.eq_zero_iff_mem]
    exact (hz x hx).1 h
  refine ⟨P ⧸ Ideal.span (relLG n), inferInstance, inferInstance, fU _ n 0, eU _ n 0, hp, fun _ => rfl, fun x hx h => ?_⟩
  refine fU_inj (ringIG n 0 hn.le) hz (top := 0) hx ?_
  refine Eq.trans ?_ h
  exact (value_phi hI hn (pfOp_W n 1 0) one_ne_zero
    (fun u hu w hw => opW_zero 1 0 (by rw [mem_Wd] at hu hw; omega)) (fun p l _ _ => by rw [one_smul]; rfl)
    (fun u hu w hw => opW_top 1 0 hu hw) (fun p hp u hu w hw => opW_high 1 0 hu hw hp) eU_zero
    (fun p h1 h2 => by rw [inq_one, map_one, one_mul, hfr p h1 h2]) (by rw [eU_top]; simp [inq]) eU_high
    (by rw [inq_one, map_one]; exact isUnit_one) (fun l hl => by rw [inq_one, map_one, one_pow, one_mul]; rfl) hx).symm

/-- half of `q` -/
noncomputable def topQ (I : Ideal P) : P ⧸ I := Ideal.Quotient.mk I (C (1 / 2) * X .q)

theorem topQ_two (I : Ideal P) : 2 * topQ I = Ideal.Quotient.mk I (X .q) := by
  unfold topQ
  rw [← map_ofNat (Ideal.Quotient.mk I) 2, ← map_mul]
  congr 1
  rw [← mul_assoc, show (OfNat.ofNat 2 : P) = C 2 from rfl, ← C_mul]
  norm_num

/-- The universal point of the quantum ring of `IG(n, 2n)`. -/
theorem universal_quantum (ord : List Int → List Int) (hn : 0 < n) : ∃ (R : Type) (_ : CommRing R) (_ : Algebra ℚ R) (f : Sym → R) (e : ℕ → R),
    LGPoint n (f .q) e ∧
    (∀ l, f (.S l) = qTilde e l) ∧ ∀ x : LMod, (∀ l ∈ x.support, clsBC n 0 l) → aeval f (ev x) = 0 → x = 0 := by
  have hfr : ∀ p : ℕ, 1 ≤ p → p ≤ n → fU (Ideal.span (relQLG n)) n (topQ _) (.S [(p : Int)]) = eU (Ideal.span (relQLG n)) n (topQ _) p :=
    fun p _ _ => fU_row p
  have hz := fun e he => ringQIG_zero hn ord (e := e) he
  have ht : 2 * eU (Ideal.span (relQLG n)) n (topQ _) (n + 1) = fU (Ideal.span (relQLG n)) n (topQ _) .q := by rw [eU_top, topQ_two, fU_q]
  have hp : LGPoint n (fU (Ideal.span (relQLG n)) n (topQ _) .q) (eU (Ideal.span (relQLG n)) n (topQ _)) := by
    refine ⟨eU_zero, eU_high, ht, fun r h1 h2 => ?_⟩
    have hr := lg_rel_eq eU_zero eU_high ht hfr h2 (aeval_aLG eU_zero hfr h2)
    rw [← hr, fU_aeval (rel_supp _ _ _), Ideal.Quotient.eq_zero_iff_mem]
    exact Ideal.subset_span ((relQLG_iff n _).2 ⟨r, h1, h2, rfl⟩)
  have hI : ∀ x ∈ supported ℚ (specialSet (stdSpc n)), (ringQIG ord n 0 hn.le).Y.act x (Finsupp.single [] 1) = 0 →
      aeval (fU (Ideal.span (relQLG n)) n (topQ _)) x = 0 := fun x hx h => by
    rw [fU_aeval hx, Ideal.Quotient.eq_zero_iff_mem]
    exact (hz x hx).1 h
  have h2 := half_top hp
  refine ⟨P ⧸ Ideal.span (relQLG n), inferInstance, inferInstance, fU _ n (topQ _), eU _ n (topQ _), hp, fun _ => rfl, fun x hx h => ?_⟩
  refine fU_inj (ringQIG ord n 0 hn.le) hz (top := topQ _) hx ?_
  refine Eq.trans ?_ h
  exact (value_phi hI hn (pfOp_W n 1 (Polynomial.C (1 / 2) * Polynomial.X)) one_ne_zero
    (fun u hu w hw => opW_zero 1 _ (by rw [mem_Wd] at hu hw; omega)) (fun p l _ _ => (one_smul _ _).symm)
    (fun u hu w hw => opW_top 1 _ hu hw) (fun p hp u hu w hw => opW_high 1 _ hu hw hp) eU_zero
    (fun p h1 h2 => by rw [inq_one, map_one, one_mul, hfr p h1 h2]) (by rw [h2, mul_one]) eU_high
    (by rw [inq_one, map_one]; exact isUnit_one) (fun l hl => by rw [inq_one, map_one, one_pow, one_mul]; rfl) hx).symm

end Verif
