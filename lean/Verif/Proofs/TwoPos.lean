import Verif.Proofs.TwoSeidel
import Verif.Proofs.WordConn
import Verif.Proofs.Perron
import Mathlib.Algebra.Algebra.Rat
import Mathlib.Analysis.Normed.Module.Basic
/-!
# A positive homomorphism of the ring with two parameters
-/

namespace Verif
open Spec MvPolynomial
namespace TwoProd

section
variable {n : Nat}

/-- the symmetry of the products under a permutation of the words -/
theorem str_shift {σ σ' : WordD → WordD} {F : WordD → P} (hn : 1 ≤ n) (h2 : ∀ U, σ' (σ U) = U) (h2' : ∀ U, σ (σ' U) = U)
    (hσ : ∀ U ∈ WdD n 1, σ U ∈ WdD n 1) (hσ' : ∀ U ∈ WdD n 1, σ' U ∈ WdD n 1)
    (hM : ∀ p, ∀ U ∈ WdD n 1, ∀ W ∈ WdD n 1, F U * M2 p (σ U) (σ W) = F W * M2 p U W) {U V W : WordD} (hU : U ∈ WdD n 1)
    (hV : V ∈ WdD n 1) : F U * str hn (σ U) V (σ W) = F W * str hn U V W := by
  have h := congrFun (twist_act2 hn h2 h2' hσ hσ' hM (G n (labD V)) (bas n (labD U))) (σ W)
  rw [twist_bas h2 h2' hσ hU, map_smul] at h
  rw [str_comm hn (hσ U hU) hV, str_comm hn hU hV]
  unfold str
  rw [← smul_eq_mul (F U), ← Pi.smul_apply, ← h]
  show F (σ' (σ W)) * _ = _
  rw [h2]

theorem op2G_one {U W : WordD} (hU : U ∈ WdD n 1) (hW : W ∈ WdD n 1) : op2G (1 : ℝ) 1 1 U W = opG 1 1 1 U W := by
  unfold op2G opG
  rw [mul_one]
  congr 1
  have h1 : ∀ i j : L3, (i ≠ .o ∨ j ≠ .o) → qw (1 : ℝ) 1 i j = 1 := by
    intro i j h
    cases i <;> cases j <;> simp [qw, qOf] at h ⊢
  by_cases h : U.2 ≠ .o ∨ (swD W).2 ≠ .o
  · rw [h1 _ _ h, one_mul]
  · push Not at h
    have e2 : W.2 = .o := by
      have := h.2
      unfold swD at this
      cases hw : W.2 <;> rw [hw] at this <;> simp [L3.sw] at this ⊢
    have c1 := (mem_WdD.1 hU).2.1
    have c2 := (mem_WdD.1 hW).2.1
    have z : opGO (1 : ℝ) 1 U (swD W) = 0 := by
      rcases U with ⟨_ | ⟨p, u⟩, i⟩ <;> rcases W with ⟨_ | ⟨q, w⟩, j⟩ <;> simp only [opGO, swD]
      simp only at h e2 c1 c2
      rw [h.1] at c1
      rw [e2] at c2
      simp only [colsD, L3.k0] at c1 c2
      cases p <;> cases q <;> simp only [kerO, colsW] at c1 c2 ⊢ <;> (first | rw [cols_k0] at c1; omega | rw [cols_k0] at c2; omega)
    rw [z, mul_zero]

theorem M2_op_comm (hn : 1 ≤ n) (p : Int) {U V : WordD} (hU : U ∈ WdD n 1) (hV : V ∈ WdD n 1) :
    ∑ W ∈ WdD n 1, Polynomial.C (M2 p U W) * op2G (Polynomial.C (X .q1)) (Polynomial.C (X .q2)) (Polynomial.X : Polynomial P) W V =
      ∑ W ∈ WdD n 1, op2G (Polynomial.C (X .q1)) (Polynomial.C (X .q2)) (Polynomial.X : Polynomial P) U W * Polynomial.C (M2 p W V) := by
  ext1 c
  rw [Polynomial.finsetSum_coeff, Polynomial.finsetSum_coeff]
  simp only [Polynomial.coeff_C_mul, Polynomial.coeff_mul_C]
  have GG := coeff2G_comm (X .q1 : P) (X .q2) p.natAbs c hn hU hV
  have SG := coeff2S_comm (X .q1 : P) (X .q2) c hn hU hV
  unfold M2
  have e1 := congrArg (fun x => C (alD 1 p) * x) GG
  have e2 := congrArg (fun x => C (alD 1 p) * C (beD 1 p) * x) SG
  simp only [Finset.mul_sum] at e1 e2
  have := congrArg₂ (· + ·) e1 e2
  simp only [← Finset.sum_add_distrib] at this
  refine Eq.trans ?_ (this.trans ?_) <;> exact Finset.sum_congr rfl (fun W _ => by ring)

/-- a homomorphism to the real numbers -/
theorem pos_hom2 (hn : 1 ≤ n) : ∃ f : Sym → ℝ, (∀ s, (∀ l, s ≠ .S l) → f s = 1) ∧ (∀ l, clsD n 1 l → 0 < f (.S l)) ∧
    ∀ (x : LMod) (g : WordD → P), (∀ l ∈ x.support, clsD n 1 l) →
      aeval f (ev2 n (act2 hn (GL n x) g)) = aeval f (ev x) * aeval f (ev2 n g) := by
  classical
  obtain ⟨u0, hu0, hl0⟩ := (WdD_cls (n := n) (k := 1) (by omega) []).1 (clsD_nil (by omega))
  let W := WdD n 1
  have : Nonempty W := ⟨⟨u0, hu0⟩⟩
  have hcon' : ∀ i j : W, Relation.ReflTransGen (fun i j : W => 0 < opG (1 : ℝ) 1 1 (i : WordD) j) i j := by
    intro i j
    have key : ∀ v, Relation.ReflTransGen (fun u w => u ∈ W ∧ w ∈ W ∧ 0 < opG (1 : ℝ) 1 1 u w) (i : WordD) v → ∀ hv : v ∈ W,
        Relation.ReflTransGen (fun i j : W => 0 < opG (1 : ℝ) 1 1 (i : WordD) j) i ⟨v, hv⟩ := by
      intro v h
      induction h with
      | refl => intro hv; exact .refl
      | tail _ h ih => intro hv; exact (ih h.1).tail h.2.2
    exact key j (conn_D n 1 (fun _ => one_pos) zero_le_one one_pos i.2 j.2) j.2
  obtain ⟨c, hcpos, heig⟩ := perron_common (ι := W) (A := Matrix.of fun i j : W => opG (1 : ℝ) 1 1 (i : WordD) j)
    (fun i j => opG_nonneg zero_le_one zero_le_one _ _) hcon'
  have hc0 := hcpos ⟨u0, hu0⟩
  let e : List Int → ℝ := fun l => if h : ∃ u ∈ W, labD u = l then c ⟨h.choose, h.choose_spec.1⟩ / c ⟨u0, hu0⟩ else 1
  have helab : ∀ (u : WordD) (hu : u ∈ W), e (labD u) = c ⟨u, hu⟩ / c ⟨u0, hu0⟩ := by
    intro u hu
    have h : ∃ w ∈ W, labD w = labD u := ⟨u, hu, rfl⟩
    simp only [e]
    rw [dif_pos h]
    congr 2
    exact Subtype.ext (WdD_inj _ h.choose_spec.1 u hu h.choose_spec.2)
  let f : Sym → ℝ := fun s => match s with
    | .S l => e l
    | _ => 1
  have f1 : ∀ s, (∀ l, s ≠ .S l) → f s = 1 := by
    intro s hs
    cases s with
    | S l => exact absurd rfl (hs l)
    | _ => rfl
  let ψ : Polynomial P →+* ℝ := Polynomial.eval₂RingHom (aeval f : P →ₐ[ℚ] ℝ).toRingHom 1
  have ψC : ∀ a : P, ψ (Polynomial.C a) = aeval f a := fun a => by
    simp only [ψ, Polynomial.coe_eval₂RingHom, Polynomial.eval₂_C]
    rfl
  have ψX : ψ Polynomial.X = 1 := by simp only [ψ, Polynomial.coe_eval₂RingHom, Polynomial.eval₂_X]
  have ψO : ∀ U ∈ W, ∀ V ∈ W, ψ (op2G (Polynomial.C (X .q1)) (Polynomial.C (X .q2)) (Polynomial.X : Polynomial P) U V) = opG 1 1 1 U V := by
    intro U hU V hV
    rw [op2G_map, ψC, ψC, ψX, aeval_X, aeval_X, ← op2G_one hU hV]
  have hev : ∀ g : WordD → P, aeval f (ev2 n g) = ∑ U ∈ W, aeval f (g U) * e (labD U) := by
    intro g
    unfold ev2
    rw [map_sum]
    refine Finset.sum_congr rfl (fun U _ => ?_)
    rw [map_mul, aeval_X]
  have hsm : ∀ (a : P) (g : WordD → P), aeval f (ev2 n (a • g)) = aeval f a * aeval f (ev2 n g) := fun a g => by rw [ev2_smul, map_mul]
  have hT : ∀ p, ∃ r : ℝ, ∀ g : WordD → P, aeval f (ev2 n (T2 n p g)) = r * aeval f (ev2 n g) := by
    intro p
    obtain ⟨r, hr⟩ := heig (Matrix.of fun i j : W => aeval f (M2 p (i : WordD) j)) (by
      ext i j
      rw [Matrix.mul_apply, Matrix.mul_apply]
      have := congrArg ψ (M2_op_comm hn p i.2 j.2)
      rw [map_sum, map_sum, ← Finset.sum_coe_sort W, ← Finset.sum_coe_sort W] at this
      simp only [map_mul, ψC] at this
      refine Eq.trans ?_ (this.trans ?_) <;> refine Finset.sum_congr rfl (fun w _ => ?_)
      · rw [ψO _ w.2 _ j.2]; rfl
      · rw [ψO _ i.2 _ w.2]; rfl)
    refine ⟨r, fun g => ?_⟩
    have hr' : ∀ U ∈ W, ∑ V ∈ W, aeval f (M2 p U V) * e (labD V) = r * e (labD U) := by
      intro U hU
      have h2 := congrFun hr ⟨U, hU⟩
      simp only [Matrix.mulVec, dotProduct, Pi.smul_apply, smul_eq_mul, Matrix.of_apply] at h2
      rw [helab U hU, ← mul_div_assoc, ← h2, div_eq_mul_inv, Finset.sum_mul, ← Finset.sum_coe_sort W]
      refine Finset.sum_congr rfl (fun w _ => ?_)
      rw [helab w w.2, div_eq_mul_inv, ← mul_assoc]
    rw [hev, hev]
    have h3 : ∀ V ∈ W, aeval f (T2 n p g V) * e (labD V) = ∑ U ∈ W, aeval f (g U) * (aeval f (M2 p U V) * e (labD V)) := by
      intro V hV
      rw [T2_apply, if_pos hV, map_sum, Finset.sum_mul]
      refine Finset.sum_congr rfl (fun U _ => ?_)
      rw [map_mul, mul_assoc]
    rw [Finset.sum_congr rfl h3, Finset.sum_comm, Finset.mul_sum]
    refine Finset.sum_congr rfl (fun U hU => ?_)
    rw [← Finset.mul_sum, hr' U hU]
    ring
  have h2 : ∀ s, ∃ r : ℝ, ∀ g : WordD → P, aeval f (ev2 n (op2 n s g)) = r * aeval f (ev2 n g) := by
    intro s
    rcases op2_cases n s with h | h | ⟨p, h⟩
    · refine ⟨1, fun g => ?_⟩
      rw [h, Module.algebraMap_end_apply, hsm, aeval_X, f1 .q (by simp)]
    · refine ⟨0, fun g => ?_⟩
      rw [h, hev]
      simp
    · rw [h]
      exact hT p
  choose ρ hρ using h2
  have h3 : ∀ (a : P) (g : WordD → P), aeval f (ev2 n (act2 hn a g)) = aeval ρ a * aeval f (ev2 n g) := by
    intro a
    induction a using MvPolynomial.induction_on with
    | C c =>
      intro g
      rw [act2_C, hsm, aeval_C, aeval_C]
    | add p q hp hq =>
      intro g
      rw [map_add, LinearMap.add_apply, ev2_add, map_add, hp, hq, map_add, add_mul]
    | mul_X p s hp =>
      intro g
      rw [map_mul, Module.End.mul_apply, hp, map_mul, aeval_X, mul_assoc]
      congr 1
      unfold act2
      rw [commAct_X, hρ]
  have hone : aeval f (ev2 n (bas n [])) = 1 := by
    have := ev2_bas (n := n) hu0 1
    rw [one_smul, one_mul, hl0] at this
    rw [this, aeval_X]
    show e [] = 1
    rw [← hl0, helab u0 hu0, div_self hc0.ne']
  refine ⟨f, f1, ?_, fun x g hx => ?_⟩
  · intro l hl
    obtain ⟨u, hu, rfl⟩ := (WdD_cls (n := n) (k := 1) (by omega) l).1 hl
    show 0 < e (labD u)
    rw [helab u hu]
    exact div_pos (hcpos _) hc0
  · have hx1 := h3 (GL n x) (bas n [])
    rw [act_GL hn hx, hone, mul_one, ev2_vecL hn hx] at hx1
    rw [h3, hx1]

end
end TwoProd
end Verif
