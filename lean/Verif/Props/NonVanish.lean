import Verif.Proofs.WordConn
import Verif.Props.SeidelBCD
import Verif.Props.Verlinde
/-!
# C121: positive homomorphisms of the quantum rings of types B, C and D; no quantum product of classes vanishes
-/

namespace Verif
open Spec MvPolynomial

/-- the value at `q = 1` of the sum of the coefficients -/
noncomputable def φ1 : Polynomial (Polynomial ℚ) →+* ℝ := Polynomial.eval₂RingHom (Polynomial.aeval (1 : ℝ)).toRingHom 1

theorem φ1_C (g : Polynomial ℚ) : φ1 (Polynomial.C g) = Polynomial.aeval (1 : ℝ) g := by
  unfold φ1
  rw [Polynomial.coe_eval₂RingHom, Polynomial.eval₂_C]
  rfl

theorem φ1_X : φ1 Polynomial.X = 1 := by
  unfold φ1
  rw [Polynomial.coe_eval₂RingHom, Polynomial.eval₂_X]

/-- the sum of the coefficients commutes, when each of the coefficients does -/
theorem comm_eval {ι : Type} {W : Finset ι} {M : ι → ι → Polynomial ℚ} {F : ι → ι → Polynomial (Polynomial ℚ)} {u v : ι} (hu : u ∈ W) (hv : v ∈ W)
    (h : ∀ b, ∑ w ∈ W, M u w * (F w v).coeff b = ∑ w ∈ W, (F u w).coeff b * M w v) :
    ∑ w ∈ W, Polynomial.aeval (1 : ℝ) (M u w) * Polynomial.eval₂ (Polynomial.aeval (1 : ℝ)).toRingHom 1 (F w v) =
      ∑ w ∈ W, Polynomial.eval₂ (Polynomial.aeval (1 : ℝ)).toRingHom 1 (F u w) * Polynomial.aeval (1 : ℝ) (M w v) := by
  obtain ⟨D, hD⟩ : ∃ D, ∀ w ∈ W, (F w v).natDegree < D ∧ (F u w).natDegree < D := by
    refine ⟨W.sup (fun w => max (F w v).natDegree (F u w).natDegree) + 1, fun w hw => ?_⟩
    have := Finset.le_sup (f := fun w => max (F w v).natDegree (F u w).natDegree) hw
    have h1 := le_max_left (F w v).natDegree (F u w).natDegree
    have h2 := le_max_right (F w v).natDegree (F u w).natDegree
    constructor <;> omega
  have e1 : ∀ w ∈ W, Polynomial.aeval (1 : ℝ) (M u w) * Polynomial.eval₂ (Polynomial.aeval (1 : ℝ)).toRingHom 1 (F w v) =
      ∑ b ∈ Finset.range D, Polynomial.aeval (1 : ℝ) (M u w * (F w v).coeff b) := by
    intro w hw
    rw [Polynomial.eval₂_eq_sum_range' _ (hD w hw).1, Finset.mul_sum]
    refine Finset.sum_congr rfl (fun b _ => ?_)
    rw [one_pow, mul_one, map_mul]
    rfl
  have e2 : ∀ w ∈ W, Polynomial.eval₂ (Polynomial.aeval (1 : ℝ)).toRingHom 1 (F u w) * Polynomial.aeval (1 : ℝ) (M w v) =
      ∑ b ∈ Finset.range D, Polynomial.aeval (1 : ℝ) ((F u w).coeff b * M w v) := by
    intro w hw
    rw [Polynomial.eval₂_eq_sum_range' _ (hD w hw).2, Finset.sum_mul]
    refine Finset.sum_congr rfl (fun b _ => ?_)
    rw [one_pow, mul_one, map_mul]
    rfl
  rw [Finset.sum_congr rfl e1, Finset.sum_congr rfl e2, Finset.sum_comm, Finset.sum_comm (s := W)]
  refine Finset.sum_congr rfl (fun b _ => ?_)
  rw [← map_sum, ← map_sum, h b]

/-- `f` gives a value to `q` and to every class: `1` to `q`, a positive number to every class, and the value of a product of two linear
combinations of classes with coefficients in `q` is the product of the values. -/
def Spec.PosHom (cls : List Int → Prop) (mul : Poly → Poly → Except PyErr Poly) (f : Sym → ℝ) : Prop :=
  f .q = 1 ∧ (∀ l, cls l → 0 < f (.S l)) ∧
    ∀ a b, LinComb cls a → LinComb cls b → ∃ w, mul a b = .ok w ∧ LinComb cls w ∧ valueAt f w = valueAt f a * valueAt f b

theorem posHom_foldl {cls : List Int → Prop} {mul : Poly → Poly → Except PyErr Poly} {f : Sym → ℝ} (h : PosHom cls mul f) (h0 : cls [])
    (ls : List (List Int)) (hls : ∀ l ∈ ls, cls l) :
    ∃ w, ls.foldlM (fun a l => mul a (Poly.sym (.S l))) (Poly.sym (.S [])) = .ok w ∧ w ≠ [] := by
  have hlc : ∀ l, cls l → LinComb cls (Poly.sym (.S l)) := fun l hl =>
    ⟨wf_sym (.S l), fun t ht => ⟨0, l, by rw [List.mem_singleton.1 ht]; rfl, hl⟩⟩
  have key : ∀ (ls : List (List Int)) (a : Poly), (∀ l ∈ ls, cls l) → LinComb cls a → 0 < valueAt f a →
      ∃ w, ls.foldlM (fun a l => mul a (Poly.sym (.S l))) a = .ok w ∧ 0 < valueAt f w := by
    intro ls
    induction ls with
    | nil => exact fun a _ _ h => ⟨a, rfl, h⟩
    | cons l ls ih =>
      intro a hl ha hv
      have hc := hl l (by simp)
      obtain ⟨w, h1, h2, h3⟩ := h.2.2 a _ ha (hlc l hc)
      obtain ⟨w', h4, h5⟩ := ih w (fun l' hl' => hl l' (by simp [hl'])) h2 (by
        rw [h3, valueAt_sym]
        exact mul_pos hv (h.2.1 l hc))
      refine ⟨w', ?_, h5⟩
      rw [List.foldlM_cons, h1]
      exact h4
  obtain ⟨w, h1, h2⟩ := key ls _ hls (hlc [] h0) (by rw [valueAt_sym]; exact h.2.1 [] h0)
  refine ⟨w, h1, ?_⟩
  rintro rfl
  simp [valueAt] at h2

theorem RingOn.posHom {X : Space} {pieri : Int → List Int → Except PyErr Poly} {spc : Int → Prop} {cls : List Int → Prop} {B : Nat}
    (R : RingOn X pieri spc cls B) {f : Sym → ℝ} (hq : f .q = 1) (hpos : ∀ l, cls l → 0 < f (.S l))
    (hmul : ∀ x y : LMod, (∀ l ∈ x.support, cls l) → (∀ l ∈ y.support, cls l) → aeval f (ev (R.Y.prod x y)) = aeval f (ev x) * aeval f (ev y))
    {fuel : ℕ} (hf : B ≤ fuel) : PosHom cls (gmult X pieri fuel) f := by
  refine ⟨hq, hpos, fun a b ha hb => ?_⟩
  obtain ⟨x, hx, hxc⟩ := linComb_ev ha.2
  obtain ⟨y, hy, hyc⟩ := linComb_ev hb.2
  obtain ⟨w, h1, h2, h3⟩ := R.mult hf ha.1 hx hxc hb.1 hy hyc
  refine ⟨w, h1, linComb_of_ev h2 h3 (R.Y.act_support _ hyc), ?_⟩
  rw [valueAt_den, valueAt_den, valueAt_den, h3, hx, hy]
  exact hmul x y hxc hyc

/-! ### IG(m, 2n) -/

/-- **C121**, type C. -/
theorem C121_IG (ord : List Int → List Int) {m n : ℕ} {X : Space} (hX : mkIG m (2 * n) = .ok X) {fuel : ℕ} (hf : giamBoundBC m n ≤ fuel) :
    ∃ f, PosHom (BCClass m n) (X.qmult ord fuel) f := by
  obtain ⟨a, b, h, h1, h2, rfl⟩ := igCase hX
  obtain rfl : n = a := by omega
  rw [h2, giamBoundBC_eq h] at hf
  rw [h2, bcClass_eq h]
  have hA : ∀ u w, Polynomial.eval₂ (Polynomial.aeval (1 : ℝ)).toRingHom 1
      (opW (Polynomial.C 1) (Polynomial.C (Polynomial.C (1 / 2) * Polynomial.X)) Polynomial.X u w : Polynomial (Polynomial ℚ)) =
      opW 1 (1 / 2) 1 u w := by
    intro u w
    have := opW_map φ1 (Polynomial.C 1)
      (Polynomial.C (Polynomial.C (1 / 2) * Polynomial.X)) Polynomial.X u w
    rw [φ1_C, φ1_C, φ1_X] at this
    refine this.trans ?_
    congr 1
    · simp
    · simp
  obtain ⟨f, f1, f2, f3⟩ := (ringQIG ord n b h).Y.pos_hom (W := Wd n b) (lab := labW) Wd_inj (Wd_cls h) (ringQIG ord n b h).nil
    (M := fun p => MC (Polynomial.C (1 / 2) * Polynomial.X) p.toNat)
    (fun p _ u hu => tM_lab _ Wd_inj p.toNat hu)
    (A := opW 1 (1 / 2) 1) (fun u _ w _ => opW_nonneg one_pos (by norm_num) u w)
    (fun p _ u hu v hv => by
      simp only [← hA]
      exact comm_eval hu hv (fun c => MC_comm _ n b p.toNat c u hu v hv))
    (fun u hu w hw => conn_C one_pos (by norm_num) hu hw)
  exact ⟨f, (ringQIG ord n b h).posHom (f1 .q (by simp)) f2 f3 hf⟩

/-- **C121**, type C. No quantum product of any number of classes vanishes. -/
theorem C121_IG_nonzero (ord : List Int → List Int) {m n : ℕ} {X : Space} (hX : mkIG m (2 * n) = .ok X) {fuel : ℕ}
    (hf : giamBoundBC m n ≤ fuel) (ls : List (List Int)) (hls : ∀ l ∈ ls, BCClass m n l) :
    ∃ w, ls.foldlM (fun a l => X.qmult ord fuel a (Poly.sym (.S l))) (Poly.sym (.S [])) = .ok w ∧ w ≠ [] := by
  obtain ⟨f, h⟩ := C121_IG ord hX hf
  refine posHom_foldl h ?_ ls hls
  obtain ⟨a, b, hb, h1, h2, rfl⟩ := igCase hX
  rw [h1, h2, bcClass_eq hb]
  exact clsBC_nil hb

/-! ### OG(m, 2n+1) -/

/-- **C121**, type B. -/
theorem C121_OG_odd (ord : List Int → List Int) {m n : ℕ} (hm : 0 < m) (hmn : m ≤ n) {X : Space} (hX : mkOG m (2 * n + 1) = .ok X) {fuel : ℕ}
    (hf : giamBoundBC m n ≤ fuel) : ∃ f, PosHom (BCClass m n) (X.qmult ord fuel) f := by
  obtain ⟨a, b, h, h1, h2, rfl⟩ := ogCase' (by omega) (by omega) hX
  obtain rfl : n = a := by omega
  rw [h2, giamBoundBC_eq h.le] at hf
  rw [h2, bcClass_eq h.le]
  have hA : ∀ u w, Polynomial.eval₂ (Polynomial.aeval (1 : ℝ)).toRingHom 1
      (opQ (Polynomial.C 2) (Polynomial.C Polynomial.X) (Polynomial.C (if b = 0 then Polynomial.X else Polynomial.X ^ 2)) Polynomial.X u w :
        Polynomial (Polynomial ℚ)) = opQ 2 1 1 1 u w := by
    intro u w
    have := opQ_map φ1 (Polynomial.C 2) (Polynomial.C Polynomial.X)
      (Polynomial.C (if b = 0 then Polynomial.X else Polynomial.X ^ 2)) Polynomial.X u w
    have e : Polynomial.aeval (1 : ℝ) (if b = 0 then (Polynomial.X : Polynomial ℚ) else Polynomial.X ^ 2) = 1 := by
      split <;> simp
    rw [φ1_C, φ1_C, φ1_C, φ1_X, e] at this
    refine this.trans ?_
    rw [map_ofNat, Polynomial.aeval_X]
  obtain ⟨f, f1, f2, f3⟩ := (ringQOG ord n b h).Y.pos_hom (W := Wd n b) (lab := labW) Wd_inj (Wd_cls h.le) (ringQOG ord n b h).nil
    (M := fun p => MQB b p.toNat)
    (fun p _ u hu => tM_lab _ Wd_inj p.toNat hu)
    (A := opQ 2 1 1 1) (fun u _ w _ => opQ_nonneg two_pos one_pos one_pos u w)
    (fun p _ u hu v hv => by
      simp only [← hA]
      refine comm_eval hu hv (fun c => ?_)
      have := coeffQ_comm (2 : Polynomial ℚ) Polynomial.X (if b = 0 then Polynomial.X else Polynomial.X ^ 2) p.toNat c (n := n) (k := b)
        (by by_cases hb : b = 0 <;> simp [hb]) hu hv
      have := congrArg (fun x => Polynomial.C (scB b p.toNat) * x) this
      simp only [Finset.mul_sum] at this
      simp only [MQB, mul_assoc]
      rw [this]
      exact Finset.sum_congr rfl (fun w _ => by ring))
    (fun u hu w hw => conn_B two_pos one_pos one_pos n b hu hw)
  exact ⟨f, (ringQOG ord n b h).posHom (f1 .q (by simp)) f2 f3 hf⟩

/-- **C121**, type B. No quantum product of any number of classes vanishes. -/
theorem C121_OG_odd_nonzero (ord : List Int → List Int) {m n : ℕ} (hm : 0 < m) (hmn : m ≤ n) {X : Space} (hX : mkOG m (2 * n + 1) = .ok X)
    {fuel : ℕ} (hf : giamBoundBC m n ≤ fuel) (ls : List (List Int)) (hls : ∀ l ∈ ls, BCClass m n l) :
    ∃ w, ls.foldlM (fun a l => X.qmult ord fuel a (Poly.sym (.S l))) (Poly.sym (.S [])) = .ok w ∧ w ≠ [] := by
  obtain ⟨f, h⟩ := C121_OG_odd ord hm hmn hX hf
  refine posHom_foldl h ?_ ls hls
  obtain ⟨a, b, hb, h1, h2, rfl⟩ := ogCase' (by omega) (by omega) hX
  rw [h1, h2, bcClass_eq hb.le]
  exact clsBC_nil hb.le

/-! ### OG(m, 2n+2) -/

theorem MDg_coeff_comm {n k : ℕ} {p : Int} (hp : k = 0 → p ≠ 0) (c : ℕ) {U V : WordD} (hU : U ∈ WdD n k) (hV : V ∈ WdD n k) :
    ∑ W ∈ WdD n k, MDg (hQ k) (hQ' k) k p U W * (opG (Polynomial.C (hQ k)) (Polynomial.C (hQ' k)) Polynomial.X W V).coeff c =
      ∑ W ∈ WdD n k, (opG (Polynomial.C (hQ k)) (Polynomial.C (hQ' k)) Polynomial.X U W).coeff c * MDg (hQ k) (hQ' k) k p W V := by
  have key : ∀ a : Int, (k = 0 → a ≠ 0) → ∑ W ∈ WdD n k, MDg (hQ k) (hQ' k) k p U W * MDg (hQ k) (hQ' k) k a W V =
      ∑ W ∈ WdD n k, MDg (hQ k) (hQ' k) k a U W * MDg (hQ k) (hQ' k) k p W V := fun a ha => MDg_comm hQ_zero hQ_sq hp ha U hU V hV
  rcases Nat.eq_zero_or_pos c with rfl | hc
  · have e1 : ∀ W ∈ WdD n k, MDg (hQ k) (hQ' k) k p U W * (opG (Polynomial.C (hQ k)) (Polynomial.C (hQ' k)) Polynomial.X W V).coeff 0 =
        if W = V then MDg (hQ k) (hQ' k) k p U V else 0 := by
      intro W hW
      rw [opG_zero _ _ (by rw [(mem_WdD.1 hW).1, (mem_WdD.1 hV).1])]
      by_cases h : W = V
      · rw [if_pos h, if_pos h, h, mul_one]
      · rw [if_neg h, if_neg h, mul_zero]
    have e2 : ∀ W ∈ WdD n k, (opG (Polynomial.C (hQ k)) (Polynomial.C (hQ' k)) Polynomial.X U W).coeff 0 * MDg (hQ k) (hQ' k) k p W V =
        if U = W then MDg (hQ k) (hQ' k) k p U V else 0 := by
      intro W hW
      rw [opG_zero _ _ (by rw [(mem_WdD.1 hW).1, (mem_WdD.1 hU).1])]
      by_cases h : U = W
      · rw [if_pos h, if_pos h, ← h, one_mul]
      · rw [if_neg h, if_neg h, zero_mul]
    rw [Finset.sum_congr rfl e1, Finset.sum_congr rfl e2, Finset.sum_ite_eq', Finset.sum_ite_eq, if_pos hU, if_pos hV]
  · obtain ⟨α, hG⟩ : ∃ α : ℚ, ∀ U W : WordD, (opG (Polynomial.C (hQ k)) (Polynomial.C (hQ' k)) Polynomial.X U W).coeff c =
        Polynomial.C α * (MDg (hQ k) (hQ' k) k c U W + MDg (hQ k) (hQ' k) k (if c = k then -c else c) U W) := by
      rcases Nat.lt_trichotomy c k with h | h | h
      · refine ⟨1 / 2, fun U W => ?_⟩
        rw [if_neg (by omega)]
        unfold MDg alD beD
        rw [if_pos (by simpa using h), if_neg (by simp; omega)]
        simp only [Int.natAbs_natCast, map_one, one_mul, map_zero, zero_mul, add_zero, ← two_mul, ← mul_assoc]
        rw [show (2 : Polynomial ℚ) = Polynomial.C 2 from rfl, ← Polynomial.C_mul]
        norm_num
      · refine ⟨1, fun U W => ?_⟩
        rw [if_pos h]
        unfold MDg alD beD
        rw [if_neg (by simp; omega), if_pos (by simpa using h), if_neg (by simp; omega), if_pos (by simpa using h)]
        unfold sgD
        rw [if_pos (by omega), if_neg (by omega)]
        simp only [Int.natAbs_natCast, Int.natAbs_neg, map_one, one_mul, map_neg]
        rw [← mul_add, show ∀ x y : Polynomial ℚ, x + y + (x + -1 * y) = Polynomial.C 2 * x from fun x y => by
          rw [show (Polynomial.C 2 : Polynomial ℚ) = 2 from rfl]; ring, ← mul_assoc, ← Polynomial.C_mul]
        norm_num
      · refine ⟨1, fun U W => ?_⟩
        rw [if_neg (by omega)]
        unfold MDg alD beD
        rw [if_neg (by simp; omega), if_neg (by simp; omega)]
        simp only [Int.natAbs_natCast, map_one, one_mul, map_zero, zero_mul, add_zero, ← two_mul, ← mul_assoc]
        rw [show (2 : Polynomial ℚ) = Polynomial.C 2 from rfl, ← Polynomial.C_mul]
        norm_num
    simp only [hG]
    have h1 := key c (fun _ => by omega)
    have h2 := key (if c = k then -c else c) (fun _ => by split <;> omega)
    have h3 : ∀ {f g f' g' : WordD → Polynomial ℚ}, ∑ W ∈ WdD n k, f W = ∑ W ∈ WdD n k, g W →
        ∑ W ∈ WdD n k, f' W = ∑ W ∈ WdD n k, g' W →
        ∑ W ∈ WdD n k, Polynomial.C α * (f W + f' W) = ∑ W ∈ WdD n k, Polynomial.C α * (g W + g' W) := by
      intro f g f' g' e1 e2
      rw [← Finset.mul_sum, ← Finset.mul_sum, Finset.sum_add_distrib, Finset.sum_add_distrib, e1, e2]
    refine Eq.trans ?_ ((h3 h1 h2).trans ?_) <;> exact Finset.sum_congr rfl (fun W _ => by ring)

/-- **C121**, type D. -/
theorem C121_OG_even (ord : List Int → List Int) {m n : ℕ} (hm : 0 < m) (hmn : m ≤ n + 1) (hne : m ≠ n) {X : Space}
    (hX : mkOG m (2 * n + 2) = .ok X) {fuel : ℕ} (hf : giamBoundD m n ≤ fuel) : ∃ f, PosHom (DClass m n) (X.qmult ord fuel) f := by
  obtain ⟨a, b, h, hb, h1, h2, rfl⟩ := ogdCase' (by omega) (by omega) (by omega) hX
  obtain rfl : n = a := by omega
  rw [h2, giamBoundD_eq (by omega)] at hf
  rw [h2, dClass_eq (by omega)]
  obtain ⟨h0, hh0⟩ : ∃ x : ℝ, x = if b = 0 then 0 else 1 := ⟨_, rfl⟩
  have hA : ∀ U W, Polynomial.eval₂ (Polynomial.aeval (1 : ℝ)).toRingHom 1
      (opG (Polynomial.C (hQ b)) (Polynomial.C (hQ' b)) Polynomial.X U W) = opG h0 1 1 U W := by
    intro U W
    have := opG_map φ1 (Polynomial.C (hQ b)) (Polynomial.C (hQ' b)) Polynomial.X U W
    rw [φ1_C, φ1_C, φ1_X] at this
    refine this.trans ?_
    congr 1
    · rw [hh0]; unfold hQ; split <;> simp
    · unfold hQ'; split <;> simp
  obtain ⟨f, f1, f2, f3⟩ := (ringQD ord n b h hb).Y.pos_hom (W := WdD n b) (lab := labD) WdD_inj (WdD_cls (by omega)) (ringQD ord n b h hb).nil
    (M := fun p => MDg (hQ b) (hQ' b) b p)
    (fun p _ u hu => tDD_lab _ _ p hu)
    (A := opG h0 1 1) (fun u _ w _ => opG_nonneg (by rw [hh0]; split <;> norm_num) one_pos.le u w)
    (fun p hp u hu v hv => by
      simp only [← hA]
      exact comm_eval hu hv (fun c => MDg_coeff_comm (fun _ => spcD_nz p hp) c hu hv))
    (fun u hu w hw => conn_D n b (fun hk => by rw [hh0, if_neg hk]; exact one_pos) (by rw [hh0]; split <;> norm_num) one_pos hu hw)
  exact ⟨f, (ringQD ord n b h hb).posHom (f1 .q (by simp)) f2 f3 hf⟩

/-- **C121**, type D. No quantum product of any number of classes vanishes. -/
theorem C121_OG_even_nonzero (ord : List Int → List Int) {m n : ℕ} (hm : 0 < m) (hmn : m ≤ n + 1) (hne : m ≠ n) {X : Space}
    (hX : mkOG m (2 * n + 2) = .ok X) {fuel : ℕ} (hf : giamBoundD m n ≤ fuel) (ls : List (List Int)) (hls : ∀ l ∈ ls, DClass m n l) :
    ∃ w, ls.foldlM (fun a l => X.qmult ord fuel a (Poly.sym (.S l))) (Poly.sym (.S [])) = .ok w ∧ w ≠ [] := by
  obtain ⟨f, h⟩ := C121_OG_even ord hm hmn hne hX hf
  refine posHom_foldl h ?_ ls hls
  obtain ⟨a, b, hb, _, h1, h2, rfl⟩ := ogdCase' (by omega) (by omega) (by omega) hX
  rw [h1, h2, dClass_eq (by omega)]
  exact clsD_nil (by omega)

/-! ### Examples -/

/-- `IG(2,4)`: `S[2,1]*S[2]*S[2,1] = q^2*S[2]`, while the classical product is zero -/
example : mkIG 2 4 = .ok ⟨.C, 0, 2⟩ ∧ BCClass 2 2 [2, 1] ∧ BCClass 2 2 [2] ∧
    [[2, 1], [2], [2, 1]].foldlM (fun a l => (Space.mk .C 0 2).qmult id (giamBoundBC 2 2) a (Poly.sym (.S l))) (Poly.sym (.S [])) =
      .ok [([.q, .q, .S [2]], 1)] ∧
    (Space.mk .C 0 2).mult (giamBoundBC 2 2) (Poly.sym (.S [2, 1])) (Poly.sym (.S [2])) = .ok [] := by
  refine ⟨rfl, by decide +kernel, by decide +kernel, by decide +kernel, by decide +kernel⟩

/-- `OG(2,7)`: `S[4]*S[2,1] = q*S[2,1]` and `S[4]*S[4,3] = q^2*S[3]`, which is zero classically -/
example : mkOG 2 7 = .ok ⟨.B, 1, 3⟩ ∧ BCClass 2 3 [4, 3] ∧
    (Space.mk .B 1 3).qmult id (giamBoundBC 2 3) (Poly.sym (.S [4])) (Poly.sym (.S [2, 1])) = .ok [([.q, .S [2, 1]], 1)] ∧
    (Space.mk .B 1 3).mult (giamBoundBC 2 3) (Poly.sym (.S [4])) (Poly.sym (.S [4, 3])) = .ok [] ∧
    (Space.mk .B 1 3).qmult id (giamBoundBC 2 3) (Poly.sym (.S [4])) (Poly.sym (.S [4, 3])) = .ok [([.q, .q, .S [3]], 1)] := by
  refine ⟨rfl, by decide +kernel, by decide +kernel, by decide +kernel, by decide +kernel⟩

/-- `OG(1,6)`: `S[4]*S[2,0] = q*S[2]`, which is zero classically -/
example : mkOG 1 6 = .ok ⟨.D, 2, 2⟩ ∧ DClass 1 2 [2, 0] ∧
    (Space.mk .D 2 2).mult (giamBoundD 1 2) (Poly.sym (.S [4])) (Poly.sym (.S [2, 0])) = .ok [] ∧
    (Space.mk .D 2 2).qmult id (giamBoundD 1 2) (Poly.sym (.S [4])) (Poly.sym (.S [2, 0])) = .ok [([.q, .S [2]], 1)] := by
  refine ⟨rfl, by decide +kernel, by decide +kernel, by decide +kernel⟩

end Verif
