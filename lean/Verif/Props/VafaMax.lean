import Verif.Proofs.Frobenius
import Verif.Proofs.SignPoints
import Verif.Props.QTilde
import Verif.Props.Symm
import Verif.Props.Verlinde
import Mathlib.Analysis.Complex.Polynomial.Basic
/-!
# C129: the formula of Vafa and Intriligator for `IG(n, 2n)`, `OG(n, 2n+1)` and `OG(n+1, 2n+2)`
-/

namespace Verif
open Spec MvPolynomial

section
variable {cls : List Int → Prop} {mul : Poly → Poly → Except PyErr Poly} {dual : List Int → Except PyErr (List Int)} {dq : Int}

theorem graded_degree (hgr : Graded cls dq mul) (hdq : 0 < dq) {l mu nu : List Int} (hl : cls l) (hmu : cls mu) {w : Poly}
    (hw : mul (Poly.sym (.S l)) (Poly.sym (.S mu)) = .ok w) {d : ℕ} (hd : l.sum + mu.sum = nu.sum + d * dq) {e : ℕ} (he : e ≠ d) :
    coeffOf (List.replicate e Sym.q ++ [.S nu]) w = 0 := by
  obtain ⟨w', h1, h2⟩ := hgr l mu hl hmu
  obtain rfl : w = w' := Except.ok.inj (hw.symm.trans h1)
  by_contra hc
  have hex : ∃ t ∈ w, t.1 = List.replicate e Sym.q ++ [.S nu] := by
    by_contra hno
    push Not at hno
    apply hc
    unfold coeffOf
    rw [List.filter_eq_nil_iff.2 (fun t ht => by simp only [decide_eq_true_eq]; exact hno t ht)]
    rfl
  obtain ⟨t, ht, ht1⟩ := hex
  obtain ⟨d', nu', h3, _, h5⟩ := h2 t ht
  obtain ⟨rfl, rfl⟩ := qmono_inj (d := e) (d' := d') (l := nu) (l' := nu') (by rw [← expo_qmono, ← expo_qmono, ← ht1, ← h3])
  rw [hd] at h5
  have h6 : ((e : ℤ) - d) * dq = 0 := by rw [sub_mul]; omega
  rcases mul_eq_zero.1 h6 with h | h
  · omega
  · omega

/-- `f i` for `i` in `ι` are as many different ring homomorphisms with `q = 1` as there are classes: the coefficients of the product are given by the
values of the classes. -/
def Spec.CharacterFormula {K ι : Type} [Field K] [Algebra ℚ K] [Fintype ι] (T : Finset (List Int)) (dl : List Int → List Int) (dq : Int)
    (mul : Poly → Poly → Except PyErr Poly) (val : ι → List Int → K) : Prop :=
  (∀ i j, i ≠ j → ∑ l ∈ T, val i l * val j (dl l) = 0) ∧ (∀ i, ∑ l ∈ T, val i l * val i (dl l) ≠ 0) ∧
  ∀ l ∈ T, ∀ mu ∈ T, ∃ w, mul (Poly.sym (.S l)) (Poly.sym (.S mu)) = .ok w ∧ ∀ nu ∈ T, ∀ d : ℕ, l.sum + mu.sum = nu.sum + d * dq →
    algebraMap ℚ K (coeffOf (List.replicate d Sym.q ++ [.S nu]) w) =
      ∑ i, val i l * val i mu * val i (dl nu) / ∑ ka ∈ T, val i ka * val i (dl ka)

theorem characterFormula {K ι : Type} [Field K] [Algebra ℚ K] [Fintype ι] (hsym : DualSymmetric cls mul dual) (hgr : Graded cls dq mul)
    (hdq : 0 < dq) {T : Finset (List Int)} (hT : ∀ l, l ∈ T ↔ cls l) {dl : List Int → List Int} (hd : ∀ l, cls l → dual l = .ok (dl l))
    (hdd : ∀ l, cls l → cls (dl l) ∧ dl (dl l) = l) (hnil : cls [])
    (hclosed : ∀ l mu, cls l → cls mu → ∃ w, mul (Poly.sym (.S l)) (Poly.sym (.S mu)) = .ok w ∧ LinComb cls w)
    {f : ι → Sym → K} (hq : ∀ i, f i .q = 1) (hone : ∀ i, f i (.S []) = 1)
    (hhom : ∀ i l mu, cls l → cls mu → ∃ w, mul (Poly.sym (.S l)) (Poly.sym (.S mu)) = .ok w ∧ valueAt (f i) w = f i (.S l) * f i (.S mu))
    (hdist : ∀ i j, (∀ l, cls l → f i (.S l) = f j (.S l)) → i = j) (hcard : Fintype.card ι = T.card) :
    CharacterFormula T dl dq mul (fun i l => f i (.S l)) := by
  classical
  have hex : ∀ a b : T, ∃ w : Poly, ∃ x : LMod, mul (Poly.sym (.S a)) (Poly.sym (.S b)) = .ok w ∧ WF w ∧ den w = ev x ∧ ∀ l ∈ x.support, cls l := by
    intro a b
    obtain ⟨w, h1, h2⟩ := hclosed a b ((hT _).1 a.2) ((hT _).1 b.2)
    obtain ⟨x, hx, hxc⟩ := linComb_ev h2.2
    exact ⟨w, x, h1, h2.1, hx, hxc⟩
  choose W Xx hW using hex
  obtain ⟨N, hN⟩ : ∃ N : T → T → T → K, N = fun a b (c : T) => Polynomial.aeval (1 : K) (Xx a b (c : List Int)) := ⟨_, rfl⟩
  obtain ⟨D, hD⟩ : ∃ D : T → T, ∀ a, (D a : List Int) = dl a := ⟨fun a => ⟨dl a, (hT _).2 (hdd a ((hT _).1 a.2)).1⟩, fun _ => rfl⟩
  obtain ⟨g, hg⟩ : ∃ g : ι → T → K, ∀ i a, g i a = f i (.S a) := ⟨fun i a => f i (.S a), fun _ _ => rfl⟩
  have hco : ∀ a b c : T, ∀ d, coeffOf (List.replicate d Sym.q ++ [.S c]) (W a b) = (Xx a b c).coeff d := fun a b c d => by
    obtain ⟨-, h2, h3, -⟩ := hW a b
    rw [coeffOf_den h2 (qmono_sorted d c), expo_qmono, h3, coeff_ev]
  have c1 : ∀ i a b, g i a * g i b = ∑ c, N a b c * g i c := by
    intro i a b
    obtain ⟨h1, h2, h3, h4⟩ := hW a b
    obtain ⟨w, h5, h6⟩ := hhom i a b ((hT _).1 a.2) ((hT _).1 b.2)
    rw [h1] at h5
    cases h5
    rw [hg, hg, ← h6, valueAt_den, h3, aeval_ev, hq, Finsupp.sum_of_support_subset _ (fun l hl => (hT l).2 (h4 l hl)) _ (by simp), ← Finset.sum_coe_sort]
    exact Finset.sum_congr rfl (fun c _ => by rw [hg, hN])
  have c2 : ∀ i, g i ⟨[], (hT _).2 hnil⟩ = 1 := fun i => by rw [hg]; exact hone i
  have c3 : Function.Injective g := fun i j h => hdist i j (fun l hl => by
    have := congrFun h ⟨l, (hT l).2 hl⟩
    rwa [hg, hg] at this)
  have c4 : Fintype.card ι = Fintype.card T := by rw [hcard, Fintype.card_coe]
  have c5 : ∀ a, D (D a) = a := fun a => Subtype.ext (by rw [hD, hD, (hdd a ((hT _).1 a.2)).2])
  have c6 : ∀ a b c, N a b c = N b (D c) (D a) := by
    intro a b c
    obtain ⟨l', nu', w, w', h1, h2, -, -, h5, h6, h7⟩ := hsym a b c ((hT _).1 a.2) ((hT _).1 b.2) ((hT _).1 c.2)
    rw [hd _ ((hT _).1 a.2)] at h1
    rw [hd _ ((hT _).1 c.2)] at h2
    cases h1
    cases h2
    rw [(hW a b).1] at h5
    cases h5
    rw [← hD, (hW b (D c)).1] at h6
    cases h6
    rw [hN]
    have : Xx a b c = Xx b (D c) (D a) := by
      ext d
      rw [← hco, ← hco, h7 d, hD]
    show Polynomial.aeval 1 (Xx a b c) = Polynomial.aeval 1 (Xx b (D c) (D a))
    rw [this]
  have hsum : ∀ i j, ∑ l ∈ T, f i (.S l) * f j (.S (dl l)) = ∑ a, g i a * g j (D a) := fun i j => by
    rw [← Finset.sum_coe_sort]
    exact Finset.sum_congr rfl (fun a _ => by rw [hg, hg, hD])
  refine ⟨fun i j hij => ?_, fun i => ?_, fun l hl mu hmu => ⟨W ⟨l, hl⟩ ⟨mu, hmu⟩, (hW ⟨l, hl⟩ ⟨mu, hmu⟩).1, fun nu hnu d hdeg => ?_⟩⟩
  · rw [hsum]
    exact Frob.orth c1 c3 c5 c6 hij
  · rw [hsum]
    exact Frob.euler_ne c1 c2 c3 c4 c5 c6 i
  · have key := Frob.formula c1 c2 c3 c4 c5 c6 ⟨l, hl⟩ ⟨mu, hmu⟩ ⟨nu, hnu⟩
    have hx : Xx ⟨l, hl⟩ ⟨mu, hmu⟩ nu = Polynomial.monomial d ((Xx ⟨l, hl⟩ ⟨mu, hmu⟩ nu).coeff d) := by
      ext e
      rw [Polynomial.coeff_monomial]
      split
      · rename_i h; rw [h]
      · rename_i h
        rw [← hco ⟨l, hl⟩ ⟨mu, hmu⟩ ⟨nu, hnu⟩ e]
        exact graded_degree hgr hdq ((hT _).1 hl) ((hT _).1 hmu) (hW ⟨l, hl⟩ ⟨mu, hmu⟩).1 hdeg (Ne.symm h)
    rw [hco ⟨l, hl⟩ ⟨mu, hmu⟩ ⟨nu, hnu⟩ d]
    have h2 : N ⟨l, hl⟩ ⟨mu, hmu⟩ ⟨nu, hnu⟩ = algebraMap ℚ K ((Xx ⟨l, hl⟩ ⟨mu, hmu⟩ nu).coeff d) := by
      rw [hN]
      show Polynomial.aeval 1 (Xx ⟨l, hl⟩ ⟨mu, hmu⟩ nu) = _
      conv_lhs => rw [hx]
      rw [Polynomial.aeval_monomial]
      simp
    rw [← h2, key]
    refine Finset.sum_congr rfl (fun i _ => ?_)
    rw [hsum, hg, hg, hg, hD]
    rfl

end

/-! ### C129 -/

theorem card_signs (N : ℕ) : Fintype.card (Fin N → ℤˣ) = 2 ^ N := by
  rw [Fintype.card_fun, Fintype.card_fin, Fintype.card_units_int]

theorem card_even_signs (n : ℕ) : Fintype.card {s : Fin (n + 1) → ℤˣ // ∏ j, s j = 1} = 2 ^ n := by
  rw [← card_signs n]
  refine Fintype.card_congr (Equiv.symm ⟨fun t => ⟨Fin.cons (∏ j, t j) t, ?_⟩, fun s => Fin.tail s.1, fun t => Fin.tail_cons _ _, fun s => ?_⟩)
  · rw [Fin.prod_univ_succ, Fin.cons_zero]
    simp only [Fin.cons_succ]
    exact Int.units_mul_self _
  · apply Subtype.ext
    have h := s.2
    rw [Fin.prod_univ_succ] at h
    have h2 : ∏ j, Fin.tail s.1 j = s.1 0 := by
      rw [mul_eq_one_iff_eq_inv.1 h, Int.units_inv_eq_self]
      rfl
    show Fin.cons (∏ j, Fin.tail s.1 j) (Fin.tail s.1) = s.1
    rw [h2, Fin.cons_self_tail]

theorem card_max {n : ℕ} {T : Finset (List Int)} (hT : ∀ l, l ∈ T ↔ clsBC n 0 l) : T.card = 2 ^ n := by
  classical
  have : T = (Wd n 0).image labW := by
    ext l
    rw [hT, Wd_cls (Nat.zero_le n), Finset.mem_image]
  rw [this, Finset.card_image_of_injOn (fun u hu v hv h => Wd_inj u hu v hv h), card_Wd (Nat.zero_le n)]
  simp

section
variable {K : Type} [Field K] [Algebra ℚ K] {n : ℕ} {X : Space} {fuel : ℕ} {T : Finset (List Int)} {dl : List Int → List Int}

/-- the values of the symbols -/
def symVal (v : List Int → K) : Sym → K
  | .S l => v l
  | _ => 1

theorem charZero_alg : CharZero K := (RingHom.charZero_iff (algebraMap ℚ K).injective).1 inferInstance

theorem dual_invol {cls : List Int → Prop} {dual : List Int → Except PyErr (List Int)} (hd : ∀ l, cls l → dual l = .ok (dl l)) {l : List Int}
    (hl : cls l) (h : ∃ l', dual l = .ok l' ∧ cls l' ∧ dual l' = .ok l) : cls (dl l) ∧ dl (dl l) = l := by
  obtain ⟨l', h1, h2, h3⟩ := h
  rw [hd l hl] at h1
  cases h1
  rw [hd _ h2] at h3
  exact ⟨h2, Except.ok.inj h3⟩

/-- from the values to the formula -/
theorem maxFormula {cls : List Int → Prop} {mul : Poly → Poly → Except PyErr Poly} {dual : List Int → Except PyErr (List Int)} {dq : Int} {ι : Type}
    [Fintype ι] (hcls : cls = clsBC n 0) (hsym : DualSymmetric cls mul dual) (hgr : Graded cls dq mul) (hdq : 0 < dq) (hclosed : ClosedUnder cls mul)
    (hT : ∀ l, l ∈ T ↔ cls l) (hd : ∀ l, cls l → dual l = .ok (dl l)) (hdd : ∀ l, cls l → ∃ l', dual l = .ok l' ∧ cls l' ∧ dual l' = .ok l)
    {v : ι → List Int → K} (hv : ∀ i, v i [] = 1)
    (hhom : ∀ i {a b : Poly}, LinComb cls a → LinComb cls b → ∃ w, mul a b = .ok w ∧ valueAt (symVal (v i)) w = valueAt (symVal (v i)) a * valueAt (symVal (v i)) b)
    (hdist : ∀ i j, (∀ p : ℕ, 1 ≤ p → p ≤ n → v i [(p : Int)] = v j [(p : Int)]) → i = j) (hcard : Fintype.card ι = 2 ^ n) :
    CharacterFormula T dl dq mul v := by
  refine characterFormula hsym hgr hdq hT hd (fun l hl => dual_invol hd hl (hdd l hl)) (by rw [hcls]; exact clsBC_nil (Nat.zero_le n))
    (fun l mu hl hmu => hclosed _ _ (linComb_single_sym hl) (linComb_single_sym hmu)) (f := fun i => symVal (v i)) (fun _ => rfl) hv ?_ ?_ ?_
  · intro i l mu hl hmu
    obtain ⟨w, h1, h2⟩ := hhom i (linComb_single_sym hl) (linComb_single_sym hmu)
    rw [valueAt_sym, valueAt_sym] at h2
    exact ⟨w, h1, h2⟩
  · intro i j h
    exact hdist i j (fun p h1 h2 => h _ (by rw [hcls]; exact clsBC_row0 h1 h2))
  · rw [hcard, card_max (fun l => by rw [hT, hcls])]

/-- **C129**, type C: on `IG(n, 2n)`, the sum is over the `2^n` changes of an even number of signs. -/
theorem C129_IG (ord : List Int → List Int) (hn : 0 < n) (hX : mkIG n (2 * n) = .ok X) (hf : giamBoundBC n n ≤ fuel)
    (hT : ∀ l, l ∈ T ↔ BCClass n n l) (hd : ∀ l, BCClass n n l → X.dualize l = .ok (dl l)) {y : Fin (n + 1) → K} (hy : LGRoots n y) :
    CharacterFormula T dl (n + 1) (X.qmult ord fuel)
      (fun (s : {s : Fin (n + 1) → ℤˣ // ∏ j, s j = 1}) l => qTilde (eSeq (withSigns s.1 y)) l) := by
  have hc0 := charZero_alg (K := K)
  have hdeg : X.degreeQ = n + 1 := by
    have := hX
    rw [mkIG_max] at this
    cases this
    simp [Space.degreeQ]
  have hgr := (C56_graded_IG ord (m := n) hX hf).2
  rw [hdeg] at hgr
  refine maxFormula (bcClass_max n) (C79_symmetric_IG ord (m := n) hX hf).2 hgr (by omega) (C53_qmult_IG ord (m := n) hX hf).1 hT hd (fun l hl => ?_)
    (fun _ => rfl) (fun s {a b} ha hb => ?_) (fun s s' h => ?_) (card_even_signs n)
  · obtain ⟨l', h1, h2, h3, h4, h5, -⟩ := C12_dualize_C n n X hX l hl.1 hl.2.1 hl.2.2
    exact ⟨l', h1, ⟨h2, h3, h4⟩, h5⟩
  · obtain ⟨w, h1, -, h2⟩ := C128_IG_quantum ord hn hX hf (f := symVal (fun l => qTilde (eSeq (withSigns s.1 y)) l)) (hy.point s.2)
      (fun l _ => rfl) ha hb
    exact ⟨w, h1, h2⟩
  · apply Subtype.ext
    refine eSeq_inj hy.ne hy.inj (fun p => ?_)
    rcases Nat.eq_zero_or_pos p with rfl | h1
    · rw [eSeq_zero, eSeq_zero]
    · rcases le_or_gt p n with h2 | h2
      · simpa only [qTilde_row] using h p h1 h2
      · rcases Nat.eq_or_lt_of_le (show n + 1 ≤ p from h2) with rfl | h3
        · exact two_unit.mul_left_cancel ((hy.point s.2).top.trans (hy.point s'.2).top.symm)
        · rw [eSeq_high _ h3, eSeq_high _ h3]

theorem og_dist (hn : 0 < n) {y : Fin n → K} (hy : OGRoots n y) {s s' : Fin n → ℤˣ}
    (h : ∀ p : ℕ, 1 ≤ p → p ≤ n → qTilde (eSeq (withSigns s y)) [(p : Int)] / 2 ^ [(p : Int)].length =
      qTilde (eSeq (withSigns s' y)) [(p : Int)] / 2 ^ [(p : Int)].length) : s = s' := by
  have hc0 := charZero_alg (K := K)
  refine eSeq_inj (hy.ne hn) hy.inj (fun p => ?_)
  rcases Nat.eq_zero_or_pos p with rfl | h1
  · rw [eSeq_zero, eSeq_zero]
  · rcases le_or_gt p n with h2 | h2
    · have := h p h1 h2
      rw [qTilde_row, qTilde_row] at this
      exact (div_left_inj' (by simp)).1 this
    · rw [eSeq_high _ h2, eSeq_high _ h2]

/-- **C129**, type B: on `OG(n, 2n+1)`, the sum is over all `2^n` changes of signs. -/
theorem C129_OG (ord : List Int → List Int) (hn : 0 < n) (hX : mkOG n (2 * n + 1) = .ok X) (hf : giamBoundBC n n ≤ fuel)
    (hT : ∀ l, l ∈ T ↔ BCClass n n l) (hd : ∀ l, BCClass n n l → X.dualize l = .ok (dl l)) {y : Fin n → K} (hy : OGRoots n y) :
    CharacterFormula T dl (2 * n) (X.qmult ord fuel)
      (fun (s : Fin n → ℤˣ) l => qTilde (eSeq (withSigns s y)) l / 2 ^ l.length) := by
  have hc0 := charZero_alg (K := K)
  have hdeg : X.degreeQ = 2 * n := by
    have := hX
    rw [mkOG_max] at this
    cases this
    simp [Space.degreeQ]
  have hgr := C62_graded ord (m := n) (by omega) le_rfl hX hf
  rw [hdeg] at hgr
  refine maxFormula (bcClass_max n) (C79_qsymmetric_OG ord (m := n) (by omega) le_rfl hX hf) hgr (by omega) (C61_qmult ord (m := n) (by omega) le_rfl hX hf).1
    hT hd (fun l hl => ?_) (fun s => ?_) (fun s {a b} ha hb => ?_) (fun s s' h => og_dist hn hy h) (card_signs n)
  · obtain ⟨l', h1, h2, h3, h4, h5, -⟩ := C12_dualize_B n n le_rfl X hX l hl.1 hl.2.1 hl.2.2
    exact ⟨l', h1, ⟨h2, h3, h4⟩, h5⟩
  · simp [qTilde, qtil]
  · obtain ⟨w, h1, -, h2⟩ := C128_OG_quantum ord hn hX hf (f := symVal (fun l => qTilde (eSeq (withSigns s y)) l / 2 ^ l.length)) (hy.point hn s)
      (fun l _ => mul_div_cancel₀ _ (by simp)) ha hb
    exact ⟨w, h1, h2⟩

/-- **C129**, type D: on `OG(n+1, 2n+2)`. -/
theorem C129_OGD (ord : List Int → List Int) (hn : 0 < n) (hX : mkOG (n + 1) (2 * n + 2) = .ok X) (hf : giamBoundBC n n ≤ fuel)
    (hf' : giamBoundD (n + 1) n ≤ fuel) (hT : ∀ l, l ∈ T ↔ DClass (n + 1) n l) (hd : ∀ l, DClass (n + 1) n l → X.dualize l = .ok (dl l))
    {y : Fin n → K} (hy : OGRoots n y) :
    CharacterFormula T dl (2 * n) (X.qmult ord fuel)
      (fun (s : Fin n → ℤˣ) l => qTilde (eSeq (withSigns s y)) l / 2 ^ l.length) := by
  have hc0 := charZero_alg (K := K)
  have hdeg : X.degreeQ = 2 * n := by
    obtain ⟨a, b, h, hb, h1, h2, rfl⟩ := ogdCase' (m := (n : Int) + 1) (by omega) le_rfl (by omega) hX
    obtain rfl : b = 0 := by omega
    simp [Space.degreeQ, ← h1]
  have hgr := C67_qgraded ord (m := (n : Int) + 1) (by omega) le_rfl (by omega) hX hf'
  rw [hdeg] at hgr
  have hcl : DClass ((n : Int) + 1) n = clsBC n 0 := by
    rw [← bcClass_max]
    funext l; exact propext (C87_classes (Int.natCast_nonneg n) l).symm
  refine maxFormula hcl (C79_qsymmetric_OGeven ord (m := (n : Int) + 1) (by omega) le_rfl (by omega) hX hf') hgr (by omega)
    (C66_qmult ord (m := (n : Int) + 1) (by omega) le_rfl (by omega) hX hf').1
    hT hd (fun l hl => ?_) (fun s => ?_) (fun s {a b} ha hb => ?_) (fun s s' h => og_dist hn hy h) (card_signs n)
  · obtain ⟨l', h1, h2, h5, -⟩ := C12_dualize_D (n + 1) n le_rfl X hX l hl
    exact ⟨l', h1, h2, h5⟩
  · simp [qTilde, qtil]
  · exact C128_OGD_quantum ord hn hX hf hf' (f := symVal (fun l => qTilde (eSeq (withSigns s y)) l / 2 ^ l.length)) (hy.point hn s)
      (fun l _ => mul_div_cancel₀ _ (by simp)) ha hb

end

/-- **C129**, the points: over an algebraically closed field of characteristic `0` there are such `y`. -/
theorem C129_points {K : Type*} [Field K] [IsAlgClosed K] [CharZero K] (n : ℕ) :
    (∃ y : Fin (n + 1) → K, LGRoots n y) ∧ (0 < n → ∃ y : Fin n → K, OGRoots n y) :=
  ⟨lgRoots_exist n, ogRoots_exist⟩

theorem classes_two (l : List Int) : l ∈ ({[], [1], [2], [2, 1]} : Finset (List Int)) ↔ BCClass ((2 : ℕ) : Int) ((2 : ℕ) : Int) l := by
  rw [bcClass_max 2, Wd_cls (Nat.zero_le 2), ← Finset.mem_image, show (Wd 2 0).image labW = {[], [1], [2], [2, 1]} by decide +kernel]

def dualTwo (l : List Int) : List Int := if l = [] then [2, 1] else if l = [1] then [2] else if l = [2] then [1] else []

theorem dualTwo_ok {X : Space} (h : X = ⟨.C, 0, 2⟩ ∨ X = ⟨.B, 0, 2⟩) (l : List Int) (hl : BCClass ((2 : ℕ) : Int) ((2 : ℕ) : Int) l) :
    X.dualize l = .ok (dualTwo l) := by
  have h1 := (classes_two l).2 hl
  simp only [Finset.mem_insert, Finset.mem_singleton] at h1
  rcases h with rfl | rfl <;> rcases h1 with rfl | rfl | rfl | rfl <;> decide +kernel

/-- Over `ℂ` there are such points, and the formula holds on `IG(2, 4)`, where `S[2,1]*S[2,1] = q^2`: the sum of the squares of the values of
`S[2,1]`, times that of `S[2,1]`, over the Euler numbers, is `1`. -/
example : ∃ y : Fin 3 → ℂ, LGRoots 2 y ∧
    CharacterFormula {[], [1], [2], [2, 1]} dualTwo 3 ((Space.mk .C 0 2).qmult id 20)
      (fun (s : {s : Fin 3 → ℤˣ // ∏ j, s j = 1}) l => qTilde (eSeq (withSigns s.1 y)) l) ∧
    (Space.mk .C 0 2).qmult id 20 (Poly.sym (.S [2, 1])) (Poly.sym (.S [2, 1])) = .ok [([.q, .q, .S []], 1)] := by
  obtain ⟨y, hy⟩ := lgRoots_exist (K := ℂ) 2
  have h := C129_IG (n := 2) (X := ⟨.C, 0, 2⟩) (fuel := 20) id (by decide) (by decide +kernel) (by decide +kernel) classes_two
    (dualTwo_ok (Or.inl rfl)) hy
  exact ⟨y, hy, h, by decide +kernel⟩

/-- The same on `OG(2, 5)`, where `S[2,1]*S[2] = q*S[1]`. -/
example : ∃ y : Fin 2 → ℂ, OGRoots 2 y ∧
    CharacterFormula {[], [1], [2], [2, 1]} dualTwo 4 ((Space.mk .B 0 2).qmult id 20)
      (fun (s : Fin 2 → ℤˣ) l => qTilde (eSeq (withSigns s y)) l / 2 ^ l.length) ∧
    (Space.mk .B 0 2).qmult id 20 (Poly.sym (.S [2, 1])) (Poly.sym (.S [2])) = .ok [([.q, .S [1]], 1)] := by
  obtain ⟨y, hy⟩ := ogRoots_exist (K := ℂ) (n := 2) (by decide)
  have h := C129_OG (n := 2) (X := ⟨.B, 0, 2⟩) (fuel := 20) id (by decide) (by decide +kernel) (by decide +kernel) classes_two
    (dualTwo_ok (Or.inr rfl)) hy
  exact ⟨y, hy, h, by decide +kernel⟩

/-- On `OG(1, 3)` and `OG(2, 4)` the points are rational, `y = 2`: the values of `S[1]` are `1` and `-1`. -/
example : OGRoots 1 (fun _ => (2 : ℚ)) ∧ (∀ s : Fin 1 → ℤˣ, qTilde (eSeq (withSigns s (fun _ => (2 : ℚ)))) [1] / 2 ^ [(1 : ℤ)].length = ((s 0 : ℤ) : ℚ)) ∧
    mkOG 2 4 = .ok ⟨.D, 0, 1⟩ ∧ giamBoundBC 1 1 ≤ 20 ∧ giamBoundD 2 1 ≤ 20 ∧
    (Space.mk .D 0 1).qmult id 20 (Poly.sym (.S [1])) (Poly.sym (.S [1])) = .ok [([.q, .S []], 1)] := by
  refine ⟨⟨fun _ => by norm_num, fun i j _ => Subsingleton.elim i j⟩, fun s => ?_, by decide +kernel, by decide +kernel, by decide +kernel,
    by decide +kernel⟩
  have h := qTilde_row (eSeq (withSigns s (fun _ => (2 : ℚ)))) 1
  have h1 := eSeq_top (withSigns s (fun _ => (2 : ℚ)))
  simp only [Nat.cast_one] at h
  rw [h, h1]
  simp [withSigns]

end Verif
