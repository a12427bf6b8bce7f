import Verif.Proofs.TwoPos
import Verif.Props.SpinD
import Verif.Props.TwoSeidel
import Verif.Props.NonVanish
import Verif.Props.Positive
/-!
# C124, C125: `OG(n, 2n+2)` with two parameters
-/

namespace Verif
open Spec Spin TwoProd MvPolynomial

/-- Whenever the products of `S[s]` with `S[l]` and `S[nu]` are `q1^d1*q2^d2*S[l']` and `q1^e1*q2^e2*S[nu']`, the coefficient of
`q^c*q1^b1*q2^b2*S[nu']` in `S[l'] * S[mu]` is that of `q^c*q1^a1*q2^a2*S[nu]` in `S[l] * S[mu]` for `b1 + d1 = a1 + e1` and
`b2 + d2 = a2 + e2`, and the coefficients with no partner are zero. -/
def Spec.ShiftSym2 (f : Poly → Poly → Except PyErr Poly) (cls : List Int → Prop) (s : List Int) : Prop :=
  ∀ (l mu nu l' nu' : List Int) (d1 d2 e1 e2 : Nat), cls l → cls mu → cls nu →
    f (Poly.sym (.S s)) (Poly.sym (.S l)) = .ok [(parMono 0 d1 d2 ++ [.S l'], 1)] →
    f (Poly.sym (.S s)) (Poly.sym (.S nu)) = .ok [(parMono 0 e1 e2 ++ [.S nu'], 1)] →
    ∃ w w', f (Poly.sym (.S l)) (Poly.sym (.S mu)) = .ok w ∧ f (Poly.sym (.S l')) (Poly.sym (.S mu)) = .ok w' ∧
      (∀ c a1 a2 b1 b2, b1 + d1 = a1 + e1 → b2 + d2 = a2 + e2 →
        coeffOf (parMono c b1 b2 ++ [.S nu']) w' = coeffOf (parMono c a1 a2 ++ [.S nu]) w) ∧
      (∀ c a1 a2, a1 + e1 < d1 ∨ a2 + e2 < d2 → coeffOf (parMono c a1 a2 ++ [.S nu]) w = 0) ∧
      (∀ c b1 b2, b1 + d1 < e1 ∨ b2 + d2 < e2 → coeffOf (parMono c b1 b2 ++ [.S nu']) w' = 0)

theorem parMono_inj {a b c a' b' c' : ℕ} (h : parMono a b c = parMono a' b' c') : a = a' ∧ b = b' ∧ c = c' := by
  obtain ⟨h1, h2, h3, _⟩ := parMono_count a b c
  obtain ⟨h1', h2', h3', _⟩ := parMono_count a' b' c'
  rw [h] at h1 h2 h3
  omega

theorem shift2 {n : ℕ} {σ σ' : WordD → WordD} {α β : WordD → ℕ} {ord : List Int → List Int} (ho : Ascending ord) (hn : 1 ≤ n)
    {fuel : Nat} (hf : boundD n 1 ≤ fuel) (h2 : ∀ U, σ' (σ U) = U) (h2' : ∀ U, σ (σ' U) = U)
    (hσ : ∀ U ∈ WdD n 1, σ U ∈ WdD n 1) (hσ' : ∀ U ∈ WdD n 1, σ' U ∈ WdD n 1) {F : WordD → P}
    (hF : ∀ U ∈ WdD n 1, F U = X .q1 ^ α U * X .q2 ^ β U)
    (hM : ∀ p, ∀ U ∈ WdD n 1, ∀ W ∈ WdD n 1, F U * M2 p (σ U) (σ W) = F W * M2 p U W) {N : WordD} (hN : N ∈ WdD n 1)
    (h0 : labD N = []) (hF0 : F N = 1) :
    ShiftSym2 ((Space.mk .D ((1 : Nat) : Int) n).qmult ord fuel) (clsD n 1) (labD (σ N)) := by
  have one : ∀ U ∈ WdD n 1, (Space.mk .D ((1 : Nat) : Int) n).qmult ord fuel (Poly.sym (.S (labD (σ N)))) (Poly.sym (.S (labD U))) =
      .ok [(parMono 0 (α U) (β U) ++ [.S (labD (σ U))], 1)] := by
    intro U hU
    have key := qmult_cls ho hn hf (hσ N hN) hU
    rw [str_twist hn h2 h2' hσ hσ' hM hN h0 hF0 hU, ev2_bas (hσ U hU)] at key
    refine returns_mono one_ne_zero (par_append_sorted _ _ _ _) ?_
    have e : monoDen (parMono 0 (α U) (β U) ++ [.S (labD (σ U))]) = F U * MvPolynomial.X (.S (labD (σ U))) := by
      rw [hF U hU]
      simp [monoDen, parMono, mul_assoc]
    rw [e, C_1, one_mul]
    exact key
  intro l mu nu l' nu' d1 d2 e1 e2 hl hmu hnu r1 r2
  obtain ⟨U, hU, rfl⟩ := (WdD_cls (by omega) _).1 hl
  obtain ⟨V, hV, rfl⟩ := (WdD_cls (by omega) _).1 hmu
  obtain ⟨W, hW, rfl⟩ := (WdD_cls (by omega) _).1 hnu
  rw [one U hU] at r1
  rw [one W hW] at r2
  simp only [Except.ok.injEq, List.cons.injEq, Prod.mk.injEq, and_true] at r1 r2
  obtain ⟨p1, p2⟩ := List.append_inj' r1 rfl
  obtain ⟨p3, p4⟩ := List.append_inj' r2 rfl
  obtain ⟨_, rfl, rfl⟩ := parMono_inj p1
  obtain ⟨_, rfl, rfl⟩ := parMono_inj p3
  obtain rfl : labD (σ U) = l' := by simpa using p2
  obtain rfl : labD (σ W) = nu' := by simpa using p4
  obtain ⟨w, k1, k2, k3⟩ := qmult_cls ho hn hf hU hV
  obtain ⟨w', k1', k2', k3'⟩ := qmult_cls ho hn hf (hσ U hU) hV
  have hs := str_shift hn h2 h2' hσ hσ' hM hU hV (W := W)
  rw [hF U hU, hF W hW] at hs
  have hm : ∀ a b : ℕ, (X .q1 ^ a * X .q2 ^ b : P) = monomial (expo (parMono 0 a b)) 1 := by
    intro a b
    rw [X_pow_eq_monomial, X_pow_eq_monomial, monomial_mul, one_mul]
    congr 2
    ext s
    rw [expo_apply, Finsupp.add_apply, Finsupp.single_apply, Finsupp.single_apply]
    unfold parMono
    simp only [List.count_append, List.count_replicate]
    cases s <;> simp
  have cf : ∀ c x y, (if α U ≤ x ∧ β U ≤ y then coeff (expo (parMono c (x - α U) (y - β U))) (str hn (σ U) V (σ W)) else 0) =
      if α W ≤ x ∧ β W ≤ y then coeff (expo (parMono c (x - α W) (y - β W))) (str hn U V W) else 0 := by
    intro c x y
    have h := congrArg (coeff (expo (parMono c x y))) hs
    rw [hm, hm, coeff_monomial_mul', coeff_monomial_mul', one_mul, one_mul] at h
    have hle : ∀ a b, expo (parMono 0 a b) ≤ expo (parMono c x y) ↔ a ≤ x ∧ b ≤ y := by
      intro a b
      constructor
      · intro h
        have i1 := h .q1
        have i2 := h .q2
        rw [expo_apply, expo_apply, (parMono_count _ _ _).2.1, (parMono_count _ _ _).2.1] at i1
        rw [expo_apply, expo_apply, (parMono_count _ _ _).2.2.1, (parMono_count _ _ _).2.2.1] at i2
        exact ⟨i1, i2⟩
      · rintro ⟨h1, h2⟩ s
        rw [expo_apply, expo_apply]
        unfold parMono
        simp only [List.count_append, List.count_replicate]
        cases s <;> simp <;> omega
    have hsub : ∀ a b, a ≤ x → b ≤ y → expo (parMono c x y) - expo (parMono 0 a b) = expo (parMono c (x - a) (y - b)) := by
      intro a b h1 h2
      ext s
      rw [Finsupp.tsub_apply, expo_apply, expo_apply, expo_apply]
      unfold parMono
      simp only [List.count_append, List.count_replicate]
      cases s <;> simp
    simp only [hle] at h
    refine Eq.trans ?_ (h.trans ?_)
    · split
      · rename_i hh
        rw [hsub _ _ hh.1 hh.2]
      · rfl
    · split
      · rename_i hh
        rw [hsub _ _ hh.1 hh.2]
      · rfl
  refine ⟨w, w', k1, k1', fun c a1 a2 b1 b2 i1 i2 => ?_, fun c a1 a2 i => ?_, fun c b1 b2 i => ?_⟩
  · have := cf c (b1 + α U) (b2 + β U)
    rw [if_pos (by omega), if_pos (by omega), Nat.add_sub_cancel, Nat.add_sub_cancel, show b1 + α U - α W = a1 by omega,
      show b2 + β U - β W = a2 by omega] at this
    rw [coeffOf_ev2 k2 k3 hW, coeffOf_ev2 k2' k3' (hσ W hW), this]
  · have := cf c (a1 + α W) (a2 + β W)
    rw [if_neg (by omega), if_pos (by omega), Nat.add_sub_cancel, Nat.add_sub_cancel] at this
    rw [coeffOf_ev2 k2 k3 hW, this]
  · have := cf c (b1 + α U) (b2 + β U)
    rw [if_pos (by omega), if_neg (by omega), Nat.add_sub_cancel, Nat.add_sub_cancel] at this
    rw [coeffOf_ev2 k2' k3' (hσ W hW), this]

/-- **C124**: the top row. -/
theorem C124_top {ord : List Int → List Int} (ho : Ascending ord) {n : ℕ} (hn : 1 ≤ n) {X : Space} (hX : mkOG n (2 * n + 2) = .ok X)
    {fuel : Nat} (hf : giamBoundD n n ≤ fuel) : ShiftSym2 (X.qmult ord fuel) (DClass n n) [n + 1] := by
  obtain ⟨m, h1, h2, rfl⟩ := og2Case (by omega) hX
  obtain rfl : n = m := by omega
  rw [giamBoundD_one] at hf
  rw [dClass_one]
  obtain ⟨N, hN, h0, hE, hs⟩ := unitFlipD (n := n) (k := 1) (by omega) (by omega)
  have hF : flip2 (MvPolynomial.X .q1 : P) (MvPolynomial.X .q2) N = 1 := by
    rcases N with ⟨_ | ⟨p, u⟩, i⟩
    · rfl
    · cases p <;> simp [flipED, flipE] at hE
      rfl
  have hab : ∀ U ∈ WdD n 1, ∃ a b : ℕ, flip2 (MvPolynomial.X .q1 : P) (MvPolynomial.X .q2) U = MvPolynomial.X .q1 ^ a * MvPolynomial.X .q2 ^ b := by
    intro U hU
    have hl := lone_of_mem hU
    rcases U with ⟨_ | ⟨p, u⟩, i⟩
    · exact ⟨0, 0, by simp [flip2]⟩
    · unfold Lone at hl
      cases p <;> cases i <;> simp at hl <;>
        first
        | (refine ⟨0, 0, ?_⟩; simp [flip2, qOf]; done)
        | (refine ⟨1, 1, ?_⟩; simp [flip2, qOf]; done)
        | (refine ⟨1, 0, ?_⟩; simp [flip2, qOf]; done)
        | (refine ⟨0, 1, ?_⟩; simp [flip2, qOf]; done)
  choose! α β hαβ using hab
  have := shift2 (σ := flipD) (σ' := flipD) ho h1 hf flipD_flipD flipD_flipD (fun U hU => flipD_mem hU) (fun U hU => flipD_mem hU) hαβ
    (fun p U hU W hW => M2_flip h1 p hU hW) hN h0 hF
  rw [hs] at this
  simpa using this

/-- in `OG(2, 6)`: `S[3]*S[2,1] = q1*S[2,1,0]`, `S[3]*S[1,1,0] = q2*S[1,1]`, and `S[2,1]*S[2] = q1*S[1,1,0]` becomes
`S[2,1,0]*S[2] = q2*S[1,1]` -/
example : ∃ w w', (Space.mk .D 1 2).qmult id (giamBoundD 2 2) (Poly.sym (.S [2, 1])) (Poly.sym (.S [2])) = .ok w ∧
    (Space.mk .D 1 2).qmult id (giamBoundD 2 2) (Poly.sym (.S [2, 1, 0])) (Poly.sym (.S [2])) = .ok w' ∧
    coeffOf (parMono 0 1 0 ++ [.S [1, 1, 0]]) w = 1 ∧ coeffOf (parMono 0 0 1 ++ [.S [1, 1]]) w' = 1 := by
  obtain ⟨w, w', h1, h2, h3, -⟩ := C124_top (ord := id) (fun _ _ => rfl) (n := 2) (by omega) rfl le_rfl [2, 1] [2] [1, 1, 0] [2, 1, 0] [1, 1] 1 0 0 1
    (by decide +kernel) (by decide +kernel) (by decide +kernel) (by decide +kernel) (by decide +kernel)
  have h : (Space.mk .D 1 2).qmult id (giamBoundD 2 2) (Poly.sym (.S [2, 1])) (Poly.sym (.S [2])) = .ok [([.q1, .S [1, 1, 0]], 1)] := by
    decide +kernel
  replace h := h.symm.trans h1
  cases h
  refine ⟨_, w', h1, h2, by decide +kernel, ?_⟩
  rw [h3 0 1 0 0 1 rfl rfl]
  decide +kernel

/-- **C124**: the staircases of both types. -/
theorem C124_staircase {ord : List Int → List Int} (ho : Ascending ord) {n : ℕ} (hn : 1 ≤ n) {X : Space} (hX : mkOG n (2 * n + 2) = .ok X)
    {fuel : Nat} (hf : giamBoundD n n ≤ fuel) (t : Bool) : ShiftSym2 (X.qmult ord fuel) (DClass n n) (stairD 1 n t) := by
  obtain ⟨m, h1, h2, rfl⟩ := og2Case (by omega) hX
  obtain rfl : n = m := by omega
  rw [giamBoundD_one] at hf
  rw [dClass_one]
  obtain ⟨U0, h0, hl0, he0, hs0⟩ := unitSpin (n := n) (k := 1) (t := t) (by omega) (by omega) (by omega)
  have hF : fac2 (MvPolynomial.X .q1 : P) (MvPolynomial.X .q2) (c1 1 t) U0 = 1 := by
    unfold fac2
    rw [he0]
    split <;> simp
  have hab : ∀ U ∈ WdD n 1, ∃ a b : ℕ, fac2 (MvPolynomial.X .q1 : P) (MvPolynomial.X .q2) (c1 1 t) U =
      MvPolynomial.X .q1 ^ a * MvPolynomial.X .q2 ^ b := by
    intro U _
    unfold fac2
    split
    · exact ⟨_, _, rfl⟩
    · exact ⟨_, _, rfl⟩
  choose! α β hαβ using hab
  have := shift2 (σ := spD n 1 t) (σ' := spD' n 1 t) ho h1 hf (spD'_spD _ _ _) (spD_spD' _ _ _) (fun U hU => spD_mem (by omega) hU)
    (fun U hU => spD'_mem (by omega) hU) hαβ (fun p U hU W hW => M2_spin h1 p t hU hW) h0 hl0 hF
  rwa [hs0] at this

/-- in `OG(2, 6)`: `S[2,1,0]*S[3] = q2*S[2,1]`, `S[2,1,0]*S[3,2] = q1*q2*S[1,1,0]`, and `S[3]*S[2] = S[3,2]` becomes
`S[2,1]*S[2] = q1*S[1,1,0]` -/
example : ∃ w w', (Space.mk .D 1 2).qmult id (giamBoundD 2 2) (Poly.sym (.S [3])) (Poly.sym (.S [2])) = .ok w ∧
    (Space.mk .D 1 2).qmult id (giamBoundD 2 2) (Poly.sym (.S [2, 1])) (Poly.sym (.S [2])) = .ok w' ∧
    coeffOf (parMono 0 0 0 ++ [.S [3, 2]]) w = 1 ∧ coeffOf (parMono 0 1 0 ++ [.S [1, 1, 0]]) w' = 1 := by
  obtain ⟨w, w', h1, h2, h3, -⟩ := C124_staircase (ord := id) (fun _ _ => rfl) (n := 2) (by omega) rfl le_rfl true [3] [2] [3, 2] [2, 1] [1, 1, 0] 0 1 1 1
    (by decide +kernel) (by decide +kernel) (by decide +kernel) (by decide +kernel) (by decide +kernel)
  have h : (Space.mk .D 1 2).qmult id (giamBoundD 2 2) (Poly.sym (.S [3])) (Poly.sym (.S [2])) = .ok [([.S [3, 2]], 1)] := by
    decide +kernel
  replace h := h.symm.trans h1
  cases h
  refine ⟨_, w', h1, h2, by decide +kernel, ?_⟩
  rw [h3 0 0 0 1 0 rfl rfl]
  decide +kernel

/-! ### A positive homomorphism -/

/-- `f` gives the value `1` to the parameters and a positive number to every class, and the value of a product of a linear combination
with coefficients in `q` and one with coefficients in `q`, `q1`, `q2` is the product of the values. -/
def Spec.PosHom2 (cls : List Int → Prop) (mul : Poly → Poly → Except PyErr Poly) (f : Sym → ℝ) : Prop :=
  f .q = 1 ∧ f .q1 = 1 ∧ f .q2 = 1 ∧ (∀ l, cls l → 0 < f (.S l)) ∧
    ∀ a b, LinComb cls a → LinComb2 cls b → ∃ w, mul a b = .ok w ∧ LinComb2 cls w ∧ valueAt f w = valueAt f a * valueAt f b

/-- **C125**. -/
theorem C125_hom {ord : List Int → List Int} (ho : Ascending ord) {n : Int} (hn : 1 ≤ n) {X : Space} (hX : mkOG n (2 * n + 2) = .ok X)
    {fuel : Nat} (hf : giamBoundD n n ≤ fuel) : ∃ f, PosHom2 (DClass n n) (X.qmult ord fuel) f := by
  obtain ⟨m, h1, rfl, rfl⟩ := og2Case hn hX
  rw [dClass_one]
  rw [giamBoundD_one] at hf
  obtain ⟨f, f1, f2, f3⟩ := pos_hom2 h1
  refine ⟨f, f1 _ (by simp), f1 _ (by simp), f1 _ (by simp), f2, fun x y hx hy => ?_⟩
  obtain ⟨u, hu, hc⟩ := linComb_ev hx.2
  obtain ⟨g, pf, nf, hd⟩ := norm_ev hy h1
  obtain ⟨w, e1, e2, e3⟩ := qmult_returns ho h1 hf (linComb_two hx) hu hc hy.1 hd pf
  refine ⟨w, e1, linComb2_of_ev h1 e2 (act2_par h1 _ pf) e3, ?_⟩
  rw [valueAt_den, valueAt_den, valueAt_den, e3, hu, hd]
  exact f3 u g hc

/-- **C125**. No quantum product of any number of classes vanishes. -/
theorem C125_nonzero {ord : List Int → List Int} (ho : Ascending ord) {n : Int} (hn : 1 ≤ n) {X : Space} (hX : mkOG n (2 * n + 2) = .ok X)
    {fuel : Nat} (hf : giamBoundD n n ≤ fuel) (ls : List (List Int)) (hls : ∀ l ∈ ls, DClass n n l) :
    ∃ w, ls.foldlM (fun a l => X.qmult ord fuel (Poly.sym (.S l)) a) (Poly.sym (.S [])) = .ok w ∧ w ≠ [] := by
  obtain ⟨f, _, _, _, f2, f3⟩ := C125_hom ho hn hX hf
  have h0 : DClass n n [] := by
    obtain ⟨m, h1, rfl, rfl⟩ := og2Case hn hX
    rw [dClass_one]
    exact clsD_nil (by omega)
  have hlc : ∀ l, DClass n n l → LinComb (DClass n n) (Poly.sym (.S l)) := fun l hl =>
    ⟨wf_sym (.S l), fun t ht => ⟨0, l, by rw [List.mem_singleton.1 ht]; rfl, hl⟩⟩
  have key : ∀ (ls : List (List Int)) (a : Poly), (∀ l ∈ ls, DClass n n l) → LinComb2 (DClass n n) a → 0 < valueAt f a →
      ∃ w, ls.foldlM (fun a l => X.qmult ord fuel (Poly.sym (.S l)) a) a = .ok w ∧ 0 < valueAt f w := by
    intro ls
    induction ls with
    | nil => exact fun a _ _ h => ⟨a, rfl, h⟩
    | cons l ls ih =>
      intro a hl ha hv
      have hc := hl l (by simp)
      obtain ⟨w, h1, h2, h3⟩ := f3 _ a (hlc l hc) ha
      obtain ⟨w', h4, h5⟩ := ih w (fun l' hl' => hl l' (by simp [hl'])) h2 (by
        rw [h3, valueAt_sym]
        exact mul_pos (f2 l hc) hv)
      refine ⟨w', ?_, h5⟩
      rw [List.foldlM_cons, h1]
      exact h4
  obtain ⟨w, h1, h2⟩ := key ls _ hls (linComb_two (hlc [] h0)) (by rw [valueAt_sym]; exact f2 [] h0)
  refine ⟨w, h1, ?_⟩
  rintro rfl
  simp [valueAt] at h2

/-- in `OG(2, 6)` the product of `S[2,1]` and `S[3]` is zero without the parameters and is not zero with them -/
example : Ascending id ∧ mkOG 2 (2 * 2 + 2) = .ok ⟨.D, 1, 2⟩ ∧ DClass 2 2 [2, 1] ∧
    (Space.mk .D 1 2).mult (giamBoundD 2 2) (Poly.sym (.S [2, 1])) (Poly.sym (.S [3])) = .ok [] ∧
    [[2, 1], [3]].foldlM (fun a l => (Space.mk .D 1 2).qmult id (giamBoundD 2 2) (Poly.sym (.S l)) a) (Poly.sym (.S [])) =
      .ok [([.q1, .S [2, 1, 0]], 1)] := by
  refine ⟨fun _ _ => rfl, ?_⟩
  decide +kernel

theorem value_pos2 {cls : List Int → Prop} {f : Sym → ℝ} (h0 : f .q = 1) (h1 : f .q1 = 1) (h2 : f .q2 = 1) (hpos : ∀ l, cls l → 0 < f (.S l))
    {a : Poly} (ha : LinComb2 cls a) (hn : PosCoeffs a) (hne : a ≠ []) : 0 < valueAt f a := by
  unfold valueAt
  apply List.sum_pos
  · intro x hx
    obtain ⟨t, ht, rfl⟩ := List.mem_map.1 hx
    obtain ⟨N, hN, e⟩ := hn t ht
    obtain ⟨qs, l, e', hq, hl⟩ := ha.2 t ht
    have hp : (qs.map f).prod = 1 := by
      apply List.prod_eq_one
      intro y hy
      obtain ⟨s, hs, rfl⟩ := List.mem_map.1 hy
      rcases hq s hs with rfl | rfl | rfl <;> assumption
    rw [e, e', List.map_append, List.prod_append, hp, one_mul, List.map_singleton, List.prod_singleton]
    refine mul_pos ?_ (hpos l hl)
    simpa using hN
  · simpa using hne

/-- **C125**. Multiplying a non-zero combination with positive coefficients by special classes again and again, with `qpieri`, never gives zero. -/
theorem C125_qpieri {ord : List Int → List Int} (ho : Ascending ord) {n : Int} (hn : 1 ≤ n) {X : Space} (hX : mkOG n (2 * n + 2) = .ok X)
    (ps : List Int) (hps : ∀ p ∈ ps, p = -1 ∨ 1 ≤ p ∧ p ≤ n + 1) {a : Poly} (ha : LinComb2 (DClass n n) a) (hp : PosCoeffs a) (h0 : a ≠ []) :
    ∃ w, ps.foldlM (fun a p => X.qpieri ord p a) a = .ok w ∧ LinComb2 (DClass n n) w ∧ PosCoeffs w ∧ w ≠ [] := by
  obtain ⟨f, f0, f1, f2, fp, fm⟩ := C125_hom ho hn hX le_rfl
  have hlc : ∀ l, DClass n n l → LinComb (DClass n n) (Poly.sym (.S l)) := fun l hl =>
    ⟨wf_sym (.S l), fun t ht => ⟨0, l, by rw [List.mem_singleton.1 ht]; rfl, hl⟩⟩
  have cl : ∀ p, (p = -1 ∨ 1 ≤ p ∧ p ≤ n + 1) → DClass n n (if p = -1 then [1, 0] else [p]) := by
    obtain ⟨m, h1, rfl, rfl⟩ := og2Case hn hX
    rw [dClass_one]
    rintro p (rfl | ⟨i, j⟩)
    · exact special_classD (by omega) (Or.inr ⟨by omega, rfl⟩)
    · rw [if_neg (by omega), ← num2spec_pos (p := p) (by omega)]
      exact special_classD (by omega) (Or.inl ⟨by omega, by omega⟩)
  have step : ∀ p (a : Poly), (p = -1 ∨ 1 ≤ p ∧ p ≤ n + 1) → LinComb2 (DClass n n) a → 0 < valueAt f a →
      ∃ w, X.qpieri ord p a = .ok w ∧ LinComb2 (DClass n n) w ∧ 0 < valueAt f w := by
    intro p a hp ha hv
    obtain ⟨w, e1, e2⟩ := C100_qpieri_closed ho hn (p := p) (by omega) hX ha
    refine ⟨w, e1, e2, ?_⟩
    obtain ⟨c1, c2, -⟩ := C112_special ho hn (p := p) hX le_rfl ha
    obtain ⟨v, g1, -, g3⟩ := fm _ a (hlc _ (cl p hp)) ha
    have hs : SameResult (X.qmult ord (giamBoundD n n) (Poly.sym (.S (if p = -1 then [1, 0] else [p]))) a) (X.qpieri ord p a) := by
      rcases hp with rfl | ⟨i, j⟩
      · exact c2
      · rw [if_neg (by omega)]
        exact c1 i j
    obtain ⟨x, y, s1, s2, s3⟩ := hs
    rw [g1] at s1
    rw [e1] at s2
    cases s1
    cases s2
    rw [← valueAt_perm f s3, g3, valueAt_sym]
    exact mul_pos (fp _ (cl p hp)) hv
  obtain ⟨w, e1, e2, e3⟩ := C122_qpieri_OG_two ho hn hX ps (fun p h => by rcases hps p h with h | h <;> omega) ha hp
  refine ⟨w, e1, e2, e3, ?_⟩
  have key : ∀ (ps : List Int) (a : Poly), (∀ p ∈ ps, p = -1 ∨ 1 ≤ p ∧ p ≤ n + 1) → LinComb2 (DClass n n) a → 0 < valueAt f a →
      ∀ w, ps.foldlM (fun a p => X.qpieri ord p a) a = .ok w → 0 < valueAt f w := by
    intro ps
    induction ps with
    | nil => intro a _ _ h w hw; cases hw; exact h
    | cons p ps ih =>
      intro a hp ha h w hw
      obtain ⟨u, k1, k2, k3⟩ := step p a (hp p (by simp)) ha h
      rw [List.foldlM_cons, k1] at hw
      exact ih u (fun p' hp' => hp p' (by simp [hp'])) k2 k3 w hw
  rintro rfl
  have := key ps a hps ha (value_pos2 f0 f1 f2 fp ha hp h0) _ e1
  simp [valueAt] at this

/-- in `OG(2, 6)`: `S[2]*(S[3]*(S[1,0]*(3*q1*S[2,1])))` -/
example : Ascending id ∧ mkOG 2 (2 * 2 + 2) = .ok ⟨.D, 1, 2⟩ ∧
    [-1, 3, 2].foldlM (fun a p => (Space.mk .D 1 2).qpieri id p a) [([.q1, .S [2, 1]], 3)] =
      .ok [([.q1, .q1, .q2, .S [2, 1]], 3), ([.q1, .q1, .q2, .S [3]], 3)] := by
  refine ⟨fun _ _ => rfl, by decide +kernel, by decide +kernel⟩

end Verif
