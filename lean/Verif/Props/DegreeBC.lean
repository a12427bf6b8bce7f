import Verif.Proofs.DegreeBC
import Verif.Props.Degree
import Verif.Props.PresentationBC
import Verif.Props.CompareBD
/-!
# C105: powers of the class of a hyperplane on `IG(n, 2n)`, `OG(n, 2n+1)` and `OG(n+1, 2n+2)`
-/

namespace Verif
open Spec
open scoped Nat

section
variable {n : ℕ} {X : Space} {pieri : Int → List Int → Except PyErr Poly} {spc : Int → Prop} {cls : List Int → Prop} {B : ℕ}

theorem specIn_pow (hs : spc 1) (r : ℕ) : SpecIn spc [(List.replicate r (Sym.S [1]), 1)] := by
  refine ⟨(special_pow (K := 1) le_rfl r).1, fun t ht s hs' => ?_⟩
  rw [List.mem_singleton] at ht
  subst ht
  rw [List.eq_of_mem_replicate hs']
  exact Or.inr ⟨1, hs, by decide⟩

/-- The coefficients of the powers of `S[1]`, from those in the ring. -/
theorem pow_coeffs (Z : RingOn X pieri spc cls B) (hs : spc 1) (hcls : ∀ l, cls l ↔ clsBC n 0 l) {r : ℕ} {g : List Int → ℚ}
    (h : ∀ w ∈ Wd n 0, Z.Y.act (MvPolynomial.X (.S [1]) ^ r) (Finsupp.single [] 1) (labW w) = Polynomial.C (g (labW w))) :
    ∃ w, X.actLc pieri [(List.replicate r (.S [1]), 1)] (Poly.sym (.S [])) = .ok w ∧ LinComb cls w ∧
      ∀ lam, cls lam → coeffOf [.S lam] w = g lam ∧ ∀ d : ℕ, 1 ≤ d → coeffOf (List.replicate d Sym.q ++ [.S lam]) w = 0 := by
  obtain ⟨w, hw, hw1, hw2⟩ := Z.act (specIn_pow hs r) (wf_sym (.S [])) (y := Finsupp.single [] 1) (by simp [inq]) (supp_single Z.nil 1)
  have hsup := Z.Y.act_support (den [(List.replicate r (Sym.S [1]), 1)]) (supp_single Z.nil 1)
  refine ⟨w, hw, linComb_of_ev hw1 hw2 hsup, fun lam hlam => ?_⟩
  obtain ⟨u, hu, rfl⟩ := (Wd_cls (Nat.zero_le n) lam).1 ((hcls lam).1 hlam)
  have key : ∀ d : ℕ, coeffOf (List.replicate d Sym.q ++ [.S (labW u)]) w = (Polynomial.C (g (labW u))).coeff d := by
    intro d
    rw [coeffOf_den hw1 (qmono_sorted d _), hw2, expo_qmono, coeff_ev, den_rep, h u hu]
  refine ⟨?_, fun d hd => ?_⟩
  · have := key 0
    rw [List.replicate_zero, List.nil_append] at this
    rw [this]
    simp
  · rw [key d, Polynomial.coeff_C, if_neg (by omega)]

theorem sizeW_le : ∀ w : List L3, 2 * sizeW w ≤ w.length * (w.length + 1)
  | [] => by simp [sizeW, setW]
  | .a :: w => by
    have := sizeW_le w
    unfold sizeW at this ⊢
    rw [setW, Finset.sum_insert (setW_top w), List.length_cons]
    nlinarith
  | .b :: w => by
    have := sizeW_le w
    unfold sizeW at this ⊢
    rw [setW, List.length_cons]
    · nlinarith
    · simp
  | .o :: w => by
    have := sizeW_le w
    unfold sizeW at this ⊢
    rw [setW, List.length_cons]
    · nlinarith
    · simp

theorem sizeW_top : ∀ w : List L3, colsW 0 w = 0 → 2 * sizeW w = w.length * (w.length + 1) → labW w = stairs w.length
  | [], _, _ => rfl
  | .a :: w, h, hs => by
    have h2 := (colsW_zero_cons h).2
    rw [labW_a, h2, List.length_cons, stairs, sizeW_top w h2]
    · simp
    · unfold sizeW at hs ⊢
      rw [setW, Finset.sum_insert (setW_top w), List.length_cons] at hs
      nlinarith
  | .b :: w, h, hs => by
    have := sizeW_le w
    unfold sizeW at this hs
    rw [setW, List.length_cons] at hs
    · nlinarith
    · simp
  | .o :: w, h, hs => absurd rfl (colsW_zero_cons h).1

theorem stairs_word (n : ℕ) : (List.replicate n L3.a) ∈ Wd n 0 ∧ labW (List.replicate n L3.a) = stairs n := by
  induction n with
  | zero => exact ⟨by decide, rfl⟩
  | succ n ih =>
    obtain ⟨h1, h2⟩ := mem_Wd.1 ih.1
    refine ⟨mem_Wd.2 ⟨by simp, by rw [List.replicate_succ]; simpa [colsW] using h2⟩, ?_⟩
    rw [List.replicate_succ, labW_a, h1, h2, ih.2, stairs]
    simp

theorem stairs_sum (n : ℕ) : 2 * (stairs n).sum = n * (n + 1) := by
  induction n with
  | zero => rfl
  | succ n ih => rw [stairs, List.sum_cons, mul_add, ih]; push_cast; ring

/-- The top power. -/
theorem pow_top (Z : RingOn X pieri spc cls B) (hs : spc 1) (hcls : ∀ l, cls l ↔ clsBC n 0 l) {r : ℕ} (hr : 2 * r = n * (n + 1))
    {g : List Int → ℚ} (hg : g (stairs n) ≠ 0)
    (h : ∀ w ∈ Wd n 0, Z.Y.act (MvPolynomial.X (.S [1]) ^ r) (Finsupp.single [] 1) (labW w) =
      Polynomial.C (if (labW w).sum = r then g (labW w) else 0)) :
    X.actLc pieri [(List.replicate r (.S [1]), 1)] (Poly.sym (.S [])) = .ok [([.S (stairs n)], g (stairs n))] := by
  have hret := Z.act (specIn_pow hs r) (wf_sym (.S [])) (y := Finsupp.single [] 1) (by simp [inq]) (supp_single Z.nil 1)
  have hsup := Z.Y.act_support (MvPolynomial.X (.S [1]) ^ r) (supp_single Z.nil 1)
  have e : Z.Y.act (MvPolynomial.X (.S [1]) ^ r) (Finsupp.single [] 1) = Finsupp.single (stairs n) (Polynomial.C (g (stairs n))) := by
    obtain ⟨s1, s2⟩ := stairs_word n
    ext1 l
    by_cases hl : l = stairs n
    · subst hl
      rw [Finsupp.single_eq_same, ← s2, h _ s1, if_pos]
      have := stairs_sum n
      have hr' : (2 * r : ℤ) = n * (n + 1) := by exact_mod_cast hr
      rw [s2]
      omega
    · rw [Finsupp.single_eq_of_ne hl]
      by_contra hne
      have hc := hsup l (Finsupp.mem_support_iff.2 hne)
      obtain ⟨u, hu, rfl⟩ := (Wd_cls (Nat.zero_le n) l).1 ((hcls l).1 hc)
      obtain ⟨h1, h2⟩ := mem_Wd.1 hu
      rw [h u hu] at hne
      split at hne
      · rename_i h3
        rw [labW_size h2] at h3
        apply hl
        rw [sizeW_top u h2 (by rw [h1]; omega), h1]
      · simp at hne
  rw [den_rep, e, ev_single, show inq (Polynomial.C (g (stairs n))) = MvPolynomial.C (g (stairs n)) from by simp [inq]] at hret
  refine returns_mono hg (by simp) ?_
  simp only [monoDen, List.map_cons, List.map_nil, List.prod_cons, List.prod_nil, mul_one]
  exact hret

end

theorem stairs_sub (n : ℕ) : ∀ c : ℕ, ((stairs n).map fun y => (((n : ℤ) + 1 + c - y : ℤ) : ℚ)).prod * (c ! : ℚ) = ((n + c)! : ℚ) := by
  induction n with
  | zero => intro c; simp [stairs]
  | succ n ih =>
    intro c
    have h := ih (c + 1)
    rw [stairs, List.map_cons, List.prod_cons]
    rw [Nat.factorial_succ] at h
    push_cast at h ⊢
    rw [show n + 1 + c = n + (c + 1) by ring, ← h]
    have e : (fun y : ℤ => ((n : ℚ) + 1 + 1 + c - y)) = fun y : ℤ => ((n : ℚ) + 1 + (c + 1) - y) := by
      funext y; ring
    rw [e]
    ring

theorem stairs_add (x n : ℕ) : ((stairs n).map fun y => (((x : ℤ) + y : ℤ) : ℚ)).prod * (x ! : ℚ) = ((x + n)! : ℚ) := by
  induction n with
  | zero => simp [stairs]
  | succ n ih =>
    rw [stairs, List.map_cons, List.prod_cons, mul_assoc, ih, show x + (n + 1) = x + n + 1 from rfl, Nat.factorial_succ]
    push_cast
    ring

theorem map_div_prod (l : List Int) (f g : Int → ℚ) : (l.map fun y => f y / g y).prod = (l.map f).prod / (l.map g).prod := by
  induction l with
  | nil => simp
  | cons a l ih => simp [ih, div_mul_div_comm]

theorem fact_ne (a : ℕ) : ((a ! : ℕ) : ℚ) ≠ 0 := by exact_mod_cast Nat.factorial_ne_zero a

theorem shiftProd_stairs (n : ℕ) : shiftProd (stairs n) = ∏ i ∈ Finset.range n, ((i ! : ℚ) / ((2 * i + 1)! : ℚ)) := by
  induction n with
  | zero => rfl
  | succ n ih =>
    rw [stairs, shiftProd, ih, Finset.prod_range_succ, map_div_prod]
    have h1 := stairs_sub n 0
    have h2 := stairs_add (n + 1) n
    simp only [Nat.cast_zero, add_zero, Nat.factorial_zero, Nat.cast_one, mul_one] at h1
    push_cast at h1 h2 ⊢
    rw [h1]
    have h3 : invFact ((n : ℤ) + 1) = 1 / ((n + 1)! : ℚ) := by
      unfold invFact
      rw [if_neg (by omega)]
      rfl
    rw [h3, show 2 * n + 1 = n + 1 + n by ring, ← h2]
    have h4 := fact_ne (n + 1)
    generalize hP : (List.map (fun y : ℤ => (n : ℚ) + 1 + y) (stairs n)).prod = Q at h2 ⊢
    have h5 : Q ≠ 0 := by
      rintro rfl
      rw [zero_mul] at h2
      exact fact_ne _ h2.symm
    rw [mul_comm, div_mul_div_comm, one_mul, mul_comm Q]

theorem shiftCount_stairs_pos (n : ℕ) : shiftCount (stairs n) ≠ 0 := by
  unfold shiftCount
  rw [shiftProd_stairs]
  exact mul_ne_zero (fact_ne _) (Finset.prod_ne_zero_iff.2 fun i _ => div_ne_zero (fact_ne _) (fact_ne _))

/-! ### The three rings -/

section
variable {n : ℕ}

theorem fac_B (r : ℕ) {w : List L3} (hw : w ∈ Wd n 0) : (if sizeW w = r then (r ! : ℚ) * fS (setW w) else 0) =
    if (labW w).sum = r then shiftCount (labW w) else 0 := by
  obtain ⟨-, h⟩ := mem_Wd.1 hw
  rw [labW_size h, shiftCount, labW_size h, shiftProd_labW h, Int.toNat_natCast]
  by_cases h1 : sizeW w = r
  · rw [if_pos h1, if_pos (by exact_mod_cast h1), h1]
  · rw [if_neg h1, if_neg (by exact_mod_cast h1)]

theorem fac_C (r : ℕ) {w : List L3} (hw : w ∈ Wd n 0) :
    (if sizeW w = r then (r ! : ℚ) * (2 ^ (sizeW w - (setW w).card) * fS (setW w)) else 0) =
    if (labW w).sum = r then 2 ^ (r - (labW w).length) * shiftCount (labW w) else 0 := by
  obtain ⟨-, h⟩ := mem_Wd.1 hw
  rw [labW_size h, shiftCount, labW_size h, labW_card h, shiftProd_labW h, Int.toNat_natCast]
  by_cases h1 : sizeW w = r
  · rw [if_pos h1, if_pos (by exact_mod_cast h1), h1]
    ring
  · rw [if_neg h1, if_neg (by exact_mod_cast h1)]

theorem fac_zero {w : List L3} (hw : w ∈ Wd n 0) : sizeW w = 0 ↔ labW w = [] := by
  refine ⟨fun h => (labW_nil_iff hw h).1, fun h => ?_⟩
  have := labW_size (mem_Wd.1 hw).2
  rw [h, List.sum_nil] at this
  exact_mod_cast this.symm

theorem act_OG {X : Space} {pieri : Int → List Int → Except PyErr Poly} {spc : Int → Prop} {cls : List Int → Prop} {B : ℕ}
    (Z : RingOn X pieri spc cls B) (hs : spc 1) (hcls : ∀ l, cls l ↔ clsBC n 0 l)
    (ht : ∀ u ∈ Wd n 0, ∀ w ∈ Wd n 0, Z.Y.t 1 (labW u) (labW w) = MB 0 1 u w) (r : ℕ) :
    ∀ w ∈ Wd n 0, Z.Y.act (MvPolynomial.X (.S [1]) ^ r) (Finsupp.single [] 1) (labW w) =
      Polynomial.C (if (labW w).sum = r then shiftCount (labW w) else 0) := by
  intro w hw
  rw [← fac_B r hw]
  refine pow_words Z hs hcls (e := fun u w => 1 / 2 * e1W 2 u w) (F := fun r w => if sizeW w = r then (r ! : ℚ) * fS (setW w) else 0)
    (fun u hu w hw => by rw [ht u hu w hw, MB_one hu hw]) (fun w hw => ?_) (fun w hw r => rec_B hw r) r w hw
  by_cases h : labW w = []
  · have h1 := (fac_zero hw).2 h
    rw [if_pos h, if_pos h1, (labW_nil_iff hw h1).2]
    simp [fS]
  · rw [if_neg h, if_neg (fun h1 => h ((fac_zero hw).1 h1))]

theorem act_IG (hn : 0 < n) (r : ℕ) :
    ∀ w ∈ Wd n 0, (ringIG n 0 hn.le).Y.act (MvPolynomial.X (.S [1]) ^ r) (Finsupp.single [] 1) (labW w) =
      Polynomial.C (if (labW w).sum = r then 2 ^ (r - (labW w).length) * shiftCount (labW w) else 0) := by
  intro w hw
  rw [← fac_C r hw]
  refine pow_words (ringIG n 0 hn.le) ⟨by omega, by push_cast; omega⟩ (fun _ => Iff.rfl) (e := fun u w => e1W 1 u w)
    (F := fun r w => if sizeW w = r then (r ! : ℚ) * (2 ^ (sizeW w - (setW w).card) * fS (setW w)) else 0)
    (fun u hu w hw => ?_) (fun w hw => ?_) (fun w hw r => rec_C hw r) r w hw
  · rw [← MC_one hu hw]
    exact tM_apply _ Wd_inj 1 hu hw
  · by_cases h : labW w = []
    · have h1 := (fac_zero hw).2 h
      rw [if_pos h, if_pos h1, (labW_nil_iff hw h1).2, h1]
      simp [fS]
    · rw [if_neg h, if_neg (fun h1 => h ((fac_zero hw).1 h1))]

theorem t_OG (hn : 0 < n) : ∀ u ∈ Wd n 0, ∀ w ∈ Wd n 0, (ringOG n 0 hn.le).Y.t 1 (labW u) (labW w) = MB 0 1 u w :=
  fun _ hu _ hw => tM_apply _ Wd_inj 1 hu hw

theorem t_OGD : ∀ u ∈ Wd n 0, ∀ w ∈ Wd n 0, (ringD n 0 (Nat.zero_le _)).Y.t 1 (labW u) (labW w) = MB 0 1 u w := by
  intro u hu w hw
  rw [← tM_apply (MB 0) Wd_inj 1 hu hw, ← tBD (h := 0) (h' := 0) (fun u hu w hw => MD_MB one_ne_zero hu hw) ((Wd_cls (Nat.zero_le n) _).2 ⟨u, hu, rfl⟩)]
  rfl

end

/-! ### C105 -/

section
variable {n : ℕ} {X : Space}

/-- **C105**, type B. `S[1]^r` on `OG(n, 2n+1)`: the coefficient of `S[lam]` is the number of standard tableaux of the shifted shape. -/
theorem C105_OG (hn : 0 < n) (hX : mkOG n (2 * n + 1) = .ok X) (r : ℕ) :
    ∃ w, X.act [(List.replicate r (.S [1]), 1)] (Poly.sym (.S [])) = .ok w ∧ LinComb (BCClass n n) w ∧
      ∀ lam, BCClass n n lam → coeffOf [.S lam] w = (if lam.sum = r then shiftCount lam else 0) ∧
        ∀ d : ℕ, 1 ≤ d → coeffOf (List.replicate d Sym.q ++ [.S lam]) w = 0 := by
  rw [mkOG_max] at hX
  cases hX
  rw [bcClass_max]
  have hs : stdSpc (n + 0) 1 := ⟨by omega, by push_cast; omega⟩
  exact pow_coeffs (ringOG n 0 hn.le) hs (fun _ => Iff.rfl) (act_OG _ hs (fun _ => Iff.rfl) (t_OG hn) r)

/-- **C105**, type D. The same numbers on `OG(n+1, 2n+2)`. -/
theorem C105_OGD (hn : 0 < n) (hX : mkOG (n + 1) (2 * n + 2) = .ok X) (r : ℕ) :
    ∃ w, X.act [(List.replicate r (.S [1]), 1)] (Poly.sym (.S [])) = .ok w ∧ LinComb (DClass (n + 1) n) w ∧
      ∀ lam, DClass (n + 1) n lam → coeffOf [.S lam] w = (if lam.sum = r then shiftCount lam else 0) ∧
        ∀ d : ℕ, 1 ≤ d → coeffOf (List.replicate d Sym.q ++ [.S lam]) w = 0 := by
  rw [mkOGD_max] at hX
  cases hX
  rw [dClass_max]
  have hs : spcD n 0 1 := by rw [spcD_zero]; exact ⟨by omega, by push_cast; omega⟩
  have hc : ∀ l, clsD n 0 l ↔ clsBC n 0 l := fun l => by rw [clsD_zero]
  have := pow_coeffs (ringD n 0 (Nat.zero_le _)) hs hc (g := fun l => if l.sum = r then shiftCount l else 0) (act_OG _ hs hc t_OGD r)
  rwa [clsD_zero] at this

/-- **C105**, type C. On `IG(n, 2n)` the number is multiplied by `2 ^ (r - length)`. -/
theorem C105_IG (hn : 0 < n) (hX : mkIG n (2 * n) = .ok X) (r : ℕ) :
    ∃ w, X.act [(List.replicate r (.S [1]), 1)] (Poly.sym (.S [])) = .ok w ∧ LinComb (BCClass n n) w ∧
      ∀ lam, BCClass n n lam → coeffOf [.S lam] w = (if lam.sum = r then 2 ^ (r - lam.length) * shiftCount lam else 0) ∧
        ∀ d : ℕ, 1 ≤ d → coeffOf (List.replicate d Sym.q ++ [.S lam]) w = 0 := by
  rw [mkIG_max] at hX
  cases hX
  rw [bcClass_max]
  have hs : stdSpc (n + 0) 1 := ⟨by omega, by push_cast; omega⟩
  exact pow_coeffs (ringIG n 0 hn.le) hs (fun _ => Iff.rfl) (act_IG hn r)

theorem shiftCount_top {r : ℕ} (hr : 2 * r = n * (n + 1)) :
    shiftCount (stairs n) = (r ! : ℚ) * ∏ i ∈ Finset.range n, ((i ! : ℚ) / ((2 * i + 1)! : ℚ)) := by
  have := stairs_sum n
  have hr' : (2 * r : ℤ) = n * (n + 1) := by exact_mod_cast hr
  rw [shiftCount, shiftProd_stairs, show (stairs n).sum = r by omega, Int.toNat_natCast]

theorem stairs_length (n : ℕ) : (stairs n).length = n := by
  induction n with
  | zero => rfl
  | succ n ih => rw [stairs, List.length_cons, ih]

/-- **C105**, type B. The degree of `OG(n, 2n+1)`: `S[1]^r = r! * ∏ i!/(2i+1)!` times the class of a point, `r = n(n+1)/2`. -/
theorem C105_OG_degree (hn : 0 < n) (hX : mkOG n (2 * n + 1) = .ok X) {r : ℕ} (hr : 2 * r = n * (n + 1)) :
    X.act [(List.replicate r (.S [1]), 1)] (Poly.sym (.S [])) =
      .ok [([.S (stairs n)], (r ! : ℚ) * ∏ i ∈ Finset.range n, ((i ! : ℚ) / ((2 * i + 1)! : ℚ)))] := by
  rw [mkOG_max] at hX
  cases hX
  have hs : stdSpc (n + 0) 1 := ⟨by omega, by push_cast; omega⟩
  rw [← shiftCount_top hr]
  exact pow_top (ringOG n 0 hn.le) hs (fun _ => Iff.rfl) hr (shiftCount_stairs_pos n) (act_OG _ hs (fun _ => Iff.rfl) (t_OG hn) r)

/-- **C105**, type D. The degree of `OG(n+1, 2n+2)`. -/
theorem C105_OGD_degree (hn : 0 < n) (hX : mkOG (n + 1) (2 * n + 2) = .ok X) {r : ℕ} (hr : 2 * r = n * (n + 1)) :
    X.act [(List.replicate r (.S [1]), 1)] (Poly.sym (.S [])) =
      .ok [([.S (stairs n)], (r ! : ℚ) * ∏ i ∈ Finset.range n, ((i ! : ℚ) / ((2 * i + 1)! : ℚ)))] := by
  rw [mkOGD_max] at hX
  cases hX
  have hs : spcD n 0 1 := by rw [spcD_zero]; exact ⟨by omega, by push_cast; omega⟩
  have hc : ∀ l, clsD n 0 l ↔ clsBC n 0 l := fun l => by rw [clsD_zero]
  rw [← shiftCount_top hr]
  exact pow_top (ringD n 0 (Nat.zero_le _)) hs hc hr (shiftCount_stairs_pos n) (act_OG _ hs hc t_OGD r)

/-- **C105**, type C. The degree of `IG(n, 2n)`: `2 ^ (n(n-1)/2)` times that of `OG(n, 2n+1)`. -/
theorem C105_IG_degree (hn : 0 < n) (hX : mkIG n (2 * n) = .ok X) {r : ℕ} (hr : 2 * r = n * (n + 1)) :
    X.act [(List.replicate r (.S [1]), 1)] (Poly.sym (.S [])) =
      .ok [([.S (stairs n)], 2 ^ (r - n) * ((r ! : ℚ) * ∏ i ∈ Finset.range n, ((i ! : ℚ) / ((2 * i + 1)! : ℚ))))] := by
  rw [mkIG_max] at hX
  cases hX
  have hs : stdSpc (n + 0) 1 := ⟨by omega, by push_cast; omega⟩
  rw [← shiftCount_top hr]
  have h := pow_top (ringIG n 0 hn.le) hs (fun _ => Iff.rfl) hr (g := fun l => 2 ^ (r - l.length) * shiftCount l)
    (mul_ne_zero (pow_ne_zero _ two_ne_zero) (shiftCount_stairs_pos n)) (act_IG hn r)
  simp only [stairs_length] at h
  exact h

/-- `S[1]^5` and `S[1]^6` on the three spaces with `n = 3`. -/
example : mkIG 3 6 = .ok ⟨.C, 0, 3⟩ ∧ mkOG 3 7 = .ok ⟨.B, 0, 3⟩ ∧ mkOG 4 8 = .ok ⟨.D, 0, 3⟩ ∧ BCClass 3 3 [3, 2] ∧ DClass 4 3 [3, 2] ∧
    shiftCount [3, 2] = 2 ∧ shiftCount [3, 1] = 2 ∧
    Space.act ⟨.B, 0, 3⟩ [(List.replicate 4 (.S [1]), 1)] (Poly.sym (.S [])) = .ok [([.S [3, 1]], 2)] ∧
    Space.act ⟨.B, 0, 3⟩ [(List.replicate 5 (.S [1]), 1)] (Poly.sym (.S [])) = .ok [([.S [3, 2]], 2)] ∧
    Space.act ⟨.D, 0, 3⟩ [(List.replicate 6 (.S [1]), 1)] (Poly.sym (.S [])) = .ok [([.S [3, 2, 1]], 2)] ∧
    Space.act ⟨.C, 0, 3⟩ [(List.replicate 5 (.S [1]), 1)] (Poly.sym (.S [])) = .ok [([.S [3, 2]], 16)] ∧
    Space.act ⟨.C, 0, 3⟩ [(List.replicate 6 (.S [1]), 1)] (Poly.sym (.S [])) = .ok [([.S [3, 2, 1]], 16)] := by
  refine ⟨by decide, by decide, by decide, by decide, by decide, by decide +kernel, by decide +kernel, by decide +kernel,
    by decide +kernel, by decide +kernel, by decide +kernel, by decide +kernel⟩

end

end Verif
