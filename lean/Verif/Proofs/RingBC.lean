import Verif.Proofs.RingOps
import Verif.Proofs.WordC
import Verif.Props.QPieriBCD
import Verif.Props.PieriExact
/-!
# The rings of `IG(m, 2n)` and `OG(m, 2n+1)`
-/

namespace Verif
open Spec MvPolynomial

theorem clsBC_eq {n k : Nat} (hk : k ≤ n) (l : List Int) : clsBC n k l ↔
    ReducedPart l ∧ KStrict ((n : Int) - (n - k)) l ∧ InRect l ((n : Int) - k).toNat (2 * n - (n - k)) := by
  have e : (n : Int) - (n - k) = k := by ring
  rw [e]
  constructor
  · rintro ⟨a, b⟩
    obtain ⟨u, v⟩ := class_of_inBox (d := 0) (m := ((n : Int) - k).toNat) (c := 2 * n - (n - k)) (by omega) (by omega) a b
    exact ⟨a, u, v⟩
  · rintro ⟨a, u, v⟩
    exact ⟨a, inBox_of_class (d := 0) (m := ((n : Int) - k).toNat) (by omega) (c := 2 * n - (n - k)) (by omega) (by omega) a u v⟩

theorem mkIG_nat (n k : Nat) (hk : k ≤ n) : mkIG ((n : Int) - k) (2 * n) = .ok ⟨.C, k, n⟩ := by
  unfold mkIG
  rw [if_neg (by omega), if_neg (by omega), if_neg (by omega)]
  congr 2 <;> omega

theorem mkOG_nat (n k : Nat) (hk : k ≤ n) : mkOG ((n : Int) - k) (2 * n + 1) = .ok ⟨.B, k, n⟩ := by
  unfold mkOG
  rw [if_neg (by omega), if_pos (by omega)]
  congr 2 <;> omega

theorem clsBC_nil {n k : Nat} (hk : k ≤ n) : clsBC n k [] := by
  refine ⟨⟨List.Pairwise.nil, by simp⟩, ?_⟩
  exact inBox_of_class (d := 0) (m := n - k) (c := n + k) (by omega) rfl (by omega) ⟨List.Pairwise.nil, by simp⟩
    List.Pairwise.nil ⟨by simp, by simp⟩

/-- bound for the recursion depth -/
def boundBC (n k : Nat) : Nat := (n - k) * (n + k) * (n + k + 1) + (n + k + 1)

theorem measBC_lt_bound {n k : Nat} (hk : k ≤ n) {l : List Int} (h : clsBC n k l) : measBC n k l < boundBC n k := by
  obtain ⟨_, h1, h2⟩ := (clsBC_eq hk l).1 h
  have h3 : l.sum ≤ ((n - k) * (n + k) : Nat) := by
    have := List.sum_le_card_nsmul l ((n : Int) + k) (fun x hx => by have := h2.2 x hx; omega)
    rw [nsmul_eq_mul] at this
    have h4 : (l.length : Int) ≤ (n - k : Nat) := by have := h2.1; omega
    have h5 := Int.mul_le_mul_of_nonneg_right h4 (show (0 : Int) ≤ n + k by omega)
    push_cast at h5 ⊢
    omega
  have h4 : l.sum.toNat ≤ (n - k) * (n + k) := by omega
  have := Nat.mul_le_mul_right (n + k + 1) h4
  unfold measBC boundBC
  omega

theorem unit_of_hom {pieri : Int → List Int → Except PyErr Poly} {n k : Nat} (hk : k ≤ n) (Y : GSys pieri (n + k) (clsBC n k))
    (hm : Y.meas = measBC n k) {p : Nat} (h1 : 1 ≤ p) (hc : clsBC n k [(p : Int)]) (hp : p ≤ n + k)
    (hs : ∀ mu ∈ (Y.t p []).support, mu.sum = p) : Y.t p [] = Finsupp.single [(p : Int)] 1 := by
  classical
  obtain ⟨_, _, _, _, h5⟩ := Y.step p [] hc
  rw [Int.toNat_natCast] at h5
  rw [← sub_eq_zero, ← Finsupp.support_eq_empty, Finset.eq_empty_iff_forall_notMem]
  intro mu hmu
  obtain ⟨h6, h7⟩ := h5 mu hmu
  have hsum : mu.sum = p := by
    rcases Finset.mem_union.1 (Finsupp.support_sub hmu) with h | h
    · exact hs mu h
    · rw [Finset.mem_singleton.1 (Finsupp.support_single_subset h)]; simp
  rw [hm] at h7
  unfold measBC at h7
  rw [hsum] at h7
  have e : part [(p : Int)] 0 = p := rfl
  rw [e] at h7
  simp only [List.sum_cons, List.sum_nil, add_zero] at h7
  have h8 : part mu 0 ≤ mu.sum := by
    cases mu with
    | nil => simp [part]
    | cons x mu =>
      have : 0 ≤ mu.sum := isPartition_sum_nonneg ⟨h6.1.1.tail, fun z hz => by have := h6.1.2 z (by simp [hz]); omega⟩
      simp [part]; omega
  omega

theorem hom_to_sum {n k p : Nat} {x : LMod} (h : HomX ((n : Int) + k + 1) p x) (hp : p ≤ n + k) (hc : ∀ mu ∈ x.support, clsBC n k mu) :
    ∀ mu ∈ x.support, mu.sum = p := by
  intro mu hmu
  have h0 := isPartition_sum_nonneg (hc mu hmu).2.isPart
  obtain ⟨d, hd⟩ : ∃ d, (x mu).coeff d ≠ 0 := by
    by_contra hcon
    push Not at hcon
    rw [Finsupp.mem_support_iff] at hmu
    exact hmu (Polynomial.ext (by simpa using hcon))
  have h1 := h mu d hd
  cases d with
  | zero => simpa using h1
  | succ d =>
    exfalso
    push_cast at h1
    nlinarith

/-! ### Homogeneity and integrality of the Pieri rules -/

theorem termDeg_of_classical {w : Poly} {cls : List Int → Prop} {D : Int} (N : Int)
    (h : ∀ t ∈ w, ∃ mu, t.1 = [.S mu] ∧ cls mu ∧ mu.sum = D) :
    ∀ t ∈ w, ∃ (d : Nat) (nu : List Int), t.1 = List.replicate d .q ++ [.S nu] ∧ nu.sum + d * N = D := by
  intro t ht
  obtain ⟨mu, h1, _, h2⟩ := h t ht
  exact ⟨0, mu, by simpa using h1, by simpa using h2⟩

section
variable (n k : Nat) (hk : k ≤ n)

theorem lin_single_one (t : List Int → LMod) (l : List Int) : lin t (Finsupp.single l 1) = t l := by simp [lin]

theorem single_cls {cls : List Int → Prop} {l : List Int} (hl : cls l) : ∀ mu ∈ (Finsupp.single l (1 : Polynomial ℚ)).support, cls mu := by
  intro nu hnu
  rw [Finset.mem_singleton.1 (Finsupp.support_single_subset hnu)]; exact hl

theorem sys_nonclass {n k : Nat} (hk : k ≤ n) (M : Nat → List L3 → List L3 → Polynomial ℚ) (p : Nat) {l : List Int} (h : ¬ clsBC n k l) :
    tM (Wd n k) labW M p l = 0 :=
  tM_ne M p (fun u hu e => h ((Wd_cls hk l).2 ⟨u, hu, e⟩))

include hk

theorem retIG {p : Nat} (h1 : 1 ≤ p) (h2 : p ≤ n + k) {l : List Int} (hl : clsBC n k l) :
    Returns (Space.pieri ⟨.C, k, n⟩ p (Poly.sym (.S l))) (ev ((sysIG n k hk).t p l)) := by
  have := (sysIG n k hk).apply_pieri h1 h2 (wf_sym (.S l)) (x := Finsupp.single l 1) (by simp [inq]) (single_cls hl)
  rw [lin_single_one] at this
  exact this

theorem retQIG (ord : List Int → List Int) {p : Nat} (h1 : 1 ≤ p) (h2 : p ≤ n + k) {l : List Int} (hl : clsBC n k l) :
    Returns (Space.qpieri ord ⟨.C, k, n⟩ p (Poly.sym (.S l))) (ev ((sysQIG n k hk).t p l)) := by
  have := (sysQIG n k hk).apply_pieri h1 h2 (wf_sym (.S l)) (x := Finsupp.single l 1) (by simp [inq]) (single_cls hl)
  rw [lin_single_one] at this
  exact this

theorem retOG {p : Nat} (h1 : 1 ≤ p) (h2 : p ≤ n + k) {l : List Int} (hl : clsBC n k l) :
    Returns (Space.pieri ⟨.B, k, n⟩ p (Poly.sym (.S l))) (ev ((sysOG n k hk).t p l)) := by
  have := (sysOG n k hk).apply_pieri h1 h2 (wf_sym (.S l)) (x := Finsupp.single l 1) (by simp [inq]) (single_cls hl)
  rw [lin_single_one] at this
  exact this

theorem homIG (N : Int) {p : Nat} (h1 : 1 ≤ p) (h2 : p ≤ n + k) (l : List Int) : HomX N (p + l.sum) ((sysIG n k hk).t p l) := by
  by_cases hl : clsBC n k l
  · obtain ⟨a, b, c⟩ := (clsBC_eq hk l).1 hl
    obtain ⟨w, e1, _, e2⟩ := C32_pieri_IG _ n p _ (mkIG_nat n k hk) l a b c
    refine homX_of_ret (retIG n k hk h1 h2 hl) ⟨w, e1, ?_⟩
    rw [add_comm]
    refine termDeg_of_classical (cls := fun _ => True) N (fun t ht => ?_)
    obtain ⟨mu, a, _, _, _, b⟩ := e2 t ht
    exact ⟨mu, a, trivial, b⟩
  · rw [show (sysIG n k hk).t p l = 0 from sys_nonclass hk _ p hl]; exact HomX.zero _

theorem homOG (N : Int) {p : Nat} (h1 : 1 ≤ p) (h2 : p ≤ n + k) (l : List Int) : HomX N (p + l.sum) ((sysOG n k hk).t p l) := by
  by_cases hl : clsBC n k l
  · obtain ⟨a, b, c⟩ := (clsBC_eq hk l).1 hl
    obtain ⟨w, e1, _, e2⟩ := C32_pieri_OG _ n p (by omega) _ (mkOG_nat n k hk) l a b c
    refine homX_of_ret (retOG n k hk h1 h2 hl) ⟨w, e1, ?_⟩
    rw [add_comm]
    refine termDeg_of_classical (cls := fun _ => True) N (fun t ht => ?_)
    obtain ⟨mu, a, _, _, _, b⟩ := e2 t ht
    exact ⟨mu, a, trivial, b⟩
  · rw [show (sysOG n k hk).t p l = 0 from sys_nonclass hk _ p hl]; exact HomX.zero _

theorem homQIG {p : Nat} (h1 : 1 ≤ p) (h2 : p ≤ n + k) (l : List Int) :
    HomX ((n : Int) + k + 1) (p + l.sum) ((sysQIG n k hk).t p l) := by
  by_cases hl : clsBC n k l
  · obtain ⟨a, b, c⟩ := (clsBC_eq hk l).1 hl
    obtain ⟨w, e1, e2⟩ := C34_qpieri_IG id _ n p _ (mkIG_nat n k hk) l a b c
    refine homX_of_ret (retQIG n k hk id h1 h2 hl) ⟨w, e1, ?_⟩
    intro t ht
    obtain ⟨d, nu, e, _, _, _, hs⟩ := e2 t ht
    refine ⟨d, nu, e, ?_⟩
    have e3 : (Space.mk .C k n).degreeQ = (n : Int) + k + 1 := by unfold Space.degreeQ; ring
    rw [e3] at hs
    rw [hs, add_comm]
  · rw [show (sysQIG n k hk).t p l = 0 from sys_nonclass hk _ p hl]; exact HomX.zero _

theorem int_of_pow {w : Poly} (h : ∀ t ∈ w, ∃ e : Nat, t.2 = 2 ^ e) : ∀ t ∈ w, ∃ z : Int, t.2 = z := by
  intro t ht
  obtain ⟨e, he⟩ := h t ht
  exact ⟨2 ^ e, by rw [he]; push_cast; rfl⟩

theorem intIG {p : Nat} (h1 : 1 ≤ p) (h2 : p ≤ n + k) (l : List Int) : IntX ((sysIG n k hk).t p l) := by
  by_cases hl : clsBC n k l
  · obtain ⟨a, b, c⟩ := (clsBC_eq hk l).1 hl
    obtain ⟨w, e1, e2⟩ := C33_coefficients_IG _ n p _ (mkIG_nat n k hk) l a b c
    exact intX_of_ret (retIG n k hk h1 h2 hl) ⟨w, e1, int_of_pow n k hk e2⟩
  · rw [show (sysIG n k hk).t p l = 0 from sys_nonclass hk _ p hl]; exact IntX.zero

theorem intOG {p : Nat} (h1 : 1 ≤ p) (h2 : p ≤ n + k) (l : List Int) : IntX ((sysOG n k hk).t p l) := by
  by_cases hl : clsBC n k l
  · obtain ⟨a, b, c⟩ := (clsBC_eq hk l).1 hl
    obtain ⟨_, w, e1, e2⟩ := C33_coefficients_OG _ n p (by omega) _ (mkOG_nat n k hk) l a b c
    exact intX_of_ret (retOG n k hk h1 h2 hl) ⟨w, e1, int_of_pow n k hk e2⟩
  · rw [show (sysOG n k hk).t p l = 0 from sys_nonclass hk _ p hl]; exact IntX.zero

theorem intQIG {p : Nat} (h1 : 1 ≤ p) (h2 : p ≤ n + k) (l : List Int) : IntX ((sysQIG n k hk).t p l) := by
  by_cases hl : clsBC n k l
  · obtain ⟨a, b, c⟩ := (clsBC_eq hk l).1 hl
    obtain ⟨w, e1, e2⟩ := C35_qpieri_IG_integral id _ n p _ (mkIG_nat n k hk) l a b c (by omega)
    exact intX_of_ret (retQIG n k hk id h1 h2 hl) ⟨w, e1, int_of_pow n k hk e2⟩
  · rw [show (sysQIG n k hk).t p l = 0 from sys_nonclass hk _ p hl]; exact IntX.zero

theorem q0_QIG (p : Nat) (l : List Int) : q0 ((sysQIG n k hk).t p l) = (sysIG n k hk).t p l := by
  by_cases hl : clsBC n k l
  · obtain ⟨u, hu, rfl⟩ := (Wd_cls hk l).1 hl
    show q0 (tM (Wd n k) labW (MC (Polynomial.C (1 / 2) * Polynomial.X)) p (labW u)) = tM (Wd n k) labW (MC 0) p (labW u)
    rw [tM_lab _ Wd_inj p hu, tM_lab _ Wd_inj p hu, map_sum]
    apply Finset.sum_congr rfl
    intro w hw
    rw [q0_single, MC_eq _ p hu hw, MC_eq _ p hu hw]
    simp
  · rw [show (sysIG n k hk).t p l = 0 from sys_nonclass hk _ p hl, show (sysQIG n k hk).t p l = 0 from sys_nonclass hk _ p hl, map_zero]

end

/-! ### The rings -/

theorem spec_std {X : Space} (hX : X.type ≠ .D) (K : Nat) (p : Int) (h : stdSpc K p) :
    X.spec2numSym (.S (num2spec p)) = .ok p := by
  rw [num2spec_pos h.1]
  simp [Space.spec2numSym, Space.spec2num, at', hX]

/-- the classical ring of `IG(n-k, 2n)` -/
noncomputable def ringIG (n k : Nat) (hk : k ≤ n) :
    RingOn ⟨.C, k, n⟩ (Space.pieriFn ⟨.C, k, n⟩) (stdSpc (n + k)) (clsBC n k) (boundBC n k) where
  Y := (sysIG n k hk).toGiam k
  fuel _ hl := measBC_lt_bound hk hl
  spec p h := spec_std (by simp) (n + k) p h
  nil := clsBC_nil hk
  unit p h hc := by
    obtain ⟨h1, h2⟩ := h
    obtain ⟨p, rfl⟩ : ∃ p' : Nat, p = p' := ⟨p.toNat, by omega⟩
    rw [num2spec_pos h1] at hc ⊢
    refine unit_of_hom hk (sysIG n k hk) rfl (by omega) hc (by omega) ?_
    refine hom_to_sum (n := n) (k := k) ?_ (by omega) ((sysIG n k hk).closed p [])
    simpa using homIG n k hk _ (by omega) (by omega) []

/-- the quantum ring of `IG(n-k, 2n)` -/
noncomputable def ringQIG (ord : List Int → List Int) (n k : Nat) (hk : k ≤ n) :
    RingOn ⟨.C, k, n⟩ (Space.qpieriFn ord ⟨.C, k, n⟩) (stdSpc (n + k)) (clsBC n k) (boundBC n k) where
  Y := (sysQIG n k hk).toGiam k
  fuel _ hl := measBC_lt_bound hk hl
  spec p h := spec_std (by simp) (n + k) p h
  nil := clsBC_nil hk
  unit p h hc := by
    obtain ⟨h1, h2⟩ := h
    obtain ⟨p, rfl⟩ : ∃ p' : Nat, p = p' := ⟨p.toNat, by omega⟩
    rw [num2spec_pos h1] at hc ⊢
    refine unit_of_hom hk (sysQIG n k hk) rfl (by omega) hc (by omega) ?_
    refine hom_to_sum (n := n) (k := k) ?_ (by omega) ((sysQIG n k hk).closed p [])
    simpa using homQIG n k hk (by omega) (by omega) []

/-- the classical ring of `OG(n-k, 2n+1)` -/
noncomputable def ringOG (n k : Nat) (hk : k ≤ n) :
    RingOn ⟨.B, k, n⟩ (Space.pieriFn ⟨.B, k, n⟩) (stdSpc (n + k)) (clsBC n k) (boundBC n k) where
  Y := (sysOG n k hk).toGiam k
  fuel _ hl := measBC_lt_bound hk hl
  spec p h := spec_std (by simp) (n + k) p h
  nil := clsBC_nil hk
  unit p h hc := by
    obtain ⟨h1, h2⟩ := h
    obtain ⟨p, rfl⟩ : ∃ p' : Nat, p = p' := ⟨p.toNat, by omega⟩
    rw [num2spec_pos h1] at hc ⊢
    refine unit_of_hom hk (sysOG n k hk) rfl (by omega) hc (by omega) ?_
    refine hom_to_sum (n := n) (k := k) ?_ (by omega) ((sysOG n k hk).closed p [])
    simpa using homOG n k hk _ (by omega) (by omega) []

/-- a system with `S[1..K]` as special classes is graded when its Pieri rule is -/
theorem homT_toGiam {pieri : Int → List Int → Except PyErr Poly} {K : Nat} {cls : List Int → Prop} (Y : GSys pieri K cls) (κ : Int)
    {N : Int} (h : ∀ p : Nat, 1 ≤ p → p ≤ K → ∀ l, HomX N (p + l.sum) (Y.t p l)) (p : Int) (hp : stdSpc K p) :
    HomT N (num2spec p).sum (lin ((Y.toGiam κ).t p)) := by
  obtain ⟨h1, h2⟩ := hp
  apply homT_of_basis
  intro l
  rw [lin_single_one, num2spec_pos h1]
  have := h p.toNat (by omega) (by omega) l
  rw [show ((p.toNat : Nat) : Int) = p by omega] at this
  show HomX N _ (Y.t p.toNat l)
  simpa using this

theorem intX_toGiam {pieri : Int → List Int → Except PyErr Poly} {K : Nat} {cls : List Int → Prop} (Y : GSys pieri K cls) (κ : Int)
    (h : ∀ p : Nat, 1 ≤ p → p ≤ K → ∀ l, IntX (Y.t p l)) (p : Int) (l : List Int) (hp : stdSpc K p) :
    IntX ((Y.toGiam κ).t p l) := h p.toNat (by have := hp.1; omega) (by have := hp.2; omega) l

theorem specIn_iff (K : Nat) (e : Poly) : SpecIn (stdSpc K) e ↔ SpecialPoly K e := by
  unfold SpecIn SpecialPoly
  apply and_congr_right
  intro _
  refine forall₂_congr (fun t _ => forall₂_congr (fun s _ => or_congr_right ?_))
  constructor
  · rintro ⟨p, ⟨h1, h2⟩, rfl⟩
    exact ⟨p, h1, h2, by rw [num2spec_pos h1]⟩
  · rintro ⟨p, h1, h2, rfl⟩
    exact ⟨p, ⟨h1, h2⟩, by rw [num2spec_pos h1]⟩

theorem ringAction_congr {g g' : Poly → Prop} {cls cls' : List Int → Prop} {act : Poly → Poly → Except PyErr Poly}
    (hg : ∀ e, g e ↔ g' e) (hc : ∀ l, cls l ↔ cls' l) (h : RingAction g cls act) : RingAction g' cls' act := by
  rw [funext fun e => propext (hg e), funext fun l => propext (hc l)] at h
  exact h

end Verif
