import Verif.Proofs.NatCoef
import Verif.Proofs.RelRingD
import Verif.Props.NonVanish
import Verif.Props.Relations
import Verif.Props.QPieriExact
import Verif.Props.TwoParam
import Verif.Spec.Dec
/-!
# C122: repeated Pieri products have positive coefficients, and repeated quantum Pieri products do not vanish
-/

namespace Verif
open MvPolynomial Verif.Spec

theorem pos_of_pow {w : Poly} (h : ∀ t ∈ w, ∃ e : Nat, t.2 = 2 ^ e) : PosCoeffs w := by
  intro t ht
  obtain ⟨e, he⟩ := h t ht
  exact ⟨2 ^ e, by positivity, by rw [he]; push_cast; rfl⟩

theorem linComb_syms {cls : List Int → Prop} {a : Poly} (ha : LinComb cls a) : ∀ t ∈ a, ∀ l, Sym.S l ∈ t.1 → cls l := by
  intro t ht l hl
  obtain ⟨d, l', e, hc⟩ := ha.2 t ht
  rw [e] at hl
  rcases List.mem_append.1 hl with h | h
  · exact absurd (List.eq_of_mem_replicate h) (by simp)
  · have : l = l' := by simpa using h
    rw [this]; exact hc

namespace RingOn
variable {X : Space} {pieri : Int → List Int → Except PyErr Poly} {spc : Int → Prop} {cls : List Int → Prop} {B : Nat}

theorem apply_closed (R : RingOn X pieri spc cls B) {p : Int} (hp : spc p) {a : Poly} (ha : LinComb cls a) :
    ∃ u, Poly.apply (pieri p) a = .ok u ∧ LinComb cls u := by
  obtain ⟨x, hx, hxc⟩ := linComb_ev ha.2
  obtain ⟨u, h1, h2, h3⟩ := R.Y.apply_pieri hp ha.1 hx hxc
  exact ⟨u, h1, linComb_of_ev h2 h3 (lin_support (R.Y.closed p) x)⟩

theorem fold_pos (R : RingOn X pieri spc cls B)
    (hnat : ∀ p l, spc p → cls l → ∃ w, Poly.apply (pieri p) (Poly.sym (.S l)) = .ok w ∧ PosCoeffs w)
    (ps : List Int) (hps : ∀ p ∈ ps, spc p) {a : Poly} (ha : LinComb cls a) (hn : PosCoeffs a) :
    ∃ w, ps.foldlM (fun a p => Poly.apply (pieri p) a) a = .ok w ∧ LinComb cls w ∧ PosCoeffs w :=
  fold_natC (fun p l hp hl => ⟨_, R.Y.ret p l hp hl⟩) hnat (fun _ h => linComb_syms h) (fun _ _ hp ha => R.apply_closed hp ha) ps hps ha hn

end RingOn

theorem value_pos {cls : List Int → Prop} {f : Sym → ℝ} (hq : f .q = 1) (hpos : ∀ l, cls l → 0 < f (.S l)) {a : Poly} (ha : LinComb cls a)
    (hn : PosCoeffs a) (h0 : a ≠ []) : 0 < valueAt f a := by
  unfold valueAt
  apply List.sum_pos
  · intro x hx
    obtain ⟨t, ht, rfl⟩ := List.mem_map.1 hx
    obtain ⟨N, hN, e⟩ := hn t ht
    obtain ⟨d, l, e', hl⟩ := ha.2 t ht
    rw [e, e']
    simp only [List.map_append, List.map_replicate, List.prod_append, List.prod_replicate, hq, one_pow, List.map_cons, List.map_nil,
      List.prod_singleton, one_mul]
    refine mul_pos ?_ (hpos l hl)
    simpa using hN
  · simpa using h0

/-- The value of a Pieri product. -/
theorem fold_ne {cls : List Int → Prop} {op : Poly → Int → Except PyErr Poly} {spc : Int → Prop} {f : Sym → ℝ} (hq : f .q = 1)
    (hpos : ∀ l, cls l → 0 < f (.S l)) (hv : ∀ p a, spc p → LinComb cls a → ∃ u, op a p = .ok u ∧ LinComb cls u ∧ (0 < valueAt f a → 0 < valueAt f u))
    (ps : List Int) (hps : ∀ p ∈ ps, spc p) {a : Poly} (ha : LinComb cls a) (hn : PosCoeffs a) (h0 : a ≠ []) {w : Poly}
    (hw : ps.foldlM op a = .ok w) : w ≠ [] := by
  have key : ∀ (ps : List Int) (a : Poly), (∀ p ∈ ps, spc p) → LinComb cls a → 0 < valueAt f a → ∀ w, ps.foldlM op a = .ok w → 0 < valueAt f w := by
    intro ps
    induction ps with
    | nil => intro a _ _ h w hw; cases hw; exact h
    | cons p ps ih =>
      intro a hp ha h w hw
      obtain ⟨u, e1, e2, e3⟩ := hv p a (hp p (by simp)) ha
      rw [List.foldlM_cons, e1] at hw
      exact ih u (fun p' hp' => hp p' (by simp [hp'])) e2 (e3 h) w hw
  rintro rfl
  have := key ps a hps ha (value_pos hq hpos ha hn h0) _ hw
  simp [valueAt] at this

theorem valueAt_perm {R : Type} [CommSemiring R] [Algebra ℚ R] (f : Sym → R) {a b : Poly} (h : a.Perm b) : valueAt f a = valueAt f b :=
  (h.map _).sum_eq

theorem RingOn.fold_ne {X : Space} {pieri : Int → List Int → Except PyErr Poly} {spc : Int → Prop} {cls : List Int → Prop} {B : Nat}
    (R : RingOn X pieri spc cls B) {fuel : ℕ} (hB : B ≤ fuel) {f : Sym → ℝ} (hf : PosHom cls (gmult X pieri fuel) f) (hs : ∀ p, spc p → cls (num2spec p))
    (ps : List Int) (hps : ∀ p ∈ ps, spc p) {a : Poly} (ha : LinComb cls a) (hn : PosCoeffs a) (h0 : a ≠ []) {w : Poly}
    (hw : ps.foldlM (fun a p => Poly.apply (pieri p) a) a = .ok w) : w ≠ [] := by
  refine Verif.fold_ne hf.1 hf.2.1 (spc := spc) (fun p a hp ha => ?_) ps hps ha hn h0 hw
  obtain ⟨u, h1, h2⟩ := R.apply_closed hp ha
  refine ⟨u, h1, h2, fun h => ?_⟩
  obtain ⟨v, u', e1, e2, e3⟩ := R.gmult_pieri hB hp (hs p hp) ha
  rw [h1] at e2
  cases e2
  obtain ⟨v', e4, _, e5⟩ := hf.2.2 _ a ⟨wf_sym (.S (num2spec p)), fun t ht => ⟨0, num2spec p, by rw [List.mem_singleton.1 ht]; rfl, hs p hp⟩⟩ ha
  rw [e1] at e4
  cases e4
  rw [← valueAt_perm f e3, e5, valueAt_sym]
  exact mul_pos (hf.2.1 _ (hs p hp)) h

/-! ### IG(m, 2n) -/

/-- **C122**, type C. -/
theorem C122_pieri_IG {m n : ℕ} {X : Space} (hX : mkIG m (2 * n) = .ok X) (ps : List Int) (hps : ∀ p ∈ ps, 1 ≤ p ∧ p ≤ 2 * n - m) {a : Poly}
    (ha : LinComb (BCClass m n) a) (hn : PosCoeffs a) :
    ∃ w, ps.foldlM (fun a p => X.pieri p a) a = .ok w ∧ LinComb (BCClass m n) w ∧ PosCoeffs w := by
  have h33 : ∀ p l, BCClass m n l → ∃ w, X.pieri p (Poly.sym (.S l)) = .ok w ∧ PosCoeffs w := fun p l hl => by
    obtain ⟨w, h1, h2⟩ := C33_coefficients_IG m n p X hX l hl.1 hl.2.1 hl.2.2
    exact ⟨w, h1, pos_of_pow h2⟩
  obtain ⟨c, b, h, h1, h2, rfl⟩ := igCase hX
  obtain rfl : n = c := by omega
  rw [h2, bcClass_eq h] at ha h33 ⊢
  exact (ringIG n b h).fold_pos (fun p l _ hl => h33 p l hl) ps (fun p hp => by have := hps p hp; exact ⟨by omega, by push_cast; omega⟩) ha hn

/-- **C122**, type C. -/
theorem C122_qpieri_IG (ord : List Int → List Int) {m n : ℕ} (hm : 0 < m) {X : Space} (hX : mkIG m (2 * n) = .ok X) (ps : List Int)
    (hps : ∀ p ∈ ps, 1 ≤ p ∧ p ≤ 2 * n - m) {a : Poly} (ha : LinComb (BCClass m n) a) (hn : PosCoeffs a) (h0 : a ≠ []) :
    ∃ w, ps.foldlM (fun a p => X.qpieri ord p a) a = .ok w ∧ LinComb (BCClass m n) w ∧ PosCoeffs w ∧ w ≠ [] := by
  have h35 : ∀ p l, (1 ≤ p ∧ p ≤ 2 * (n : Int) - m) → BCClass m n l → ∃ w, X.qpieri ord p (Poly.sym (.S l)) = .ok w ∧ PosCoeffs w := fun p l hp hl => by
    obtain ⟨w, h1, h2⟩ := C35_qpieri_IG_integral ord m n p X hX l hl.1 hl.2.1 hl.2.2 (by omega)
    exact ⟨w, h1, pos_of_pow h2⟩
  obtain ⟨f, hf⟩ := C121_IG ord hX (le_refl (giamBoundBC m n))
  obtain ⟨c, b, h, h1, h2, rfl⟩ := igCase hX
  obtain rfl : n = c := by omega
  rw [h2, giamBoundBC_eq h, bcClass_eq h] at hf
  rw [h2, bcClass_eq h] at ha h35 ⊢
  have hps' : ∀ p ∈ ps, stdSpc (n + b) p := fun p hp => by have := hps p hp; exact ⟨by omega, by push_cast; omega⟩
  obtain ⟨w, e1, e2, e3⟩ := (ringQIG ord n b h).fold_pos (fun p l hp hl => h35 p l ⟨hp.1, by have := hp.2; push_cast at this; omega⟩ hl) ps hps' ha hn
  refine ⟨w, e1, e2, e3, (ringQIG ord n b h).fold_ne le_rfl hf (fun p hp => ?_) ps hps' ha hn h0 e1⟩
  rw [num2spec_pos hp.1]
  obtain ⟨q, rfl⟩ : ∃ q : ℕ, p = q := ⟨p.toNat, by have := hp.1; omega⟩
  exact clsBC_row (by omega) (by have := hp.1; omega) (by have := hp.2; omega)

/-! ### OG(m, 2n+1) -/

/-- **C122**, type B. -/
theorem C122_pieri_OG_odd {m n : ℕ} (hmn : m ≤ n) {X : Space} (hX : mkOG m (2 * n + 1) = .ok X) (ps : List Int) (hps : ∀ p ∈ ps, 1 ≤ p ∧ p ≤ 2 * n - m)
    {a : Poly} (ha : LinComb (BCClass m n) a) (hn : PosCoeffs a) :
    ∃ w, ps.foldlM (fun a p => X.pieri p a) a = .ok w ∧ LinComb (BCClass m n) w ∧ PosCoeffs w := by
  have h33 : ∀ p l, BCClass m n l → ∃ w, X.pieri p (Poly.sym (.S l)) = .ok w ∧ PosCoeffs w := fun p l hl => by
    obtain ⟨_, w, h1, h2⟩ := C33_coefficients_OG m n p (by omega) X hX l hl.1 hl.2.1 hl.2.2
    exact ⟨w, h1, pos_of_pow h2⟩
  obtain ⟨c, b, h, h1, h2, rfl⟩ := ogCase (by omega) hX
  obtain rfl : n = c := by omega
  rw [h2, bcClass_eq h] at ha h33 ⊢
  exact (ringOG n b h).fold_pos (fun p l _ hl => h33 p l hl) ps (fun p hp => by have := hps p hp; exact ⟨by omega, by push_cast; omega⟩) ha hn

/-- **C122**, type B. -/
theorem C122_qpieri_OG_odd (ord : List Int → List Int) {m n : ℕ} (hm : 0 < m) (hmn : m ≤ n) {X : Space} (hX : mkOG m (2 * n + 1) = .ok X) (ps : List Int)
    (hps : ∀ p ∈ ps, 1 ≤ p ∧ p ≤ 2 * n - m) {a : Poly} (ha : LinComb (BCClass m n) a) (hn : PosCoeffs a) (h0 : a ≠ []) :
    ∃ w, ps.foldlM (fun a p => X.qpieri ord p a) a = .ok w ∧ LinComb (BCClass m n) w ∧ PosCoeffs w ∧ w ≠ [] := by
  have h50 : ∀ p l, BCClass m n l → ∃ w, X.qpieri ord p (Poly.sym (.S l)) = .ok w ∧ PosCoeffs w := fun p l hl => by
    obtain ⟨w, h1, _, h2⟩ := C50_qpieri_OG ord m n p (by omega) (by omega) X hX l hl.1 hl.2.1 hl.2.2
    refine ⟨w, h1, pos_of_pow fun t ht => ?_⟩
    obtain ⟨qs, x, c, hT, rfl⟩ := (h2 t).1 ht
    rcases hT with ⟨_, _, _, _, e, _, h⟩ | ⟨_, _, _, ⟨_, _, _, e, _, h⟩, _⟩ | ⟨_, _, _, _, _, e, _, h⟩ <;> exact ⟨e, h⟩
  obtain ⟨f, hf⟩ := C121_OG_odd ord hm hmn hX (le_refl (giamBoundBC m n))
  obtain ⟨c, b, h, h1, h2, rfl⟩ := ogCase' (by omega) (by omega) hX
  obtain rfl : n = c := by omega
  rw [h2, giamBoundBC_eq h.le, bcClass_eq h.le] at hf
  rw [h2, bcClass_eq h.le] at ha h50 ⊢
  have hps' : ∀ p ∈ ps, stdSpc (n + b) p := fun p hp => by have := hps p hp; exact ⟨by omega, by push_cast; omega⟩
  obtain ⟨w, e1, e2, e3⟩ := (ringQOG ord n b h).fold_pos (fun p l hp hl => h50 p l hl) ps hps' ha hn
  refine ⟨w, e1, e2, e3, (ringQOG ord n b h).fold_ne le_rfl hf (fun p hp => ?_) ps hps' ha hn h0 e1⟩
  rw [num2spec_pos hp.1]
  obtain ⟨q, rfl⟩ : ∃ q : ℕ, p = q := ⟨p.toNat, by have := hp.1; omega⟩
  exact clsBC_row h (by have := hp.1; omega) (by have := hp.2; omega)

/-! ### OG(m, 2n+2) -/

theorem coefD_pow {k : ℕ} {p : Int} {lam mu : List Int} {c : ℚ} (hc : CoefD k p lam mu c) : ∃ e : ℕ, c = 2 ^ e := by
  rcases Nat.lt_trichotomy p.natAbs k with h1 | h1 | h1
  · exact ⟨_, hc.small h1⟩
  · by_cases h2 : numComps k 1 lam mu = 0
    · exact ⟨0, by rw [(hc.tie h1 h2).1]; simp⟩
    · exact ⟨_, hc.middle h1 (by omega)⟩
  · exact ⟨_, (hc.large h1).2⟩

/-- **C122**, type D. -/
theorem C122_pieri_OG_even {m n : ℕ} (hmn : m ≤ n + 1) {X : Space} (hX : mkOG m (2 * n + 2) = .ok X) (ps : List Int)
    (hps : ∀ p ∈ ps, (1 ≤ p ∧ p ≤ 2 * n + 1 - m) ∨ (m ≤ n ∧ p = m - (n + 1))) {a : Poly} (ha : LinComb (DClass m n) a) (hn : PosCoeffs a) :
    ∃ w, ps.foldlM (fun a p => X.pieri p a) a = .ok w ∧ LinComb (DClass m n) w ∧ PosCoeffs w := by
  have h33 : ∀ p l, DClass m n l → ∃ w, X.pieri p (Poly.sym (.S l)) = .ok w ∧ PosCoeffs w := fun p l hl => by
    obtain ⟨w, h1, h2⟩ := C33_coefficients_OGeven m n p (by omega) (by omega) X hX l hl
    exact ⟨w, h1, pos_of_pow h2⟩
  obtain ⟨c, b, h, h1, h2, rfl⟩ := ogdCase (by omega) (by omega) hX
  obtain rfl : n = c := by omega
  rw [h2, dClass_eq h] at ha h33 ⊢
  exact (ringD n b h).fold_pos (fun p l _ hl => h33 p l hl) ps (fun p hp => by
    rcases hps p hp with h | h
    · exact Or.inl ⟨by omega, by push_cast; omega⟩
    · exact Or.inr ⟨by omega, by omega⟩) ha hn

/-- **C122**, type D. -/
theorem C122_qpieri_OG_even (ord : List Int → List Int) {m n : ℕ} (hm : 0 < m) (hmn : m ≤ n + 1) (hne : m ≠ n) {X : Space}
    (hX : mkOG m (2 * n + 2) = .ok X) (ps : List Int) (hps : ∀ p ∈ ps, (1 ≤ p ∧ p ≤ 2 * n + 1 - m) ∨ (m ≤ n ∧ p = m - (n + 1))) {a : Poly}
    (ha : LinComb (DClass m n) a) (hn : PosCoeffs a) (h0 : a ≠ []) :
    ∃ w, ps.foldlM (fun a p => X.qpieri ord p a) a = .ok w ∧ LinComb (DClass m n) w ∧ PosCoeffs w ∧ w ≠ [] := by
  have h50 : ∀ p l, DClass m n l → ∃ w, X.qpieri ord p (Poly.sym (.S l)) = .ok w ∧ PosCoeffs w := fun p l hl => by
    obtain ⟨w, h1, _, h2⟩ := C50_qpieri_OGeven ord m n p (by omega) (by omega) (by omega) (by omega) X hX l hl
    refine ⟨w, h1, pos_of_pow fun t ht => ?_⟩
    obtain ⟨qs, x, c, hT, rfl⟩ := (h2 t).1 ht
    rcases hT with ⟨_, _, _, _, _, h⟩ | ⟨_, _, _, ⟨_, _, _, _, h⟩, _⟩ | ⟨_, _, _, _, _, _, h⟩ <;> exact coefD_pow h
  obtain ⟨f, hf⟩ := C121_OG_even ord hm hmn hne hX (le_refl (giamBoundD m n))
  obtain ⟨c, b, h, hb, h1, h2, rfl⟩ := ogdCase' (by omega) (by omega) (by omega) hX
  obtain rfl : n = c := by omega
  rw [h2, giamBoundD_eq (by omega), dClass_eq (by omega)] at hf
  rw [h2, dClass_eq (by omega)] at ha h50 ⊢
  have hps' : ∀ p ∈ ps, spcD n b p := fun p hp => by
    rcases hps p hp with h | h
    · exact Or.inl ⟨by omega, by push_cast; omega⟩
    · exact Or.inr ⟨by omega, by omega⟩
  obtain ⟨w, e1, e2, e3⟩ := (ringQD ord n b h hb).fold_pos (fun p l hp hl => h50 p l hl) ps hps' ha hn
  exact ⟨w, e1, e2, e3, (ringQD ord n b h hb).fold_ne le_rfl hf (fun p hp => special_classD h hp) ps hps' ha hn h0 e1⟩

/-- **C122**, type D with two parameters. -/
theorem C122_qpieri_OG_two {ord : List Int → List Int} (ho : Ascending ord) {n : Int} (hn : 1 ≤ n) {X : Space} (hX : mkOG n (2 * n + 2) = .ok X)
    (ps : List Int) (hps : ∀ p ∈ ps, -1 ≤ p) {a : Poly} (ha : LinComb2 (DClass n n) a) (hp : PosCoeffs a) :
    ∃ w, ps.foldlM (fun a p => X.qpieri ord p a) a = .ok w ∧ LinComb2 (DClass n n) w ∧ PosCoeffs w := by
  have h50 : ∀ p l, DClass n n l → ∃ w, X.qpieri ord p (Poly.sym (.S l)) = .ok w ∧ PosCoeffs w := fun p l hl => by
    have hl' : TypedClass 1 n.toNat (n + 1) l := by
      have := hl
      unfold DClass at this
      rwa [show n + 1 - n = 1 by omega, show 2 * n + 1 - n = n + 1 by omega] at this
    obtain ⟨w, h1, _, h2⟩ := C50_qpieri_OGeven_one ord ho n p hn X hX l hl'
    refine ⟨w, h1, pos_of_pow fun t ht => ?_⟩
    have hr : ∀ mu c, ReducedTerm n p l mu c → ∃ e : ℕ, c = 2 ^ e := by
      intro mu c h
      unfold ReducedTerm at h
      split at h
      · exact ⟨0, by rw [h.2]; simp⟩
      · exact coefD_pow h.2.2.2.2
    obtain ⟨qs, x, c, hT, rfl⟩ := (h2 t).1 ht
    rcases hT with ⟨_, _, _, _, _, h⟩ | ⟨_, _, _, _, mu, h, _⟩ | ⟨_, _, _, _, mu, h, _⟩ | ⟨_, _, _, _, _, _, h⟩
    · exact coefD_pow h
    · exact hr mu _ h
    · exact hr mu _ h
    · exact coefD_pow h
  obtain ⟨c, h1, rfl, rfl⟩ := og2Case hn hX
  rw [dClass_one] at h50
  refine fold_natC (cls := clsD c 1) (spc := fun p => -1 ≤ p) (fun p l hp hl => ?_) (fun p l _ hl => h50 p l hl) ?_
    (fun p a hp ha => C100_qpieri_closed ho hn hp hX ha) ps hps ha hp
  · obtain ⟨U, hU, rfl⟩ := (WdD_cls (by omega) l).1 hl
    exact ⟨_, retQ2 ho h1 hp hU⟩
  · intro a ha t ht l hl
    obtain ⟨qs, l', e, hq, hc⟩ := ha.2 t ht
    rw [e] at hl
    rw [dClass_one] at hc
    rcases List.mem_append.1 hl with h | h
    · rcases hq _ h with h | h | h <;> cases h
    · have : l = l' := by simpa using h
      rw [this]; exact hc

/-! ### Gr(m, n) -/

theorem RingSys.fold_pos {m : ℕ} {n : Int} {X : Space} {pieri : Int → List Int → Except PyErr Poly} (R : RingSys m n X pieri)
    (hnat : ∀ p l, (1 ≤ p ∧ p ≤ n - m) → GrClass m n l → ∃ w, Poly.apply (pieri p) (Poly.sym (.S l)) = .ok w ∧ PosCoeffs w)
    (ps : List Int) (hps : ∀ p ∈ ps, 1 ≤ p ∧ p ≤ n - m) {a : Poly} (ha : LinComb (GrClass m n) a) (hn : PosCoeffs a) :
    ∃ w, ps.foldlM (fun a p => Poly.apply (pieri p) a) a = .ok w ∧ LinComb (GrClass m n) w ∧ PosCoeffs w := by
  have hK := R.hK
  refine fold_natC (spc := fun p => 1 ≤ p ∧ p ≤ n - m) (fun p l hp hl => ?_) hnat (fun _ h => linComb_syms h) (fun p a hp ha => ?_) ps hps ha hn
  · obtain ⟨q, rfl⟩ : ∃ q : ℕ, p = q := ⟨p.toNat, by omega⟩
    exact ⟨_, R.Y.ret q l (by omega) (by omega) hl⟩
  · obtain ⟨q, rfl⟩ : ∃ q : ℕ, p = q := ⟨p.toNat, by omega⟩
    obtain ⟨x, hx, hxc⟩ := linComb_ev ha.2
    obtain ⟨u, h1, h2, h3⟩ := R.Y.apply_pieri (p := q) (by omega) (by omega) ha.1 hx hxc
    exact ⟨u, h1, linComb_of_ev h2 h3 (lin_support (R.Y.closed q) x)⟩

/-- **C122**, type A. -/
theorem C122_pieri_Gr {m n : ℕ} (hm : 1 ≤ m) {X : Space} (hX : mkGr m n = .ok X) (ps : List Int) (hps : ∀ p ∈ ps, 1 ≤ p ∧ p ≤ (n : Int) - m)
    {a : Poly} (ha : LinComb (GrClass m n) a) (hn : PosCoeffs a) :
    ∃ w, ps.foldlM (fun a p => Gr.pieri X p a) a = .ok w ∧ LinComb (GrClass m n) w ∧ PosCoeffs w := by
  refine (ringC hm hX).fold_pos (fun p l hp hl => ?_) ps hps ha hn
  obtain ⟨q, rfl⟩ : ∃ q : ℕ, p = q := ⟨p.toNat, by omega⟩
  obtain ⟨w, L, h1, h2, _⟩ := C15_pieri hm hX q hl.1.isPartition hl.2
  refine ⟨w, h1, fun t ht => ?_⟩
  obtain ⟨mu, _, rfl⟩ := List.mem_map.1 (h2.mem_iff.1 ht)
  exact ⟨1, by simp, by simp⟩

/-- **C122**, type A. -/
theorem C122_qpieri_Gr {m n : ℕ} (hm : 1 ≤ m) {X : Space} (hX : mkGr m n = .ok X) (ps : List Int) (hps : ∀ p ∈ ps, 1 ≤ p ∧ p ≤ (n : Int) - m)
    {a : Poly} (ha : LinComb (GrClass m n) a) (hn : PosCoeffs a) (h0 : a ≠ []) :
    ∃ w, ps.foldlM (fun a p => Gr.qpieri X p a) a = .ok w ∧ LinComb (GrClass m n) w ∧ PosCoeffs w ∧ w ≠ [] := by
  have hmn : m ≤ n := by obtain ⟨_, _, h⟩ := mkGr_ok hX; omega
  obtain ⟨w, e1, e2, e3⟩ := (ringQ hm hX).fold_pos (fun p l hp hl => by
    obtain ⟨q, rfl⟩ : ∃ q : ℕ, p = q := ⟨p.toNat, by omega⟩
    obtain ⟨w, L, N, h1, h2, _⟩ := C16_qpieri hm (by omega) hX q (by omega) (by omega) hl.1.isPartition hl.2
    refine ⟨w, h1, fun t ht => ?_⟩
    rcases List.mem_append.1 (h2.mem_iff.1 ht) with h | h
    · obtain ⟨mu, _, rfl⟩ := List.mem_map.1 h
      exact ⟨1, by simp, by simp⟩
    · obtain ⟨mu, _, rfl⟩ := List.mem_map.1 h
      exact ⟨1, by simp, by simp⟩) ps hps ha hn
  refine ⟨w, e1, e2, e3, ?_⟩
  obtain ⟨f, hq, hfs⟩ : ∃ f : Sym → ℝ, f .q = 1 ∧ ∀ l, f (.S l) = qdim m n l :=
    ⟨fun s => match s with
      | .S l => qdim m n l
      | _ => 1, rfl, fun _ => rfl⟩
  have hpos : ∀ l, GrClass m n l → 0 < f (.S l) := fun l hl => by rw [hfs]; exact C120_pos hmn hl
  refine fold_ne (cls := GrClass m n) (spc := fun p => 1 ≤ p ∧ p ≤ (n : Int) - m) hq hpos (fun p a hp ha => ?_) ps hps ha hn h0 e1
  obtain ⟨q, rfl⟩ : ∃ q : ℕ, p = q := ⟨p.toNat, by omega⟩
  have hc : GrClass m n [(q : Int)] := ⟨⟨by simp, by simp; omega⟩, by simpa using hm, by simpa using hp.2⟩
  obtain ⟨v, u, g1, g2, g3⟩ := gmult_pieri (ringQ hm hX) (le_refl (giamBound m n)) q (by omega) (by omega) hm ha
  obtain ⟨v', g4, g5, g6⟩ := C120_hom hm hX (le_refl (giamBound m n)) (a := Poly.sym (.S [(q : Int)]))
    ⟨wf_sym (.S [(q : Int)]), fun t ht => ⟨0, _, by rw [List.mem_singleton.1 ht]; rfl, hc⟩⟩ ha f hq (fun l _ => hfs l)
  obtain rfl : v = v' := by
    have : (Except.ok v : Except PyErr Poly) = .ok v' := g1.symm.trans g4
    injection this
  refine ⟨u, g2, ?_, fun h => ?_⟩
  · obtain ⟨x, hx, hxc⟩ := linComb_ev ha.2
    have hK := (ringQ hm hX).hK
    obtain ⟨u', h1, h2, h3⟩ := (ringQ hm hX).Y.apply_pieri (p := q) (by omega) (by omega) ha.1 hx hxc
    obtain rfl : u = u' := by
      have : (Except.ok u : Except PyErr Poly) = .ok u' := g2.symm.trans h1
      injection this
    exact linComb_of_ev h2 h3 (lin_support ((ringQ hm hX).Y.closed q) x)
  · rw [← valueAt_perm f g3, g6, valueAt_sym]
    exact mul_pos (hpos _ hc) h

/-! ### Examples -/

/-- `Gr(2,4)`: `S[1]*S[1]*S[1]*S[1]*S[1] = 4*q*S[1]`, while the classical product is zero -/
example : mkGr 2 4 = .ok ⟨.A, 2, 4⟩ ∧ PosCoeffs (Poly.sym (.S [1])) ∧
    [1, 1, 1, 1].foldlM (fun a p => Gr.qpieri ⟨.A, 2, 4⟩ p a) (Poly.sym (.S [1])) = .ok [([.q, .S [1]], 4)] ∧
    [1, 1, 1, 1].foldlM (fun a p => Gr.pieri ⟨.A, 2, 4⟩ p a) (Poly.sym (.S [1])) = .ok [] := by
  refine ⟨rfl, fun t ht => ⟨1, by simp, by rw [List.mem_singleton.1 ht]; simp⟩, by decide +kernel, by decide +kernel⟩

/-- `IG(2,6)`: repeated products of special classes -/
example : mkIG 2 6 = .ok ⟨.C, 1, 3⟩ ∧ BCClass 2 3 [3, 1] ∧
    [3, 2].foldlM (fun a p => (Space.mk .C 1 3).qpieri id p a) (Poly.sym (.S [3, 1])) =
      .ok [([.q, .S [4]], 3), ([.q, .S [3, 1]], 3)] ∧
    [3, 2].foldlM (fun a p => (Space.mk .C 1 3).pieri p a) (Poly.sym (.S [3, 1])) = .ok [] := by
  refine ⟨rfl, by decide +kernel, by decide +kernel, by decide +kernel⟩

/-- `OG(2,7)` and `OG(1,6)` -/
example : mkOG 2 7 = .ok ⟨.B, 1, 3⟩ ∧ BCClass 2 3 [4, 2] ∧ mkOG 1 6 = .ok ⟨.D, 2, 2⟩ ∧ DClass 1 2 [2, 0] ∧
    [1, 1].foldlM (fun a p => (Space.mk .B 1 3).qpieri id p a) (Poly.sym (.S [4, 2])) =
      .ok [([.q, .q, .S []], 3), ([.q, .S [4]], 1), ([.q, .S [3, 1]], 3)] ∧
    [1, -2].foldlM (fun a p => (Space.mk .D 2 2).qpieri id p a) (Poly.sym (.S [2, 0])) =
      .ok [([.q, .S [1]], 1)] := by
  refine ⟨rfl, by decide +kernel, rfl, by decide +kernel, by decide +kernel, by decide +kernel⟩

/-- `OG(3,8)` with two parameters -/
example : mkOG 3 8 = .ok ⟨.D, 1, 3⟩ ∧ DClass 3 3 [4, 3, 1] ∧
    [2, 1].foldlM (fun a p => (Space.mk .D 1 3).qpieri id p a) (Poly.sym (.S [4, 3, 1])) =
      .ok [([.q1, .S [4, 2, 1, 0]], 1), ([.q1, .q2, .S [2, 1]], 2), ([.q1, .q2, .S [3]], 1), ([.q1, .q2, .S [1, 1, 1]], 1)] := by
  refine ⟨rfl, by decide +kernel, by decide +kernel⟩

end Verif
