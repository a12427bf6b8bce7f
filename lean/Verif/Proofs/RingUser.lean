import Verif.Proofs.RingAbs
import Verif.Spec.Ring
/-!
# From the abstract module to what the user sees
-/

namespace Verif
open Spec MvPolynomial

/-- The unit. -/
noncomputable def e1 : LMod := Finsupp.single [] 1

theorem monoDen_replicate (d : Nat) (m : Mono) : monoDen (List.replicate d Sym.q ++ m) = X .q ^ d * monoDen m := by
  simp [monoDen]

theorem qmono_sorted (d : Nat) (l : List Int) : MSorted (List.replicate d Sym.q ++ [Sym.S l]) := by
  unfold MSorted
  rw [List.pairwise_append]
  refine ⟨?_, by simp, ?_⟩
  · rw [List.pairwise_replicate]; right; simp [Sym.code, listLt]
  · intro a ha b hb
    rw [List.eq_of_mem_replicate ha]
    simp at hb; subst hb
    simp [Sym.code, listLt]

/-- A user-level linear combination comes from the abstract module. -/
theorem linComb_ev {cls : List Int → Prop} {p : Poly} (h : ∀ t ∈ p, ∃ d l, t.1 = List.replicate d Sym.q ++ [Sym.S l] ∧ cls l) :
    ∃ x : LMod, den p = ev x ∧ ∀ l ∈ x.support, cls l := by
  classical
  induction p with
  | nil => exact ⟨0, by simp, by simp⟩
  | cons t p ih =>
    obtain ⟨x, hx, hx'⟩ := ih (fun t ht => h t (by simp [ht]))
    obtain ⟨d, l, ht, hl⟩ := h t (by simp)
    refine ⟨Finsupp.single l (Polynomial.C t.2 * Polynomial.X ^ d) + x, ?_, ?_⟩
    · rw [den_cons, map_add, hx, ev_single, ht, monoDen_replicate]
      congr 1
      simp [inq]; ring
    · intro l' hl'
      rcases Finset.mem_union.1 (Finsupp.support_add hl') with h1 | h1
      · rw [Finset.mem_singleton.1 (Finsupp.support_single_subset h1)]; exact hl
      · exact hx' l' h1

theorem expo_qmono (d : Nat) (l : List Int) : expo (List.replicate d Sym.q ++ [Sym.S l]) =
    Finsupp.single .q d + Finsupp.single (.S l) 1 := by
  have h : monoDen (List.replicate d Sym.q ++ [Sym.S l]) = monomial (Finsupp.single .q d + Finsupp.single (.S l) 1) (1 : ℚ) := by
    rw [monoDen_replicate]
    simp [monoDen, X, monomial_pow, monomial_mul]
  rw [monoDen_eq] at h
  exact monomial_left_injective one_ne_zero h

theorem qmono_inj {d d' : Nat} {l l' : List Int}
    (h : (Finsupp.single Sym.q d + Finsupp.single (Sym.S l) 1 : Sym →₀ ℕ) = Finsupp.single .q d' + Finsupp.single (.S l') 1) :
    d = d' ∧ l = l' := by
  rw [← expo_qmono, ← expo_qmono] at h
  have := expo_inj (qmono_sorted d l) (qmono_sorted d' l') h
  have h2 := congrArg List.getLast? this
  simp at h2
  subst h2
  have h3 := congrArg List.length this
  simp at h3
  exact ⟨h3, rfl⟩

theorem coeff_single (l l' : List Int) (a : Polynomial ℚ) (d : Nat) :
    coeff (Finsupp.single .q d + Finsupp.single (.S l') 1) (ev (Finsupp.single l a)) =
      if l = l' then a.coeff d else 0 := by
  rw [ev_single]
  induction a using Polynomial.induction_on' with
  | add p r hp hr =>
    rw [show inq (p + r) = inq p + inq r from by simp [inq], add_mul, coeff_add, hp, hr]
    split <;> simp
  | monomial n c =>
    have : inq (Polynomial.monomial n c) * X (Sym.S l) = monomial (Finsupp.single Sym.q n + Finsupp.single (Sym.S l) 1) c := by
      rw [inq, Polynomial.aeval_monomial, show (algebraMap ℚ P) c = C c from rfl, X_pow_eq_monomial, C_mul_monomial, X, monomial_mul]
      simp
    rw [this, coeff_monomial, Polynomial.coeff_monomial]
    by_cases h1 : l = l'
    · subst h1
      rw [if_pos rfl]
      by_cases h2 : n = d
      · subst h2; simp
      · rw [if_neg h2, if_neg]
        intro h
        exact h2 (qmono_inj h).1
    · rw [if_neg h1, if_neg]
      intro h
      exact h1 (qmono_inj h).2

/-- Coefficients of a value of the abstract module. -/
theorem coeff_ev (x : LMod) (d : Nat) (l : List Int) :
    coeff (Finsupp.single .q d + Finsupp.single (.S l) 1) (ev x) = (x l).coeff d := by
  classical
  induction x using Finsupp.induction_linear with
  | zero => simp
  | add x y hx hy => rw [map_add, coeff_add, hx, hy]; simp
  | single l' a =>
    rw [coeff_single, Finsupp.single_apply]
    split <;> simp

theorem ev_injective : Function.Injective ev := by
  intro x y h
  ext l d
  rw [← coeff_ev, ← coeff_ev, h]

theorem coeff_ev_ne {x : LMod} {e : Sym →₀ ℕ} (h : coeff e (ev x) ≠ 0) :
    ∃ d l, e = Finsupp.single .q d + Finsupp.single (.S l) 1 := by
  classical
  induction x using Finsupp.induction_linear with
  | zero => simp at h
  | add x y hx hy =>
    rw [map_add, coeff_add] at h
    by_cases h1 : coeff e (ev x) = 0
    · apply hy; intro h2; rw [h1, h2] at h; simp at h
    · exact hx h1
  | single l a =>
    rw [ev_single] at h
    induction a using Polynomial.induction_on' with
    | add p r hp hr =>
      rw [show inq (p + r) = inq p + inq r from by simp [inq], add_mul, coeff_add] at h
      by_cases h1 : coeff e (inq p * X (Sym.S l)) = 0
      · apply hr; intro h2; rw [h1, h2] at h; simp at h
      · exact hp h1
    | monomial n c =>
      refine ⟨n, l, ?_⟩
      have : inq (Polynomial.monomial n c) * X (Sym.S l) = monomial (Finsupp.single Sym.q n + Finsupp.single (Sym.S l) 1) c := by
        rw [inq, Polynomial.aeval_monomial, show (algebraMap ℚ P) c = C c from rfl, X_pow_eq_monomial, C_mul_monomial, X, monomial_mul]
        simp
      rw [this, coeff_monomial] at h
      by_contra hne
      rw [if_neg (fun h => hne h.symm)] at h
      exact h rfl

/-- Terms of an expanded expression whose value is in the abstract module. -/
theorem terms_of_ev {w : Poly} (hw : WF w) {x : LMod} (hx : den w = ev x) {t : Mono × ℚ} (ht : t ∈ w) :
    ∃ d l, t.1 = List.replicate d Sym.q ++ [Sym.S l] ∧ t.2 = (x l).coeff d := by
  have h1 : coeff (expo t.1) (den w) = t.2 := coeff_den_mem hw ht
  have h2 : t.2 ≠ 0 := (hw.2 t ht).1
  rw [hx] at h1
  obtain ⟨d, l, he⟩ := coeff_ev_ne (x := x) (by rw [h1]; exact h2)
  refine ⟨d, l, ?_, ?_⟩
  · apply expo_inj (hw.sorted t ht) (qmono_sorted d l)
    rw [he, expo_qmono]
  · rw [← h1, he, coeff_ev]

theorem linComb_of_ev {cls : List Int → Prop} {w : Poly} (hw : WF w) {x : LMod} (hx : den w = ev x)
    (hc : ∀ l ∈ x.support, cls l) : LinComb cls w := by
  refine ⟨hw, fun t ht => ?_⟩
  obtain ⟨d, l, h1, h2⟩ := terms_of_ev hw hx ht
  refine ⟨d, l, h1, hc l ?_⟩
  rw [Finsupp.mem_support_iff]
  intro h
  rw [h] at h2
  exact (hw.2 t ht).1 (by simpa using h2)

theorem same_of_returns {r r' : Except PyErr Poly} {v : P} (h : Returns r v) (h' : Returns r' v) :
    SameResult r r' := by
  obtain ⟨w, h1, h2, h3⟩ := h
  obtain ⟨w', h1', h2', h3'⟩ := h'
  exact ⟨w, w', h1, h1', perm_of_den_eq h2 h2' (by rw [h3, h3'])⟩

theorem Returns.bind {r : Except PyErr Poly} {f : Poly → Except PyErr Poly} {v u : P} (h : Returns r v)
    (hf : ∀ w, WF w → den w = v → Returns (f w) u) : Returns (r >>= f) u := by
  obtain ⟨w, h1, h2, h3⟩ := h
  rw [h1]; exact hf w h2 h3

theorem special_supported {K : Nat} {e : Poly} (h : SpecialPoly K e) :
    den e ∈ supported ℚ (special K) := by
  replace h := h.2
  induction e with
  | nil => exact Subalgebra.zero_mem _
  | cons t e ih =>
    rw [den_cons]
    refine Subalgebra.add_mem _ (Subalgebra.mul_mem _ (Subalgebra.algebraMap_mem _ _) ?_) (ih (fun t ht => h t (by simp [ht])))
    have := h t (by simp)
    generalize t.1 = m at this
    induction m with
    | nil => exact Subalgebra.one_mem _
    | cons s m ihm =>
      rw [monoDen_cons]
      refine Subalgebra.mul_mem _ ?_ (ihm (fun s hs => this s (by simp [hs])))
      rw [X_mem_supported]
      rcases this s (by simp) with h | ⟨i, h1, h2, h⟩
      · exact Or.inl h
      · exact Or.inr ⟨i.toNat, by omega, by omega, by rw [h]; simp; omega⟩

theorem special_of_supported {K : Nat} {e : Poly} (hw : WF e) (h : den e ∈ supported ℚ (special K)) :
    SpecialPoly K e := by
  refine ⟨hw, fun t ht s hs => ?_⟩
  rcases sym_mem_supported hw h ht hs with h | ⟨i, h1, h2, h⟩
  · exact Or.inl h
  · exact Or.inr ⟨i, by omega, by omega, h⟩

namespace GSys
variable {pieri : Int → List Int → Except PyErr Poly} {K : Nat} {cls : List Int → Prop}
  (Y : GSys pieri K cls)

theorem mult_returns {spec : Sym → Except PyErr Int}
    (hspec : ∀ i : Nat, 1 ≤ i → i ≤ K → spec (.S [(i : Int)]) = .ok i) (k : Int) (f : Nat)
    {a b : Poly} {x y : LMod} (ha : WF a) (hx : den a = ev x) (hxc : ∀ l ∈ x.support, cls l)
    (hb : WF b) (hy : den b = ev y) (hyc : ∀ l ∈ y.support, cls l) (hf : ∀ l, cls l → Y.meas l < f) :
    Returns (giamRec pieri k f a >>= fun g => actLoop spec pieri (g.size + 1) g b) (ev (Y.prod x y)) := by
  refine (Y.giamRec_returns k f ha hx hxc hf).bind (fun g hg hg' => ?_)
  have := Y.actLoop_spec hspec (g.size + 1) g b y hg (by rw [hg']; exact Y.GL_supported hxc) (by omega) hb hy hyc
  rwa [hg'] at this

theorem one_cls (h : cls []) : ∀ l ∈ (e1).support, cls l := by
  intro l hl
  rw [e1] at hl
  rw [Finset.mem_singleton.1 (Finsupp.support_single_subset hl)]; exact h

theorem prod_one {x : LMod} (h : cls []) (hx : ∀ l ∈ x.support, cls l) : Y.prod x e1 = x := by
  rw [Y.prod_comm hx (one_cls h)]; exact Y.one_prod x

theorem prod_smul_left (a : Polynomial ℚ) (x y : LMod) : Y.prod (a • x) y = a • Y.prod x y := by
  unfold prod GL
  rw [ev_smul, map_mul, subst_inq, map_mul, Module.End.mul_apply, Y.act_inq]

theorem prod_special {p : Nat} (h1 : 1 ≤ p) (h2 : p ≤ K) (hc : cls [(p : Int)])
    (ht : Y.t p [] = Finsupp.single [(p : Int)] 1) (y : LMod) :
    Y.prod (Finsupp.single [(p : Int)] 1) y = lin (Y.t p) y := by
  have hr : Y.rest p [] = 0 := by
    unfold rest
    rw [Int.toNat_natCast, ht, sub_self]
  unfold prod GL
  rw [ev_single, map_mul, subst_inq, subst_S, Y.G_cons hc, hr, G_nil]
  simp only [map_zero, sub_zero, mul_one, map_mul, Module.End.mul_apply]
  rw [Y.act_special h1 h2, Y.act_inq, one_smul]

end GSys

end Verif
