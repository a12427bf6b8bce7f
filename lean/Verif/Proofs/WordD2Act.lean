import Verif.Proofs.WordD2Lab
import Verif.Proofs.RingD
import Verif.Spec.TwoParam
/-!
# The action of the special classes on the quantum ring of `OG(n, 2n+2)`
-/

namespace Verif
open Spec MvPolynomial

/-! ### The quantum Pieri rule returns a row of the matrix -/

/-- the coefficients of a matrix entry -/
noncomputable def m2 (p : Int) (U W : WordD) (qs : Mono) : ℚ :=
  if qs = [] then cfD 1 p U W
  else if qs = [.q1] then if tyO U.2 W.2.sw = .a then oddD p U W else 0
  else if qs = [.q2] then if tyO U.2 W.2.sw = .b then oddD p U W else 0
  else if qs = [.q1, .q2] then q2D 1 p U W
  else 0

/-- the parameters of the terms -/
def qset : Finset Mono := {[], [.q1], [.q2], [.q1, .q2]}

theorem m2_sum (p : Int) {n : Nat} (hn : 1 ≤ n) {U W : WordD} (hU : U ∈ WdD n 1) (hW : W ∈ WdD n 1) :
    ∑ qs ∈ qset, C (m2 p U W qs) * monoDen qs = M2 p U W := by
  rw [M2_eq p hn hU hW, qw_tyO]
  have hoo : tyO U.2 W.2.sw = .o → oddD p U W = 0 := by
    intro h
    unfold oddD
    rw [if_neg]
    intro hO
    have := hO.2
    revert h this
    generalize U.2 = i; generalize W.2.sw = j
    cases i <;> cases j <;> simp [tyO, cmpt]
  unfold qset
  rw [Finset.sum_insert (by decide), Finset.sum_insert (by decide), Finset.sum_insert (by decide), Finset.sum_singleton]
  rcases h : tyO U.2 W.2.sw
  · simp [m2, h, hoo h, monoDen, qOf]; ring
  · simp [m2, h, monoDen, qOf]; ring
  · simp [m2, h, monoDen, qOf]; ring

/-- an expression described by its terms is the row of a matrix -/
theorem den_isTerms2 {ι : Type*} {W : Finset ι} {lab : ι → List Int} {T : Mono → List Int → ℚ → Prop} {e : Poly} (h : IsTerms T e)
    (hinj : ∀ u ∈ W, ∀ w ∈ W, lab u = lab w → u = w) (Q : Finset Mono) (m : ι → Mono → ℚ)
    (h1 : ∀ qs x c, T qs x c → qs ∈ Q ∧ ∃ w ∈ W, lab w = x ∧ m w qs = c)
    (h2 : ∀ w ∈ W, ∀ qs ∈ Q, m w qs ≠ 0 → T qs (lab w) (m w qs)) :
    den e = ∑ w ∈ W, (∑ qs ∈ Q, C (m w qs) * monoDen qs) * X (.S (lab w)) := by
  classical
  have e1 : ∀ w, (∑ qs ∈ Q, C (m w qs) * monoDen qs) * X (.S (lab w)) =
      ∑ qs ∈ Q.filter (fun qs => m w qs ≠ 0), C (m w qs) * monoDen (qs ++ [Sym.S (lab w)]) := by
    intro w
    rw [Finset.sum_mul, Finset.sum_filter]
    apply Finset.sum_congr rfl
    intro qs _
    split
    · simp [monoDen, mul_assoc]
    · rename_i hc
      simp only [ne_eq, not_not] at hc
      rw [hc]; simp
  simp only [e1]
  rw [Finset.sum_sigma' W (fun w => Q.filter (fun qs => m w qs ≠ 0))]
  unfold den
  have hnd : e.Nodup := List.Nodup.of_map _ h.1.1
  rw [← List.sum_toFinset _ hnd]
  symm
  refine Finset.sum_bij (fun p _ => (p.2 ++ [Sym.S (lab p.1)], m p.1 p.2)) ?_ ?_ ?_ ?_
  · rintro ⟨w, qs⟩ hp
    obtain ⟨hw, hd⟩ := Finset.mem_sigma.1 hp
    obtain ⟨hd, hd'⟩ := Finset.mem_filter.1 hd
    rw [List.mem_toFinset, h.2]
    exact ⟨_, _, _, h2 w hw qs hd hd', rfl⟩
  · rintro ⟨w, d⟩ hp ⟨w', d'⟩ hp' heq
    obtain ⟨hw, hd⟩ := Finset.mem_sigma.1 hp
    obtain ⟨hw', hd'⟩ := Finset.mem_sigma.1 hp'
    simp only [Prod.mk.injEq] at heq
    obtain ⟨h3, h4⟩ := List.append_inj' heq.1 rfl
    simp only [List.cons.injEq, Sym.S.injEq, and_true] at h4
    have h6 := hinj w hw w' hw' h4
    subst h3; subst h6; rfl
  · rintro t ht
    rw [List.mem_toFinset, h.2] at ht
    obtain ⟨qs, x, c, hT, rfl⟩ := ht
    obtain ⟨hq, w, hw, rfl, rfl⟩ := h1 qs x c hT
    refine ⟨⟨w, qs⟩, Finset.mem_sigma.2 ⟨hw, Finset.mem_filter.2 ⟨hq, ?_⟩⟩, rfl⟩
    exact (h.1.2 _ ((h.2 _).2 ⟨_, _, _, hT, rfl⟩)).1
  · rintro ⟨w, d⟩ _; rfl

/-- the rows of the matrices as expressions -/
noncomputable def row2 (n : Nat) (p : Int) (U : WordD) : P := ∑ W ∈ WdD n 1, M2 p U W * X (.S (labD W))

theorem retQ2 {ord : List Int → List Int} (ho : Ascending ord) {n : Nat} (hn : 1 ≤ n) {p : Int} (hp : -1 ≤ p) {U : WordD} (hU : U ∈ WdD n 1) :
    Returns (qpieriD ord p (labD U) 1 n) (row2 n p U) := by
  have hcl : clsD n 1 (labD U) := (WdD_cls (by omega) _).2 ⟨U, hU, rfl⟩
  obtain ⟨ht, hb⟩ := clsD_typed (by omega) hcl
  have hcls : ClsD 1 n (labD U).sum (labD U) :=
    cls_of_typed (k := 1) (m := n) (c := n + 1) (by push_cast; omega) (by push_cast; rfl) (by omega) (by simpa using ht)
  obtain ⟨e, h1, h2⟩ := qpieriD_ret_one ho p hcls (by omega)
  refine ⟨e, h1, h2.1, ?_⟩
  have key := den_isTerms2 (W := WdD n 1) h2 WdD_inj qset (m2 p U) ?_ ?_
  · rw [key]
    unfold row2
    exact Finset.sum_congr rfl (fun W hW => by rw [m2_sum p hn hU hW])
  · rintro qs x c (⟨rfl, h⟩ | ⟨h0, h⟩ | ⟨rfl, h3, h4⟩)
    · obtain ⟨W, hW, rfl⟩ := (WdD_cls (k := 1) (by omega) x).1 h.cls
      refine ⟨by decide, W, hW, rfl, ?_⟩
      rw [((termD_word_iff (by omega) (by omega) hU hW c).1 h).2]
      simp [m2]
    · have hqs : qs = [.q1] ∨ qs = [.q2] := by
        rcases h with ⟨h, _⟩ | ⟨h, _⟩
        · exact Or.inl h
        · exact Or.inr h
      rcases hqs with rfl | rfl
      · obtain ⟨W, hW, w1, w2, w3⟩ := q1_fwd hn hU h0 h
        exact ⟨by decide, W, hW, w1, by simp [m2, w2, w3]⟩
      · obtain ⟨W, hW, w1, w2, w3⟩ := q2_fwd hn hU h0 h
        exact ⟨by decide, W, hW, w1, by simp [m2, w2, w3]⟩
    · have hx : clsD n 1 x := by
        obtain ⟨mu, m1, m2, m3⟩ := h4.cls
        cases mu with
        | nil => rcases m3 with m3 | ⟨m3, _⟩ <;> simp at m3
        | cons z mu =>
          obtain ⟨s1, s2⟩ := inBox_tail' m1 m2
          rcases m3 with m3 | ⟨m3, m4⟩
          · exact ⟨mu, s1, s2, Or.inl (List.cons.inj m3).2⟩
          · have m5 := List.cons.inj m4
            refine ⟨mu, s1, s2, Or.inr ⟨?_, m5.2⟩⟩
            rcases List.mem_cons.1 m3 with m6 | m6
            · push_cast at m6; omega
            · exact m6
      obtain ⟨W, hW, rfl⟩ := (WdD_cls (by omega) x).1 hx
      refine ⟨by decide, W, hW, rfl, ?_⟩
      have := (q2D_ne (k := 1) hn (by omega) hU hW c).2 ⟨by push_cast; exact h3, by push_cast; exact h4⟩
      rw [this.2]
      simp [m2]
  · intro W hW qs hqs hne
    simp only [qset, Finset.mem_insert, Finset.mem_singleton] at hqs
    rcases hqs with rfl | rfl | rfl | rfl
    · have e : m2 p U W [] = cfD 1 p U W := by simp [m2]
      rw [e] at hne ⊢
      exact Or.inl ⟨rfl, (termD_word_iff (by omega) (by omega) hU hW _).2 ⟨hne, rfl⟩⟩
    · have e : m2 p U W [.q1] = if tyO U.2 W.2.sw = .a then oddD p U W else 0 := by simp [m2]
      rw [e] at hne ⊢
      split at hne
      · rename_i hty
        rw [if_pos hty]
        have := odd_bwd hn hp hU hW hne
        rw [if_pos hty] at this
        exact Or.inr (Or.inl this)
      · exact absurd rfl hne
    · have e : m2 p U W [.q2] = if tyO U.2 W.2.sw = .b then oddD p U W else 0 := by simp [m2]
      rw [e] at hne ⊢
      split at hne
      · rename_i hty
        rw [if_pos hty]
        have := odd_bwd hn hp hU hW hne
        rw [if_neg (by rw [hty]; decide)] at this
        exact Or.inr (Or.inl this)
      · exact absurd rfl hne
    · have e : m2 p U W [.q1, .q2] = q2D 1 p U W := by simp [m2]
      rw [e] at hne ⊢
      have := (q2D_ne (k := 1) hn (by omega) hU hW _).1 ⟨hne, rfl⟩
      exact Or.inr (Or.inr ⟨rfl, by have := this.1; push_cast at this; exact this, by have := this.2; push_cast at this; exact this⟩)

/-! ### Linear combinations with coefficients in `q`, `q1`, `q2` -/

/-- the parameters -/
def parSet : Set Sym := {s | s = .q ∨ s = .q1 ∨ s = .q2}

/-- the polynomials in the parameters -/
noncomputable abbrev parAlg : Subalgebra ℚ P := supported ℚ parSet

/-- the expression of a vector -/
noncomputable def ev2 (n : Nat) (f : WordD → P) : P := ∑ W ∈ WdD n 1, f W * X (.S (labD W))

theorem ev2_add (n : Nat) (f g : WordD → P) : ev2 n (f + g) = ev2 n f + ev2 n g := by
  unfold ev2
  rw [← Finset.sum_add_distrib]
  exact Finset.sum_congr rfl (fun W _ => by rw [Pi.add_apply, add_mul])

theorem ev2_smul (n : Nat) (a : P) (f : WordD → P) : ev2 n (a • f) = a * ev2 n f := by
  unfold ev2
  rw [Finset.mul_sum]
  exact Finset.sum_congr rfl (fun W _ => by rw [Pi.smul_apply, smul_eq_mul, mul_assoc])

/-- the operator of a special class on vectors -/
noncomputable def T2 (n : Nat) (p : Int) : Module.End P (WordD → P) where
  toFun f W := if W ∈ WdD n 1 then ∑ U ∈ WdD n 1, f U * M2 p U W else 0
  map_add' f g := by
    funext W
    simp only [Pi.add_apply]
    split
    · rw [← Finset.sum_add_distrib]
      exact Finset.sum_congr rfl (fun U _ => by rw [add_mul])
    · simp
  map_smul' a f := by
    funext W
    simp only [Pi.smul_apply, RingHom.id_apply, smul_eq_mul]
    split
    · rw [Finset.mul_sum]
      exact Finset.sum_congr rfl (fun U _ => by rw [mul_assoc])
    · simp

theorem T2_apply (n : Nat) (p : Int) (f : WordD → P) (W : WordD) :
    T2 n p f W = if W ∈ WdD n 1 then ∑ U ∈ WdD n 1, f U * M2 p U W else 0 := rfl

theorem T2_comm {n : Nat} (hn : 1 ≤ n) (a b : Int) : T2 n a * T2 n b = T2 n b * T2 n a := by
  have key : ∀ (a b : Int) (f : WordD → P) (V : WordD), V ∈ WdD n 1 →
      (T2 n a * T2 n b) f V = ∑ U ∈ WdD n 1, f U * ∑ W ∈ WdD n 1, M2 b U W * M2 a W V := by
    intro a b f V hV
    rw [Module.End.mul_apply, T2_apply, if_pos hV]
    simp only [Finset.mul_sum]
    rw [Finset.sum_comm]
    apply Finset.sum_congr rfl
    intro W hW
    rw [T2_apply, if_pos hW, Finset.sum_mul]
    exact Finset.sum_congr rfl (fun U _ => by rw [mul_assoc])
  apply LinearMap.ext
  intro f
  funext V
  by_cases hV : V ∈ WdD n 1
  · rw [key a b f V hV, key b a f V hV]
    exact Finset.sum_congr rfl (fun U hU => by rw [M2_comm hn b a hU hV])
  · rw [Module.End.mul_apply, Module.End.mul_apply, T2_apply, T2_apply, if_neg hV, if_neg hV]

theorem M2_par (p : Int) {n : Nat} (hn : 1 ≤ n) {U W : WordD} (hU : U ∈ WdD n 1) (hW : W ∈ WdD n 1) : M2 p U W ∈ parAlg := by
  have h1 : (X .q1 : P) ∈ parAlg := X_mem_supported.2 (Or.inr (Or.inl rfl))
  have h2 : (X .q2 : P) ∈ parAlg := X_mem_supported.2 (Or.inr (Or.inr rfl))
  have hC : ∀ c : ℚ, (C c : P) ∈ parAlg := fun c => Subalgebra.algebraMap_mem _ c
  rw [M2_eq p hn hU hW, qw_tyO]
  refine Subalgebra.add_mem _ (Subalgebra.add_mem _ (hC _) (Subalgebra.mul_mem _ ?_ (hC _)))
    (Subalgebra.mul_mem _ (Subalgebra.mul_mem _ h1 h2) (hC _))
  cases tyO U.2 W.2.sw
  · exact parAlg.zero_mem
  · exact h1
  · exact h2

theorem T2_par {n : Nat} (hn : 1 ≤ n) (p : Int) {f : WordD → P} (hf : ∀ W ∈ WdD n 1, f W ∈ parAlg) : ∀ W ∈ WdD n 1, T2 n p f W ∈ parAlg := by
  intro W hW
  rw [T2_apply, if_pos hW]
  exact Subalgebra.sum_mem _ (fun U hU => Subalgebra.mul_mem _ (hf U hU) (M2_par p hn hU hW))

theorem subst_par (σ : List Int → P) {a : P} (ha : a ∈ parAlg) : subst σ a = a := by
  replace ha : a ∈ Algebra.adjoin ℚ ((X : Sym → P) '' parSet) := ha
  induction ha using Algebra.adjoin_induction with
  | mem x hx =>
    obtain ⟨s, hs, rfl⟩ := hx
    rcases hs with rfl | rfl | rfl <;> simp
  | algebraMap r => rw [AlgHom.commutes]
  | add x y _ _ hx hy => rw [map_add, hx, hy]
  | mul x y _ _ hx hy => rw [map_mul, hx, hy]

/-- substituting the rows -/
theorem subst_ev2 {n : Nat} {p : Int} {f : WordD → P} (hf : ∀ W ∈ WdD n 1, f W ∈ parAlg) (σ : List Int → P)
    (hσ : ∀ U ∈ WdD n 1, σ (labD U) = row2 n p U) : subst σ (ev2 n f) = ev2 n (T2 n p f) := by
  unfold ev2
  rw [map_sum]
  have e : ∀ W ∈ WdD n 1, T2 n p f W * X (.S (labD W)) = ∑ U ∈ WdD n 1, f U * (M2 p U W * X (.S (labD W))) := by
    intro W hW
    rw [T2_apply, if_pos hW, Finset.sum_mul]
    exact Finset.sum_congr rfl (fun U _ => by rw [mul_assoc])
  rw [Finset.sum_congr rfl e, Finset.sum_comm]
  apply Finset.sum_congr rfl
  intro U hU
  rw [map_mul, subst_par σ (hf U hU), subst_S, hσ U hU]
  unfold row2
  rw [Finset.mul_sum]

/-- the symbols of a vector -/
theorem ev2_syms {n : Nat} {f : WordD → P} (hf : ∀ W ∈ WdD n 1, f W ∈ parAlg) :
    ev2 n f ∈ supported ℚ (parSet ∪ Sym.S '' {l | ∃ U ∈ WdD n 1, labD U = l}) := by
  unfold ev2
  apply Subalgebra.sum_mem
  intro W hW
  refine Subalgebra.mul_mem _ (supported_mono Set.subset_union_left (hf W hW)) (X_mem_supported.2 (Or.inr ⟨_, ⟨W, hW, rfl⟩, rfl⟩))

/-- the Pieri rule applied to a linear combination -/
theorem apply_pieri2 {ord : List Int → List Int} (ho : Ascending ord) {n : Nat} (hn : 1 ≤ n) {p : Int} (hp : -1 ≤ p) {w : Poly} (hw : WF w)
    {f : WordD → P} (hf : ∀ W ∈ WdD n 1, f W ∈ parAlg) (hd : den w = ev2 n f) :
    Returns (Poly.apply (Space.qpieriFn ord ⟨.D, ((1 : Nat) : Int), n⟩ p) w) (ev2 n (T2 n p f)) := by
  classical
  let σ : List Int → P := fun l => if h : ∃ U ∈ WdD n 1, labD U = l then row2 n p h.choose else 0
  have hσ : ∀ U ∈ WdD n 1, σ (labD U) = row2 n p U := by
    intro U hU
    have h : ∃ U' ∈ WdD n 1, labD U' = labD U := ⟨U, hU, rfl⟩
    show (if h : ∃ U' ∈ WdD n 1, labD U' = labD U then row2 n p h.choose else 0) = _
    rw [dif_pos h, WdD_inj _ h.choose_spec.1 _ hU h.choose_spec.2]
  rw [← subst_ev2 hf σ hσ, ← hd]
  apply apply_spec
  intro t ht l hl
  have hs := sym_mem_supported hw (hd ▸ ev2_syms hf) ht hl
  rcases hs with (h | h | h) | ⟨l', ⟨U, hU, rfl⟩, h⟩
  · cases h
  · cases h
  · cases h
  · injection h with h
    subst h
    rw [hσ U hU]
    exact retQ2 ho hn hp hU

/-! ### Expressions and vectors -/

theorem par_sorted {qs : Mono} (h : ∀ s ∈ qs, s = .q ∨ s = .q1 ∨ s = .q2) (hs : MSorted qs) (l : List Int) : MSorted (qs ++ [Sym.S l]) := by
  unfold MSorted
  rw [List.pairwise_append]
  refine ⟨hs, by simp, ?_⟩
  intro a ha b hb
  simp at hb; subst hb
  rcases h a ha with rfl | rfl | rfl <;> simp [Sym.code, listLt]

/-- a linear combination comes from a vector -/
theorem linComb2_ev {n : Nat} {w : Poly} (h : ∀ t ∈ w, ∃ qs l, t.1 = qs ++ [Sym.S l] ∧ (∀ s ∈ qs, s = .q ∨ s = .q1 ∨ s = .q2) ∧ clsD n 1 l)
    (hn : 1 ≤ n) : ∃ f : WordD → P, (∀ W ∈ WdD n 1, f W ∈ parAlg) ∧ den w = ev2 n f := by
  classical
  induction w with
  | nil => exact ⟨0, fun _ _ => Subalgebra.zero_mem _, by simp [ev2]⟩
  | cons t w ih =>
    obtain ⟨f, hf, hd⟩ := ih (fun t ht => h t (by simp [ht]))
    obtain ⟨qs, l, h1, h2, h3⟩ := h t (by simp)
    obtain ⟨U, hU, rfl⟩ := (WdD_cls (by omega) l).1 h3
    have hm : monoDen qs ∈ parAlg := by
      unfold monoDen
      apply Subalgebra.list_prod_mem
      intro z hz
      rw [List.mem_map] at hz
      obtain ⟨s, hs, rfl⟩ := hz
      exact X_mem_supported.2 (h2 s hs)
    refine ⟨fun W => (if W = U then C t.2 * monoDen qs else 0) + f W, ?_, ?_⟩
    · intro W hW
      refine Subalgebra.add_mem _ ?_ (hf W hW)
      split
      · exact Subalgebra.mul_mem _ (Subalgebra.algebraMap_mem _ _) hm
      · exact Subalgebra.zero_mem _
    · rw [show (fun W => (if W = U then C t.2 * monoDen qs else 0) + f W) = (fun W => if W = U then C t.2 * monoDen qs else 0) + f from rfl,
        ev2_add, den_cons, hd]
      congr 1
      unfold ev2
      rw [Finset.sum_eq_single U]
      · beta_reduce; rw [if_pos rfl, h1]; simp [monoDen, mul_assoc]
      · intro W _ hne; beta_reduce; rw [if_neg hne, zero_mul]
      · intro hne; exact absurd hU hne

/-- an expanded expression of a vector is a linear combination -/
theorem linComb2_of_ev {n : Nat} (hn : 1 ≤ n) {w : Poly} (hw : WF w) {f : WordD → P} (hf : ∀ W ∈ WdD n 1, f W ∈ parAlg)
    (hd : den w = ev2 n f) : LinComb2 (clsD n 1) w := by
  classical
  refine ⟨hw, fun t ht => ?_⟩
  have h1 : coeff (expo t.1) (den w) = t.2 := coeff_den_mem hw ht
  have h2 : t.2 ≠ 0 := (hw.2 t ht).1
  rw [hd] at h1
  unfold ev2 at h1
  rw [coeff_sum] at h1
  obtain ⟨W, hW, h3⟩ := Finset.exists_ne_zero_of_sum_ne_zero (by rw [h1]; exact h2)
  rw [coeff_mul_X'] at h3
  split at h3
  case isFalse => exact absurd rfl h3
  rename_i hmem
  have hin : Sym.S (labD W) ∈ t.1 := by
    unfold expo at hmem
    rw [Multiset.toFinsupp_support] at hmem
    simpa using hmem
  have hpar : ∀ s ∈ t.1.erase (Sym.S (labD W)), s ∈ parSet := by
    intro s hs
    have hv : s ∈ (f W).vars := by
      rw [mem_vars_iff_mem_support]
      refine ⟨_, mem_support_iff.2 h3, ?_⟩
      rw [Finsupp.mem_support_iff]
      have hc : 0 < (t.1.erase (Sym.S (labD W))).count s := List.count_pos_iff.2 hs
      have he : (expo t.1 - Finsupp.single (Sym.S (labD W)) 1 : Sym →₀ ℕ) s = (t.1.erase (Sym.S (labD W))).count s := by
        rw [Finsupp.tsub_apply]
        unfold expo
        rw [Multiset.toFinsupp_apply, Multiset.coe_count, List.count_erase, Finsupp.single_apply]
        congr 1
        by_cases hq : s = Sym.S (labD W)
        · subst hq; simp
        · rw [if_neg (fun h => hq h.symm), if_neg (by simpa using fun h => hq h.symm)]
      rw [he]; omega
    exact (mem_supported.1 (hf W hW)) hv
  refine ⟨t.1.erase (Sym.S (labD W)), labD W, ?_, hpar, (WdD_cls (by omega) _).2 ⟨W, hW, rfl⟩⟩
  have hs := hw.sorted t ht
  have hs' : MSorted (t.1.erase (Sym.S (labD W))) := List.Pairwise.sublist List.erase_sublist hs
  apply sorted_unique hs (par_sorted hpar hs' _)
  exact (List.perm_cons_erase hin).trans (List.perm_append_singleton _ _).symm

/-! ### The action of polynomials -/

open Classical in
/-- the operator of a symbol -/
noncomputable def op2 (n : Nat) : Sym → Module.End P (WordD → P)
  | .q => algebraMap P (Module.End P (WordD → P)) (X .q)
  | .S l => if spcD n 1 (specNo l) then T2 n (specNo l) else 0
  | _ => 0

theorem op2_cases (n : Nat) (s : Sym) : op2 n s = algebraMap P (Module.End P (WordD → P)) (X .q) ∨ op2 n s = 0 ∨ ∃ p, op2 n s = T2 n p := by
  unfold op2
  split
  · exact Or.inl rfl
  · split
    · exact Or.inr (Or.inr ⟨_, rfl⟩)
    · exact Or.inr (Or.inl rfl)
  · exact Or.inr (Or.inl rfl)

theorem op2_comm {n : Nat} (hn : 1 ≤ n) (a b : Sym) : op2 n a * op2 n b = op2 n b * op2 n a := by
  rcases op2_cases n a with h | h | ⟨i, h⟩
  · rw [h]; exact Algebra.commutes _ _
  · rw [h]; simp
  · rcases op2_cases n b with h' | h' | ⟨j, h'⟩
    · rw [h']; exact (Algebra.commutes _ _).symm
    · rw [h']; simp
    · rw [h, h']; exact T2_comm hn i j

/-- the action of a polynomial on vectors -/
noncomputable def act2 {n : Nat} (hn : 1 ≤ n) : P →ₐ[ℚ] Module.End P (WordD → P) := commAct (op2 n) (op2_comm hn)

theorem act2_q {n : Nat} (hn : 1 ≤ n) (f : WordD → P) : act2 hn (X .q) f = (X .q : P) • f := by
  unfold act2
  rw [commAct_X]; rfl

theorem act2_special {n : Nat} (hn : 1 ≤ n) {p : Int} (h : spcD n 1 p) (f : WordD → P) : act2 hn (X (.S (num2spec p))) f = T2 n p f := by
  unfold act2
  rw [commAct_X]
  unfold op2
  simp only
  rw [specNo_num2spec, if_pos h]

theorem act2_C {n : Nat} (hn : 1 ≤ n) (c : ℚ) (f : WordD → P) : act2 hn (C c) f = (C c : P) • f := by
  rw [show (C c : P) = algebraMap ℚ P c from rfl, AlgHom.commutes]
  funext W
  simp [Algebra.smul_def]

theorem op2_par {n : Nat} (hn : 1 ≤ n) (s : Sym) {f : WordD → P} (hf : ∀ W ∈ WdD n 1, f W ∈ parAlg) : ∀ W ∈ WdD n 1, op2 n s f W ∈ parAlg := by
  rcases op2_cases n s with h | h | ⟨i, h⟩
  · rw [h]
    intro W hW
    show X .q * f W ∈ parAlg
    exact Subalgebra.mul_mem _ (X_mem_supported.2 (Or.inl rfl)) (hf W hW)
  · rw [h]; exact fun _ _ => Subalgebra.zero_mem _
  · rw [h]; exact T2_par hn i hf

theorem act2_par {n : Nat} (hn : 1 ≤ n) (g : P) {f : WordD → P} (hf : ∀ W ∈ WdD n 1, f W ∈ parAlg) : ∀ W ∈ WdD n 1, act2 hn g f W ∈ parAlg := by
  induction g using MvPolynomial.induction_on generalizing f with
  | C c =>
    rw [act2_C]
    exact fun W hW => Subalgebra.mul_mem _ (Subalgebra.algebraMap_mem _ c) (hf W hW)
  | add p r hp hr =>
    intro W hW
    rw [map_add, LinearMap.add_apply]
    exact Subalgebra.add_mem _ (hp hf W hW) (hr hf W hW)
  | mul_X p s hp =>
    rw [map_mul, Module.End.mul_apply]
    apply hp
    unfold act2
    rw [commAct_X]
    exact op2_par hn s hf

theorem act2_qonly {n : Nat} (hn : 1 ≤ n) {e : Poly} (h : ∀ t ∈ e, ∀ s ∈ t.1, s = .q) (f : WordD → P) :
    act2 hn (den e) f = den e • f := by
  induction e with
  | nil => simp
  | cons t e ih =>
    rw [den_cons, map_add, LinearMap.add_apply, ih (fun t ht => h t (by simp [ht])), add_smul]
    congr 1
    have hm : ∀ (m : Mono), (∀ s ∈ m, s = .q) → ∀ f, act2 hn (monoDen m) f = monoDen m • f := by
      intro m
      induction m with
      | nil => intro _ x; simp
      | cons s m ihm =>
        intro hm x
        have : s = .q := hm s (by simp)
        subst this
        rw [monoDen_cons, map_mul, Module.End.mul_apply, act2_q, ihm (fun s hs => hm s (by simp [hs])), smul_smul, mul_comm]
    rw [map_mul, Module.End.mul_apply, act2_C, hm t.1 (h t (by simp)), smul_smul, mul_comm]

theorem spcD_ge {n : Nat} {p : Int} (h : spcD n 1 p) : -1 ≤ p := by
  rcases h with ⟨h1, _⟩ | ⟨_, h⟩ <;> omega

/-- `act_lc` computes the action. -/
theorem actLoop2_spec {ord : List Int → List Int} (ho : Ascending ord) {n : Nat} (hn : 1 ≤ n) :
    ∀ (fuel : Nat) (e lc : Poly) (x : WordD → P), WF e → den e ∈ supported ℚ (specialSet (spcD n 1)) → e.size < fuel →
      WF lc → den lc = ev2 n x → (∀ W ∈ WdD n 1, x W ∈ parAlg) →
      Returns (actLoop (Space.spec2numSym ⟨.D, ((1 : Nat) : Int), n⟩) (Space.qpieriFn ord ⟨.D, ((1 : Nat) : Int), n⟩) fuel e lc)
        (ev2 n (act2 hn (den e) x)) := by
  intro fuel
  induction fuel with
  | zero => intro e lc x _ _ h; omega
  | succ fuel ih =>
    intro e lc x he hs hf hlc hx hc
    unfold actLoop
    split
    · rename_i hv
      have hv := leastSym_none hv
      refine ⟨_, rfl, wf_mul hlc, ?_⟩
      rw [den_mul, hx, act2_qonly, ev2_smul]
      intro t ht s hst
      by_contra hne
      have : s ∈ e.vars := mem_vars_iff.2 ⟨hne, t, ht, hst⟩
      rw [hv] at this
      cases this
    · rename_i v hv
      obtain ⟨hvq, t, ht, hvt⟩ := mem_vars_iff.1 (leastSym_mem hv)
      have hvs := sym_mem_supported he hs ht hvt
      rcases hvs with h | ⟨i, hi, hvi⟩
      · exact absurd h hvq
      · have hp := sub_subs0_perm he v
        have hall : ∀ t ∈ Poly.sub e (e.subs0 v), v ∈ t.1 := by
          intro t ht
          have := (List.mem_filter.1 (hp.mem_iff.1 ht)).2
          simpa using this
        have hne : Poly.sub e (e.subs0 v) ≠ [] := by
          intro h0
          rw [h0] at hp
          have : t ∈ e.filter (fun t => decide (v ∈ t.1)) := List.mem_filter.2 ⟨ht, by simpa using hvt⟩
          rw [List.nil_perm.1 hp] at this
          cases this
        have w0 : WF (e.subs0 v) := wf_filter he _
        have w1 : WF ((Poly.sub e (e.subs0 v)).divVar v) := wf_divVar v (wf_sub he w0) hall
        have s0 : den (e.subs0 v) ∈ supported ℚ (specialSet (spcD n 1)) :=
          PieriSys.supported_of_syms (fun t ht s hs' => sym_mem_supported he hs (List.mem_of_mem_filter ht) hs')
        have s1 : den ((Poly.sub e (e.subs0 v)).divVar v) ∈ supported ℚ (specialSet (spcD n 1)) := by
          apply PieriSys.supported_of_syms
          intro t ht s hs'
          unfold Poly.divVar at ht
          rw [List.mem_map] at ht
          obtain ⟨a, ha, rfl⟩ := ht
          exact sym_mem_supported he hs (List.mem_of_mem_filter (hp.mem_iff.1 ha)) (List.mem_of_mem_erase hs')
        have l0 : (e.subs0 v).size < fuel := by
          have := size_filter_lt (f := fun t => decide (v ∉ t.1)) ht (by simpa using hvt)
            (List.length_pos_of_mem hvt)
          unfold Poly.subs0
          omega
        have l1 : ((Poly.sub e (e.subs0 v)).divVar v).size < fuel := by
          have h1 := size_divVar_lt hall hne
          have h2 := size_perm hp
          have h3 := size_filter_le e (fun t => decide (v ∈ t.1))
          omega
        obtain ⟨p1, hp1, hp1', hp1''⟩ := ih _ lc x w1 s1 l1 hlc hx hc
        obtain ⟨p2, hp2, hp2', hp2''⟩ := ih _ lc x w0 s0 l0 hlc hx hc
        obtain ⟨r, hr, hr', hr''⟩ := apply_pieri2 ho hn (spcD_ge hi) hp1' (act2_par hn _ hc) hp1''
        refine ⟨Poly.add r p2, ?_, wf_add hr'.sorted hp2', ?_⟩
        · rw [hvi] at hp1 hp2 ⊢
          simp only [spec_D i hi]
          simp only [bind, Except.bind, hp1, hp2, hr]
        · rw [den_add, hr'', hp2'', ← ev2_add]
          congr 1
          rw [← act2_special hn hi, ← Module.End.mul_apply, ← map_mul, ← hvi, den_divVar v hall,
            ← LinearMap.add_apply, ← map_add]
          congr 2
          rw [den_sub]; ring

theorem qact2 {ord : List Int → List Int} (ho : Ascending ord) {n : Nat} (hn : 1 ≤ n) {e b : Poly} {f : WordD → P} (he : SpecIn (spcD n 1) e)
    (hb : WF b) (hd : den b = ev2 n f) (hf : ∀ W ∈ WdD n 1, f W ∈ parAlg) :
    Returns ((Space.mk .D ((1 : Nat) : Int) n).qact ord e b) (ev2 n (act2 hn (den e) f)) :=
  actLoop2_spec ho hn (e.size + 1) e b f he.1 (specIn_supported he) (by omega) hb hd hf

end Verif
