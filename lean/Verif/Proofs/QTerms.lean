import Verif.Proofs.QPieriHom
/-!
# Expressions described by their terms
-/

namespace Verif
open Spec MvPolynomial

/-- an expression whose terms are exactly the `c * qs * S[x]` with `T qs x c` -/
def IsTerms (T : Mono → List Int → ℚ → Prop) (w : Poly) : Prop :=
  WF w ∧ ∀ t, t ∈ w ↔ ∃ qs x c, T qs x c ∧ t = (qs ++ [Sym.S x], c)

/-- a computation that returns such an expression -/
def RetTerms (T : Mono → List Int → ℚ → Prop) (r : Except PyErr Poly) : Prop := ∃ w, r = .ok w ∧ IsTerms T w

/-- terms without `q` -/
def Pure (T : List Int → ℚ → Prop) (qs : Mono) (x : List Int) (c : ℚ) : Prop := qs = [] ∧ T x c

theorem isTerms_pure {T : List Int → ℚ → Prop} {w : Poly} :
    IsTerms (Pure T) w ↔ WF w ∧ ∀ t, t ∈ w ↔ ∃ x c, T x c ∧ t = ([Sym.S x], c) := by
  unfold IsTerms Pure
  constructor
  · rintro ⟨h, h'⟩
    refine ⟨h, fun t => (h' t).trans ?_⟩
    constructor
    · rintro ⟨qs, x, c, ⟨rfl, hT⟩, rfl⟩; exact ⟨x, c, hT, rfl⟩
    · rintro ⟨x, c, hT, rfl⟩; exact ⟨[], x, c, ⟨rfl, hT⟩, rfl⟩
  · rintro ⟨h, h'⟩
    refine ⟨h, fun t => (h' t).trans ?_⟩
    constructor
    · rintro ⟨x, c, hT, rfl⟩; exact ⟨[], x, c, ⟨rfl, hT⟩, rfl⟩
    · rintro ⟨qs, x, c, ⟨rfl, hT⟩, rfl⟩; exact ⟨x, c, hT, rfl⟩

theorem IsTerms.congr {T T' : Mono → List Int → ℚ → Prop} {w : Poly} (h : IsTerms T w)
    (e : ∀ qs x c, T qs x c ↔ T' qs x c) : IsTerms T' w := by
  have : T = T' := by funext qs x c; exact propext (e qs x c)
  rw [← this]; exact h

theorem RetTerms.congr {T T' : Mono → List Int → ℚ → Prop} {r : Except PyErr Poly} (h : RetTerms T r)
    (e : ∀ qs x c, T qs x c ↔ T' qs x c) : RetTerms T' r := by
  obtain ⟨w, h1, h2⟩ := h
  exact ⟨w, h1, h2.congr e⟩

theorem RetTerms.ok {T : Mono → List Int → ℚ → Prop} {w : Poly} (h : IsTerms T w) : RetTerms T (.ok w) := ⟨w, rfl, h⟩

theorem RetTerms.bind {T T' : Mono → List Int → ℚ → Prop} {r : Except PyErr Poly} {f : Poly → Except PyErr Poly}
    (h : RetTerms T r) (hf : ∀ w, IsTerms T w → RetTerms T' (f w)) : RetTerms T' (r >>= f) := by
  obtain ⟨w, h1, h2⟩ := h
  rw [h1]
  exact hf w h2

theorem isTerms_of_den {T : Mono → List Int → ℚ → Prop} {w z : Poly} (hz : IsTerms T z) (hw : WF w)
    (h : den w = den z) : IsTerms T w :=
  ⟨hw, fun t => by rw [(perm_of_den_eq hw hz.1 h).mem_iff]; exact hz.2 t⟩

/-- sums of expressions without common monomials -/
theorem isTerms_add {A B : Mono → List Int → ℚ → Prop} {a b : Poly} (ha : IsTerms A a) (hb : IsTerms B b)
    (hd : ∀ qs x c qs' x' c', A qs x c → B qs' x' c' → qs ≠ qs') :
    IsTerms (fun qs x c => A qs x c ∨ B qs x c) (Poly.add a b) := by
  have hwf : WF (a ++ b) := by
    apply wf_append ha.1 hb.1
    intro t ht u hu
    obtain ⟨qs, x, c, h1, rfl⟩ := (ha.2 t).1 ht
    obtain ⟨qs', x', c', h2, rfl⟩ := (hb.2 u).1 hu
    intro he
    exact hd _ _ _ _ _ _ h1 h2 (List.append_inj' he rfl).1
  refine isTerms_of_den (z := a ++ b) ⟨hwf, ?_⟩ (wf_add ha.1.sorted hb.1) (by rw [den_add, den_append])
  intro t
  rw [List.mem_append, ha.2, hb.2]
  constructor
  · rintro (⟨qs, x, c, h, e⟩ | ⟨qs, x, c, h, e⟩)
    · exact ⟨qs, x, c, Or.inl h, e⟩
    · exact ⟨qs, x, c, Or.inr h, e⟩
  · rintro ⟨qs, x, c, h | h, e⟩
    · exact Or.inl ⟨qs, x, c, h, e⟩
    · exact Or.inr ⟨qs, x, c, h, e⟩

theorem den_shift (qs : Mono) (z : Poly) (s : P) (hs : ∀ m c, den [(qs ++ m, c)] = s * den [(m, c)]) :
    den (z.map (fun t => (qs ++ t.1, t.2))) = s * den z := by
  induction z with
  | nil => simp
  | cons t z ih =>
    obtain ⟨m, c⟩ := t
    have := hs m c
    rw [den_cons] at this
    rw [List.map_cons, den_cons, den_cons, ih, mul_add]
    rw [den_cons, den_nil, add_zero, add_zero] at this
    rw [this]

/-- multiplication by a power of `q` -/
theorem isTerms_mulq {T : List Int → ℚ → Prop} {z s : Poly} (hz : IsTerms (Pure T) z) (qs : Mono)
    (hqs : ∀ x, MSorted (qs ++ [Sym.S x]))
    (hs : ∀ m c, den [(qs ++ m, c)] = den s * den [(m, c)]) :
    IsTerms (fun qs' x c => qs' = qs ∧ T x c) (Poly.mul s z) := by
  have hz' := isTerms_pure.1 hz
  refine isTerms_of_den (z := z.map (fun t => (qs ++ t.1, t.2))) ⟨⟨?_, ?_⟩, ?_⟩ (wf_mul hz.1)
    (by rw [den_mul, den_shift qs z (den s) hs])
  · rw [List.map_map]
    have : (Prod.fst ∘ fun t : Mono × ℚ => (qs ++ t.1, t.2)) = (fun m => qs ++ m) ∘ Prod.fst := rfl
    rw [this, ← List.map_map]
    exact hz.1.1.map (fun a b h => List.append_cancel_left h)
  · intro t ht
    obtain ⟨u, hu, rfl⟩ := List.mem_map.1 ht
    obtain ⟨x, c, _, rfl⟩ := (hz'.2 u).1 hu
    exact ⟨(hz.1.2 _ hu).1, hqs x⟩
  · intro t
    rw [List.mem_map]
    constructor
    · rintro ⟨u, hu, rfl⟩
      obtain ⟨x, c, h, rfl⟩ := (hz'.2 u).1 hu
      exact ⟨qs, x, c, ⟨rfl, h⟩, rfl⟩
    · rintro ⟨qs', x, c, ⟨rfl, h⟩, rfl⟩
      exact ⟨_, (hz'.2 _).2 ⟨x, c, h, rfl⟩, rfl⟩

theorem isTerms_q {T : List Int → ℚ → Prop} {z : Poly} (hz : IsTerms (Pure T) z) :
    IsTerms (fun qs' x c => qs' = [.q] ∧ T x c) (Poly.mul (Poly.sym .q) z) := by
  apply isTerms_mulq hz
  · intro x; simp [MSorted, Sym.code, listLt]
  · intro m c; rw [den_sym]; simp [den_cons]; ring

theorem isTerms_qq {T : List Int → ℚ → Prop} {z : Poly} (hz : IsTerms (Pure T) z) :
    IsTerms (fun qs' x c => qs' = [.q, .q] ∧ T x c) (Poly.mul (Poly.pow (Poly.sym .q) 2) z) := by
  apply isTerms_mulq hz
  · intro x; simp [MSorted, Sym.code, listLt]
  · intro m c; rw [den_pow, den_sym]; simp [den_cons]; ring

theorem isTerms_q12 {T : List Int → ℚ → Prop} {z : Poly} (hz : IsTerms (Pure T) z) :
    IsTerms (fun qs' x c => qs' = [.q1, .q2] ∧ T x c) (Poly.mul (Poly.mul (Poly.sym .q1) (Poly.sym .q2)) z) := by
  apply isTerms_mulq hz
  · intro x; simp [MSorted, Sym.code, listLt]
  · intro m c; rw [den_mul, den_sym, den_sym]; simp [den_cons]; ring

/-- the terms as pairs -/
theorem exists_pairs {T : List Int → ℚ → Prop} {w : Poly} (h : IsTerms (Pure T) w) :
    ∃ L : List (List Int × ℚ), w = L.map (fun a => ([Sym.S a.1], a.2)) ∧ (L.map Prod.fst).Nodup ∧
      (∀ a ∈ L, a.2 ≠ 0) ∧ ∀ x c, (x, c) ∈ L ↔ T x c := by
  have h' := isTerms_pure.1 h
  have key : ∀ w : Poly, (∀ t ∈ w, ∃ x c, t = ([Sym.S x], c)) →
      ∃ L : List (List Int × ℚ), w = L.map (fun a => ([Sym.S a.1], a.2)) := by
    intro w hw
    induction w with
    | nil => exact ⟨[], rfl⟩
    | cons t w ih =>
      obtain ⟨L, rfl⟩ := ih (fun u hu => hw u (by simp [hu]))
      obtain ⟨x, c, rfl⟩ := hw t (by simp)
      exact ⟨(x, c) :: L, rfl⟩
  obtain ⟨L, rfl⟩ := key w (fun t ht => by obtain ⟨x, c, _, e⟩ := (h'.2 t).1 ht; exact ⟨x, c, e⟩)
  refine ⟨L, rfl, ?_, ?_, ?_⟩
  · have := h.1.1
    rw [List.map_map] at this
    have e : (Prod.fst ∘ fun a : List Int × ℚ => ([Sym.S a.1], a.2)) = (fun x => [Sym.S x]) ∘ Prod.fst := rfl
    rw [e, ← List.map_map] at this
    exact List.Nodup.of_map _ this
  · intro a ha
    exact (h.1.2 _ (List.mem_map.2 ⟨a, ha, rfl⟩)).1
  · intro x c
    have := h'.2 ([Sym.S x], c)
    rw [List.mem_map] at this
    constructor
    · intro hx
      obtain ⟨x', c', hT, e⟩ := this.1 ⟨_, hx, rfl⟩
      simp at e
      rw [e.1, e.2]; exact hT
    · intro hT
      obtain ⟨⟨x', c'⟩, h1, h2⟩ := this.2 ⟨x, c, hT, rfl⟩
      simp at h2
      rw [← h2.1, ← h2.2]; exact h1

theorem nodup_filterMap_on {α β : Type} {g : α → Option β} {l : List α} (h : l.Nodup)
    (hg : ∀ a ∈ l, ∀ a' ∈ l, ∀ b, g a = some b → g a' = some b → a = a') : (l.filterMap g).Nodup := by
  induction l with
  | nil => exact List.nodup_nil
  | cons a l ih =>
    rw [List.nodup_cons] at h
    have ih := ih h.2 (fun x hx y hy => hg x (by simp [hx]) y (by simp [hy]))
    rw [List.filterMap_cons]
    cases hga : g a with
    | none => exact ih
    | some b =>
      rw [List.nodup_cons]
      refine ⟨?_, ih⟩
      intro hb
      obtain ⟨a', ha', hb'⟩ := List.mem_filterMap.1 hb
      have := hg a (by simp) a' (by simp [ha']) b hga hb'
      subst this
      exact h.1 ha'

/-- the value of `apply` when every class goes to `0` or to one class -/
noncomputable def optVal (g : List Int → Option (List Int)) (x : List Int) : P :=
  match g x with
  | none => 0
  | some y => X (.S y)

/-- the expression `0` or `S[y]` -/
def optSym : Option (List Int) → Poly
  | none => []
  | some y => Poly.sym (.S y)

theorem isTerms_apply {T : List Int → ℚ → Prop} {w : Poly} (hw : IsTerms (Pure T) w)
    {f : List Int → Except PyErr Poly} (g : List Int → Option (List Int))
    (hf : ∀ x c, T x c → f x = .ok (optSym (g x)))
    (hg : ∀ x c x' c' y, T x c → T x' c' → g x = some y → g x' = some y → x = x') :
    RetTerms (Pure (fun y c => ∃ x, T x c ∧ g x = some y)) (Poly.apply f w) := by
  obtain ⟨L, rfl, h1, h2, h3⟩ := exists_pairs hw
  obtain ⟨z, hz, hz', hz''⟩ := apply_spec (f := f) (σ := optVal g) (L.map (fun a => ([Sym.S a.1], a.2))) (by
    intro t ht l hl
    obtain ⟨⟨x, c⟩, ha, rfl⟩ := List.mem_map.1 ht
    simp at hl
    subst hl
    rw [hf l c ((h3 l c).1 ha)]
    unfold optSym optVal
    cases g l with
    | none => exact ⟨_, rfl, wf_nil, by simp⟩
    | some y => exact ⟨_, rfl, wf_sym _, by simp⟩)
  let L' : List (List Int × ℚ) := L.filterMap (fun a => (g a.1).map (fun y => (y, a.2)))
  have hL' : ∀ y c, (y, c) ∈ L' ↔ ∃ x, T x c ∧ g x = some y := by
    intro y c
    rw [List.mem_filterMap]
    constructor
    · rintro ⟨⟨x, c'⟩, ha, he⟩
      rw [Option.map_eq_some_iff] at he
      obtain ⟨y', hy, e⟩ := he
      simp at e
      rw [← e.1, ← e.2]
      exact ⟨x, (h3 x c').1 ha, hy⟩
    · rintro ⟨x, hT, hy⟩
      exact ⟨(x, c), (h3 x c).2 hT, by simp [hy]⟩
  have hnd : (L'.map Prod.fst).Nodup := by
    have e : L'.map Prod.fst = (L.map Prod.fst).filterMap g := by
      rw [List.map_filterMap, List.filterMap_map]
      congr 1
      funext a
      simp [Option.map_map, Function.comp_def]
    rw [e]
    apply nodup_filterMap_on h1
    intro a ha a' ha' b hb hb'
    obtain ⟨⟨x, c⟩, hx, rfl⟩ := List.mem_map.1 ha
    obtain ⟨⟨x', c'⟩, hx', rfl⟩ := List.mem_map.1 ha'
    exact hg x c x' c' b ((h3 _ _).1 hx) ((h3 _ _).1 hx') hb hb'
  have hz3 : IsTerms (Pure (fun y c => ∃ x, T x c ∧ g x = some y)) (L'.map (fun a => ([Sym.S a.1], a.2))) := by
    rw [isTerms_pure]
    refine ⟨⟨?_, ?_⟩, ?_⟩
    · rw [List.map_map]
      have e : (Prod.fst ∘ fun a : List Int × ℚ => ([Sym.S a.1], a.2)) = (fun x => [Sym.S x]) ∘ Prod.fst := rfl
      rw [e, ← List.map_map]
      exact hnd.map (fun a b h => by simpa using h)
    · intro t ht
      obtain ⟨⟨y, c⟩, ha, rfl⟩ := List.mem_map.1 ht
      obtain ⟨⟨x, c'⟩, hx, he⟩ := List.mem_filterMap.1 ha
      rw [Option.map_eq_some_iff] at he
      obtain ⟨y', hy, e⟩ := he
      simp at e
      refine ⟨?_, by simp⟩
      rw [← e.2]
      exact h2 _ hx
    · intro t
      rw [List.mem_map]
      constructor
      · rintro ⟨⟨y, c⟩, ha, rfl⟩
        exact ⟨y, c, (hL' y c).1 ha, rfl⟩
      · rintro ⟨y, c, hx, rfl⟩
        exact ⟨(y, c), (hL' y c).2 hx, rfl⟩
  refine ⟨z, hz, isTerms_of_den hz3 hz' ?_⟩
  rw [hz'']
  clear hz hz' hz'' hz3 hnd hL' h1 h2 h3 hw
  induction L with
  | nil => simp [L']
  | cons a L ih =>
    have ih := ih
    simp only [L'] at ih ⊢
    rw [List.map_cons, den_cons, map_add, ih, List.filterMap_cons]
    unfold optVal
    cases hga : g a.1 with
    | none => simp [hga]
    | some y => simp [hga, den_cons]

end Verif
