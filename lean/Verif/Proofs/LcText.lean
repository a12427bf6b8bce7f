import Verif.Spec.Grammar
import Verif.Proofs.Text
import Verif.Proofs.Poly
import Verif.Props.Text
import Mathlib.Algebra.Order.Field.Basic
/-!
# Reading and printing expressions: lemmas
-/

namespace Verif
open Spec MvPolynomial

/-! ### Numbers -/

theorem constOf_iff (e : Expr) (c : ℚ) : constOf e = some c ↔ exprDen e = C c := by
  constructor
  · intro h
    rw [← den_expand]
    unfold constOf at h
    split at h
    · rename_i h1; rw [h1]; simp at h; subst h; simp [den]
    · rename_i h1; rw [h1]; simp at h; subst h; simp [den, monoDen]
    · simp at h
  · intro h
    have := perm_of_den_eq (wf_expand e) (wf_const c) (by rw [den_expand, h, den_const])
    unfold constOf
    by_cases hc : c = 0
    · rw [Poly.const, if_pos hc] at this
      rw [this.eq_nil, hc]
    · rw [Poly.const, if_neg hc] at this
      rw [List.perm_singleton.mp this]

theorem natOf_iff (e : Expr) (n : Nat) : natOf e = some n ↔ exprDen e = C (n : ℚ) := by
  rw [← constOf_iff]
  unfold natOf
  constructor
  · intro h
    split at h
    · simp at h
    · rename_i c hc
      rw [hc]
      split at h
      · rename_i h1
        simp only [Option.some.injEq] at h
        have h2 : (c.num.toNat : Int) = c.num := Int.toNat_of_nonneg h1.2
        have h3 : c = c.num := (Rat.den_eq_one_iff c).mp h1.1 |>.symm
        rw [h3, ← h2, h]; simp
      · simp at h
  · intro h
    rw [h]
    simp

theorem unpints_pints (p : List Int) : unpints (pints p) = some p := by
  induction p with
  | nil => rfl
  | cons a p ih =>
    have : pints (a :: p) = .int a :: pints p := rfl
    rw [this, unpints, ih]; rfl

theorem symOfName_iff (s : List Char) (y : Sym) : symOfName s = some y ↔ s = y.text := by
  constructor
  · intro h
    unfold symOfName at h
    split at h
    · rename_i h1; rw [h1]; simp at h; rw [← h]
    · split at h
      · rename_i h1; rw [h1]; simp at h; rw [← h]
      · split at h
        · rename_i h1; rw [h1]; simp at h; rw [← h]
        · split at h
          · simp at h
          · split at h
            · simp at h
            · split at h
              · rename_i h1; simp at h; rw [← h]; exact h1
              · simp at h
  · rintro rfl
    unfold symOfName
    cases y with
    | q => rfl
    | q1 => rfl
    | q2 => rfl
    | S p =>
      have h1 : ∀ a, a ≠ Sym.S p → ¬ (Sym.S p).text = a.text := fun a ha h => ha (C30_sym_text_injective _ _ h).symm
      rw [if_neg (h1 _ (by simp)), if_neg (h1 _ (by simp)), if_neg (h1 _ (by simp)), C30_sym_text, toSchur_encode]
      simp only [unpints_pints]
      rw [if_pos (C30_sym_text p).symm]

/-! ### The parser accepts what the grammar derives -/

/-- The remaining tokens do not continue a factor. -/
def FEnd (r : List Tok) : Prop := r.head? ≠ some .dstar

/-- The remaining tokens do not continue a term. -/
def TEnd (r : List Tok) : Prop := FEnd r ∧ r.head? ≠ some .star ∧ r.head? ≠ some .slash

/-- The remaining tokens do not continue a sum. -/
def SEnd (r : List Tok) : Prop := TEnd r ∧ r.head? ≠ some .plus ∧ r.head? ≠ some .minus

/-- What the parser has to do on the phrases of a category. -/
def Parses : Cat → List Tok → P → Prop
  | .atom, ts, v => ts ≠ [] ∧ ts.head? ≠ some .plus ∧ ts.head? ≠ some .minus ∧ ∃ e, exprDen e = v ∧
      ∀ f r, 4 * ts.length + 1 ≤ f → pAtom f (ts ++ r) = some (e, r)
  | .factor, ts, v => ts ≠ [] ∧ ∃ e, exprDen e = v ∧
      ∀ f r, 4 * ts.length + 2 ≤ f → FEnd r → pFactor f (ts ++ r) = some (e, r)
  | .term, ts, v => ts ≠ [] ∧ ∃ e, exprDen e = v ∧
      ∀ f r, 4 * ts.length + 3 ≤ f → TEnd r → pTerm f (ts ++ r) = some (e, r)
  | .sum, ts, v => ts ≠ [] ∧ ∃ e, exprDen e = v ∧
      ∀ f r, 4 * ts.length + 4 ≤ f → SEnd r → pSum f (ts ++ r) = some (e, r)
  | .termTail a, ts, v => (∀ r, TEnd r → FEnd (ts ++ r)) ∧ ∀ ea, exprDen ea = a → ∃ e, exprDen e = v ∧
      ∀ f r, 4 * ts.length + 1 ≤ f → TEnd r → pTermTail f ea (ts ++ r) = some (e, r)
  | .sumTail a, ts, v => (∀ r, SEnd r → TEnd (ts ++ r)) ∧ ∀ ea, exprDen ea = a → ∃ e, exprDen e = v ∧
      ∀ f r, 4 * ts.length + 1 ≤ f → SEnd r → pSumTail f ea (ts ++ r) = some (e, r)

theorem parses_of_means {c : Cat} {ts : List Tok} {v : P} (h : Means c ts v) : Parses c ts v := by
  induction h with
  | int n =>
    refine ⟨by simp, by simp, by simp, .num n, by simp [exprDen], ?_⟩
    intro f r hf
    obtain ⟨f, rfl⟩ : ∃ g, f = g + 1 := ⟨f - 1, by omega⟩
    simp [pAtom]
  | name y =>
    refine ⟨by simp, by simp, by simp, .sym y, by simp [exprDen], ?_⟩
    intro f r hf
    obtain ⟨f, rfl⟩ : ∃ g, f = g + 1 := ⟨f - 1, by omega⟩
    simp [pAtom, (symOfName_iff y.text y).mpr rfl]
  | @paren ts v _ ih =>
    obtain ⟨hne, e, he, ih⟩ := ih
    refine ⟨by simp, by simp, by simp, e, he, ?_⟩
    intro f r hf
    simp only [List.length_cons, List.length_append, List.length_nil] at hf
    obtain ⟨f, rfl⟩ : ∃ g, f = g + 1 := ⟨f - 1, by omega⟩
    have := ih f (.rpar :: r) (by omega) ⟨⟨by simp [FEnd], by simp, by simp⟩, by simp, by simp⟩
    simp only [List.cons_append, List.append_assoc, List.nil_append, pAtom]
    rw [this]
  | @pos ts v _ ih =>
    obtain ⟨hne, e, he, ih⟩ := ih
    refine ⟨by simp, e, he, ?_⟩
    intro f r hf hr
    simp only [List.length_cons] at hf
    obtain ⟨f, rfl⟩ : ∃ g, f = g + 1 := ⟨f - 1, by omega⟩
    simp only [List.cons_append, pFactor, if_pos]
    exact ih f r (by omega) hr
  | @neg ts v _ ih =>
    obtain ⟨hne, e, he, ih⟩ := ih
    refine ⟨by simp, .mul (.num (-1)) e, by simp [exprDen, he], ?_⟩
    intro f r hf hr
    simp only [List.length_cons] at hf
    obtain ⟨f, rfl⟩ : ∃ g, f = g + 1 := ⟨f - 1, by omega⟩
    simp only [List.cons_append, pFactor]
    rw [if_neg (by simp), if_pos trivial, ih f r (by omega) hr]
    rfl
  | @atom ts v _ ih =>
    obtain ⟨hne, h1, h2, e, he, ih⟩ := ih
    refine ⟨hne, e, he, ?_⟩
    intro f r hf hr
    obtain ⟨f, rfl⟩ : ∃ g, f = g + 1 := ⟨f - 1, by omega⟩
    obtain ⟨t, ts, rfl⟩ := List.exists_cons_of_ne_nil hne
    have := ih f r (by omega)
    simp only [List.cons_append] at this ⊢
    simp only [List.head?_cons, ne_eq, Option.some.injEq] at h1 h2
    rw [pFactor, if_neg h1, if_neg h2, this]
    simp only []
    rw [if_neg hr]
  | @pow ts us v n _ _ ih1 ih2 =>
    obtain ⟨hne, h1, h2, e, he, ih1⟩ := ih1
    obtain ⟨_, x, hx, ih2⟩ := ih2
    refine ⟨by simp, .pow e n, by simp [exprDen, he], ?_⟩
    intro f r hf hr
    simp only [List.length_cons, List.length_append] at hf
    obtain ⟨f, rfl⟩ : ∃ g, f = g + 1 := ⟨f - 1, by omega⟩
    obtain ⟨t, ts, rfl⟩ := List.exists_cons_of_ne_nil hne
    have := ih1 f (.dstar :: (us ++ r)) (by omega)
    simp only [List.cons_append, List.append_assoc] at this ⊢
    simp only [List.head?_cons, ne_eq, Option.some.injEq] at h1 h2
    rw [pFactor, if_neg h1, if_neg h2, this]
    simp only [List.head?_cons, if_pos, List.tail_cons]
    rw [ih2 f r (by omega) hr]
    simp only [(natOf_iff x n).mpr hx]
    rfl
  | @term ts us v w _ _ ih1 ih2 =>
    obtain ⟨hne, e, he, ih1⟩ := ih1
    obtain ⟨h1, ih2⟩ := ih2
    obtain ⟨e', he', ih2⟩ := ih2 e he
    refine ⟨by simp [hne], e', he', ?_⟩
    intro f r hf hr
    simp only [List.length_append] at hf
    have : 1 ≤ ts.length := List.length_pos_of_ne_nil hne
    obtain ⟨f, rfl⟩ : ∃ g, f = g + 1 := ⟨f - 1, by omega⟩
    rw [List.append_assoc, pTerm, ih1 f (us ++ r) (by omega) (h1 r hr)]
    exact ih2 f r (by omega) hr
  | termEnd a =>
    refine ⟨fun r hr => by simpa using hr.1, fun ea hea => ⟨ea, hea, ?_⟩⟩
    intro f r hf hr
    obtain ⟨f, rfl⟩ : ∃ g, f = g + 1 := ⟨f - 1, by omega⟩
    cases r with
    | nil => rfl
    | cons t r =>
      obtain ⟨_, h1, h2⟩ := hr
      simp only [List.head?_cons, ne_eq, Option.some.injEq] at h1 h2
      rw [List.nil_append, pTermTail, if_neg h1, if_neg h2]
  | @mul a ts us v w _ _ ih1 ih2 =>
    obtain ⟨hne, e, he, ih1⟩ := ih1
    obtain ⟨h1, ih2⟩ := ih2
    refine ⟨fun r _ => by simp [FEnd], fun ea hea => ?_⟩
    obtain ⟨e', he', ih2⟩ := ih2 (.mul ea e) (by simp [exprDen, hea, he])
    refine ⟨e', he', ?_⟩
    intro f r hf hr
    simp only [List.length_cons, List.length_append] at hf
    obtain ⟨f, rfl⟩ : ∃ g, f = g + 1 := ⟨f - 1, by omega⟩
    simp only [List.cons_append, List.append_assoc, pTermTail, if_pos]
    rw [ih1 f (us ++ r) (by omega) (h1 r hr)]
    exact ih2 f r (by omega) hr
  | @div a ts us w c hc _ _ ih1 ih2 =>
    obtain ⟨hne, e, he, ih1⟩ := ih1
    obtain ⟨h1, ih2⟩ := ih2
    refine ⟨fun r _ => by simp [FEnd], fun ea hea => ?_⟩
    obtain ⟨e', he', ih2⟩ := ih2 (.mul ea (.num c⁻¹)) (by simp [exprDen, hea])
    refine ⟨e', he', ?_⟩
    intro f r hf hr
    simp only [List.length_cons, List.length_append] at hf
    obtain ⟨f, rfl⟩ : ∃ g, f = g + 1 := ⟨f - 1, by omega⟩
    simp only [List.cons_append, List.append_assoc, pTermTail]
    rw [if_neg (by simp), if_pos trivial, ih1 f (us ++ r) (by omega) (h1 r hr)]
    simp only [(constOf_iff e c).mpr he]
    rw [if_neg hc]
    exact ih2 f r (by omega) hr
  | @sum ts us v w _ _ ih1 ih2 =>
    obtain ⟨hne, e, he, ih1⟩ := ih1
    obtain ⟨h1, ih2⟩ := ih2
    obtain ⟨e', he', ih2⟩ := ih2 e he
    refine ⟨by simp [hne], e', he', ?_⟩
    intro f r hf hr
    simp only [List.length_append] at hf
    have : 1 ≤ ts.length := List.length_pos_of_ne_nil hne
    obtain ⟨f, rfl⟩ : ∃ g, f = g + 1 := ⟨f - 1, by omega⟩
    rw [List.append_assoc, pSum, ih1 f (us ++ r) (by omega) (h1 r hr)]
    exact ih2 f r (by omega) hr
  | sumEnd a =>
    refine ⟨fun r hr => by simpa using hr.1, fun ea hea => ⟨ea, hea, ?_⟩⟩
    intro f r hf hr
    obtain ⟨f, rfl⟩ : ∃ g, f = g + 1 := ⟨f - 1, by omega⟩
    cases r with
    | nil => rfl
    | cons t r =>
      obtain ⟨_, h1, h2⟩ := hr
      simp only [List.head?_cons, ne_eq, Option.some.injEq] at h1 h2
      rw [List.nil_append, pSumTail, if_neg h1, if_neg h2]
  | @add a ts us v w _ _ ih1 ih2 =>
    obtain ⟨hne, e, he, ih1⟩ := ih1
    obtain ⟨h1, ih2⟩ := ih2
    refine ⟨fun r _ => by simp [TEnd, FEnd], fun ea hea => ?_⟩
    obtain ⟨e', he', ih2⟩ := ih2 (.add ea e) (by simp [exprDen, hea, he])
    refine ⟨e', he', ?_⟩
    intro f r hf hr
    simp only [List.length_cons, List.length_append] at hf
    obtain ⟨f, rfl⟩ : ∃ g, f = g + 1 := ⟨f - 1, by omega⟩
    simp only [List.cons_append, List.append_assoc, pSumTail, if_pos]
    rw [ih1 f (us ++ r) (by omega) (h1 r hr)]
    exact ih2 f r (by omega) hr
  | @sub a ts us v w _ _ ih1 ih2 =>
    obtain ⟨hne, e, he, ih1⟩ := ih1
    obtain ⟨h1, ih2⟩ := ih2
    refine ⟨fun r _ => by simp [TEnd, FEnd], fun ea hea => ?_⟩
    obtain ⟨e', he', ih2⟩ := ih2 (.add ea (.mul (.num (-1)) e)) (by simp [exprDen, hea, he, sub_eq_add_neg])
    refine ⟨e', he', ?_⟩
    intro f r hf hr
    simp only [List.length_cons, List.length_append] at hf
    obtain ⟨f, rfl⟩ : ∃ g, f = g + 1 := ⟨f - 1, by omega⟩
    simp only [List.cons_append, List.append_assoc, pSumTail]
    rw [if_neg (by simp), if_pos trivial, ih1 f (us ++ r) (by omega) (h1 r hr)]
    exact ih2 f r (by omega) hr

theorem parseToks_of_means {ts : List Tok} {v : P} (h : Means .sum ts v) :
    ∃ e, parseToks ts = some e ∧ exprDen e = v := by
  obtain ⟨_, e, he, h1⟩ := parses_of_means h
  refine ⟨e, ?_, he⟩
  have := h1 (4 * ts.length + 4) [] (by omega) (by simp [SEnd, TEnd, FEnd])
  rw [List.append_nil] at this
  rw [parseToks, this]

/-! ### The grammar derives what the parser accepts -/

/-- The parser accepted a phrase in front of `r`. -/
def Sound (c : Cat) (ts : List Tok) (e : Expr) (r : List Tok) : Prop :=
  ∃ us, ts = us ++ r ∧ Means c us (exprDen e)

theorem sound_all (f : Nat) :
    (∀ ts e r, pAtom f ts = some (e, r) → Sound .atom ts e r) ∧
    (∀ ts e r, pFactor f ts = some (e, r) → Sound .factor ts e r) ∧
    (∀ ts e r, pTerm f ts = some (e, r) → Sound .term ts e r) ∧
    (∀ a ts e r, pTermTail f a ts = some (e, r) → Sound (.termTail (exprDen a)) ts e r) ∧
    (∀ ts e r, pSum f ts = some (e, r) → Sound .sum ts e r) ∧
    (∀ a ts e r, pSumTail f a ts = some (e, r) → Sound (.sumTail (exprDen a)) ts e r) := by
  induction f with
  | zero => simp [pAtom, pFactor, pTerm, pTermTail, pSum, pSumTail]
  | succ f ih =>
    obtain ⟨iA, iF, iT, iTT, iS, iST⟩ := ih
    refine ⟨?_, ?_, ?_, ?_, ?_, ?_⟩
    · intro ts e r h
      cases ts with
      | nil => simp [pAtom] at h
      | cons t ts =>
        cases t with
        | int n =>
          simp only [pAtom, Option.some.injEq, Prod.mk.injEq] at h
          obtain ⟨rfl, rfl⟩ := h
          exact ⟨[.int n], rfl, by simpa [exprDen] using Means.int n⟩
        | name s =>
          simp only [pAtom, Option.map_eq_some_iff, Prod.mk.injEq] at h
          obtain ⟨y, hy, rfl, rfl⟩ := h
          rw [(symOfName_iff s y).mp hy]
          exact ⟨[.name y.text], rfl, by simpa [exprDen] using Means.name y⟩
        | lpar =>
          simp only [pAtom] at h
          split at h
          · rename_i e' r' h1
            simp only [Option.some.injEq, Prod.mk.injEq] at h
            obtain ⟨rfl, rfl⟩ := h
            obtain ⟨us, rfl, hm⟩ := iS _ _ _ h1
            exact ⟨.lpar :: (us ++ [.rpar]), by simp, .paren hm⟩
          · simp at h
        | _ => simp [pAtom] at h
    · intro ts e r h
      cases ts with
      | nil => simp [pFactor] at h
      | cons t ts =>
        rw [pFactor] at h
        split at h
        · rename_i h1
          subst h1
          obtain ⟨us, rfl, hm⟩ := iF _ _ _ h
          exact ⟨.plus :: us, rfl, .pos hm⟩
        · split at h
          · rename_i h1
            subst h1
            simp only [Option.map_eq_some_iff, Prod.mk.injEq] at h
            obtain ⟨⟨x, u⟩, hx, rfl, rfl⟩ := h
            obtain ⟨us, rfl, hm⟩ := iF _ _ _ hx
            exact ⟨.minus :: us, rfl, by simpa [exprDen] using Means.neg hm⟩
          · split at h
            · simp at h
            · rename_i e' u h1
              obtain ⟨us, h2, hm⟩ := iA _ _ _ h1
              split at h
              · rename_i h3
                split at h
                · simp at h
                · rename_i x r' h4
                  simp only [Option.map_eq_some_iff, Prod.mk.injEq] at h
                  obtain ⟨n, hn, rfl, rfl⟩ := h
                  obtain ⟨vs, h5, hm'⟩ := iF _ _ _ h4
                  refine ⟨us ++ .dstar :: vs, ?_, ?_⟩
                  · rw [h2, List.append_assoc, List.cons_append, ← h5]
                    congr 1
                    cases u with
                    | nil => simp at h3
                    | cons a u => simp at h3; rw [h3]; rfl
                  · rw [(natOf_iff _ _).mp hn] at hm'
                    exact .pow n hm hm'
              · simp only [Option.some.injEq, Prod.mk.injEq] at h
                obtain ⟨rfl, rfl⟩ := h
                exact ⟨us, h2, .atom hm⟩
    · intro ts e r h
      rw [pTerm] at h
      split at h
      · simp at h
      · rename_i e' u h1
        obtain ⟨us, rfl, hm⟩ := iF _ _ _ h1
        obtain ⟨vs, rfl, hm'⟩ := iTT _ _ _ _ h
        exact ⟨us ++ vs, by simp, .term hm hm'⟩
    · intro a ts e r h
      cases ts with
      | nil =>
        simp only [pTermTail, Option.some.injEq, Prod.mk.injEq] at h
        obtain ⟨rfl, rfl⟩ := h
        exact ⟨[], rfl, .termEnd _⟩
      | cons t ts =>
        rw [pTermTail] at h
        split at h
        · rename_i h1
          subst h1
          split at h
          · simp at h
          · rename_i x u h1
            obtain ⟨us, rfl, hm⟩ := iF _ _ _ h1
            obtain ⟨vs, rfl, hm'⟩ := iTT _ _ _ _ h
            exact ⟨.star :: (us ++ vs), by simp, .mul hm hm'⟩
        · split at h
          · rename_i h1
            subst h1
            split at h
            · simp at h
            · rename_i x u h1
              obtain ⟨us, rfl, hm⟩ := iF _ _ _ h1
              split at h
              · simp at h
              · rename_i c hc
                split at h
                · simp at h
                · rename_i hc0
                  obtain ⟨vs, rfl, hm'⟩ := iTT _ _ _ _ h
                  rw [(constOf_iff _ _).mp hc] at hm
                  exact ⟨.slash :: (us ++ vs), by simp, .div c hc0 hm hm'⟩
          · simp only [Option.some.injEq, Prod.mk.injEq] at h
            obtain ⟨rfl, rfl⟩ := h
            exact ⟨[], rfl, .termEnd _⟩
    · intro ts e r h
      rw [pSum] at h
      split at h
      · simp at h
      · rename_i e' u h1
        obtain ⟨us, rfl, hm⟩ := iT _ _ _ h1
        obtain ⟨vs, rfl, hm'⟩ := iST _ _ _ _ h
        exact ⟨us ++ vs, by simp, .sum hm hm'⟩
    · intro a ts e r h
      cases ts with
      | nil =>
        simp only [pSumTail, Option.some.injEq, Prod.mk.injEq] at h
        obtain ⟨rfl, rfl⟩ := h
        exact ⟨[], rfl, .sumEnd _⟩
      | cons t ts =>
        rw [pSumTail] at h
        split at h
        · rename_i h1
          subst h1
          split at h
          · simp at h
          · rename_i x u h1
            obtain ⟨us, rfl, hm⟩ := iT _ _ _ h1
            obtain ⟨vs, rfl, hm'⟩ := iST _ _ _ _ h
            exact ⟨.plus :: (us ++ vs), by simp, .add hm hm'⟩
        · split at h
          · rename_i h1
            subst h1
            split at h
            · simp at h
            · rename_i x u h1
              obtain ⟨us, rfl, hm⟩ := iT _ _ _ h1
              obtain ⟨vs, rfl, hm'⟩ := iST _ _ _ _ h
              refine ⟨.minus :: (us ++ vs), by simp, .sub hm ?_⟩
              simpa [exprDen, sub_eq_add_neg] using hm'
          · simp only [Option.some.injEq, Prod.mk.injEq] at h
            obtain ⟨rfl, rfl⟩ := h
            exact ⟨[], rfl, .sumEnd _⟩

theorem means_of_parseToks {ts : List Tok} {e : Expr} (h : parseToks ts = some e) : Means .sum ts (exprDen e) := by
  unfold parseToks at h
  split at h
  · rename_i e' h1
    simp only [Option.some.injEq] at h
    subst h
    obtain ⟨us, h2, hm⟩ := (sound_all _).2.2.2.2.1 _ _ _ h1
    rw [List.append_nil] at h2
    rw [h2]; exact hm
  · simp at h

/-! ### Tokens of a text -/

theorem tokens_fuel (f g : Nat) (t : List Char) (hf : t.length < f) (hg : t.length < g) : tokens f t = tokens g t := by
  induction f generalizing g t with
  | zero => omega
  | succ f ih =>
    obtain ⟨g, rfl⟩ : ∃ g', g = g' + 1 := ⟨g - 1, by omega⟩
    cases t with
    | nil => rfl
    | cons c r =>
      simp only [List.length_cons] at hf hg
      have h1 : ∀ t : List Char, t.length ≤ r.length → tokens f t = tokens g t := fun t ht => ih g t (by omega) (by omega)
      simp only [tokens, h1 r le_rfl, h1 r.tail (by simp), h1 (r.dropWhile isNameChar) ((List.dropWhile_sublist _).length_le)]
      cases hp : parseNat (c :: r) with
      | none => rfl
      | some x =>
        obtain ⟨n, r'⟩ := x
        by_cases hd : c.isDigit = true
        · have : r'.length ≤ r.length := by
            unfold parseNat at hp
            simp only [] at hp
            rw [List.takeWhile_cons_of_pos hd, List.dropWhile_cons_of_pos hd] at hp
            simp only [] at hp
            split at hp
            · simp at hp
            · simp only [Option.some.injEq, Prod.mk.injEq] at hp
              rw [← hp.2]
              exact (List.dropWhile_sublist _).length_le
          simp only [h1 r' this]
        · simp only [hd, Bool.false_eq_true, if_false]

theorem lex_eq {f : Nat} {t : List Char} (h : t.length < f) : tokens f t = lex t := tokens_fuel _ _ _ h (by omega)

theorem lex_nil : lex [] = some [] := rfl

theorem lex_blank (r : List Char) : lex (' ' :: r) = lex r := by
  rw [lex, List.length_cons, tokens, if_pos rfl, lex]

theorem lex_plus (r : List Char) : lex ('+' :: r) = (lex r).map (.plus :: ·) := by
  rw [lex, List.length_cons, tokens, if_neg (by decide), if_pos rfl, lex]

theorem lex_minus (r : List Char) : lex ('-' :: r) = (lex r).map (.minus :: ·) := by
  rw [lex, List.length_cons, tokens, if_neg (by decide), if_neg (by decide), if_pos rfl, lex]

theorem lex_slash (r : List Char) : lex ('/' :: r) = (lex r).map (.slash :: ·) := by
  rw [lex, List.length_cons, tokens, if_neg (by decide), if_neg (by decide), if_neg (by decide), if_pos rfl, lex]

theorem lex_star (r : List Char) (h : r.head? ≠ some '*') : lex ('*' :: r) = (lex r).map (.star :: ·) := by
  rw [lex, List.length_cons, tokens, if_neg (by decide), if_neg (by decide), if_neg (by decide), if_neg (by decide),
    if_neg (by decide), if_neg (by decide), if_pos rfl, if_neg h, lex]

theorem lex_dstar (r : List Char) : lex ('*' :: '*' :: r) = (lex r).map (.dstar :: ·) := by
  rw [lex, List.length_cons, tokens, if_neg (by decide), if_neg (by decide), if_neg (by decide), if_neg (by decide),
    if_neg (by decide), if_neg (by decide), if_pos rfl, if_pos (by simp), List.tail_cons, lex_eq (by simp; omega)]

/-- The text does not continue a name or a number. -/
def NoName (r : List Char) : Prop := ∀ c, r.head? = some c → isNameChar c = false

theorem NoName.noDigit {r : List Char} (h : NoName r) : NoDigit r := by
  intro c hc
  have := h c hc
  simp only [isNameChar, Char.isAlphanum, Bool.or_eq_false_iff] at this
  exact this.1.2

theorem lex_nat (n : Nat) (r : List Char) (h : NoName r) : lex (natText n ++ r) = (lex r).map (.int n :: ·) := by
  obtain ⟨d, ds, hd, hdig⟩ := toDigits_cons n
  have hp := parseNat_toDigits n r h.noDigit
  unfold natText
  rw [hd] at hp ⊢
  rw [List.cons_append] at hp ⊢
  have ne : ∀ {c : Char}, c.isDigit = false → ¬ d = c := fun hc => isDigit_ne hdig hc
  rw [lex, List.length_cons, tokens, if_neg (ne (by decide)), if_neg (ne (by decide)), if_neg (ne (by decide)),
    if_neg (ne (by decide)), if_neg (ne (by decide)), if_neg (ne (by decide)), if_neg (ne (by decide)), if_pos hdig, hp]
  simp only []
  rw [lex_eq (by simp; omega)]

theorem lex_name (s r : List Char) (h : isIdent s = true) (hr : NoName r) :
    lex (s ++ r) = (lex r).map (.name s :: ·) := by
  cases s with
  | nil => simp [isIdent] at h
  | cons c s =>
    simp only [isIdent, Bool.and_eq_true] at h
    obtain ⟨h1, h2⟩ := h
    have hn : isNameChar c = true := by
      simp only [isNameChar, Char.isAlphanum, Bool.or_eq_true] at h1 ⊢
      tauto
    have hnd : ¬ c.isDigit = true := by
      intro hd
      rcases Bool.or_eq_true _ _ ▸ h1 with h1 | h1
      · simp only [Char.isAlpha, Char.isUpper, Char.isLower, Char.isDigit, Bool.or_eq_true, Bool.and_eq_true,
          decide_eq_true_eq, ge_iff_le] at h1 hd
        have h3 := hd.2
        rcases h1 with h1 | h1
        · have := h1.1
          exact absurd (UInt32.le_trans this h3) (by decide)
        · have := h1.1
          exact absurd (UInt32.le_trans this h3) (by decide)
      · simp only [beq_iff_eq] at h1
        subst h1
        exact absurd hd (by decide)
    have ne : ∀ {d : Char}, isNameChar d = false → ¬ c = d := by
      rintro d hd rfl
      rw [hn] at hd; simp at hd
    have ht : (s ++ r).takeWhile isNameChar = s := by
      rw [List.takeWhile_append_of_pos (p := isNameChar) (fun c hc => List.all_eq_true.mp h2 c hc)]
      cases r with
      | nil => simp
      | cons d r => rw [List.takeWhile_cons_of_neg (by simp [hr d rfl])]; simp
    have hd : (s ++ r).dropWhile isNameChar = r := by
      rw [List.dropWhile_append_of_pos (p := isNameChar) (fun c hc => List.all_eq_true.mp h2 c hc)]
      cases r with
      | nil => simp
      | cons d r => rw [List.dropWhile_cons_of_neg (by simp [hr d rfl])]
    rw [List.cons_append, lex, List.length_cons, tokens, if_neg (ne (by decide)), if_neg (ne (by decide)),
      if_neg (ne (by decide)), if_neg (ne (by decide)), if_neg (ne (by decide)), if_neg (ne (by decide)),
      if_neg (ne (by decide)), if_neg hnd, if_pos hn, ht, hd, lex_eq (by simp; omega)]

theorem isIdent_text {y : Sym} (h : SymNonneg y) : isIdent y.text = true := by
  cases y with
  | q => decide
  | q1 => decide
  | q2 => decide
  | S p =>
    have := schurSymbol_of_nonneg (pints p) (nonnegs_pints p h)
    rw [← C30_sym_text] at this
    unfold schurSymbol parseSymbol at this
    rw [← C30_sym_text] at this
    split at this
    · assumption
    · simp at this

/-! ### Printed expressions -/

/-- `Lex t ts r`: in front of `r`, the text `t` consists of the tokens `ts`. -/
def LexTo (t : List Char) (ts : List Tok) (r : List Char) : Prop := lex (t ++ r) = (lex r).map (ts ++ ·)

theorem LexTo.append {t u r : List Char} {ts us : List Tok} (h : LexTo t ts (u ++ r)) (h' : LexTo u us r) :
    LexTo (t ++ u) (ts ++ us) r := by
  unfold LexTo at *
  rw [List.append_assoc, h, h', Option.map_map]
  congr 1
  funext x
  simp

theorem lexTo_nil (r : List Char) : LexTo [] [] r := by
  unfold LexTo
  rw [List.nil_append]
  cases lex r <;> rfl

theorem lexTo_nat (n : Nat) {r : List Char} (h : NoName r) : LexTo (natText n) [.int n] r := lex_nat n r h

theorem lexTo_name {y : Sym} (hy : SymNonneg y) {r : List Char} (h : NoName r) : LexTo y.text [.name y.text] r :=
  lex_name _ r (isIdent_text hy) h

theorem lexTo_dstar (r : List Char) : LexTo ['*', '*'] [.dstar] r := lex_dstar r

theorem lexTo_star {r : List Char} (h : r.head? ≠ some '*') : LexTo ['*'] [.star] r := lex_star r h

theorem lexTo_slash (r : List Char) : LexTo ['/'] [.slash] r := lex_slash r

theorem noName_star (r : List Char) : NoName ('*' :: r) := by intro c hc; simp at hc; subst hc; decide
theorem noName_slash (r : List Char) : NoName ('/' :: r) := by intro c hc; simp at hc; subst hc; decide
theorem noName_blank (r : List Char) : NoName (' ' :: r) := by intro c hc; simp at hc; subst hc; decide
theorem noName_nil : NoName [] := by intro c hc; simp at hc

/-- The tokens of a power. -/
def factorToks (y : Sym × Nat) : List Tok := .name y.1.text :: if y.2 = 1 then [] else [.dstar, .int y.2]

theorem lexTo_factor {y : Sym × Nat} (hy : SymNonneg y.1) {r : List Char} (h : NoName r) :
    LexTo (factorText y) (factorToks y) r := by
  unfold factorText factorToks
  split
  · rw [List.append_nil]; exact lexTo_name hy h
  · have h1 : LexTo y.1.text [.name y.1.text] (('*' :: '*' :: natText y.2) ++ r) := lexTo_name hy (noName_star _)
    exact h1.append ((lexTo_dstar _).append (lexTo_nat y.2 h))

theorem means_factor (y : Sym × Nat) : Means .factor (factorToks y) ((X y.1 : P) ^ y.2) := by
  unfold factorToks
  split
  · rename_i h
    rw [h, pow_one]; exact .atom (.name y.1)
  · exact .pow y.2 (.name y.1) (.atom (.int y.2))

/-- A factor of the numerator: a text, its tokens and its value; it does not begin with a star. -/
structure Piece where
  text : List Char
  toks : List Tok
  val : P
  lex : ∀ r, NoName r → LexTo text toks r
  means : Means .factor toks val
  head : ∀ r, (text ++ r).head? ≠ some '*'

noncomputable def natPiece (n : Nat) : Piece where
  text := natText n
  toks := [.int n]
  val := C (n : ℚ)
  lex r h := lexTo_nat n h
  means := .atom (.int n)
  head r := by
    obtain ⟨d, ds, hd, hdig⟩ := toDigits_cons n
    unfold natText
    rw [hd]
    simp only [List.cons_append, List.head?_cons, ne_eq, Option.some.injEq]
    exact isDigit_ne hdig (by decide)

noncomputable def symPiece (y : Sym × Nat) (hy : SymNonneg y.1) : Piece where
  text := factorText y
  toks := factorToks y
  val := X y.1 ^ y.2
  lex r h := lexTo_factor hy h
  means := means_factor y
  head r := by
    unfold factorText
    cases hs : y.1 <;> simp [Sym.text]

/-- The pieces after the first one, with stars. -/
def starTail (l : List Piece) : List Char := l.flatMap (fun p => '*' :: p.text)

theorem joinStar_cons (p : Piece) (l : List Piece) :
    joinStar ((p :: l).map Piece.text) = p.text ++ starTail l := by
  induction l generalizing p with
  | nil => simp [joinStar, starTail]
  | cons u l ih =>
    have := ih u
    simp only [List.map_cons] at this ⊢
    rw [joinStar, this]
    simp [starTail]

theorem noName_starTail (l : List Piece) {r : List Char} (h : NoName r) : NoName (starTail l ++ r) := by
  cases l with
  | nil => simpa [starTail] using h
  | cons p l => simp only [starTail, List.flatMap_cons, List.cons_append]; exact noName_star _

theorem starTail_spec (l : List Piece) : ∃ ts, (∀ r, NoName r → LexTo (starTail l) ts r) ∧
    ∀ (a w : P) us, Means (.termTail (a * (l.map Piece.val).prod)) us w → Means (.termTail a) (ts ++ us) w := by
  induction l with
  | nil => exact ⟨[], fun r _ => lexTo_nil r, fun a w us h => by simpa using h⟩
  | cons p l ih =>
    obtain ⟨ts, h1, h2⟩ := ih
    refine ⟨.star :: (p.toks ++ ts), fun r hr => ?_, fun a w us h => ?_⟩
    · have e : starTail (p :: l) = ['*'] ++ (p.text ++ starTail l) := by simp [starTail]
      rw [e]
      have hs : LexTo ['*'] [.star] ((p.text ++ starTail l) ++ r) :=
        lexTo_star (by rw [List.append_assoc]; exact p.head _)
      exact hs.append ((p.lex _ (noName_starTail l hr)).append (h1 r hr))
    · have := Means.mul p.means (h2 (a * p.val) w us (by rw [mul_assoc]; simpa using h))
      simpa using this

/-- The value of a term without its sign. -/
noncomputable def bodyDen (t : PTerm) : P := C |t.2| * (t.1.map (fun y => (X y.1 : P) ^ y.2)).prod

theorem bodyText_spec (t : PTerm) (ht : ∀ y ∈ t.1, SymNonneg y.1) :
    ∃ ts, (∀ r, NoName r → LexTo (bodyText t) ts r) ∧ Means .term ts (bodyDen t) := by
  obtain ⟨m, c⟩ := t
  simp only at ht
  have hms : ∃ ms : List Piece, ms.map Piece.text = m.map factorText ∧
      (ms.map Piece.val).prod = (m.map (fun y => (X y.1 : P) ^ y.2)).prod ∧ (ms = [] ↔ m = []) := by
    clear c
    induction m with
    | nil => exact ⟨[], rfl, rfl, by simp⟩
    | cons y m ih =>
      obtain ⟨ms, h1, h2, _⟩ := ih (fun z hz => ht z (by simp [hz]))
      exact ⟨symPiece y (ht y (by simp)) :: ms, by simp [h1, symPiece], by simp [h2, symPiece], by simp⟩
  obtain ⟨ms, e1, e2, e3⟩ := hms
  have key : ∃ (p : Piece) (l : List Piece), numText (m, c) = p.text ++ starTail l ∧
      p.val * (l.map Piece.val).prod = C (c.num.natAbs : ℚ) * (m.map (fun y => (X y.1 : P) ^ y.2)).prod := by
    unfold numText
    simp only
    split
    · rename_i h
      cases hms : ms with
      | nil => exact absurd (e3.mp hms) h.2
      | cons p l =>
        refine ⟨p, l, ?_, ?_⟩
        · rw [List.nil_append, ← e1, hms, joinStar_cons]
        · rw [← e2, hms, h.1]; simp
    · refine ⟨natPiece c.num.natAbs, ms, ?_, ?_⟩
      · rw [← e1, ← joinStar_cons]; rfl
      · rw [e2]; rfl
  obtain ⟨p, l, k1, k2⟩ := key
  obtain ⟨ts, s1, s2⟩ := starTail_spec l
  have habs : |c| = (c.num.natAbs : ℚ) * ((c.den : ℚ))⁻¹ := by
    conv_lhs => rw [← Rat.num_div_den c]
    rw [abs_div, div_eq_mul_inv]
    congr 1
    · rw [← Int.cast_abs, Int.abs_eq_natAbs]; simp
    · simp
  unfold bodyText
  simp only
  rw [k1]
  split
  · rename_i h
    refine ⟨p.toks ++ ts, fun r hr => ?_, ?_⟩
    · rw [List.append_nil]
      exact (p.lex _ (noName_starTail l hr)).append (s1 r hr)
    · refine .term p.means ?_
      have := s2 p.val (bodyDen (m, c)) [] (by
        rw [k2]
        have : bodyDen (m, c) = C (c.num.natAbs : ℚ) * (m.map (fun y => (X y.1 : P) ^ y.2)).prod := by
          unfold bodyDen
          simp only
          rw [habs, h]; simp
        rw [← this]
        exact .termEnd _)
      rwa [List.append_nil] at this
  · rename_i h
    refine ⟨(p.toks ++ ts) ++ ([.slash] ++ [.int c.den]), fun r hr => ?_, ?_⟩
    · have hn : NoName (('/' :: natText c.den) ++ r) := noName_slash _
      have h1 : LexTo (p.text ++ starTail l) (p.toks ++ ts) (('/' :: natText c.den) ++ r) :=
        (p.lex _ (noName_starTail l hn)).append (s1 _ hn)
      exact h1.append ((lexTo_slash _).append (lexTo_nat _ hr))
    · rw [List.append_assoc]
      refine .term p.means (s2 p.val (bodyDen (m, c)) _ ?_)
      rw [k2]
      have hd : (c.den : ℚ) ≠ 0 := by exact_mod_cast c.den_nz
      have := Means.div (a := C (c.num.natAbs : ℚ) * (m.map (fun y => (X y.1 : P) ^ y.2)).prod) (us := [])
        (c.den : ℚ) hd (.atom (.int c.den)) (.termEnd _)
      have e : bodyDen (m, c) =
          C (c.num.natAbs : ℚ) * (m.map (fun y => (X y.1 : P) ^ y.2)).prod * C ((c.den : ℚ))⁻¹ := by
        unfold bodyDen
        simp only
        rw [habs, C_mul]; ring
      rw [e]
      exact this

theorem noName_tailText (T : List PTerm) : NoName (tailText T) := by
  cases T with
  | nil => exact noName_nil
  | cons t r => simp only [tailText]; split <;> exact noName_blank _

theorem bodyDen_sign (t : PTerm) : C t.2 * (t.1.map (fun y => (X y.1 : P) ^ y.2)).prod =
    if t.2 < 0 then - bodyDen t else bodyDen t := by
  unfold bodyDen
  split
  · rename_i h; rw [abs_of_neg h]; simp
  · rename_i h; rw [abs_of_nonneg (not_lt.mp h)]

theorem tailText_spec (T : List PTerm) (hT : ∀ t ∈ T, ∀ y ∈ t.1, SymNonneg y.1) :
    ∃ ts, lex (tailText T) = some ts ∧ ∀ a : P, Means (.sumTail a) ts (a + termsDen T) := by
  induction T with
  | nil => exact ⟨[], rfl, fun a => by simpa [termsDen] using Means.sumEnd a⟩
  | cons t T ih =>
    obtain ⟨ts, h1, h2⟩ := ih (fun u hu => hT u (by simp [hu]))
    obtain ⟨us, b1, b2⟩ := bodyText_spec t (hT t (by simp))
    have hb := b1 _ (noName_tailText T)
    unfold LexTo at hb
    rw [h1] at hb
    have e : ∀ a : P, a + termsDen (t :: T) = (if t.2 < 0 then a - bodyDen t else a + bodyDen t) + termsDen T := by
      intro a
      unfold termsDen
      rw [List.map_cons, List.sum_cons, bodyDen_sign]
      split <;> ring
    by_cases ht : t.2 < 0
    · refine ⟨.minus :: (us ++ ts), ?_, fun a => ?_⟩
      · simp only [tailText, if_pos ht, List.cons_append, List.nil_append]
        rw [lex_blank, lex_minus, lex_blank, hb]; rfl
      · rw [e, if_pos ht]; exact .sub b2 (h2 _)
    · refine ⟨.plus :: (us ++ ts), ?_, fun a => ?_⟩
      · simp only [tailText, if_neg ht, List.cons_append, List.nil_append]
        rw [lex_blank, lex_plus, lex_blank, hb]; rfl
      · rw [e, if_neg ht]; exact .add b2 (h2 _)

/-- A sign in front of a term is a sign in front of its first factor, with the same value. -/
theorem means_neg_term {ts : List Tok} {v : P} (h : Means .term ts v) : Means .term (.minus :: ts) (-v) := by
  have key : ∀ {c : Cat} {ts : List Tok} {v : P}, Means c ts v → ∀ a, c = .termTail a → Means (.termTail (-a)) ts (-v) := by
    intro c ts v h
    induction h with
    | termEnd a => intro b hb; cases hb; exact .termEnd _
    | mul h1 _ _ ih =>
      intro b hb
      cases hb
      refine .mul h1 ?_
      have := ih _ rfl
      rwa [← neg_mul] at this
    | div c hc h1 _ _ ih =>
      intro b hb
      cases hb
      refine .div c hc h1 ?_
      have := ih _ rfl
      rwa [← neg_mul] at this
    | _ => intro b hb; simp at hb
  cases h with
  | @term ts us v' w h1 h2 => exact .term (.neg h1) (key h2 _ rfl)

theorem termsText_spec (T : List PTerm) (hT : ∀ t ∈ T, ∀ y ∈ t.1, SymNonneg y.1) :
    ∃ ts, lex (termsText T) = some ts ∧ Means .sum ts (termsDen T) := by
  cases T with
  | nil =>
    refine ⟨[.int 0], rfl, ?_⟩
    have := Means.sum (.term (.atom (.int 0)) (.termEnd _)) (.sumEnd _)
    simpa [termsDen] using this
  | cons t T =>
    obtain ⟨ts, h1, h2⟩ := tailText_spec T (fun u hu => hT u (by simp [hu]))
    obtain ⟨us, b1, b2⟩ := bodyText_spec t (hT t (by simp))
    have hb := b1 _ (noName_tailText T)
    unfold LexTo at hb
    rw [h1] at hb
    have e : termsDen (t :: T) = (if t.2 < 0 then - bodyDen t else bodyDen t) + termsDen T := by
      unfold termsDen
      rw [List.map_cons, List.sum_cons, bodyDen_sign]
    by_cases ht : t.2 < 0
    · refine ⟨(.minus :: us) ++ ts, ?_, ?_⟩
      · simp only [termsText, if_pos ht, List.cons_append, List.nil_append]
        rw [lex_minus, hb]; rfl
      · rw [e, if_pos ht]
        exact .sum (means_neg_term b2) (h2 _)
    · refine ⟨us ++ ts, ?_, ?_⟩
      · simp only [termsText, if_neg ht, List.nil_append]
        rw [hb]; rfl
      · rw [e, if_neg ht]
        exact .sum b2 (h2 _)

theorem parseExpr_of_means {t : List Char} {ts : List Tok} {v : P} (h : lex t = some ts) (hm : Means .sum ts v) :
    ∃ e, parseExpr t = some e ∧ exprDen e = v := by
  obtain ⟨e, he, hv⟩ := parseToks_of_means hm
  exact ⟨e, by rw [parseExpr, h]; exact he, hv⟩

end Verif
