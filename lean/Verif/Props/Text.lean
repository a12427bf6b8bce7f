import Verif.Spec.Dec
import Verif.Proofs.Text
/-!
# Property C30: Schubert symbols survive the trip through text
-/

namespace Verif

/-- C30: for every list of non-negative integers, nested to any depth (so in particular for pairs of
partitions), `Schur(p).symbol()` is one symbol and `toSchur` of it is `Schur(p)`. -/
theorem C30_round_trip (p : List PVal) (h : PVal.nonnegs p) :
    ∃ s, schurSymbol p = some s ∧ toSchur s = .ok p :=
  ⟨_, schurSymbol_of_nonneg p h, toSchur_encode p⟩

example : (schurSymbol [.list (pints [2, 1]), .int 10]).map String.ofList = some "Sff2j1gj10g" := by decide +kernel

theorem nonnegs_pints (p : List Int) (h : ∀ x ∈ p, 0 ≤ x) : PVal.nonnegs (pints p) := by
  induction p with
  | nil => trivial
  | cons a p ih => exact ⟨h a (by simp), ih (fun x hx => h x (by simp [hx]))⟩

theorem pints_injective {p p' : List Int} (h : pints p = pints p') : p = p' := by
  induction p generalizing p' with
  | nil => cases p' with
    | nil => rfl
    | cons b p' => simp [pints] at h
  | cons a p ih => cases p' with
    | nil => simp [pints] at h
    | cons b p' =>
      simp only [pints, List.map_cons, List.cons.injEq, PVal.int.injEq] at h
      rw [h.1, ih h.2]

/-- C30 for a plain list of integers. -/
theorem C30_round_trip_list (p : List Int) (h : ∀ x ∈ p, 0 ≤ x) :
    ∃ s, schurSymbol (pints p) = some s ∧ toSchur s = .ok (pints p) :=
  C30_round_trip _ (nonnegs_pints p h)

example : (schurSymbol (pints [12, 3, 0])).map String.ofList = some "Sf12j3j0g" := by decide +kernel

/-- C30 for a pair of lists, as `part2pair` produces them. -/
theorem C30_round_trip_pair (a b : List Int) (ha : ∀ x ∈ a, 0 ≤ x) (hb : ∀ x ∈ b, 0 ≤ x) :
    ∃ s, schurSymbol [.list (pints a), .list (pints b)] = some s ∧
      toSchur s = .ok [.list (pints a), .list (pints b)] :=
  C30_round_trip _ ⟨nonnegs_pints a ha, nonnegs_pints b hb, trivial⟩

example : (schurSymbol [.list (pints [2, 1]), .list (pints [])]).map String.ofList = some "Sff2j1gjfgg" := by
  decide +kernel

/-- C30: different lists have different symbols. -/
theorem C30_injective (p p' : List PVal) (s : List Char) (h : schurSymbol p = some s)
    (h' : schurSymbol p' = some s) : p = p' := by
  have key : ∀ p, schurSymbol p = some s → s = encode (schurStr p) := by
    intro p h
    unfold schurSymbol parseSymbol at h
    split at h
    · exact (Option.some.inj h).symm
    · simp at h
  have h1 := toSchur_encode p
  have h2 := toSchur_encode p'
  rw [← key p h] at h1
  rw [← key p' h'] at h2
  rw [h1] at h2
  exact Except.ok.inj h2

/-- C30: the printed form of the symbol is `S[...]`, parsing that form (as `LinearCombination(str)` does,
lc.py:18-21) gives the symbol back, and `toSchur` reads the printed form too. -/
theorem C30_printed (p : List PVal) (h : PVal.nonnegs p) :
    ∃ s, schurSymbol p = some s ∧ decode s = schurStr p ∧ parseSymbol (encode (decode s)) = some s ∧
      toSchur (decode s) = .ok p := by
  refine ⟨_, schurSymbol_of_nonneg p h, decode_encode (schurStr_chars p), ?_, ?_⟩
  · rw [decode_encode (schurStr_chars p)]
    exact schurSymbol_of_nonneg p h
  · rw [decode_encode (schurStr_chars p)]
    exact toSchur_plain p

/-- C30: the symbol is recognised by `isSchur` (its name starts with `S`). -/
theorem C30_isSchur (p : List PVal) (s : List Char) (h : schurSymbol p = some s) : s.head? = some 'S' := by
  unfold schurSymbol parseSymbol at h
  split at h
  · rw [← Option.some.inj h, schurStr_eq]; rfl
  · simp at h

theorem joinText_eq (p : List Int) : joinText p = encode (PVal.ctexts (pints p)) := by
  have hint : ∀ i : Int, encode (intText i) = intText i := by
    intro i
    unfold encode
    conv_rhs => rw [← List.map_id (intText i)]
    apply List.map_congr_left
    intro c hc
    rcases intText_chars hc with rfl | h
    · decide
    · unfold fchar
      rw [if_neg (isDigit_ne h (by decide)), if_neg (isDigit_ne h (by decide)),
        if_neg (isDigit_ne h (by decide))]; rfl
  induction p with
  | nil => rfl
  | cons a p ih =>
    cases p with
    | nil => simp [joinText, pints, PVal.ctexts, PVal.ctext, hint]
    | cons b p =>
      have h1 : PVal.ctexts (pints (a :: b :: p)) = intText a ++ ',' :: PVal.ctexts (pints (b :: p)) := rfl
      rw [h1]
      simp only [joinText, encode, List.map_append, List.map_cons] at ih ⊢
      rw [ih, show (intText a).map fchar = intText a from hint a]
      rfl

/-- C30: the names used by the ring model (`Sym.text`) are these names. -/
theorem C30_sym_text (p : List Int) : Sym.text (.S p) = encode (schurStr (pints p)) := by
  rw [schurStr_eq]
  simp only [Sym.text, joinText_eq, PVal.ctext, encode, List.map_cons, List.map_append, List.map_nil]
  rfl

/-- C30: different symbols of the model have different names. -/
theorem C30_sym_text_injective (a b : Sym) (h : a.text = b.text) : a = b := by
  have key : ∀ p p', Sym.text (.S p) = Sym.text (.S p') → p = p' := by
    intro p p' h
    rw [C30_sym_text, C30_sym_text] at h
    have h1 := toSchur_encode (pints p)
    rw [h, toSchur_encode] at h1
    exact (pints_injective (Except.ok.inj h1)).symm
  cases a <;> cases b <;> first | rfl | (simp [Sym.text] at h; done) | (rw [key _ _ h])

/-- C30, why non-negative: `Schur([-1]).symbol()` is not a symbol (`Sf-1g` parses as a difference). -/
theorem C30_refuted_negative : schurSymbol (pints [-1]) = none := by decide

/-- C30, error branch: the names of `q`, `q1`, `q2` are not read as Schubert symbols; a bare number is not
accepted either. -/
theorem C30_not_schur : toSchur ['q'] = .error .valueError ∧ toSchur ['q', '1'] = .error .valueError ∧
    toSchur ['q', '2'] = .error .valueError ∧ toSchur ['S', '5'] = .error .valueError := ⟨rfl, rfl, rfl, rfl⟩

example : schurSymbol (pints [10, 3, 0]) = some "Sf10j3j0g".toList ∧
    PVal.nonnegs (pints [10, 3, 0]) := by
  refine ⟨by decide, nonnegs_pints _ (by decide)⟩

example : toSchur "Sff2j1gjf1gg".toList = .ok [.list (pints [2, 1]), .list (pints [1])] :=
  toSchur_encode [.list (pints [2, 1]), .list (pints [1])]

end Verif
