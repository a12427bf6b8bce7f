import Verif.Proofs.LcText
import Verif.Proofs.Partition
import Mathlib.Data.List.TakeWhile
/-!
# C94, C95: the text form of a `LinearCombination` and its constructor
-/

namespace Verif
open Spec MvPolynomial

/-! ### C94: reading -/

/-- **C94.** The parser accepts exactly the sums of Python's expression grammar, with their values. -/
theorem C94_grammar (ts : List Tok) (v : P) : (∃ e, parseToks ts = some e ∧ exprDen e = v) ↔ Means .sum ts v :=
  ⟨fun ⟨_, h, hv⟩ => hv ▸ means_of_parseToks h, parseToks_of_means⟩

/-- **C94.** The grammar is unambiguous: a text has at most one value. -/
theorem C94_unambiguous (ts : List Tok) (v w : P) (h : Means .sum ts v) (h' : Means .sum ts w) : v = w := by
  obtain ⟨e, he, rfl⟩ := parseToks_of_means h
  obtain ⟨e', he', rfl⟩ := parseToks_of_means h'
  rw [he] at he'
  rw [Option.some.inj he']

/-! ### C94: printing and reading back -/

/-- **C94.** sympy's text of a polynomial is read as this polynomial, whatever the order of terms and factors. -/
theorem C94_parse_str (T : List PTerm) (hT : ∀ t ∈ T, ∀ y ∈ t.1, SymNonneg y.1) :
    ∃ e, parseExpr (termsText T) = some e ∧ exprDen e = termsDen T := by
  obtain ⟨ts, h1, h2⟩ := termsText_spec T hT
  exact parseExpr_of_means h1 h2

/-- The characters of texts that the parser reads. -/
def ExprChar (c : Char) : Prop := isNameChar c = true ∨ c ∈ [' ', '+', '-', '/', '(', ')', '*']

theorem tokens_chars (f : Nat) (t : List Char) (ts : List Tok) (h : tokens f t = some ts) : ∀ c ∈ t, ExprChar c := by
  induction f generalizing t ts with
  | zero => simp [tokens] at h
  | succ f ih =>
    cases t with
    | nil => simp
    | cons c r =>
      have step : ∀ (t' : List Char) (g : List Tok → List Tok), (tokens f t').map g = some ts →
          ∀ d ∈ t', ExprChar d := by
        intro t' g h
        obtain ⟨us, hu, _⟩ := Option.map_eq_some_iff.mp h
        exact ih t' us hu
      have fin : ExprChar c → (∀ d ∈ r, ExprChar d) → ∀ d ∈ c :: r, ExprChar d := by
        intro h1 h2 d hd
        rcases List.mem_cons.mp hd with rfl | hd
        · exact h1
        · exact h2 d hd
      rw [tokens] at h
      split at h
      · rename_i hc; exact fin (Or.inr (by simp [hc])) (ih r ts h)
      · split at h
        · rename_i hc; exact fin (Or.inr (by simp [hc])) (step r _ h)
        · split at h
          · rename_i hc; exact fin (Or.inr (by simp [hc])) (step r _ h)
          · split at h
            · rename_i hc; exact fin (Or.inr (by simp [hc])) (step r _ h)
            · split at h
              · rename_i hc; exact fin (Or.inr (by simp [hc])) (step r _ h)
              · split at h
                · rename_i hc; exact fin (Or.inr (by simp [hc])) (step r _ h)
                · split at h
                  · rename_i hc
                    have hx : ExprChar c := Or.inr (by simp [hc])
                    split at h
                    · rename_i hr
                      cases r with
                      | nil => simp at hr
                      | cons d r =>
                        simp only [List.head?_cons, Option.some.injEq] at hr
                        have := step r _ h
                        refine fin hx (fun x hxr => ?_)
                        rcases List.mem_cons.mp hxr with rfl | hxr
                        · exact Or.inr (by simp [hr])
                        · exact this x hxr
                    · exact fin hx (step r _ h)
                  · split at h
                    · rename_i hd
                      have dig : ∀ d : Char, d.isDigit = true → ExprChar d := by
                        intro d hd
                        refine Or.inl ?_
                        simp [isNameChar, Char.isAlphanum, hd]
                      split at h
                      · simp at h
                      · rename_i n r' hp
                        have h1 := step r' _ h
                        refine fin (dig c hd) (fun x hx => ?_)
                        unfold parseNat at hp
                        simp only [] at hp
                        rw [List.takeWhile_cons_of_pos hd, List.dropWhile_cons_of_pos hd] at hp
                        simp only [] at hp
                        split at hp
                        · simp at hp
                        · simp only [Option.some.injEq, Prod.mk.injEq] at hp
                          rw [← List.takeWhile_append_dropWhile (p := Char.isDigit) (l := r)] at hx
                          rcases List.mem_append.mp hx with hx | hx
                          · exact dig x (List.mem_takeWhile_imp hx)
                          · rw [hp.2] at hx; exact h1 x hx
                    · split at h
                      · rename_i hn
                        have h1 := step _ _ h
                        refine fin (Or.inl hn) (fun x hx => ?_)
                        rw [← List.takeWhile_append_dropWhile (p := isNameChar) (l := r)] at hx
                        rcases List.mem_append.mp hx with hx | hx
                        · exact Or.inl (List.mem_takeWhile_imp hx)
                        · exact h1 x hx
                      · simp at h

theorem encode_decode {t : List Char} (h : ∀ c ∈ t, c ≠ '[' ∧ c ≠ ',' ∧ c ≠ ']') : encode (decode t) = t := by
  unfold encode decode
  rw [List.map_map]
  conv_rhs => rw [← List.map_id t]
  apply List.map_congr_left
  intro c hc
  obtain ⟨h1, h2, h3⟩ := h c hc
  simp only [Function.comp, bchar, id]
  split
  · rename_i h; subst h; rfl
  · split
    · rename_i h; subst h; rfl
    · split
      · rename_i h; subst h; rfl
      · simp [fchar, h1, h2, h3]

theorem caretToStars_cons (c : Char) (r : List Char) :
    caretToStars (c :: r) = (if c = '^' then ['*', '*'] else [c]) ++ caretToStars r := by
  simp [caretToStars]

theorem caret_stars (t : List Char) (h : ∀ c ∈ t, c ≠ '^') : caretToStars (starsToCaret t) = t := by
  induction t using starsToCaret.induct with
  | case1 => rfl
  | case2 c =>
    have := h c (by simp)
    simp [starsToCaret, caretToStars, this]
  | case3 c d r hcd ih =>
    rw [starsToCaret, if_pos hcd, caretToStars_cons, if_pos rfl, ih (fun x hx => h x (by simp [hx])), hcd.1, hcd.2]
    rfl
  | case4 c d r hcd ih =>
    rw [starsToCaret, if_neg hcd, caretToStars_cons, if_neg (h c (by simp)), ih (fun x hx => h x (by simp [hx]))]
    rfl

theorem unread_lcStr (t : List Char) (h : lex t ≠ none) : encode (caretToStars (lcStr t)) = t := by
  obtain ⟨ts, h⟩ := Option.ne_none_iff_exists'.mp h
  have hc := tokens_chars _ _ _ h
  have hb : ∀ c, ExprChar c → (c ≠ '[' ∧ c ≠ ',' ∧ c ≠ ']') ∧ c ≠ '^' := by
    rintro c hc
    refine ⟨⟨?_, ?_, ?_⟩, ?_⟩ <;> rintro rfl <;> exact absurd hc (by unfold ExprChar; decide)
  unfold lcStr
  rw [caret_stars, encode_decode (fun c hx => (hb c (hc c hx)).1)]
  intro c hx
  unfold decode at hx
  obtain ⟨d, hd, rfl⟩ := List.mem_map.mp hx
  unfold bchar
  split
  · decide
  · split
    · decide
    · split
      · decide
      · exact (hb d (hc d hd)).2

/-- **C94.** `LinearCombination(str(lc))` reads what `sp.parse_expr(str(lc.expr))` would read: the two replacements made
by `__str__` (letters by brackets, `**` by `^`) are undone by the constructor. -/
theorem C94_read_str (t : List Char) (h : lex t ≠ none) : lcRead (lcStr t) = parseExpr t := by
  rw [lcRead, unread_lcStr t h]

theorem starsToCaret_no_stars (t : List Char) :
    ¬ ['*', '*'] <:+: starsToCaret t ∧ ((starsToCaret t).head? = some '*' → t.head? = some '*') := by
  have pre : ∀ (c : Char) (s : List Char), ¬ ['*', '*'] <:+: s → ¬ (c = '*' ∧ s.head? = some '*') →
      ¬ ['*', '*'] <:+: c :: s := by
    intro c s h1 h2 h3
    rcases List.infix_cons_iff.mp h3 with h3 | h3
    · obtain ⟨u, hu⟩ := h3
      simp only [List.cons_append, List.nil_append, List.cons.injEq] at hu
      refine h2 ⟨hu.1.symm, ?_⟩
      rw [← hu.2]; rfl
    · exact h1 h3
  induction t using starsToCaret.induct with
  | case1 => exact ⟨by simp [starsToCaret], by simp [starsToCaret]⟩
  | case2 c =>
    refine ⟨?_, by simp [starsToCaret]⟩
    rw [starsToCaret]
    exact pre c [] (by simp) (by simp)
  | case3 c d r hcd ih =>
    rw [starsToCaret, if_pos hcd]
    exact ⟨pre '^' _ ih.1 (by simp), by simp⟩
  | case4 c d r hcd ih =>
    rw [starsToCaret, if_neg hcd]
    refine ⟨pre c _ ih.1 ?_, by simp⟩
    rintro ⟨h1, h2⟩
    have := ih.2 h2
    simp only [List.head?_cons, Option.some.injEq] at this
    exact hcd ⟨h1, this⟩

/-- **C94.** What is shown to the user: `str(lc)` contains neither the letters `f`, `j`, `g` nor `**`, and it becomes
sympy's text if brackets and commas are replaced by these letters and `^` by `**`. -/
theorem C94_shown (t : List Char) : (∀ c ∈ lcStr t, c ≠ 'f' ∧ c ≠ 'j' ∧ c ≠ 'g') ∧ ¬ ['*', '*'] <:+: lcStr t ∧
    (lex t ≠ none → encode (caretToStars (lcStr t)) = t) := by
  refine ⟨?_, (starsToCaret_no_stars _).1, ?_⟩
  · have h1 : ∀ c ∈ decode t, c ≠ 'f' ∧ c ≠ 'j' ∧ c ≠ 'g' := by
      intro c hc
      unfold decode at hc
      obtain ⟨d, -, rfl⟩ := List.mem_map.mp hc
      unfold bchar
      split
      · decide
      · split
        · decide
        · split
          · decide
          · rename_i a b c; exact ⟨a, b, c⟩
    have h2 : ∀ (s : List Char) (c : Char), c ∈ starsToCaret s → c = '^' ∨ c ∈ s := by
      intro s
      induction s using starsToCaret.induct with
      | case1 => simp [starsToCaret]
      | case2 c => simp [starsToCaret]
      | case3 c d r hcd ih =>
        rw [starsToCaret, if_pos hcd]
        intro x hx
        rcases List.mem_cons.mp hx with rfl | hx
        · simp
        · rcases ih x hx with h | h <;> simp [h]
      | case4 c d r hcd ih =>
        rw [starsToCaret, if_neg hcd]
        intro x hx
        rcases List.mem_cons.mp hx with rfl | hx
        · simp
        · rcases ih x hx with h | h
          · exact Or.inl h
          · exact Or.inr (List.mem_cons_of_mem _ h)
    intro c hc
    rcases h2 _ c hc with rfl | h
    · decide
    · exact h1 c h
  · exact unread_lcStr t

/-- **C94.** `LinearCombination(str(lc))` has the same value as `lc`. -/
theorem C94_round_trip (T : List PTerm) (hT : ∀ t ∈ T, ∀ y ∈ t.1, SymNonneg y.1) :
    ∃ e, lcRead (lcStr (termsText T)) = some e ∧ exprDen e = termsDen T := by
  obtain ⟨ts, h1, h2⟩ := termsText_spec T hT
  rw [C94_read_str _ (by rw [h1]; simp)]
  exact parseExpr_of_means h1 h2

/-- The terms of an expanded polynomial add up to it. -/
theorem C94_printTerms (p : Poly) : termsDen (printTerms p) = den p := by
  unfold termsDen printTerms den
  rw [List.map_map]
  congr 1
  apply List.map_congr_left
  intro t _
  simp only [Function.comp, List.map_map, monoDen]
  congr 1
  have := (Finset.prod_list_map_count t.1 (fun s => (X s : P)))
  rw [this]
  have h2 : (t.1.dedup.map (fun s => (X s : P) ^ t.1.count s)).prod = ∏ s ∈ t.1.toFinset, (X s : P) ^ t.1.count s := by
    rw [← List.prod_toFinset _ (List.nodup_dedup _)]
    congr 1
    ext s; simp
  exact h2

/-- **C94.** The last line of `apply` (`LinearCombination(str(new_expr))`, lc.py:156): printing an expanded polynomial in
any order and reading the text gives the same expanded polynomial, up to the order of its terms. -/
theorem C94_reparse (p : Poly) (hp : WF p) (T : List PTerm) (hT : ∀ t ∈ T, ∀ y ∈ t.1, SymNonneg y.1)
    (hv : termsDen T = den p) :
    ∃ e, parseExpr (termsText T) = some e ∧ lcRead (lcStr (termsText T)) = some e ∧ e.expand.Perm p := by
  obtain ⟨ts, h1, h2⟩ := termsText_spec T hT
  obtain ⟨e, he, hd⟩ := parseExpr_of_means h1 h2
  refine ⟨e, he, by rw [C94_read_str _ (by rw [h1]; simp), he], ?_⟩
  exact perm_of_den_eq (wf_expand e) hp (by rw [den_expand, hd, hv])

/-! ### C95: the constructor -/

theorem schurExpr_val (p : List Int) (h : ∀ x ∈ p, 0 ≤ x) : schurExpr p = some (.sym (.S p)) := by
  have h1 : lex (encode (schurStr (pints p))) = some [.name (Sym.text (.S p))] := by
    rw [← C30_sym_text]
    have := lex_name _ [] (isIdent_text (y := .S p) h) noName_nil
    rw [List.append_nil] at this
    rw [this]; rfl
  rw [schurExpr, parseExpr, h1]
  simp [parseToks, pSum, pTerm, pFactor, pAtom, pTermTail, pSumTail, (symOfName_iff _ (.S p)).mpr rfl]

/-- **C95.** A list of ints is accepted exactly if it is a partition, and gives its Schubert symbol; otherwise
`ValueError` is raised. -/
theorem C95_list (p : List Int) :
    (IsPartition p → lcInit (.list p) = .ok (.sym (.S p))) ∧ (¬ IsPartition p → lcInit (.list p) = .valueError) := by
  rw [← isValidPart_iff]
  constructor
  · intro h
    rw [lcInit, if_pos h, schurExpr_val p ((isValidPart_iff p).mp h).2]; rfl
  · intro h
    rw [lcInit, if_neg h]

/-- **C95.** `LinearCombination(Schur(p))` and `LinearCombination(str(Schur(p)))` are the symbol too, for every list of
non-negative ints. -/
theorem C95_schur (p : List Int) (h : ∀ x ∈ p, 0 ≤ x) :
    lcInit (.schur p) = .ok (.sym (.S p)) ∧ lcInit (.str (schurStr (pints p))) = .ok (.sym (.S p)) := by
  refine ⟨by rw [lcInit, schurExpr_val p h]; rfl, ?_⟩
  have h1 : caretToStars (schurStr (pints p)) = schurStr (pints p) := by
    have : ∀ t : List Char, (∀ c ∈ t, c ≠ '^') → caretToStars t = t := by
      intro t ht
      induction t with
      | nil => rfl
      | cons c t ih =>
        rw [caretToStars_cons, if_neg (ht c (by simp)), ih (fun d hd => ht d (by simp [hd]))]; rfl
    apply this
    rintro c hc rfl
    rcases schurStr_chars _ _ hc with h | h
    · rcases h with h | h | h | h | h <;> exact absurd h (by decide)
    · exact absurd h (by decide)
  rw [lcInit, lcRead, h1]
  have := schurExpr_val p h
  rw [schurExpr] at this
  rw [this]; rfl

/-- **C95.** The text of a `LinearCombination` gives it back. -/
theorem C95_str (T : List PTerm) (hT : ∀ t ∈ T, ∀ y ∈ t.1, SymNonneg y.1) :
    ∃ e, lcInit (.str (lcStr (termsText T))) = .ok e ∧ exprDen e = termsDen T := by
  obtain ⟨e, he, hv⟩ := C94_round_trip T hT
  exact ⟨e, by rw [lcInit, he]; rfl, hv⟩

/-- **C95.** `LinearCombination(lc)` is a copy, expressions and numbers are taken as they are, any other type is
refused. -/
theorem C95_other (e : Expr) (c : Rat) : lcInit (.lc e) = .ok e ∧ lcInit (.expr e) = .ok e ∧
    lcInit (.num c) = .ok (.num c) ∧ lcInit .other = .valueError := ⟨rfl, rfl, rfl, rfl⟩

/-- **C95, why non-negative.** The text of `Schur([-1])` is not read as a symbol. -/
theorem C95_refuted_negative : lcInit (.schur [-1]) = .unread ∧ lcInit (.str "S[-1]".toList) = .unread := by
  have h1 : schurExpr [-1] = none := Option.isNone_iff_eq_none.mp (by decide +kernel)
  have h2 : lcRead "S[-1]".toList = none := Option.isNone_iff_eq_none.mp (by decide +kernel)
  exact ⟨by rw [lcInit, h1]; rfl, by rw [lcInit, h2]; rfl⟩

/-! ### Examples -/

example : String.ofList (lcStr (termsText [([(.q, 2), (.S [2, 1], 1)], -3/2), ([(.S [], 1)], 1), ([], 5)])) =
    "-3*q^2*S[2,1]/2 + S[] + 5" := by decide +kernel

example : (lcRead "-3*q^2*S[2,1]/2 + S[] + 5".toList).map Expr.expand =
    some [([], 5), ([.q, .q, .S [2, 1]], -3/2), ([.S []], 1)] := by decide +kernel

/-- Signs, parentheses and powers as a user may type them. -/
example : (lcRead "-S[1]^2*(q - -2)/(1+1)".toList).map Expr.expand =
    some [([.q, .S [1], .S [1]], -1/2), ([.S [1], .S [1]], -1)] := by decide +kernel

example : ∀ t ∈ ([([(.q, 2), (.S [2, 1], 1)], -3/2), ([], 5)] : List PTerm), ∀ y ∈ t.1, SymNonneg y.1 := by
  simp only [List.mem_cons, List.not_mem_nil, or_false]
  rintro t (rfl | rfl) y hy
  · simp only [List.mem_cons, List.not_mem_nil, or_false] at hy
    rcases hy with rfl | rfl <;> simp [SymNonneg]
  · simp at hy

example : lcInit (.list [3, 1]) = .ok (.sym (.S [3, 1])) ∧ lcInit (.list [1, 3]) = .valueError :=
  ⟨(C95_list [3, 1]).1 (by unfold IsPartition; decide), (C95_list [1, 3]).2 (by unfold IsPartition; decide)⟩

end Verif
