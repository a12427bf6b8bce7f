import Verif.Model.Text
import Mathlib.Tactic.IntervalCases
/-!
# Text conversions: lemmas
-/

namespace Verif

mutual
/-- The text without blanks. -/
def PVal.ctext : PVal → List Char
  | .int i => intText i
  | .list l => '[' :: (PVal.ctexts l ++ [']'])
/-- Entries joined by commas. -/
def PVal.ctexts : List PVal → List Char
  | [] => []
  | [v] => v.ctext
  | v :: w :: r => v.ctext ++ ',' :: PVal.ctexts (w :: r)
end

/-! ### Digits -/

theorem digitChar_toNat {d : Nat} (h : d < 10) : (Nat.digitChar d).toNat - '0'.toNat = d := by
  interval_cases d <;> rfl

theorem toDigits_isDigit {n : Nat} {c : Char} (h : c ∈ Nat.toDigits 10 n) : c.isDigit = true :=
  Nat.isDigit_of_mem_toDigits (by decide) (by decide) h

theorem digitsVal_toDigits (n : Nat) : digitsVal (Nat.toDigits 10 n) = n := by
  induction n using Nat.strongRecOn with
  | ind n ih =>
    rw [Nat.toDigits_eq_if (by decide)]
    split
    · rename_i h
      simp only [digitsVal, List.foldl_cons, List.foldl_nil]
      rw [digitChar_toNat h]; omega
    · rename_i h
      have h1 := ih (n / 10) (by omega)
      simp only [digitsVal, List.foldl_append, List.foldl_cons, List.foldl_nil] at h1 ⊢
      rw [h1, digitChar_toNat (by omega)]; omega

theorem toDigits_head {n : Nat} (hn : 0 < n) : (Nat.toDigits 10 n).head? ≠ some '0' := by
  induction n using Nat.strongRecOn with
  | ind n ih =>
    rw [Nat.toDigits_eq_if (by decide)]
    split
    · rename_i h
      simp only [List.head?_cons, ne_eq, Option.some.injEq]
      interval_cases n <;> decide
    · rename_i h
      have h1 := ih (n / 10) (by omega) (by omega)
      rw [List.head?_append_of_ne_nil _ Nat.toDigits_ne_nil]
      exact h1

/-- `rest` does not continue a number. -/
def NoDigit (rest : List Char) : Prop := ∀ c, rest.head? = some c → c.isDigit = false

theorem parseNat_toDigits (n : Nat) (rest : List Char) (hr : NoDigit rest) :
    parseNat (Nat.toDigits 10 n ++ rest) = some (n, rest) := by
  have h1 : (Nat.toDigits 10 n ++ rest).takeWhile Char.isDigit = Nat.toDigits 10 n := by
    rw [List.takeWhile_append_of_pos (fun c hc => toDigits_isDigit hc)]
    cases rest with
    | nil => simp
    | cons c r => rw [List.takeWhile_cons_of_neg (by simp [hr c rfl])]; simp
  have h2 : (Nat.toDigits 10 n ++ rest).dropWhile Char.isDigit = rest := by
    rw [List.dropWhile_append_of_pos (fun c hc => toDigits_isDigit hc)]
    cases rest with
    | nil => simp
    | cons c r => rw [List.dropWhile_cons_of_neg (by simp [hr c rfl])]
  unfold parseNat
  simp only [h1, h2]
  cases hd : Nat.toDigits 10 n with
  | nil => exact absurd hd Nat.toDigits_ne_nil
  | cons d r =>
    have hv := digitsVal_toDigits n
    rw [hd] at hv
    simp only [hv]
    rw [if_neg]
    rintro ⟨h0, hz⟩
    by_cases hn : n = 0
    · subst hn
      rw [Nat.toDigits_zero] at hd
      simp at hd
      rw [hd.2] at hz
      simp at hz
    · have := toDigits_head (n := n) (by omega)
      rw [hd] at this
      simp [h0] at this

theorem toDigits_cons (n : Nat) : ∃ d r, Nat.toDigits 10 n = d :: r ∧ d.isDigit = true := by
  cases hd : Nat.toDigits 10 n with
  | nil => exact absurd hd Nat.toDigits_ne_nil
  | cons d r => exact ⟨d, r, rfl, toDigits_isDigit (by rw [hd]; simp)⟩

theorem isDigit_ne {c d : Char} (hc : c.isDigit = true) (hd : d.isDigit = false) : c ≠ d := by
  rintro rfl; rw [hc] at hd; simp at hd

/-! ### First characters -/

theorem ctext_head (v : PVal) : ∃ c r, v.ctext = c :: r ∧ c ≠ ' ' ∧ c ≠ ']' := by
  cases v with
  | list l => exact ⟨'[', _, rfl, by decide, by decide⟩
  | int i =>
    simp only [PVal.ctext, intText]
    split
    · exact ⟨'-', _, rfl, by decide, by decide⟩
    · obtain ⟨d, r, h, hd⟩ := toDigits_cons i.natAbs
      exact ⟨d, r, h, isDigit_ne hd (by decide), isDigit_ne hd (by decide)⟩

theorem skipWs_cons {c : Char} {r : List Char} (h : c ≠ ' ') : skipWs (c :: r) = c :: r := by
  unfold skipWs
  rw [List.dropWhile_cons_of_neg (by simpa using h)]

theorem ctexts_cons (v : PVal) (l : List PVal) :
    PVal.ctexts (v :: l) = v.ctext ++ (if l = [] then [] else ',' :: PVal.ctexts l) := by
  cases l with
  | nil => simp [PVal.ctexts]
  | cons w r => simp [PVal.ctexts]

/-! ### Parsing the printed text -/

mutual
/-- Sufficient bound for `parseVal`. -/
def PVal.need : PVal → Nat
  | .int _ => 1
  | .list l => PVal.needs l + 1
/-- Sufficient bound for `parseItems`. -/
def PVal.needs : List PVal → Nat
  | [] => 0
  | v :: r => max v.need (PVal.needs r) + 1
end

mutual
theorem parseVal_ctext (v : PVal) (f : Nat) (rest : List Char) (hf : v.need ≤ f) (hr : NoDigit rest) :
    parseVal f (v.ctext ++ rest) = some (v, rest) := by
  match v, f with
  | .int i, 0 => simp [PVal.need] at hf
  | .list l, 0 => simp [PVal.need] at hf
  | .int i, f + 1 =>
    simp only [PVal.ctext, intText]
    split
    · rename_i hi
      simp only [parseVal, List.cons_append]
      rw [skipWs_cons (by decide)]
      simp only
      rw [if_neg (by decide), if_pos trivial, parseNat_toDigits _ _ hr]
      simp only
      rw [show -((i.natAbs : Nat) : Int) = i by omega]
    · rename_i hi
      obtain ⟨d, r, h, hd⟩ := toDigits_cons i.natAbs
      have hp := parseNat_toDigits i.natAbs rest hr
      rw [h] at hp ⊢
      simp only [parseVal, List.cons_append]
      rw [skipWs_cons (isDigit_ne hd (by decide))]
      simp only
      rw [if_neg (isDigit_ne hd (by decide)), if_neg (isDigit_ne hd (by decide))]
      rw [List.cons_append] at hp
      rw [hp]
      simp only
      rw [show ((i.natAbs : Nat) : Int) = i by omega]
  | .list [], f + 1 =>
    simp only [PVal.ctext, PVal.ctexts, parseVal, List.cons_append, List.nil_append]
    rw [skipWs_cons (by decide)]
    simp only
    rw [if_pos trivial, skipWs_cons (by decide)]
    simp
  | .list (w :: l), f + 1 =>
    obtain ⟨c, r, hc, hc1, hc2⟩ := ctext_head w
    have h1 : PVal.ctexts (w :: l) = c :: (r ++ (if l = [] then [] else ',' :: PVal.ctexts l)) := by
      rw [ctexts_cons, hc]; rfl
    have hi := parseItems_ctexts (w :: l) (by simp) f rest (by simpa [PVal.need] using hf)
    simp only [PVal.ctext, parseVal, List.cons_append]
    rw [skipWs_cons (by decide)]
    simp only
    rw [if_pos trivial]
    rw [h1] at hi ⊢
    simp only [List.cons_append, List.append_assoc, List.nil_append] at hi ⊢
    rw [skipWs_cons hc1]
    simp only
    rw [if_neg hc2, hi]
theorem parseItems_ctexts (l : List PVal) (hne : l ≠ []) (f : Nat) (rest : List Char)
    (hf : PVal.needs l ≤ f) :
    parseItems f (PVal.ctexts l ++ ']' :: rest) = some (l, rest) := by
  match l, f with
  | [], _ => exact absurd rfl hne
  | v :: l, 0 => simp [PVal.needs] at hf
  | [v], f + 1 =>
    simp only [PVal.needs] at hf
    have hv := parseVal_ctext v f (']' :: rest) (by omega) (by intro c hc; simp at hc; subst hc; decide)
    simp only [PVal.ctexts, parseItems, hv]
    rw [skipWs_cons (by decide)]
    simp
  | v :: w :: l, f + 1 =>
    simp only [PVal.needs] at hf
    have hv := parseVal_ctext v f (',' :: (PVal.ctexts (w :: l) ++ ']' :: rest)) (by omega)
      (by intro c hc; simp at hc; subst hc; decide)
    have hi := parseItems_ctexts (w :: l) (by simp) f rest (by simp only [PVal.needs]; omega)
    obtain ⟨c, r, hc, hc1, hc2⟩ := ctext_head w
    have h1 : PVal.ctexts (w :: l) = c :: (r ++ (if l = [] then [] else ',' :: PVal.ctexts l)) := by
      rw [ctexts_cons, hc]; rfl
    have h2 : PVal.ctexts (v :: w :: l) ++ ']' :: rest
        = v.ctext ++ ',' :: (PVal.ctexts (w :: l) ++ ']' :: rest) := by
      simp [PVal.ctexts]
    rw [h2]
    simp only [parseItems, hv]
    rw [skipWs_cons (by decide)]
    simp only
    rw [if_neg (by decide), if_pos trivial]
    rw [h1] at hi ⊢
    simp only [List.cons_append] at hi ⊢
    rw [skipWs_cons hc1]
    simp only
    rw [if_neg hc2, hi]
end

mutual
theorem need_le (v : PVal) : v.need ≤ 2 * v.ctext.length := by
  match v with
  | .int i =>
    obtain ⟨c, r, h, _⟩ := ctext_head (.int i)
    rw [h]; simp [PVal.need]; omega
  | .list [] => simp [PVal.need, PVal.needs, PVal.ctext, PVal.ctexts]
  | .list (w :: l) =>
    have := needs_le (w :: l)
    simp only [PVal.need, PVal.ctext, List.length_cons, List.length_append, List.length_nil]; omega
theorem needs_le (l : List PVal) : PVal.needs l ≤ 2 * (PVal.ctexts l).length + 1 := by
  match l with
  | [] => simp [PVal.needs]
  | [v] =>
    have := need_le v
    simp only [PVal.needs, PVal.ctexts]; omega
  | v :: w :: l =>
    have h1 := need_le v
    have h2 := needs_le (w :: l)
    have h3 : PVal.needs (v :: w :: l) = max v.need (PVal.needs (w :: l)) + 1 := rfl
    have h4 : PVal.ctexts (v :: w :: l) = v.ctext ++ ',' :: PVal.ctexts (w :: l) := rfl
    rw [h3, h4, List.length_append, List.length_cons]; omega
end

theorem literalEval_ctext (v : PVal) : literalEval v.ctext = .ok v := by
  unfold literalEval
  have h := parseVal_ctext v (2 * v.ctext.length + 2) [] (by have := need_le v; omega)
    (by intro c hc; simp at hc)
  rw [List.append_nil] at h
  rw [h]
  simp [skipWs]

/-! ### Printing -/

theorem intText_chars {i : Int} {c : Char} (h : c ∈ intText i) : c = '-' ∨ c.isDigit = true := by
  unfold intText at h
  split at h
  · rcases List.mem_cons.1 h with rfl | h
    · exact Or.inl rfl
    · exact Or.inr (toDigits_isDigit h)
  · exact Or.inr (toDigits_isDigit h)

mutual
theorem filter_str (v : PVal) : v.str.filter (fun c => decide (c ≠ ' ')) = v.ctext := by
  match v with
  | .int i =>
    simp only [PVal.str, PVal.ctext]
    rw [List.filter_eq_self]
    intro c hc
    rcases intText_chars hc with rfl | h
    · decide
    · simpa using isDigit_ne h (by decide)
  | .list l =>
    simp only [PVal.str, PVal.ctext]
    rw [List.filter_cons_of_pos (by decide), List.filter_append, filter_strs l]
    rfl
theorem filter_strs (l : List PVal) : (PVal.strs l).filter (fun c => decide (c ≠ ' ')) = PVal.ctexts l := by
  match l with
  | [] => rfl
  | [v] => simpa [PVal.strs, PVal.ctexts] using filter_str v
  | v :: w :: r =>
    have h1 : PVal.strs (v :: w :: r) = v.str ++ ',' :: ' ' :: PVal.strs (w :: r) := rfl
    have h2 : PVal.ctexts (v :: w :: r) = v.ctext ++ ',' :: PVal.ctexts (w :: r) := rfl
    rw [h1, h2, List.filter_append, filter_str v, List.filter_cons_of_pos (by decide),
      List.filter_cons_of_neg (by decide), filter_strs (w :: r)]
end

theorem schurStr_eq (p : List PVal) : schurStr p = 'S' :: (PVal.list p).ctext := by
  unfold schurStr
  rw [List.filter_cons_of_pos (by decide), filter_str]

/-- Characters of printed lists. -/
def TextChar (c : Char) : Prop := c = '[' ∨ c = ']' ∨ c = ',' ∨ c = '-' ∨ c.isDigit = true

mutual
theorem ctext_chars (v : PVal) : ∀ c ∈ v.ctext, TextChar c := by
  match v with
  | .int i =>
    intro c hc
    rcases intText_chars hc with h | h
    · exact Or.inr (Or.inr (Or.inr (Or.inl h)))
    · exact Or.inr (Or.inr (Or.inr (Or.inr h)))
  | .list l =>
    intro c hc
    simp only [PVal.ctext, List.mem_cons, List.mem_append, List.not_mem_nil, or_false] at hc
    rcases hc with h | h | h
    · exact Or.inl h
    · exact ctexts_chars l c h
    · exact Or.inr (Or.inl h)
theorem ctexts_chars (l : List PVal) : ∀ c ∈ PVal.ctexts l, TextChar c := by
  match l with
  | [] => intro c hc; simp [PVal.ctexts] at hc
  | [v] => simpa [PVal.ctexts] using ctext_chars v
  | v :: w :: r =>
    have h2 : PVal.ctexts (v :: w :: r) = v.ctext ++ ',' :: PVal.ctexts (w :: r) := rfl
    intro c hc
    rw [h2, List.mem_append, List.mem_cons] at hc
    rcases hc with h | h | h
    · exact ctext_chars v c h
    · exact Or.inr (Or.inr (Or.inl h))
    · exact ctexts_chars (w :: r) c h
end

theorem bchar_fchar {c : Char} (h : TextChar c ∨ c = 'S') : bchar (fchar c) = c := by
  rcases h with (rfl | rfl | rfl | rfl | h) | rfl
  · decide
  · decide
  · decide
  · decide
  · have h1 : fchar c = c := by
      unfold fchar
      rw [if_neg (isDigit_ne h (by decide)), if_neg (isDigit_ne h (by decide)),
        if_neg (isDigit_ne h (by decide))]
    rw [h1]
    unfold bchar
    rw [if_neg (isDigit_ne h (by decide)), if_neg (isDigit_ne h (by decide)),
      if_neg (isDigit_ne h (by decide))]
  · decide

theorem decode_encode {t : List Char} (h : ∀ c ∈ t, TextChar c ∨ c = 'S') : decode (encode t) = t := by
  unfold decode encode
  rw [List.map_map]
  conv_rhs => rw [← List.map_id t]
  exact List.map_congr_left (fun c hc => bchar_fchar (h c hc))

theorem schurStr_chars (p : List PVal) : ∀ c ∈ schurStr p, TextChar c ∨ c = 'S' := by
  rw [schurStr_eq]
  intro c hc
  rcases List.mem_cons.1 hc with h | h
  · exact Or.inr h
  · exact Or.inl (ctext_chars _ c h)

/-- `toSchur` reads back the encoded text of every (nested) list of integers. -/
theorem toSchur_encode (p : List PVal) : toSchur (encode (schurStr p)) = .ok p := by
  unfold toSchur
  rw [decode_encode (schurStr_chars p), schurStr_eq, List.filter_cons_of_neg (by decide)]
  have : (PVal.list p).ctext.filter (fun c => decide (c ≠ 'S')) = (PVal.list p).ctext := by
    rw [List.filter_eq_self]
    intro c hc
    rcases ctext_chars _ c hc with rfl | rfl | rfl | rfl | h
    · decide
    · decide
    · decide
    · decide
    · simpa using isDigit_ne h (by decide)
  rw [this, literalEval_ctext]

/-- `toSchur` also reads the unencoded form `S[...]`. -/
theorem toSchur_plain (p : List PVal) : toSchur (schurStr p) = .ok p := by
  have h : decode (schurStr p) = schurStr p := by
    unfold decode
    conv_rhs => rw [← List.map_id (schurStr p)]
    apply List.map_congr_left
    intro c hc
    rcases schurStr_chars p c hc with (rfl | rfl | rfl | rfl | h) | rfl
    · decide
    · decide
    · decide
    · decide
    · unfold bchar
      rw [if_neg (isDigit_ne h (by decide)), if_neg (isDigit_ne h (by decide)),
        if_neg (isDigit_ne h (by decide))]; rfl
    · decide
  have := toSchur_encode p
  unfold toSchur at this ⊢
  rw [decode_encode (schurStr_chars p)] at this
  rw [h]
  exact this

mutual
/-- No negative integer occurs. -/
def PVal.nonneg : PVal → Prop
  | .int i => 0 ≤ i
  | .list l => PVal.nonnegs l
/-- No negative integer occurs in the entries. -/
def PVal.nonnegs : List PVal → Prop
  | [] => True
  | v :: r => v.nonneg ∧ PVal.nonnegs r
end

mutual
theorem ctext_nominus (v : PVal) (h : v.nonneg) : ∀ c ∈ v.ctext, c ≠ '-' := by
  match v with
  | .int i =>
    intro c hc
    simp only [PVal.ctext, intText] at hc
    rw [if_neg (by simp only [PVal.nonneg] at h; omega)] at hc
    exact isDigit_ne (toDigits_isDigit hc) (by decide)
  | .list l =>
    intro c hc
    simp only [PVal.ctext, List.mem_cons, List.mem_append, List.not_mem_nil, or_false] at hc
    rcases hc with rfl | h' | rfl
    · decide
    · exact ctexts_nominus l h c h'
    · decide
theorem ctexts_nominus (l : List PVal) (h : PVal.nonnegs l) : ∀ c ∈ PVal.ctexts l, c ≠ '-' := by
  match l with
  | [] => intro c hc; simp [PVal.ctexts] at hc
  | [v] => simpa [PVal.ctexts] using ctext_nominus v h.1
  | v :: w :: r =>
    have h2 : PVal.ctexts (v :: w :: r) = v.ctext ++ ',' :: PVal.ctexts (w :: r) := rfl
    intro c hc
    rw [h2, List.mem_append, List.mem_cons] at hc
    rcases hc with h' | rfl | h'
    · exact ctext_nominus v h.1 c h'
    · decide
    · exact ctexts_nominus (w :: r) h.2 c h'
end

theorem schurSymbol_of_nonneg (p : List PVal) (h : PVal.nonnegs p) :
    schurSymbol p = some (encode (schurStr p)) := by
  unfold schurSymbol parseSymbol
  rw [if_pos]
  rw [schurStr_eq]
  simp only [encode, List.map_cons, isIdent, Bool.and_eq_true, List.all_eq_true]
  refine ⟨by decide, ?_⟩
  intro c hc
  rw [List.mem_map] at hc
  obtain ⟨d, hd, rfl⟩ := hc
  rcases ctext_chars _ d hd with rfl | rfl | rfl | rfl | hdd
  · decide
  · decide
  · decide
  · exact absurd rfl (ctext_nominus (.list p) h _ hd)
  · have h1 : fchar d = d := by
      unfold fchar
      rw [if_neg (isDigit_ne hdd (by decide)), if_neg (isDigit_ne hdd (by decide)),
        if_neg (isDigit_ne hdd (by decide))]
    rw [h1]
    simp [Char.isAlphanum, hdd]

end Verif
