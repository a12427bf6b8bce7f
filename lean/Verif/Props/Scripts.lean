import Verif.Model.Scripts
import Verif.Proofs.Text
import Verif.Props.State
import Mathlib.Tactic.Linarith
/-!
# C126: the helpers of the table test and the coverage badges
-/

namespace Verif
open Spec

/-! ### Batches -/

/-- **C126.** All rows are loaded without a limit and with the limit 0, else the first `max_rows` rows, and none for a negative limit. -/
theorem C126_load {α : Type} (rows : List α) : loadCsvData rows none = rows ∧ loadCsvData rows (some 0) = rows ∧
    (∀ r : Int, r < 0 → loadCsvData rows (some r) = []) ∧
    ∀ r : Nat, 0 < r → (loadCsvData rows (some r)).length = min r rows.length ∧ ∃ rest, rows = loadCsvData rows (some r) ++ rest := by
  refine ⟨rfl, rfl, fun r hr => ?_, fun r hr => ?_⟩
  · unfold loadCsvData
    simp only [if_neg (show ¬ r = 0 by omega), Int.toNat_of_nonpos (show r ≤ 0 by omega), List.take_zero]
  · have e : loadCsvData rows (some (r : Int)) = rows.take r := by
      unfold loadCsvData
      simp only [if_neg (show ¬ (r : Int) = 0 by omega), Int.toNat_natCast]
    rw [e]
    exact ⟨by simp, rows.drop r, (List.take_append_drop r rows).symm⟩

example : loadCsvData [5, 6, 7] (some 2) = [5, 6] ∧ loadCsvData [5, 6, 7] (some (-2)) = [] := by decide

theorem flatten_slices {α : Type} (b : Nat) (data : List α) (N : Nat) :
    ((List.range N).map (fun j => (data.drop (j * b)).take b)).flatten = data.take (N * b) := by
  induction N with
  | zero => simp
  | succ N ih =>
    rw [List.range_succ, List.map_append, List.flatten_append, ih]
    simp only [List.map_cons, List.map_nil, List.flatten_cons, List.flatten_nil, List.append_nil]
    rw [Nat.succ_mul, List.take_add]

/-- **C126.** For a positive batch size the batches joined together are the data, no batch is empty, and all but the last are full. -/
theorem C126_batches {α : Type} (data : List α) {b : Int} (hb : 0 < b) :
    ∃ B, splitIntoBatches data b = .ok B ∧ B.flatten = data ∧ (∀ x ∈ B, x ≠ [] ∧ (x.length : Int) ≤ b) ∧
      ∀ i x, B[i]? = some x → i + 1 < B.length → (x.length : Int) = b := by
  obtain ⟨c, rfl⟩ : ∃ c : ℕ, b = c := ⟨b.toNat, by omega⟩
  have hc : 0 < c := by omega
  have h1 : ∀ j, j < (data.length + c - 1) / c → j * c < data.length := by
    intro j hj
    have := (Nat.le_div_iff_mul_le hc).1 (Nat.succ_le_of_lt hj)
    rw [Nat.succ_mul] at this
    omega
  have h2 : data.length ≤ (data.length + c - 1) / c * c := by
    have := Nat.div_add_mod (data.length + c - 1) c
    have := Nat.mod_lt (data.length + c - 1) hc
    rw [Nat.mul_comm]
    omega
  refine ⟨_, by unfold splitIntoBatches; rw [if_neg (by omega), if_neg (by omega)], ?_, ?_, ?_⟩
  · rw [Int.toNat_natCast, flatten_slices, List.take_of_length_le h2]
  · intro x hx
    obtain ⟨j, hj, rfl⟩ := List.mem_map.1 hx
    rw [List.mem_range, Int.toNat_natCast] at hj
    have := h1 j hj
    rw [Int.toNat_natCast]
    constructor
    · intro h
      have := congrArg List.length h
      rw [List.length_take, List.length_drop, List.length_nil] at this
      omega
    · rw [List.length_take]
      omega
  · intro i x hx hi
    rw [List.length_map, List.length_range, Int.toNat_natCast] at hi
    rw [List.getElem?_map, List.getElem?_range (by rw [Int.toNat_natCast]; omega)] at hx
    simp only [Option.map_some, Option.some.injEq, Int.toNat_natCast] at hx
    subst hx
    have := h1 (i + 1) hi
    rw [Nat.succ_mul] at this
    rw [List.length_take, List.length_drop]
    omega

/-- **C126.** The batch size zero raises ValueError, and a negative batch size gives no batches at all. -/
theorem C126_batches_errors {α : Type} (data : List α) : splitIntoBatches data 0 = .error .valueError ∧
    ∀ b : Int, b < 0 → splitIntoBatches data b = .ok [] := by
  refine ⟨rfl, fun b hb => ?_⟩
  unfold splitIntoBatches
  rw [if_neg (by omega), if_pos hb]

/-- **C126.** The test looks at the first `max_threads * batch_size` rows and at no other row. -/
theorem C126_tested {α : Type} (data : List α) {b : Int} (hb : 0 < b) (t : Nat) {B : List (List α)} (h : splitIntoBatches data b = .ok B) :
    (testBatches B t).flatten = data.take (t * b.toNat) := by
  obtain ⟨B', e1, e2, -, -⟩ := C126_batches data hb
  rw [h] at e1
  cases e1
  have hB : B = (List.range ((data.length + b.toNat - 1) / b.toNat)).map (fun j => (data.drop (j * b.toNat)).take b.toNat) := by
    unfold splitIntoBatches at h
    rw [if_neg (by omega), if_neg (by omega)] at h
    cases h
    rfl
  unfold testBatches
  split
  · rename_i hl
    rw [hB, List.length_map, List.length_range] at hl
    rw [hB, ← List.map_take, List.take_range, min_eq_left (by omega), flatten_slices]
  · rename_i hl
    rw [e2]
    symm
    apply List.take_of_length_le
    have hc : 0 < b.toNat := by omega
    rw [hB, List.length_map, List.length_range] at hl
    have := Nat.div_add_mod (data.length + b.toNat - 1) b.toNat
    have := Nat.mod_lt (data.length + b.toNat - 1) hc
    have h3 : b.toNat * ((data.length + b.toNat - 1) / b.toNat) ≤ b.toNat * t := Nat.mul_le_mul_left _ (by omega)
    rw [Nat.mul_comm t]
    omega

example : splitIntoBatches [1, 2, 3, 4, 5] 2 = .ok [[1, 2], [3, 4], [5]] ∧ (testBatches [[1, 2], [3, 4], [5]] 2).flatten = [1, 2, 3, 4] := by
  decide

/-! ### Rows -/

theorem splitChar_notMem {sep : Char} {a : List Char} (ha : sep ∉ a) : splitChar sep a = [a] := by
  induction a with
  | nil => rfl
  | cons c a ih =>
    simp only [List.mem_cons, not_or] at ha
    unfold splitChar
    rw [if_neg (Ne.symm ha.1), ih ha.2]

theorem splitChar_append {sep : Char} {a : List Char} (ha : sep ∉ a) (r : List Char) :
    splitChar sep (a ++ sep :: r) = a :: splitChar sep r := by
  induction a with
  | nil => simp [splitChar]
  | cons c a ih =>
    simp only [List.mem_cons, not_or] at ha
    rw [List.cons_append, splitChar, if_neg (Ne.symm ha.1), ih ha.2]

theorem pyInt_intText (i : Int) : pyInt (intText i) = .ok i := by
  have hd : ∀ n : ℕ, Nat.toDigits 10 n ≠ [] ∧ (Nat.toDigits 10 n).all Char.isDigit = true := by
    intro n
    obtain ⟨d, r, e, _⟩ := toDigits_cons n
    refine ⟨by rw [e]; simp, List.all_eq_true.2 fun c hc => toDigits_isDigit hc⟩
  unfold intText
  split
  · rename_i h
    simp only [pyInt]
    rw [if_pos (hd _), digitsVal_toDigits]
    congr 1
    omega
  · rename_i h
    obtain ⟨d, r, e, h1⟩ := toDigits_cons i.natAbs
    have hne : d ≠ '-' := isDigit_ne h1 (by decide)
    have h2 := hd i.natAbs
    have h3 := digitsVal_toDigits i.natAbs
    rw [e] at h2 h3 ⊢
    unfold pyInt
    split
    · rename_i heq
      rw [List.cons.injEq] at heq
      exact absurd heq.1 hne
    · rw [if_pos h2, h3]
      congr 1
      omega

theorem splitChar_join {sep : Char} (L : List (List Char)) (hL : ∀ a ∈ L, sep ∉ a) (hne : L ≠ []) :
    splitChar sep (List.intercalate [sep] L) = L := by
  induction L with
  | nil => exact absurd rfl hne
  | cons a L ih =>
    cases L with
    | nil =>
      rw [List.intercalate_singleton]
      exact splitChar_notMem (hL a (by simp))
    | cons b L =>
      rw [List.intercalate_cons_cons, List.append_assoc, List.singleton_append, splitChar_append (hL a (by simp)),
        ih (fun x hx => hL x (by simp [hx])) (by simp)]

theorem mem_join {c sep : Char} {L : List (List Char)} (h : c ∈ List.intercalate [sep] L) : c = sep ∨ ∃ a ∈ L, c ∈ a := by
  induction L with
  | nil => simp at h
  | cons a L ih =>
    cases L with
    | nil =>
      rw [List.intercalate_singleton] at h
      exact Or.inr ⟨a, by simp, h⟩
    | cons b L =>
      rw [List.intercalate_cons_cons, List.append_assoc, List.mem_append, List.singleton_append, List.mem_cons] at h
      rcases h with h | h | h
      · exact Or.inr ⟨a, by simp, h⟩
      · exact Or.inl h
      · rcases ih h with h | ⟨x, hx, h⟩
        · exact Or.inl h
        · exact Or.inr ⟨x, by simp [hx], h⟩

/-- **C126.** A row that begins with `name(i,j,..)` is read as this name and these numbers. -/
theorem C126_command (name : List Char) (hn : '(' ∉ name) (is : List Int) (h0 : is ≠ []) :
    rowCommand (name ++ '(' :: (List.intercalate [','] (is.map intText) ++ [')'])) = .ok (name, is) := by
  unfold rowCommand
  have h1 : '(' ∉ List.intercalate [','] (is.map intText) ++ [')'] := by
    simp only [List.mem_append, not_or, List.mem_singleton]
    refine ⟨?_, by decide⟩
    intro h
    rcases mem_join h with h | ⟨a, ha, h⟩
    · exact absurd h (by decide)
    · obtain ⟨i, _, rfl⟩ := List.mem_map.1 ha
      exact notMem_intText (by decide) (by decide) i h
  rw [splitChar_append hn, splitChar_notMem h1]
  simp only [List.dropLast_concat]
  rw [splitChar_join]
  · have : (is.map intText).mapM pyInt = .ok is := by
      clear h0 h1
      induction is with
      | nil => rfl
      | cons i is ih =>
        rw [List.map_cons, List.mapM_cons, pyInt_intText, ih]
        rfl
    rw [this]
    rfl
  · intro a ha
    obtain ⟨i, _, rfl⟩ := List.mem_map.1 ha
    exact notMem_intText (by decide) (by decide) i
  · simpa using h0

/-- **C126.** A row that begins with the text of a constructor call selects the space which this call creates; with another name it
selects nothing, and with another number of parameters the constructor raises. -/
theorem C126_space (m n : Int) : 
    (∀ name, name = "Gr".toList ∨ name = "IG".toList ∨ name = "OG".toList →
      ∃ command params, rowCommand (name ++ '(' :: (intText m ++ ',' :: (intText n ++ [')']))) = .ok (command, params) ∧
        (name = "Gr".toList → dispatch command params = (mkGr m n).map some) ∧
        (name = "IG".toList → dispatch command params = (mkIG m n).map some) ∧
        (name = "OG".toList → dispatch command params = (mkOG m n).map some)) ∧
    (∀ name params, name ≠ "Gr".toList → name ≠ "IG".toList → name ≠ "OG".toList → dispatch name params = .ok none) ∧
    (∀ name params, name = "Gr".toList ∨ name = "IG".toList ∨ name = "OG".toList → params.length ≠ 2 →
      dispatch name params = .error .typeError) := by
  refine ⟨fun name hname => ⟨name, [m, n], ?_, ?_, ?_, ?_⟩, ?_, ?_⟩
  · have := C126_command name (by rcases hname with rfl | rfl | rfl <;> decide) [m, n] (by simp)
    simpa [List.intercalate_cons_cons] using this
  · rintro rfl; rfl
  · rintro rfl; rfl
  · rintro rfl; rfl
  · intro name params h1 h2 h3
    unfold dispatch
    rw [if_neg h3, if_neg h2, if_neg h1]
  · intro name params h hl
    have h2 : ∀ (f : Int → Int → Except PyErr (Option Space)), (match params with
        | [m, n] => f m n
        | _ => .error .typeError) = .error .typeError := by
      intro f
      split
      · simp at hl
      · rfl
    rcases h with rfl | rfl | rfl
    · exact h2 fun m n => (mkGr m n).map some
    · exact h2 fun m n => (mkIG m n).map some
    · exact h2 fun m n => (mkOG m n).map some

example : rowCommand "OG(2,12)".toList = .ok ("OG".toList, [2, 12]) ∧ dispatch "OG".toList [2, 12] = .ok (some ⟨.D, 4, 5⟩) ∧
    rowCommand "OG".toList = .error .indexError ∧ rowCommand "OG(2,x)".toList = .error .valueError ∧
    dispatch "LG".toList [2, 12] = .ok none ∧ rowCommand "OG(-2,12)".toList = .ok ("OG".toList, [-2, 12]) := by
  decide

/-! ### The test -/

/-- The row names a space and the comparison for this space succeeds. -/
def Spec.GoodRow (check : Space → List (List Char) → Except PyErr Bool) (row : List (List Char)) : Prop :=
  ∃ t rest command params X, row = t :: rest ∧ rowCommand t = .ok (command, params) ∧ dispatch command params = .ok (some X) ∧
    check X row = .ok true

theorem processRow_good (check : Space → List (List Char) → Except PyErr Bool) (row : List (List Char)) :
    (processRow false check row = some true ↔ GoodRow check row) ∧ processRow false check row ≠ none := by
  unfold processRow GoodRow
  rcases row with _ | ⟨t, rest⟩
  · simp
  · cases h1 : rowCommand t with
    | error e => simp [h1]
    | ok cp =>
      obtain ⟨command, params⟩ := cp
      cases h2 : dispatch command params with
      | error e => simp [h1, h2]
      | ok o =>
        cases o with
        | none => simp [h1, h2]
        | some X =>
          cases h3 : check X (t :: rest) with
          | error e => simp [h1, h2, h3]
          | ok b => cases b <;> simp [h1, h2, h3]

/-- **C126.** `test_1_threaded` succeeds exactly when the first `max_threads * batch_size` rows name a space and pass the comparison. -/
theorem C126_test (check : Space → List (List Char) → Except PyErr Bool) {b : Int} (hb : 0 < b) (t : Nat) (data : List (List (List Char))) :
    failedRows false check b t data = .ok 0 ↔ ∀ row ∈ data.take (t * b.toNat), GoodRow check row := by
  obtain ⟨B, e1, -⟩ := C126_batches data hb
  have h : failedRows false check b t data = .ok (((data.take (t * b.toNat)).filterMap (processRow false check)).count false) := by
    rw [← C126_tested data hb t e1]
    unfold failedRows
    simp only [Bool.false_eq_true, if_false]
    show (splitIntoBatches data b >>= _) = _
    rw [e1]
    rfl
  rw [h, Except.ok.injEq, List.count_eq_zero, List.mem_filterMap]
  constructor
  · intro h row hr
    obtain ⟨k1, k2⟩ := processRow_good check row
    rw [← k1]
    cases hp : processRow false check row with
    | none => exact absurd hp k2
    | some x =>
      cases x with
      | true => rfl
      | false => exact absurd ⟨row, hr, hp⟩ h
  · rintro h ⟨row, hr, hp⟩
    rw [(processRow_good check row).1.2 (h row hr)] at hp
    cases hp

/-- The first column is `Gr` or begins with `Gr(`. -/
def Spec.GrRow (row : List (List Char)) : Prop := ∃ t rest, row = t :: rest ∧ (t = "Gr".toList ∨ ∃ a, t = "Gr".toList ++ '(' :: a)

theorem splitChar_head {sep : Char} (t name : List Char) (hn : sep ∉ name) :
    (splitChar sep t).head? = some name ↔ t = name ∨ ∃ a, t = name ++ sep :: a := by
  constructor
  · induction t generalizing name with
    | nil => simp [splitChar]
    | cons c t ih =>
      unfold splitChar
      split
      · rename_i h
        intro e
        simp only [List.head?_cons, Option.some.injEq] at e
        subst e
        exact Or.inr ⟨t, by rw [h]; rfl⟩
      · rename_i h
        cases hs : splitChar sep t with
        | nil =>
          exfalso
          cases t <;> simp [splitChar] at hs
          split at hs
          · cases hs
          · split at hs <;> cases hs
        | cons a l =>
          intro e
          simp only [List.head?_cons, Option.some.injEq] at e
          subst e
          simp only [List.mem_cons, not_or] at hn
          rcases ih a hn.2 (by rw [hs]; rfl) with rfl | ⟨r, rfl⟩
          · exact Or.inl rfl
          · exact Or.inr ⟨r, rfl⟩
  · rintro (rfl | ⟨a, rfl⟩)
    · rw [splitChar_notMem hn]; rfl
    · rw [splitChar_append hn]; rfl

/-- **C126.** `test_2_threaded` succeeds exactly when the first `max_threads * batch_size` rows of ordinary Grassmannians pass the comparison. -/
theorem C126_test_rh (check : Space → List (List Char) → Except PyErr Bool) {b : Int} (hb : 0 < b) (t : Nat) (data : List (List (List Char)))
    (hd : [] ∉ data) (p : List (List Char) → Bool) (hp : ∀ row, p row = true ↔ GrRow row) :
    failedRows true check b t data = .ok 0 ↔ ∀ row ∈ (data.filter p).take (t * b.toNat), GoodRow check row := by
  have hf : ∀ row, (match row with
      | [] => false
      | t :: _ => decide ((splitChar '(' t).head? = some "Gr".toList)) = true ↔ GrRow row := by
    intro row
    unfold GrRow
    rcases row with _ | ⟨u, rest⟩
    · simp
    · simp only [decide_eq_true_eq]
      rw [splitChar_head u _ (by decide)]
      constructor
      · intro h; exact ⟨u, rest, rfl, h⟩
      · rintro ⟨u', r', e, h⟩
        cases e
        exact h
  obtain rfl : (fun row => match row with
      | [] => false
      | t :: _ => decide ((splitChar '(' t).head? = some "Gr".toList)) = p := by
    funext row
    rw [Bool.eq_iff_iff, hf, hp]
  · set sel := data.filter (fun row => match row with
      | [] => false
      | t :: _ => decide ((splitChar '(' t).head? = some "Gr".toList)) with hsel
    rw [← C126_test check hb t sel]
    obtain ⟨B, e1, -⟩ := C126_batches sel hb
    have hne : data.any (fun row => row.isEmpty) = false := by
      rw [List.any_eq_false]
      intro row hr h
      rw [List.isEmpty_iff] at h
      exact hd (h ▸ hr)
    have h1 : failedRows true check b t data = .ok (((testBatches B t).flatten.filterMap (processRow true check)).count false) := by
      unfold failedRows
      simp only [if_true, hne, Bool.false_eq_true, if_false]
      show (splitIntoBatches sel b >>= _) = _
      rw [e1]
      rfl
    have h2 : failedRows false check b t sel = .ok (((testBatches B t).flatten.filterMap (processRow false check)).count false) := by
      unfold failedRows
      simp only [Bool.false_eq_true, if_false]
      show (splitIntoBatches sel b >>= _) = _
      rw [e1]
      rfl
    rw [h1, h2]
    have h3 : (testBatches B t).flatten.filterMap (processRow true check) = (testBatches B t).flatten.filterMap (processRow false check) := by
      apply List.filterMap_congr
      intro row hr
      rw [C126_tested sel hb t e1] at hr
      have hg := (hf row).1 (List.mem_filter.1 (List.mem_of_mem_take hr)).2
      obtain ⟨u, rest, rfl, hu⟩ := hg
      have hh := (splitChar_head u "Gr".toList (by decide)).2 hu
      unfold processRow
      cases hc : rowCommand u with
      | error e => simp [hc]
      | ok cp =>
        obtain ⟨command, params⟩ := cp
        have : command = "Gr".toList := by
          unfold rowCommand at hc
          split at hc
          · rename_i c a l heq
            rw [heq] at hh
            simp only [List.head?_cons, Option.some.injEq] at hh
            cases hm : (splitChar ',' a.dropLast).mapM pyInt with
            | error e => rw [hm] at hc; cases hc
            | ok ps =>
              rw [hm] at hc
              cases hc
              exact hh
          · cases hc
        simp [hc, this]
    rw [h3]

/-- **C126, refuted.** With the numbers of the code, 7 batches of 1000 rows, the test also succeeds for a table with a wrong row, when 7000 good rows
come first. -/
theorem C126_refuted_all_rows (check : Space → List (List Char) → Except PyErr Bool) (g r : List (List Char)) (hg : GoodRow check g) :
    failedRows false check 1000 7 (List.replicate 7000 g ++ [r]) = .ok 0 := by
  rw [C126_test check (by decide)]
  intro row hr
  rw [List.take_append_of_le_length (by rw [List.length_replicate]; decide)] at hr
  rw [(List.mem_replicate.1 (List.mem_of_mem_take hr)).2]
  exact hg

example : GoodRow (fun _ _ => .ok true) ["Gr(2,5)".toList, "qmult".toList, "S[1]".toList, "S[1]".toList, "S[2]+S[1,1]".toList] ∧
    failedRows false (fun _ _ => .ok true) 2 2 [["Gr(2,5)".toList], ["XX(2,5)".toList], [], ["IG(2,6)".toList], []] = .ok 2 ∧
    failedRows true (fun X _ => .ok (decide (X.n = 5))) 2 2 [["Gr(2,5)".toList], ["XX(2,5)".toList], ["Gr(2,6)".toList], ["Gr".toList]] = .ok 2 ∧
    failedRows true (fun _ _ => .ok true) 2 2 [["Gr(2,5)".toList], []] = .error .indexError := by
  refine ⟨⟨"Gr(2,5)".toList, _, "Gr".toList, [2, 5], ⟨.A, 3, 5⟩, rfl, by decide, by decide, rfl⟩, by decide⟩

/-! ### Badges -/

/-- **C126.** The colour of the badge "PR Coverage" is the one for the number it shows. -/
theorem C126_badge (cov : Rat) : badgeColor cov = badgeColor (truncRat cov) := by
  have key : ∀ c : Int, 0 < c → (cov ≥ c ↔ (truncRat cov : Rat) ≥ c) := by
    intro c hc
    rw [ge_iff_le, ge_iff_le, Int.cast_le]
    unfold truncRat
    split
    · rename_i h
      have h1 : 0 ≤ ⌊-cov⌋ := Int.floor_nonneg.2 (by linarith)
      have h2 : (0 : Rat) < c := by exact_mod_cast hc
      constructor
      · intro; linarith
      · intro; omega
    · rw [Int.le_floor]
  unfold badgeColor
  have h1 := key 100 (by decide)
  have h2 := key 70 (by decide)
  simp only [Int.cast_ofNat] at h1 h2
  simp only [h1, h2]

/-- **C126.** The badge "PR Coverage" shows the coverage without its decimals, and the colour for this number. -/
theorem C126_badge_text (cov : Rat) (h : 0 ≤ cov) : ∃ i : Int, i ≤ cov ∧ cov < i + 1 ∧ prBadge cov = (intText i ++ ['%'], badgeColor i) := by
  have e : truncRat cov = ⌊cov⌋ := by unfold truncRat; rw [if_neg (by linarith)]
  refine ⟨⌊cov⌋, Int.floor_le cov, Int.lt_floor_add_one cov, ?_⟩
  unfold prBadge
  rw [C126_badge, e]

/-- **C126.** If the badge "Coverage evolution" shows two different numbers, its colour says which is larger. -/
theorem C126_evolution (p cov : Rat) (h : truncRat p ≠ truncRat cov) :
    (evolutionBadge (some p) cov).2 = if truncRat p < truncRat cov then "brightgreen" else "red" := by
  have mono : ∀ x y : Rat, x ≤ y → truncRat x ≤ truncRat y := by
    intro x y hxy
    unfold truncRat
    split <;> split
    · have := Int.floor_le_floor (neg_le_neg hxy)
      omega
    · rename_i h1 h2
      have h3 : 0 ≤ ⌊-x⌋ := Int.floor_nonneg.2 (by linarith)
      have h4 : 0 ≤ ⌊y⌋ := Int.floor_nonneg.2 (by linarith)
      omega
    · linarith
    · exact Int.floor_le_floor hxy
  show evolutionColor (cov - p) = _
  unfold evolutionColor
  rcases lt_trichotomy p cov with h1 | h1 | h1
  · have := mono p cov h1.le
    rw [if_neg (by linarith), if_pos (by linarith), if_pos (by omega)]
  · exact absurd (by rw [h1]) h
  · have := mono cov p h1.le
    rw [if_neg (by linarith), if_neg (by linarith), if_neg (by omega)]

example : truncRat (-7 / 2) = -3 ∧ truncRat (7 / 2) = 3 ∧ prBadge (699 / 10) = ("69%".toList, "red") ∧
    evolutionBadge (some (709 / 10)) (711 / 10) = ("70% > 71%".toList, "brightgreen") := by
  decide +kernel

/-- **C126, refuted.** Two equal numbers can have any of the three colours. -/
theorem C126_refuted_blue : evolutionBadge (some (709 / 10)) (701 / 10) = ("70% > 70%".toList, "red") ∧
    evolutionBadge (some (701 / 10)) (709 / 10) = ("70% > 70%".toList, "brightgreen") ∧
    evolutionBadge (some 70) 70 = ("70% > 70%".toList, "blue") ∧ evolutionBadge none (709 / 10) = ("70%".toList, "blue") := by
  decide +kernel

end Verif
