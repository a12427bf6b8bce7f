import Verif.Model.Pictures
import Verif.Proofs.Text
import Verif.Spec.Partition
import Mathlib.Data.List.Nodup
/-!
# C86: printed and LaTeX diagrams show the partition
-/

namespace Verif
open Spec

theorem intText_inj {i j : Int} (h : intText i = intText j) : i = j := by
  have h1 := literalEval_ctext (.int i)
  have h2 := literalEval_ctext (.int j)
  simp only [PVal.ctext, h] at h1 h2
  rw [h1] at h2
  cases h2; rfl

theorem split_at {c : Char} {a b r s : List Char} (ha : c ∉ a) (hb : c ∉ b) (h : a ++ c :: r = b ++ c :: s) : a = b ∧ r = s := by
  induction a generalizing b with
  | nil =>
    cases b with
    | nil => simpa using h
    | cons y b =>
      simp only [List.nil_append, List.cons_append, List.cons.injEq] at h
      exact absurd (by simp [h.1]) hb
  | cons x a ih =>
    cases b with
    | nil =>
      simp only [List.nil_append, List.cons_append, List.cons.injEq] at h
      exact absurd (by simp [h.1]) ha
    | cons y b =>
      simp only [List.cons_append, List.cons.injEq] at h
      obtain ⟨h1, h2⟩ := ih (by simp at ha; exact ha.2) (by simp at hb; exact hb.2) h.2
      exact ⟨by rw [h.1, h1], h2⟩

theorem m_notin (i : Int) : 'm' ∉ intText i := by
  intro h
  rcases intText_chars h with h | h
  · exact absurd h (by decide)
  · exact absurd h (by decide)

theorem boxLine_inj {x y x' y' : Nat} (h : boxLine x y = boxLine x' y') : x = x' ∧ y = y' := by
  unfold boxLine at h
  have h := List.append_cancel_left h
  have e : "mm, ".toList = ['m', 'm', ',', ' '] := rfl
  have e' : "mm) {};".toList = ['m', 'm', ')', ' ', '{', '}', ';'] := rfl
  rw [e, e'] at h
  simp only [List.cons_append, List.nil_append] at h
  obtain ⟨h1, h2⟩ := split_at (m_notin _) (m_notin _) h
  simp only [List.cons.injEq, true_and] at h2
  obtain ⟨h3, -⟩ := split_at (m_notin _) (m_notin _) h2
  have h1 := intText_inj h1
  have h3 := intText_inj h3
  omega

theorem mem_boxLines (p : List Int) (y : Nat) (t : List Char) :
    t ∈ boxLines y p ↔ ∃ (i x : Nat), i < p.length ∧ (x : Int) < part p i ∧ t = boxLine x (y + i) := by
  induction p generalizing y with
  | nil => simp [boxLines]
  | cons r p ih =>
    rw [boxLines, List.mem_append, ih, List.mem_map]
    constructor
    · rintro (⟨x, h1, rfl⟩ | ⟨i, x, h0, h1, rfl⟩)
      · refine ⟨0, x, by simp, ?_, by simp⟩
        rw [List.mem_range] at h1
        simp only [part, List.getD_cons_zero]
        omega
      · exact ⟨i + 1, x, by simpa using h0, by simpa [part] using h1, by congr 1; omega⟩
    · rintro ⟨i, x, h0, h1, rfl⟩
      cases i with
      | zero =>
        simp only [part, List.getD_cons_zero] at h1
        exact Or.inl ⟨x, by rw [List.mem_range]; omega, by simp⟩
      | succ i => exact Or.inr ⟨i, x, by simpa using h0, by simpa [part] using h1, by congr 1; omega⟩

/-- **C86**: the `\\node at` lines of the LaTeX picture are those of the boxes of the diagram, with the box in row `i`,
column `x` at `(5x mm, -5i mm)`. -/
theorem C86_boxes (p : List Int) (t : List Char) :
    t ∈ boxLines 0 p ↔ ∃ (i x : Nat), i < p.length ∧ (x : Int) < part p i ∧ t = boxLine x i := by
  rw [mem_boxLines]; simp

/-- **C86**: every box is drawn once. -/
theorem C86_once (p : List Int) : (boxLines 0 p).Nodup := by
  suffices h : ∀ y, (boxLines y p).Nodup from h 0
  induction p with
  | nil => simp [boxLines]
  | cons r p ih =>
    intro y
    rw [boxLines, List.nodup_append]
    refine ⟨(List.nodup_range).map fun x x' h => (boxLine_inj h).1, ih _, ?_⟩
    intro a ha b hb hab
    subst hab
    rw [List.mem_map] at ha
    obtain ⟨x, -, rfl⟩ := ha
    obtain ⟨i, x', -, -, h⟩ := (mem_boxLines _ _ _).1 hb
    have := (boxLine_inj h).2
    omega

/-- **C86**: the number of boxes is the size of the partition. -/
theorem C86_count (p : List Int) (h : ∀ x ∈ p, 0 ≤ x) : ((boxLines 0 p).length : Int) = p.sum := by
  suffices h : ∀ y, ((boxLines y p).length : Int) = p.sum from h 0
  induction p with
  | nil => simp [boxLines]
  | cons r p ih =>
    intro y
    have := ih (fun x hx => h x (by simp [hx])) (y + 1)
    have h0 := h r (by simp)
    rw [boxLines, List.length_append, List.length_map, List.length_range, List.sum_cons]
    push_cast
    omega

/-- **C86**: two partitions with the same boxes in the LaTeX picture have the same rows. -/
theorem C86_faithful {p p' : List Int} (hp : ∀ x ∈ p, 0 ≤ x) (hp' : ∀ x ∈ p', 0 ≤ x)
    (h : ∀ t, t ∈ boxLines 0 p ↔ t ∈ boxLines 0 p') (i : Nat) : part p i = part p' i := by
  have nn : ∀ (q : List Int), (∀ x ∈ q, 0 ≤ x) → ∀ i, 0 ≤ part q i := by
    intro q hq i
    unfold part
    rw [List.getD_eq_getElem?_getD]
    by_cases hi : i < q.length
    · rw [List.getElem?_eq_getElem hi]; exact hq _ (List.getElem_mem hi)
    · rw [List.getElem?_eq_none (by omega)]; simp
  have key : ∀ (q q' : List Int), (∀ x ∈ q, 0 ≤ x) → (∀ x ∈ q', 0 ≤ x) → (∀ t, t ∈ boxLines 0 q → t ∈ boxLines 0 q') →
      part q i ≤ part q' i := by
    intro q q' hq hq' hh
    by_contra hc
    have h0 := nn q' hq' i
    have hi : i < q.length := by
      by_contra hi
      have : part q i = 0 := by
        unfold part
        rw [List.getD_eq_getElem?_getD, List.getElem?_eq_none (by omega)]; simp
      omega
    have h1 := hh (boxLine (part q' i).toNat i) ((C86_boxes q _).2 ⟨i, _, hi, by omega, rfl⟩)
    obtain ⟨i', x, -, h2, h3⟩ := (C86_boxes q' _).1 h1
    obtain ⟨h4, h5⟩ := boxLine_inj h3
    subst h5
    omega
  exact le_antisymm (key p p' hp hp' fun t => (h t).1) (key p' p hp' hp fun t => (h t).2)

theorem repText_length (s : List Char) (c : Int) : (repText s c).length = c.toNat * s.length := by
  unfold repText; simp

theorem rows_inj (s : List Char) (hs : s ≠ []) {p p' : List Int} (hp : ∀ x ∈ p, 0 ≤ x) (hp' : ∀ x ∈ p', 0 ≤ x)
    (h : p.map (repText s) = p'.map (repText s)) : p = p' := by
  induction p generalizing p' with
  | nil => cases p' with
    | nil => rfl
    | cons b p' => simp at h
  | cons a p ih => cases p' with
    | nil => simp at h
    | cons b p' =>
      simp only [List.map_cons, List.cons.injEq] at h
      have h1 := congrArg List.length h.1
      rw [repText_length, repText_length] at h1
      have h2 := Nat.eq_of_mul_eq_mul_right (List.length_pos_of_ne_nil hs) h1
      have h3 := hp a (by simp)
      have h4 := hp' b (by simp)
      rw [ih (fun x hx => hp x (by simp [hx])) (fun x hx => hp' x (by simp [hx])) h.2, show a = b by omega]

/-- **C86**: different lists of non-negative numbers are printed differently by `print_partition`, `draw` and `yd`. -/
theorem C86_printed {p p' : List Int} (hp : ∀ x ∈ p, 0 ≤ x) (hp' : ∀ x ∈ p', 0 ≤ x) :
    (printPartition p = printPartition p' → p = p') ∧ (partitionDraw p = partitionDraw p' → p = p') ∧
    (ydText p = ydText p' → p = p') := by
  refine ⟨fun h => rows_inj _ (by decide) hp hp' h, fun h => ?_, fun h => ?_⟩
  · unfold partitionDraw at h
    have z : ∀ r : Int, repText "[]".toList r ≠ "0".toList := by
      intro r hr
      have := congrArg List.length hr
      rw [repText_length] at this
      simp at this
      omega
    split at h <;> split at h
    · rename_i h1 h2
      rw [List.length_eq_zero_iff] at h1 h2
      rw [h1, h2]
    · cases p' with
      | nil => simp at *
      | cons b p' =>
        simp only [List.map_cons, List.cons.injEq] at h
        exact absurd h.1.symm (z b)
    · cases p with
      | nil => simp at *
      | cons b p =>
        simp only [List.map_cons, List.cons.injEq] at h
        exact absurd h.1 (z b)
    · exact rows_inj _ (by decide) hp hp' h
  · unfold ydText at h
    simp only [List.cons.injEq] at h
    exact rows_inj _ (by decide) hp hp' h.2

/-- A line that starts with `\\node at (`. -/
def Spec.isBoxLine (t : List Char) : Bool := decide (t.take 10 = ['\\', 'n', 'o', 'd', 'e', ' ', 'a', 't', ' ', '('])

theorem isBoxLine_box (x y : Nat) : isBoxLine (boxLine x y) = true := by
  have e : "\\node at (".toList = ['\\', 'n', 'o', 'd', 'e', ' ', 'a', 't', ' ', '('] := by decide +kernel
  unfold isBoxLine boxLine
  rw [e]
  rfl

theorem isBoxLine_label (r : List Char) : isBoxLine ("\\node[draw=none, anchor=south] at (".toList ++ r) = false := by
  have e : "\\node[draw=none, anchor=south] at (".toList = ['\\', 'n', 'o', 'd', 'e', '['] ++ "draw=none, anchor=south] at (".toList := by decide +kernel
  unfold isBoxLine
  rw [e]
  simp

theorem filter_none {α : Type} (f : α → Bool) {l : List α} (h : ∀ t ∈ l, f t = false) : l.filter f = [] := by
  rw [List.filter_eq_nil_iff]
  intro t ht
  simp [h t ht]

/-- **C86**: the lines of the LaTeX text that start with `\\node at (` are the boxes, for both kinds of text. -/
theorem C86_tikz (standalone : Bool) (p : List Int) : (tikz standalone p).filter isBoxLine = boxLines 0 p := by
  have hb : (boxLines 0 p).filter isBoxLine = boxLines 0 p := by
    rw [List.filter_eq_self]
    intro t ht
    obtain ⟨i, x, -, -, rfl⟩ := (C86_boxes p t).1 ht
    exact isBoxLine_box _ _
  unfold tikz
  rw [List.filter_append, List.filter_append, List.filter_append, List.filter_append, hb, filter_none (l := [_, _, _, _]),
    filter_none (l := [_]), filter_none (l := if standalone then _ else _), filter_none (l := if standalone then _ else _)]
  · simp
  · cases standalone
    · simp
    · decide +kernel
  · cases standalone
    · simp
    · decide +kernel
  · decide +kernel
  · intro t ht
    simp only [List.mem_cons, List.not_mem_nil, or_false] at ht
    rcases ht with rfl | rfl | rfl | rfl
    · decide +kernel
    · decide +kernel
    · decide +kernel
    · rw [List.append_assoc, List.append_assoc, List.append_assoc]
      exact isBoxLine_label _

/-! ### the exact texts -/

theorem intText_toString (i : Int) : intText i = (toString i).toList := by
  unfold intText
  cases i with
  | ofNat n =>
    rw [if_neg (by simp)]
    show Nat.toDigits 10 n = (Nat.repr n).toList
    simp [Nat.repr]
  | negSucc n =>
    rw [if_pos (by simp)]
    show _ = ("-" ++ Nat.repr (n+1)).toList
    simp [Nat.repr]

theorem foldl_text (p : List Int) (s : String) :
    (p.foldl (fun r x => r ++ ", " ++ toString x) s).toList =
      s.toList ++ (p.map (fun x => ',' :: ' ' :: intText x)).flatten := by
  induction p generalizing s with
  | nil => simp
  | cons a p ih =>
    rw [List.foldl_cons, ih]
    simp [intText_toString]

theorem inter_text (a : Int) (p : List Int) :
    (List.intersperse [',', ' '] ((a :: p).map intText)).flatten = intText a ++ (p.map (fun x => ',' :: ' ' :: intText x)).flatten := by
  induction p generalizing a with
  | nil => simp
  | cons b p ih =>
    have := ih b
    simp only [List.map_cons] at this ⊢
    rw [List.intersperse_cons_cons, List.flatten_cons, List.flatten_cons, this]
    simp

theorem listText_toString (p : List Int) : listText p = (toString p).toList := by
  show _ = (List.toString p).toList
  rcases p with _ | ⟨a, p⟩
  · simp [List.toString, listText]
  · rw [listText, inter_text]
    cases p with
    | nil => simp [List.toString, intText_toString]
    | cons b p =>
      rw [List.toString]
      · rw [String.toList_push, foldl_text]
        simp [intText_toString]
      · simp

/-- the text of a tuple: `()`, `(3,)`, `(3, 1)` -/
def Spec.tupleStr : List Int → String
  | [] => "()"
  | [x] => "(" ++ toString x ++ ",)"
  | x :: p => p.foldl (fun r y => r ++ ", " ++ toString y) ("(" ++ toString x) ++ ")"

theorem tupleText_str (p : List Int) : tupleText p = (tupleStr p).toList := by
  rcases p with _ | ⟨a, _ | ⟨b, p⟩⟩
  · simp [tupleText, tupleStr]
  · simp [tupleText, tupleStr, intText_toString]
  · rw [tupleText, tupleStr]
    · rw [inter_text, String.toList_append, foldl_text]
      simp [intText_toString]
    · simp
    · simp

/-- **C86**: the text of the line of a box. -/
theorem C86_box_text (x y : Nat) : boxLine x y = s!"\\node at ({5 * (x : Int)}mm, {-5 * (y : Int)}mm) \{};".toList := by
  unfold boxLine
  rw [intText_toString, intText_toString, mul_comm, neg_mul_comm, mul_comm _ (-5)]
  show _ = ("\\node at (" ++ toString (5 * (x : Int)) ++ "mm, " ++ toString (-5 * (y : Int)) ++ "mm) {};").toList
  simp

/-- **C86**: the first line of `yd` shows the list. -/
theorem C86_yd_text (p : List Int) : (ydText p).head? = some s!"Young diagram for partition: {p}".toList := by
  unfold ydText
  rw [listText_toString]
  show _ = some ("Young diagram for partition: " ++ toString p).toList
  rw [String.toList_append]
  rfl

theorem getElem?_repText (s : List Char) (c : Int) (j : Nat) :
    (repText s c)[j]? = if j < c.toNat * s.length then s[j % s.length]? else none := by
  unfold repText
  generalize c.toNat = c
  induction c generalizing j with
  | zero => simp
  | succ c ih =>
    rw [List.replicate_succ, List.flatten_cons, List.getElem?_append]
    by_cases h : j < s.length
    · rw [if_pos h, if_pos (by rw [Nat.succ_mul]; omega), Nat.mod_eq_of_lt h]
    · rw [if_neg h, ih, Nat.succ_mul, ← Nat.mod_eq_sub_mod (by omega)]
      by_cases h2 : j < c * s.length + s.length
      · rw [if_pos (by omega), if_pos h2]
      · rw [if_neg (by omega), if_neg h2]

/-- **C86**: `yd` and `Partition.draw` print a row of `r` boxes as `[][]...[]`, `print_partition` as `[ ][ ]...[ ]`: the `j`-th
character of the line. -/
theorem C86_rows (p : List Int) (i j : Nat) (hi : i < p.length) :
    ((ydText p)[i + 1]?.bind (·[j]?)) = (if j < 2 * (p[i].toNat) then some (if j % 2 = 0 then '[' else ']') else none) ∧
    ((partitionDraw p)[i]?.bind (·[j]?)) = (if j < 2 * (p[i].toNat) then some (if j % 2 = 0 then '[' else ']') else none) ∧
    ((printPartition p)[i]?.bind (·[j]?)) =
      (if j < 3 * (p[i].toNat) then some (if j % 3 = 0 then '[' else if j % 3 = 1 then ' ' else ']') else none) := by
  have e2 : "[]".toList = ['[', ']'] := by decide
  have e3 : "[ ]".toList = ['[', ' ', ']'] := by decide
  have h2 : (['[', ']'] : List Char)[j % 2]? = some (if j % 2 = 0 then '[' else ']') := by
    rcases Nat.mod_two_eq_zero_or_one j with h | h <;> simp [h]
  have h3 : (['[', ' ', ']'] : List Char)[j % 3]? = some (if j % 3 = 0 then '[' else if j % 3 = 1 then ' ' else ']') := by
    have : j % 3 < 3 := Nat.mod_lt _ (by omega)
    rcases (by omega : j % 3 = 0 ∨ j % 3 = 1 ∨ j % 3 = 2) with h | h | h <;> simp [h]
  have hl : p.length ≠ 0 := by omega
  refine ⟨?_, ?_, ?_⟩
  · unfold ydText
    rw [List.getElem?_cons_succ, List.getElem?_map, List.getElem?_eq_getElem hi, Option.map_some, Option.bind_some, getElem?_repText, e2]
    rw [show ['[', ']'].length = 2 from rfl, h2, Nat.mul_comm]
  · unfold partitionDraw
    rw [if_neg hl, List.getElem?_map, List.getElem?_eq_getElem hi, Option.map_some, Option.bind_some, getElem?_repText, e2]
    rw [show ['[', ']'].length = 2 from rfl, h2, Nat.mul_comm]
  · unfold printPartition
    rw [List.getElem?_map, List.getElem?_eq_getElem hi, Option.map_some, Option.bind_some, getElem?_repText, e3]
    rw [show ['[', ' ', ']'].length = 3 from rfl, h3, Nat.mul_comm]

/-- **C86**: there are no other lines; the diagram of the empty partition is drawn as `0`. -/
theorem C86_lines (p : List Int) : (ydText p).length = p.length + 1 ∧ (printPartition p).length = p.length ∧
    (p ≠ [] → (partitionDraw p).length = p.length) ∧ partitionDraw [] = [['0']] := by
  refine ⟨by simp [ydText], by simp [printPartition], fun h => ?_, by decide⟩
  rw [partitionDraw, if_neg (by simpa using h), List.length_map]

/-- **C86**: the picture has one more node, the label `S_{(l1, l2, ...)}` at `(w mm, 5mm)` where the decimal number `w = a.b` is
`2.5` times the number of rows. -/
theorem C86_label (standalone : Bool) (p : List Int) : ∃ a b : Nat, b < 10 ∧ 10 * a + b = 25 * p.length ∧
    s!"\\node[draw=none, anchor=south] at ({a}.{b}mm, 5mm) \{$S_\{{tupleStr p}}$};".toList ∈ tikz standalone p := by
  refine ⟨p.length * 5 / 2, if p.length % 2 = 0 then 0 else 5, by split <;> omega, by split <;> omega, ?_⟩
  have : s!"\\node[draw=none, anchor=south] at ({p.length * 5 / 2}.{if p.length % 2 = 0 then 0 else 5}mm, 5mm) \{$S_\{{tupleStr p}}$};".toList =
      "\\node[draw=none, anchor=south] at (".toList ++ half5Text p.length ++ "mm, 5mm) {$S_{".toList ++ tupleText p ++ "}$};".toList := by
    rw [tupleText_str]
    unfold half5Text
    show ("\\node[draw=none, anchor=south] at (" ++ Nat.repr (p.length * 5 / 2) ++ "." ++ Nat.repr (if p.length % 2 = 0 then 0 else 5) ++
      "mm, 5mm) {$S_{" ++ tupleStr p ++ "}$};").toList = _
    by_cases h : p.length % 2 = 0
    · simp [h, Nat.repr]
    · have e : Nat.toDigits 10 5 = ['5'] := by decide
      simp [h, Nat.repr, e]
  rw [this]
  unfold tikz
  refine List.mem_append_left _ (List.mem_append_left _ (List.mem_append_left _ (List.mem_append_right _ ?_)))
  exact List.mem_cons_of_mem _ (List.mem_cons_of_mem _ (List.mem_cons_of_mem _ List.mem_cons_self))

/-- The picture of `[2, 1]`. -/
example : (tikz false [2, 1]).map String.ofList = ["\\begin{tikzpicture}", "\\usetikzlibrary{shapes.geometric}",
    "\\tikzstyle{every node}=[draw, minimum size=5mm, inner sep=0pt]",
    "\\node[draw=none, anchor=south] at (5.0mm, 5mm) {$S_{(2, 1)}$};", "\\node at (0mm, 0mm) {};", "\\node at (5mm, 0mm) {};",
    "\\node at (0mm, -5mm) {};", "\\end{tikzpicture}"] := by decide +kernel

example : (ydText [2, 1]).map String.ofList = ["Young diagram for partition: [2, 1]", "[][]", "[]"] ∧
    (printPartition [2, 0, 1]).map String.ofList = ["[ ][ ]", "", "[ ]"] ∧ (partitionDraw []).map String.ofList = ["0"] := by decide +kernel

end Verif
