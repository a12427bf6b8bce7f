import Verif.Model.State
import Verif.Props.SchurPol
import Verif.Props.Partitions
import Verif.Props.Pictures
/-!
# C97: `to_polinomial_str` changes its object;  C98: the texts of the spaces
-/

namespace Verif
open Spec

/-! ### C97 -/

theorem popZeros_spec (n : Nat) (l : List Int) (h : l.length = n) :
    NoTrailingZero (popZeros n l) ∧ ∃ c, l = popZeros n l ++ List.replicate c 0 := by
  induction n generalizing l with
  | zero =>
    have : l = [] := List.length_eq_zero_iff.mp h
    subst this
    exact ⟨by simp [popZeros, NoTrailingZero], 0, by simp [popZeros]⟩
  | succ n ih =>
    have hne : l ≠ [] := by rintro rfl; simp at h
    have hl : at' l n = l.getLast hne := by
      unfold at'
      rw [List.getLast_eq_getElem, List.getD_eq_getElem _ _ (by omega)]
      congr 1; omega
    rw [popZeros]
    split
    · rename_i h0
      obtain ⟨h1, c, h2⟩ := ih l.dropLast (by simp [h])
      refine ⟨h1, c + 1, ?_⟩
      conv_lhs => rw [← List.dropLast_append_getLast hne, ← hl, h0]
      rw [List.replicate_succ', ← List.append_assoc, ← h2]
    · rename_i h0
      refine ⟨?_, 0, by simp⟩
      unfold NoTrailingZero
      rw [List.getLast?_eq_getLast_of_ne_nil hne, ← hl]
      simpa using h0

theorem popZeros_eq (l : List Int) : popZeros l.length l = partClip l := by
  obtain ⟨h1, h2⟩ := popZeros_spec _ l rfl
  exact C01_clip_unique l _ h1 h2

variable {R : Type} [CommSemiring R]

/-- **C97.** `S.to_polinomial_str(n)` with `n ≥ 1` removes the trailing zeros of the partition of the object, whether it
returns or raises; with `n < 1` it raises before and changes nothing. -/
theorem C97_effect (x : Nat → R) (n : Int) (p : List Int) :
    (1 ≤ n → NoTrailingZero (toPolState x n p).2 ∧ ∃ c, p = (toPolState x n p).2 ++ List.replicate c 0) ∧
    (n < 1 → toPolState x n p = (.error .valueError, p)) := by
  constructor
  · intro h
    rw [toPolState, if_neg (by omega)]
    exact popZeros_spec _ _ rfl
  · intro h
    rw [toPolState, if_pos h, schurPol, if_pos h]

/-- **C97.** The object keeps its partition exactly if there is no trailing zero. -/
theorem C97_unchanged (x : Nat → R) (n : Int) (hn : 1 ≤ n) (p : List Int) :
    (toPolState x n p).2 = p ↔ NoTrailingZero p := by
  obtain ⟨h1, c, h2⟩ := (C97_effect x n p).1 hn
  constructor
  · intro h; rwa [h] at h1
  · intro h
    rw [toPolState, if_neg (by omega), popZeros_eq, partClip_of_noTrailing h]

/-- **C97.** A second call gives the same result and changes nothing more. -/
theorem C97_again (x : Nat → R) (n m : Int) (p : List Int) (hn : 1 ≤ n) (hm : 1 ≤ m) :
    toPolState x m (toPolState x n p).2 = ((toPolState x m p).1, (toPolState x n p).2) := by
  have h1 : (toPolState x n p).2 = partClip p := by rw [toPolState, if_neg (by omega), popZeros_eq]
  rw [h1, toPolState, if_neg (by omega), popZeros_eq, partClip_idem, toPolState]
  congr 1
  unfold schurPol makePartition
  rw [partClip_idem]

/-- **C97.** The object is changed by a method that only looks at it: the class `S[1,0]` of type 2 of `OG(2,6)` becomes
the class `S[1]` of type 1. -/
theorem C97_refuted (x : Nat → R) : (toPolState x 2 [1, 0]).2 = [1] := by
  show popZeros 2 [1, 0] = [1]
  decide

example : toPolState (R := Nat) (fun _ => 1) 3 [2, 1, 0, 0] = (.ok 8, [2, 1]) := by decide +kernel
example : toPolState (R := Nat) (fun _ => 1) 3 [1, 2, 0] = (.error .valueError, [1, 2]) := by decide +kernel

/-! ### C98 -/

theorem append_sep_inj {a b r s : List Char} {c : Char} (ha : c ∉ a) (hb : c ∉ b) (h : a ++ c :: r = b ++ c :: s) :
    a = b ∧ r = s := by
  induction a generalizing b with
  | nil =>
    cases b with
    | nil => simpa using h
    | cons d b =>
      simp only [List.nil_append, List.cons_append, List.cons.injEq] at h
      exact absurd (by simp [h.1]) hb
  | cons d a ih =>
    cases b with
    | nil =>
      simp only [List.nil_append, List.cons_append, List.cons.injEq] at h
      exact absurd (by simp [h.1]) ha
    | cons e b =>
      simp only [List.cons_append, List.cons.injEq] at h
      obtain ⟨h1, h2⟩ := ih (b := b) (fun h => ha (by simp [h])) (fun h => hb (by simp [h])) h.2
      exact ⟨by rw [h.1, h1], h2⟩

theorem notMem_intText {c : Char} (h1 : c ≠ '-') (h2 : c.isDigit = false) (i : Int) : c ∉ intText i := by
  intro h
  rcases intText_chars h with h | h
  · exact h1 h
  · rw [h2] at h; simp at h

/-- **C98.** The text of a space determines its type letter, `k` and `n`, hence the space. -/
theorem C98_injective (X Y : Space) (h : X.str = Y.str) : X = Y := by
  have hd : ∀ Z : Space, Z.typeData.1 = Z.type ∧ Z.typeData.2.1 = Z.k ∧ Z.typeData.2.2.1 = Z.n := by
    rintro ⟨t, k, n⟩
    cases t <;> exact ⟨rfl, rfl, rfl⟩
  obtain ⟨x1, x2, x3⟩ := hd X
  obtain ⟨y1, y2, y3⟩ := hd Y
  unfold Space.str at h
  simp only [x1, x2, x3, y1, y2, y3] at h
  have h := List.append_cancel_left h
  rw [List.cons.injEq] at h
  obtain ⟨ht, h⟩ := h
  have h := List.append_cancel_left h
  obtain ⟨hk, h⟩ := append_sep_inj (notMem_intText (by decide) (by decide) _) (notMem_intText (by decide) (by decide) _) h
  have e' : ∀ r : List Char, ") ;  ".toList ++ r = ')' :: (" ;  ".toList ++ r) := fun r => rfl
  rw [e', e'] at h
  obtain ⟨hn, -⟩ := append_sep_inj (notMem_intText (by decide) (by decide) _) (notMem_intText (by decide) (by decide) _) h
  replace hk := intText_inj hk
  replace hn := intText_inj hn
  clear x1 x2 x3 y1 y2 y3 hd
  obtain ⟨t, k, n⟩ := X
  obtain ⟨t', k', n'⟩ := Y
  simp only at hk hn ht
  subst hk hn
  congr 1
  cases t <;> cases t' <;> first | rfl | exact absurd ht (by decide)

/-- **C98.** The text shows the constructor call that creates the space. -/
theorem C98_constructor (m n : Int) (X : Space) :
    (mkGr m n = .ok X → ∃ a b, X.str = a ++ ("Gr(".toList ++ (intText m ++ ',' :: (intText n ++ ')' :: b)))) ∧
    (mkIG m n = .ok X → ∃ a b, X.str = a ++ ("IG(".toList ++ (intText m ++ ',' :: (intText n ++ ')' :: b)))) ∧
    (mkOG m n = .ok X → ∃ a b, X.str = a ++ ("OG(".toList ++ (intText m ++ ',' :: (intText n ++ ')' :: b)))) := by
  have key : ∀ X : Space, ∃ a b, X.str = a ++ ((X.typeData.1.short ++ ['(']) ++ (intText X.typeData.2.2.2.1 ++ ',' ::
      (intText X.typeData.2.2.2.2.1 ++ ')' :: b))) := by
    intro X
    refine ⟨"Type ".toList ++ X.typeData.1.letter :: (" ;  (k,n) = (".toList ++ (intText X.typeData.2.1 ++ ',' ::
      (intText X.typeData.2.2.1 ++ ") ;  ".toList))), " ;  deg(q) = ".toList ++ intText X.typeData.2.2.2.2.2, ?_⟩
    have e : ") ;  deg(q) = ".toList = ')' :: " ;  deg(q) = ".toList := rfl
    unfold Space.str
    rw [e]
    simp
  refine ⟨?_, ?_, ?_⟩
  · intro h
    unfold mkGr at h
    split at h
    · simp at h
    · split at h
      · simp at h
      · simp only [Except.ok.injEq] at h
        subst h
        obtain ⟨a, b, h⟩ := key _
        refine ⟨a, b, h.trans ?_⟩
        simp only [Space.typeData, GType.short]
        rw [show n - (n - m) = m by ring]
        rfl
  · intro h
    unfold mkIG at h
    split at h
    · simp at h
    · split at h
      · simp at h
      · split at h
        · simp at h
        · simp only [Except.ok.injEq] at h
          subst h
          obtain ⟨a, b, h⟩ := key _
          refine ⟨a, b, h.trans ?_⟩
          simp only [Space.typeData, GType.short]
          rw [show n / 2 - (n / 2 - m) = m by ring, show 2 * (n / 2) = n by omega]
          rfl
  · intro h
    unfold mkOG at h
    split at h
    · simp at h
    · split at h
      · rename_i h2
        simp only [Except.ok.injEq] at h
        subst h
        obtain ⟨a, b, h⟩ := key _
        refine ⟨a, b, h.trans ?_⟩
        simp only [Space.typeData, GType.short]
        rw [show (n - 1) / 2 - ((n - 1) / 2 - m) = m by ring, show 2 * ((n - 1) / 2) + 1 = n by omega]
        rfl
      · rename_i h2
        simp only [Except.ok.injEq] at h
        subst h
        obtain ⟨a, b, h⟩ := key _
        refine ⟨a, b, h.trans ?_⟩
        simp only [Space.typeData, GType.short]
        rw [show n / 2 - 1 + 1 - (n / 2 - m) = m by ring, show 2 * (n / 2 - 1) + 2 = n by omega]
        rfl

example : String.ofList (Space.str ⟨.D, 2, 3⟩) = "Type D ;  (k,n) = (2,3) ;  OG(2,8) ;  deg(q) = 5" := by decide +kernel

end Verif
