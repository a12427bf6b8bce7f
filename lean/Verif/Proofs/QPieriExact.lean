import Verif.Proofs.QTerms
import Verif.Proofs.PieriDExact
import Verif.Proofs.QPieriC
import Verif.Proofs.QPieriD1
/-!
# The terms of the quantum Pieri rules of types B and D
-/

namespace Verif
open Spec MvPolynomial

/-- the terms of the Pieri rule of type B -/
def TermB (k : Nat) (n p : Int) (lam mu : List Int) (c : ℚ) : Prop :=
  ReducedPart mu ∧ InBox k n 0 mu ∧ mu.sum = lam.sum + p ∧ PieriArrow k 0 lam mu ∧
    ∃ e : Nat, numComps k 0 lam mu = (if p ≤ k then e else e + 1) ∧ c = 2 ^ e

theorem pieriB_ret (p : Int) {k : Nat} {n : Int} {lam : List Int} (h : InBox k n 0 lam) (hn : 0 ≤ n)
    (hr : 0 ≤ n - k) : RetTerms (Pure (TermB k n p lam)) (pieriB p lam k n) := by
  obtain ⟨w, R, h1, h2, h3, h4, h5, h6⟩ := pieriB_terms p h hn hr
  refine ⟨w, h1, isTerms_pure.2 ⟨h2, ?_⟩⟩
  intro t
  rw [h6.mem_iff, termsOf, List.mem_map]
  have key : ∀ mu ∈ R, countComps lam mu false k 0 = numComps k 0 lam mu := by
    intro mu hmu
    obtain ⟨_, b, _, e⟩ := (h4 mu).1 hmu
    exact (countComps_numComps h b (Or.inl rfl) hn (by omega) ((shapeRel_iff h b (Or.inl rfl) hn (by omega)).2 e)).1
  constructor
  · rintro ⟨mu, hmu, rfl⟩
    obtain ⟨a, b, c, d⟩ := (h4 mu).1 hmu
    refine ⟨mu, _, ⟨a, b, c, d, _, ?_, rfl⟩, rfl⟩
    have := h5 mu hmu
    rw [← key mu hmu]
    unfold expB
    split <;> omega
  · rintro ⟨mu, c, ⟨a, b, hs, d, e, he, rfl⟩, rfl⟩
    have hmu := (h4 mu).2 ⟨a, b, hs, d⟩
    refine ⟨mu, hmu, ?_⟩
    rw [← key mu hmu] at he
    unfold expB
    rw [he]
    congr 2
    split <;> omega

/-- the terms of the Pieri rule of type D -/
def TermD (k : Nat) (n p : Int) (lam y : List Int) (c : ℚ) : Prop :=
  ∃ mu, ReducedPart mu ∧ InBox k n 1 mu ∧ mu.sum = lam.sum + p.natAbs ∧ PieriArrow k 1 lam mu ∧
    (y = mu ∨ ((k : Int) ∈ mu ∧ y = mu ++ [0])) ∧ clsType k lam + clsType k y ≠ 3 ∧ CoefD k p lam y c

theorem pieriD_ret (p : Int) {k : Nat} {n : Int} {lam : List Int} (h : InBox k n 1 lam) (hn : 0 ≤ n)
    (hr : 0 ≤ n + 1 - k) {m : Nat} {c : Int} (ht : TypedClass k m c lam) :
    RetTerms (Pure (TermD k n p lam)) (pieriD p lam k n) := by
  obtain ⟨w, R, h1, h2, h3, h4, h5⟩ := pieriD_terms p h hn hr
  refine ⟨w, h1, isTerms_pure.2 ⟨h2, ?_⟩⟩
  intro t
  rw [h5.mem_iff, List.mem_flatMap]
  have key : ∀ mu ∈ R, ∀ t, t ∈ dcoef p lam mu (typeOf lam k) k ↔
      ∃ y, (y = mu ∨ ((k : Int) ∈ mu ∧ y = mu ++ [0])) ∧
      clsType k lam + clsType k y ≠ 3 ∧ ∃ c, CoefD k p lam y c ∧ t = ([.S y], c) := by
    intro mu hmu t
    obtain ⟨a, b, e, f⟩ := (h4 mu).1 hmu
    exact dcoef_mem h b hn (by omega) ((shapeRel_iff h b (Or.inr rfl) hn (by omega)).2 f) e a ht t
  constructor
  · rintro ⟨mu, hmu, hx⟩
    obtain ⟨y, hy, hty, c, hc, rfl⟩ := (key mu hmu t).1 hx
    obtain ⟨a, b, e, f⟩ := (h4 mu).1 hmu
    exact ⟨y, c, ⟨mu, a, b, e, f, hy, hty, hc⟩, rfl⟩
  · rintro ⟨y, c, ⟨mu, a, b, e, f, hy, hty, hc⟩, rfl⟩
    have hmu := (h4 mu).2 ⟨a, b, e, f⟩
    exact ⟨mu, hmu, (key mu hmu _).2 ⟨y, hy, hty, c, hc, rfl⟩⟩

/-! ### `_part_star` and `_part_tilde` -/

/-- `_part_star` as a partial map -/
def gStar (c : Int) (x : List Int) : Option (List Int) := if x.length = 0 ∨ at' x 0 ≠ c then none else some x.tail

theorem partStar_opt (c : Int) (x : List Int) : partStar x c = optSym (gStar c x) := by
  unfold partStar gStar; split <;> rfl

theorem gStar_some {c : Int} {x y : List Int} : gStar c x = some y ↔ x = c :: y := by
  unfold gStar
  cases x with
  | nil => simp
  | cons a x =>
    simp only [at', List.length_cons]
    constructor
    · intro h
      by_cases hc : a = c
      · subst hc; simp at h; rw [h]
      · simp [hc] at h
    · intro h
      injection h with h1 h2
      simp [h1, h2]

/-- `_part_tilde` as a partial map -/
def gTilde (rows cols : Int) (x : List Int) : Option (List Int) :=
  if (partLen x : Int) ≠ rows ∨ (x.length > 0 ∧ at' x 0 > cols) then none
  else
    let r := rows + at' x 0 - cols
    if r ≤ 0 then none
    else if r < rows ∧ (x.length : Int) > r ∧ at' x r.toNat > 1 then none
    else some ((x.take r.toNat).drop 1 ++ (if x.length > 0 ∧ last' x = 0 then [0] else []))

theorem partTilde_opt (rows cols : Int) (x : List Int) : partTilde x rows cols = optSym (gTilde rows cols x) := by
  unfold partTilde gTilde
  split
  · rfl
  · dsimp only
    split
    · rfl
    · split <;> rfl

theorem drop_ones {mu : List Int} (h : ReducedPart mu) {r : Nat} (h1 : r < mu.length → at' mu r ≤ 1) :
    mu.drop r = List.replicate (mu.length - r) 1 := by
  rw [List.eq_replicate_iff]
  refine ⟨by simp, ?_⟩
  intro x hx
  have h0 := h.2 x (List.mem_of_mem_drop hx)
  obtain ⟨i, hi, rfl⟩ := List.mem_iff_getElem.1 hx
  have hlt : r < mu.length := by rw [List.length_drop] at hi; omega
  have h2 := h1 hlt
  have h3 : at' mu r = mu[r] := by simp [at', hlt]
  rw [List.getElem_drop] at h0 ⊢
  rcases Nat.eq_zero_or_pos i with rfl | hi0
  · simp at h0 ⊢; omega
  · have := List.pairwise_iff_getElem.1 h.1 r (r + i) hlt (by rw [List.length_drop] at hi; omega) (by omega)
    omega

theorem gTilde_some {rows cols : Int} (hc0 : 0 ≤ cols) {x y : List Int} (h : ReducedPart x) :
    gTilde rows cols x = some y ↔ Tilde rows cols x y := by
  unfold gTilde Tilde
  rw [partLen_reduced h]
  cases x with
  | nil =>
    constructor
    · intro hx
      split at hx
      · cases hx
      · rename_i hc
        dsimp only at hx
        simp at hc
        rw [if_pos (by simp [at']; omega)] at hx
        cases hx
    · rintro ⟨_, _, h3⟩; cases h3
  | cons a x =>
    have hz : ¬ ((a :: x).length > 0 ∧ last' (a :: x) = 0) := fun hh => last'_reduced h hh.1 hh.2
    have ha : at' (a :: x) 0 = a := rfl
    have hp : part (a :: x) 0 = a := by simp [part]
    rw [if_neg hz, ha, hp]
    simp only [List.append_nil]
    constructor
    · intro hx
      split at hx
      · cases hx
      rename_i hc
      push Not at hc
      split at hx
      · cases hx
      split at hx
      · cases hx
      rename_i hr hcond
      have hle := hc.2 (by simp)
      refine ⟨hc.1, hle, ?_⟩
      injection hx with hx
      subst hx
      obtain ⟨r, hr'⟩ : ∃ r : Nat, rows + a - cols = r + 1 := ⟨(rows + a - cols - 1).toNat, by omega⟩
      rw [hr', show ((r : Int) + 1).toNat = r + 1 by omega]
      rw [hr', show ((r : Int) + 1).toNat = r + 1 by omega] at hcond
      have hlen : ((x.length : Int) + 1) = rows := by have := hc.1; simpa using this
      have hd := drop_ones h (r := r + 1) (by
        intro hlt
        by_contra hgt
        rw [List.length_cons] at hlt
        exact hcond ⟨by omega, by simp; omega, by omega⟩)
      simp only [List.take_succ_cons, List.drop_succ_cons, List.drop_zero, List.length_cons] at hd ⊢
      rw [show (cols - a).toNat = x.length + 1 - (r + 1) by omega, ← hd, List.take_append_drop]
    · rintro ⟨h1, h2, h3⟩
      rw [if_neg (by push Not; exact ⟨h1, fun _ => h2⟩)]
      injection h3 with _ h3
      have hlen : x.length = y.length + (cols - a).toNat := by rw [h3]; simp
      have h1' : ((x.length : Int) + 1) = rows := by simpa using h1
      have hr' : rows + a - cols = (y.length + 1 : Nat) := by push_cast; omega
      rw [hr', Int.toNat_natCast, if_neg (by push_cast; omega), if_neg]
      · congr 1
        rw [h3]
        simp
      · rintro ⟨h4, h5, h6⟩
        have : at' (a :: x) (y.length + 1) = 1 := by
          have hlt : y.length < x.length := by omega
          have : x[y.length] = 1 := by
            simp only [h3]
            rw [List.getElem_append_right (le_refl _)]
            simp
          simp [at', hlt, this]
        omega

/-- `nu` is determined by `ν̃` -/
theorem tilde_inj {rows cols : Int} {nu nu' nt : List Int} (h : Tilde rows cols nu nt) (h' : Tilde rows cols nu' nt) :
    nu = nu' := by
  obtain ⟨a1, a2, a3⟩ := h
  obtain ⟨b1, b2, b3⟩ := h'
  have e1 : nu.length = nt.length + (cols - part nu 0).toNat + 1 := by
    conv_lhs => rw [a3]
    simp
  have e2 : nu'.length = nt.length + (cols - part nu' 0).toNat + 1 := by
    conv_lhs => rw [b3]
    simp
  have : part nu 0 = part nu' 0 := by omega
  rw [a3, b3, this]

/-! ### Type B -/

theorem tail_ret_B (p : Int) {k : Nat} {n : Int} {lam : List Int} (h : InBox k n 0 lam) (hn : 0 ≤ n)
    (hr : 0 ≤ n - k) {f : Poly → Except PyErr Poly} {T : Mono → List Int → ℚ → Prop}
    (hf : ∀ z, IsTerms (Pure (fun y c => TermB k n p lam.tail ((n + k) :: y) c)) z → RetTerms T (f z)) :
    RetTerms T (do
      let w ← pieriB p lam.tail k n
      let z ← Poly.apply (fun x => .ok (partStar x (n + k))) w
      f z) := by
  refine (pieriB_ret p (h.tail (by omega)) hn hr).bind (fun w hw => ?_)
  refine RetTerms.bind (isTerms_apply hw (f := fun x => .ok (partStar x (n + k))) (gStar (n + k))
    (fun x c _ => by rw [partStar_opt]) (fun x c x' c' y _ _ h1 h2 => by rw [gStar_some] at h1 h2; rw [h1, h2]))
    (fun z hz => hf z (hz.congr (fun qs y c => ?_)))
  unfold Pure
  refine and_congr_right (fun _ => ?_)
  constructor
  · rintro ⟨x, h1, h2⟩; rw [gStar_some] at h2; rw [← h2]; exact h1
  · intro h1; exact ⟨_, h1, gStar_some.2 rfl⟩

/-- the terms of `qpieri` in type B -/
def QTermB (k : Nat) (n p : Int) (lam : List Int) (qs : Mono) (x : List Int) (c : ℚ) : Prop :=
  (qs = [] ∧ TermB k n p lam x c) ∨
  (0 < k ∧ qs = [.q] ∧ ∃ nu, TermB k (n + 1) p lam nu c ∧ Tilde (n - k + 1) (n + k) nu x) ∨
  (qs = (if k = 0 then [.q] else [.q, .q]) ∧ part lam 0 = n + k ∧ TermB k n p lam.tail ((n + k) :: x) c)

theorem qpieriB_ret (p : Int) {k : Nat} {n : Int} {lam : List Int} (h : InBox k n 0 lam) (hred : ReducedPart lam)
    (hn : 0 ≤ n) (hr : 0 ≤ n - k) (hm : k = 0 ∨ 0 < n - k) :
    RetTerms (QTermB k n p lam) (qpieriB p lam k n) := by
  unfold qpieriB
  refine (pieriB_ret p h hn hr).bind (fun w hw => ?_)
  have hlast : (¬ (lam.length > 0 ∧ at' lam 0 = n + k)) → part lam 0 = n + k → ∀ x c,
      ¬ TermB k n p lam.tail ((n + k) :: x) c := by
    intro h1 h2 x c h3
    rw [← at'_eq_part] at h2
    have h4 := h3.1.2 (n + k) (by simp)
    cases lam with
    | nil => simp [at'] at h2; omega
    | cons a l => exact h1 ⟨by simp, h2⟩
  by_cases hk : k = 0
  · rw [if_pos hk]
    split
    · rename_i hc
      refine tail_ret_B p h hn hr (fun z hz => .ok ((isTerms_add hw (isTerms_q hz) ?_).congr ?_))
      · rintro qs x c qs' x' c' ⟨rfl, _⟩ ⟨rfl, _⟩; simp
      · intro qs x c
        unfold QTermB Pure
        rw [if_pos hk, ← at'_eq_part]
        constructor
        · rintro (h1 | h1)
          · exact Or.inl h1
          · exact Or.inr (Or.inr ⟨h1.1, hc.2, h1.2⟩)
        · rintro (h1 | h1 | h1)
          · exact Or.inl h1
          · omega
          · exact Or.inr ⟨h1.1, h1.2.2⟩
    · rename_i hc
      refine .ok (hw.congr (fun qs x c => ?_))
      unfold QTermB Pure
      constructor
      · exact Or.inl
      · rintro (h1 | h1 | h1)
        · exact h1
        · omega
        · exact absurd h1.2.2 (hlast hc h1.2.1 x c)
  · rw [if_neg hk, if_neg (by omega)]
    have last : ∀ (w : Poly) (T : Mono → List Int → ℚ → Prop), IsTerms T w → (∀ qs x c, T qs x c → qs = [] ∨ qs = [.q]) →
        RetTerms (fun qs x c => T qs x c ∨ (qs = [.q, .q] ∧ part lam 0 = n + k ∧ TermB k n p lam.tail ((n + k) :: x) c))
          (if lam.length > 0 ∧ at' lam 0 = n + k then do
            let v ← pieriB p lam.tail k n
            let z ← Poly.apply (fun x => .ok (partStar x (n + k))) v
            .ok (Poly.add w (Poly.mul (Poly.pow (Poly.sym .q) 2) z))
          else .ok w) := by
      intro w T hw hT
      split
      · rename_i hc
        refine tail_ret_B p h hn hr (fun z hz => .ok ((isTerms_add hw (isTerms_qq hz) ?_).congr ?_))
        · rintro qs x c qs' x' c' h1 ⟨rfl, _⟩
          rcases hT _ _ _ h1 with rfl | rfl <;> simp
        · intro qs x c
          rw [← at'_eq_part]
          exact or_congr_right ⟨fun h1 => ⟨h1.1, hc.2, h1.2⟩, fun h1 => ⟨h1.1, h1.2.2⟩⟩
      · rename_i hc
        refine .ok (hw.congr (fun qs x c => ?_))
        constructor
        · exact Or.inl
        · rintro (h1 | h1)
          · exact h1
          · exact absurd h1.2.2 (hlast hc h1.2.1 x c)
    have hQ : ∀ qs x c, QTermB k n p lam qs x c ↔ (Pure (TermB k n p lam) qs x c ∨
        (qs = [.q] ∧ ∃ nu, TermB k (n + 1) p lam nu c ∧ Tilde (n - k + 1) (n + k) nu x)) ∨
        (qs = [.q, .q] ∧ part lam 0 = n + k ∧ TermB k n p lam.tail ((n + k) :: x) c) := by
      intro qs x c
      unfold QTermB Pure
      rw [if_neg hk, or_assoc]
      have : 0 < k := by omega
      simp only [this, true_and]
    dsimp only
    split
    · refine RetTerms.bind (pieriB_ret p (n := n + 1) (k := k) (lam := lam) (inBox_mono h) (by omega) (by omega)) ?_
      intro v hv
      refine RetTerms.bind (isTerms_apply hv (f := fun x => .ok (partTilde x (n - k + 1) (n + k)))
        (gTilde (n - k + 1) (n + k)) (fun x c _ => by rw [partTilde_opt]) ?_) ?_
      · intro x c x' c' y h1 h2 h3 h4
        rw [gTilde_some (by omega) h1.1] at h3
        rw [gTilde_some (by omega) h2.1] at h4
        exact tilde_inj h3 h4
      · intro z hz
        refine (last _ _ (isTerms_add hw (isTerms_q hz) ?_) ?_).congr (fun qs x c => ?_)
        · rintro qs x c qs' x' c' ⟨rfl, _⟩ ⟨rfl, _⟩; simp
        · rintro qs x c (⟨rfl, _⟩ | ⟨rfl, _⟩) <;> simp
        · rw [hQ]
          refine or_congr_left (or_congr_right (and_congr_right (fun _ => ?_)))
          constructor
          · rintro ⟨nu, h1, h2⟩; exact ⟨nu, h1, (gTilde_some (by omega) h1.1).1 h2⟩
          · rintro ⟨nu, h1, h2⟩; exact ⟨nu, h1, (gTilde_some (by omega) h1.1).2 h2⟩
    · rename_i hc
      refine (last _ _ hw (fun qs x c h1 => Or.inl h1.1)).congr (fun qs x c => ?_)
      rw [hQ]
      refine or_congr_left ⟨Or.inl, ?_⟩
      rintro (h1 | ⟨_, nu, h1, h2⟩)
      · exact h1
      · exfalso
        apply hc
        have hst := (strips_iff h.isPart h1.2.1.isPart).1 h1.2.2.2.1.strips
        obtain ⟨r, hr'⟩ : ∃ r : Nat, n - k = r + 1 := ⟨(n - k - 1).toNat, by omega⟩
        have h3 := (hst r).1
        have hlen : r + 1 < nu.length := by have := h2.1; omega
        have h4 : 0 < part nu (r + 1) := by
          have : part nu (r + 1) = nu[r + 1] := by simp [part, hlen]
          rw [this]
          exact h1.1.2 _ (List.getElem_mem _)
        have h5 : r < lam.length := by
          by_contra hc
          rw [part_of_ge (l := lam) (by omega)] at h3
          omega
        have h6 := h.rows (r + 1) (by omega)
        have h7 : lam.length ≤ r + 1 := by
          by_contra hc
          have : part lam (r + 1) = lam[r + 1] := by simp [part, show r + 1 < lam.length by omega]
          have := hred.2 (lam[r + 1]'(by omega)) (List.getElem_mem _)
          omega
        refine ⟨by omega, ?_⟩
        rw [at'_eq_part, show lam.length - 1 = r by omega]
        omega

/-! ### Type D -/

theorem gTilde_append {rows cols : Int} {mu : List Int} (h : ReducedPart mu) (h0 : mu.length > 0) :
    gTilde rows cols (mu ++ [0]) = (gTilde rows cols mu).map (· ++ [0]) := by
  have hat : ∀ i, at' (mu ++ [0]) i = at' mu i := fun i => part_append_zero mu i
  have hpl : partLen (mu ++ [0]) = mu.length := by
    unfold partLen; rw [partClip_concat_zero]; exact partLen_reduced h
  have hz : ¬ (mu.length > 0 ∧ last' mu = 0) := fun hh => last'_reduced h hh.1 hh.2
  have hz' : (mu ++ [0]).length > 0 ∧ last' (mu ++ [0]) = 0 := ⟨by simp, by simp [last']⟩
  unfold gTilde
  simp only [hat, hpl, partLen_reduced h, if_neg hz, if_pos hz', List.append_nil]
  by_cases h1 : (mu.length : Int) ≠ rows ∨ at' mu 0 > cols
  · rw [if_pos, if_pos]
    · rfl
    · rcases h1 with h1 | h1
      · exact Or.inl h1
      · exact Or.inr ⟨h0, h1⟩
    · rcases h1 with h1 | h1
      · exact Or.inl h1
      · exact Or.inr ⟨by simp, h1⟩
  · push Not at h1
    have e1 : ¬ ((mu.length : Int) ≠ rows ∨ (mu ++ [0]).length > 0 ∧ at' mu 0 > cols) := by
      push Not; exact ⟨h1.1, fun _ => h1.2⟩
    have e2 : ¬ ((mu.length : Int) ≠ rows ∨ mu.length > 0 ∧ at' mu 0 > cols) := by
      push Not; exact ⟨h1.1, fun _ => h1.2⟩
    rw [if_neg e1, if_neg e2]
    by_cases h2 : rows + at' mu 0 - cols ≤ 0
    · rw [if_pos h2, if_pos h2]; rfl
    · rw [if_neg h2, if_neg h2]
      by_cases h3 : rows + at' mu 0 - cols < rows ∧ at' mu (rows + at' mu 0 - cols).toNat > 1
      · rw [if_pos ⟨h3.1, by simp; omega, h3.2⟩, if_pos ⟨h3.1, by omega, h3.2⟩]; rfl
      · rw [if_neg (fun hh => h3 ⟨hh.1, hh.2.2⟩), if_neg (fun hh => h3 ⟨hh.1, hh.2.2⟩)]
        rw [List.take_append_of_le_length (by omega)]
        rfl

theorem typeSwap_of_not_mem {x : List Int} (h : ReducedPart x) {k : Int} (hk : k ∉ x) : typeSwap x k = x := by
  unfold typeSwap
  split
  · rename_i h0; rw [List.length_eq_zero_iff] at h0; exact h0.symm
  · rename_i h0
    simp [last'_reduced h (by omega), hk]

theorem typeSwap_of_mem {x : List Int} (h : ReducedPart x) {k : Int} (hk : k ∈ x) : typeSwap x k = x ++ [0] := by
  have h0 : x.length > 0 := List.length_pos_of_mem hk
  unfold typeSwap
  rw [if_neg (by omega), if_neg (by simpa using hk), if_neg (last'_reduced h h0)]

theorem typeSwap_append {x : List Int} {k : Int} : typeSwap (x ++ [0]) k = x := by
  have e1 : last' (x ++ [0]) = 0 := by simp [last']
  unfold typeSwap
  rw [if_neg (by simp), if_pos e1, if_pos e1]
  simp

theorem tilde_mem {k : Nat} (hk2 : 2 ≤ k) {n : Int} {mu nt : List Int} (h : Tilde (n - k + 2) (n + k) mu nt) :
    (k : Int) ∈ mu ↔ (k : Int) ∈ nt := by
  obtain ⟨h1, h2, h3⟩ := h
  have hl : mu.length = nt.length + (n + k - part mu 0).toNat + 1 := by
    conv_lhs => rw [h3]
    simp
  have hne : (k : Int) ≠ part mu 0 := by omega
  conv_lhs => rw [h3]
  rw [List.mem_cons, List.mem_append, List.mem_replicate]
  constructor
  · rintro (h | h | h)
    · exact absurd h hne
    · exact h
    · omega
  · intro h; exact Or.inr (Or.inl h)

theorem tilde_reduced {rows cols : Int} {mu nt : List Int} (h : Tilde rows cols mu nt) (hm : ReducedPart mu) :
    ReducedPart nt := by
  rw [h.2.2] at hm
  have hs : nt.Sublist (part mu 0 :: (nt ++ List.replicate (cols - part mu 0).toNat 1)) :=
    (List.sublist_append_left _ _).trans (List.sublist_cons_self _ _)
  exact ⟨hm.1.sublist hs, fun x hx => hm.2 x (hs.subset hx)⟩

/-- classes of type D without the bounds -/
def Marked (k : Int) (x : List Int) : Prop := ∃ mu, ReducedPart mu ∧ (x = mu ∨ (k ∈ mu ∧ x = mu ++ [0]))

theorem Marked.swap_inj {k : Int} {x x' : List Int} (h : Marked k x) (h' : Marked k x')
    (e : typeSwap x k = typeSwap x' k) : x = x' := by
  obtain ⟨mu, h1, h2⟩ := h
  obtain ⟨mu', h1', h2'⟩ := h'
  have hz : ∀ {l m : List Int}, ReducedPart l → l ≠ m ++ [0] := by
    intro l m hl he
    have := hl.2 0 (by rw [he]; simp)
    omega
  have c1 : ∀ {x}, ReducedPart x → (k ∈ x ∧ typeSwap x k = x ++ [0]) ∨ (k ∉ x ∧ typeSwap x k = x) := by
    intro x hx
    by_cases hk : k ∈ x
    · exact Or.inl ⟨hk, typeSwap_of_mem hx hk⟩
    · exact Or.inr ⟨hk, typeSwap_of_not_mem hx hk⟩
  rcases h2 with rfl | ⟨hk, rfl⟩ <;> rcases h2' with rfl | ⟨hk', rfl⟩
  · rcases c1 h1 with ⟨a, b⟩ | ⟨a, b⟩ <;> rcases c1 h1' with ⟨a', b'⟩ | ⟨a', b'⟩ <;> rw [b, b'] at e
    · exact List.append_cancel_right e
    · exact absurd e.symm (hz h1')
    · exact absurd e (hz h1)
    · exact e
  · rw [typeSwap_append] at e
    rcases c1 h1 with ⟨a, b⟩ | ⟨a, b⟩ <;> rw [b] at e
    · exact absurd e.symm (hz h1')
    · rw [e] at a; exact absurd hk' a
  · rw [typeSwap_append] at e
    rcases c1 h1' with ⟨a, b⟩ | ⟨a, b⟩ <;> rw [b] at e
    · exact absurd e (hz h1)
    · rw [← e] at a; exact absurd hk a
  · rw [typeSwap_append, typeSwap_append] at e
    rw [e]

/-- `_part_tilde` on classes of type D -/
theorem gTilde_typed {k : Nat} (hk2 : 2 ≤ k) {n : Int} (hn : 0 ≤ n) {mu x z : List Int} (h : ReducedPart mu)
    (hx : x = mu ∨ ((k : Int) ∈ mu ∧ x = mu ++ [0])) :
    gTilde (n - k + 2) (n + k) x = some z ↔
      ∃ nt, Tilde (n - k + 2) (n + k) mu nt ∧ ((x = mu ∧ z = nt) ∨ (k : Int) ∈ mu ∧ x = mu ++ [0] ∧ z = nt ++ [0]) := by
  have hne : mu ≠ mu ++ [0] := by simp
  rcases hx with rfl | ⟨hk, rfl⟩
  · rw [gTilde_some (by omega) h]
    constructor
    · intro h1; exact ⟨z, h1, Or.inl ⟨rfl, rfl⟩⟩
    · rintro ⟨nt, h1, ⟨_, rfl⟩ | ⟨_, h2, _⟩⟩
      · exact h1
      · exact absurd h2 hne
  · rw [gTilde_append h (List.length_pos_of_mem hk), Option.map_eq_some_iff]
    constructor
    · rintro ⟨nt, h1, rfl⟩
      exact ⟨nt, (gTilde_some (by omega) h).1 h1, Or.inr ⟨hk, rfl, rfl⟩⟩
    · rintro ⟨nt, h1, ⟨h2, _⟩ | ⟨_, _, rfl⟩⟩
      · exact absurd h2.symm hne
      · exact ⟨nt, (gTilde_some (by omega) h).2 h1, rfl⟩

theorem gTilde_marked {k : Nat} (hk2 : 2 ≤ k) {n : Int} (hn : 0 ≤ n) {x z : List Int} (h : Marked k x)
    (hz : gTilde (n - k + 2) (n + k) x = some z) : Marked k z := by
  obtain ⟨mu, h1, h2⟩ := h
  obtain ⟨nt, h3, h4⟩ := (gTilde_typed hk2 hn h1 h2).1 hz
  refine ⟨nt, tilde_reduced h3 h1, ?_⟩
  rcases h4 with ⟨_, rfl⟩ | ⟨hk, _, rfl⟩
  · exact Or.inl rfl
  · exact Or.inr ⟨(tilde_mem hk2 h3).1 hk, rfl⟩

theorem marked_base {k : Int} {x mu mu' : List Int} (h : ReducedPart mu) (h' : ReducedPart mu')
    (hx : x = mu ∨ (k ∈ mu ∧ x = mu ++ [0])) (hx' : x = mu' ∨ (k ∈ mu' ∧ x = mu' ++ [0])) : mu = mu' := by
  have hz : ∀ {l m : List Int}, ReducedPart l → l ≠ m ++ [0] := by
    intro l m hl he
    have := hl.2 0 (by rw [he]; simp)
    omega
  rcases hx with rfl | ⟨_, rfl⟩ <;> rcases hx' with e | ⟨_, e⟩
  · exact e
  · exact absurd e (hz h)
  · exact absurd e.symm (hz h')
  · exact List.append_cancel_right e

theorem gTilde_inj {k : Nat} (hk2 : 2 ≤ k) {n : Int} (hn : 0 ≤ n) {x x' z : List Int} (h : Marked k x)
    (h' : Marked k x') (hz : gTilde (n - k + 2) (n + k) x = some z) (hz' : gTilde (n - k + 2) (n + k) x' = some z) :
    x = x' := by
  obtain ⟨mu, h1, h2⟩ := h
  obtain ⟨mu', h1', h2'⟩ := h'
  obtain ⟨nt, h3, h4⟩ := (gTilde_typed hk2 hn h1 h2).1 hz
  obtain ⟨nt', h3', h4'⟩ := (gTilde_typed hk2 hn h1' h2').1 hz'
  have hnt : nt = nt' := marked_base (k := k) (x := z) (tilde_reduced h3 h1) (tilde_reduced h3' h1')
    (h4.imp (fun h => h.2) (fun h => ⟨(tilde_mem hk2 h3).1 h.1, h.2.2⟩))
    (h4'.imp (fun h => h.2) (fun h => ⟨(tilde_mem hk2 h3').1 h.1, h.2.2⟩))
  subst hnt
  have hmu := tilde_inj h3 h3'
  subst hmu
  rcases h4 with ⟨rfl, rfl⟩ | ⟨_, rfl, rfl⟩ <;> rcases h4' with ⟨rfl, e⟩ | ⟨_, rfl, e⟩
  · rfl
  · simp at e
  · simp at e
  · rfl

theorem tildeD_iff {k : Nat} (hk2 : 2 ≤ k) {n : Int} (hn : 0 ≤ n) {x y : List Int} (h : Marked k x) :
    (∃ z, gTilde (n - k + 2) (n + k) x = some z ∧ typeSwap z k = y) ↔ TildeD k (n - k + 2) (n + k) x y := by
  obtain ⟨mu, h1, h2⟩ := h
  constructor
  · rintro ⟨z, hz, rfl⟩
    obtain ⟨nt, h3, h4⟩ := (gTilde_typed hk2 hn h1 h2).1 hz
    refine ⟨mu, nt, fun hh => by have := h1.2 0 hh; omega, h3, ?_⟩
    have hr := tilde_reduced h3 h1
    have hm := tilde_mem hk2 h3
    rcases h4 with ⟨rfl, rfl⟩ | ⟨hk, rfl, rfl⟩
    · by_cases hk : (k : Int) ∈ x
      · exact Or.inr (Or.inl ⟨hk, rfl, typeSwap_of_mem hr (hm.1 hk)⟩)
      · exact Or.inl ⟨hk, rfl, typeSwap_of_not_mem hr (fun hh => hk (hm.2 hh))⟩
    · exact Or.inr (Or.inr ⟨hk, rfl, typeSwap_append⟩)
  · rintro ⟨mu', nt, h0, h3, h4⟩
    have hred : ReducedPart mu' := by
      rcases h2 with rfl | ⟨hk, rfl⟩
      · rcases h4 with ⟨_, rfl, _⟩ | ⟨_, rfl, _⟩ | ⟨_, rfl, _⟩
        · exact h1
        · exact h1
        · have := h1.2 0 (by simp); omega
      · rcases h4 with ⟨_, rfl, _⟩ | ⟨_, rfl, _⟩ | ⟨_, e, _⟩
        · simp at h0
        · simp at h0
        · rw [← List.append_cancel_right e]; exact h1
    have hr := tilde_reduced h3 hred
    have hm := tilde_mem hk2 h3
    rcases h4 with ⟨hk, rfl, rfl⟩ | ⟨hk, rfl, rfl⟩ | ⟨hk, rfl, rfl⟩
    · exact ⟨y, (gTilde_typed hk2 hn hred (Or.inl rfl)).2 ⟨y, h3, Or.inl ⟨rfl, rfl⟩⟩,
        typeSwap_of_not_mem hr (fun hh => hk (hm.2 hh))⟩
    · exact ⟨nt, (gTilde_typed hk2 hn hred (Or.inl rfl)).2 ⟨nt, h3, Or.inl ⟨rfl, rfl⟩⟩,
        typeSwap_of_mem hr (hm.1 hk)⟩
    · exact ⟨y ++ [0], (gTilde_typed hk2 hn hred (Or.inr ⟨hk, rfl⟩)).2 ⟨y, h3, Or.inr ⟨hk, rfl, rfl⟩⟩,
        typeSwap_append⟩

theorem TermD.marked {k : Nat} {n p : Int} {lam x : List Int} {c : ℚ} (h : TermD k n p lam x c) : Marked k x := by
  obtain ⟨mu, h1, _, _, _, h2, _⟩ := h
  exact ⟨mu, h1, h2⟩

theorem typed_tail {k : Nat} {m : Nat} {n c : Int} {lam : List Int} (ht : TypedClass k m c lam)
    (hh : part lam 0 = n + k) (hn : k = 0 ∨ 0 < n) : TypedClass k m c lam.tail := by
  obtain ⟨mu, h1, h2, h3, h4⟩ := ht
  have hrect : ∀ l : List Int, l.Sublist mu → InRect l m c := fun l hl =>
    ⟨le_trans hl.length_le h3.1, fun x hx => h3.2 x (hl.subset hx)⟩
  rcases h4 with rfl | ⟨hk, rfl⟩
  · exact ⟨lam.tail, reducedPart_tail h1, h2.sublist (List.tail_sublist _), hrect _ (List.tail_sublist _), Or.inl rfl⟩
  · refine ⟨mu.tail, reducedPart_tail h1, h2.sublist (List.tail_sublist _), hrect _ (List.tail_sublist _), Or.inr ?_⟩
    cases mu with
    | nil => cases hk
    | cons y mu =>
      have hy : y = n + k := hh
      refine ⟨?_, rfl⟩
      rcases List.mem_cons.1 hk with hk' | hk'
      · have := h1.2 y (by simp); omega
      · exact hk'

theorem tail_ret_D (p : Int) {k : Nat} {n : Int} {lam : List Int} (h : InBox k n 1 lam) (hn : 0 ≤ n)
    (hr : 0 ≤ n + 1 - k) {m : Nat} {c : Int} (ht : TypedClass k m c lam.tail)
    {f : Poly → Except PyErr Poly} {T : Mono → List Int → ℚ → Prop}
    (hf : ∀ z, IsTerms (Pure (fun y c => TermD k n p lam.tail ((n + k) :: y) c)) z → RetTerms T (f z)) :
    RetTerms T (do
      let w ← pieriD p lam.tail k n
      let z ← Poly.apply (fun x => .ok (partStar x (n + k))) w
      f z) := by
  refine (pieriD_ret p (h.tail (by omega)) hn hr ht).bind (fun w hw => ?_)
  refine RetTerms.bind (isTerms_apply hw (f := fun x => .ok (partStar x (n + k))) (gStar (n + k))
    (fun x c _ => by rw [partStar_opt]) (fun x c x' c' y _ _ h1 h2 => by rw [gStar_some] at h1 h2; rw [h1, h2]))
    (fun z hz => hf z (hz.congr (fun qs y c => ?_)))
  unfold Pure
  refine and_congr_right (fun _ => ?_)
  constructor
  · rintro ⟨x, h1, h2⟩; rw [gStar_some] at h2; rw [← h2]; exact h1
  · intro h1; exact ⟨_, h1, gStar_some.2 rfl⟩

/-- the terms of `qpieri` in type D for `k ≠ 1` -/
def QTermD (k : Nat) (n p : Int) (lam : List Int) (qs : Mono) (x : List Int) (c : ℚ) : Prop :=
  (qs = [] ∧ TermD k n p lam x c) ∨
  (0 < k ∧ qs = [.q] ∧ ∃ nu, TermD k (n + 1) p lam nu c ∧ TildeD k (n - k + 2) (n + k) nu x) ∨
  (qs = (if k = 0 then [.q] else [.q, .q]) ∧ part lam 0 = n + k ∧ TermD k n p lam.tail ((n + k) :: x) c)

theorem qpieriD_ret (ord : List Int → List Int) (p : Int) {k : Nat} (hk1 : k ≠ 1) {n : Int} {lam : List Int}
    (h : InBox k n 1 lam) (hn : 0 ≤ n) (hr : 0 ≤ n + 1 - k) (hm : k = 0 ∨ 0 < n + 1 - k)
    {m : Nat} {c : Int} (ht : TypedClass k m c lam) :
    RetTerms (QTermD k n p lam) (qpieriD ord p lam k n) := by
  unfold qpieriD
  refine (pieriD_ret p h hn hr ht).bind (fun w hw => ?_)
  have hlast : (¬ (lam.length > 0 ∧ at' lam 0 = n + k)) → part lam 0 = n + k → ∀ x c,
      ¬ TermD k n p lam.tail ((n + k) :: x) c := by
    intro h1 h2 x c h3
    rw [← at'_eq_part] at h2
    obtain ⟨mu, r1, _, _, _, r2, _⟩ := h3
    have h4 : 0 < n + (k : Int) := by
      have : mu ≠ [] := by
        rintro rfl
        rcases r2 with r2 | ⟨r2, _⟩
        · cases r2
        · cases r2
      cases mu with
      | nil => exact absurd rfl this
      | cons a mu =>
        have ha := r1.2 a (by simp)
        rcases r2 with r2 | ⟨_, r2⟩
        · injection r2 with e _; omega
        · injection r2 with e _; omega
    cases lam with
    | nil => simp [at'] at h2; omega
    | cons a l => exact h1 ⟨by simp, h2⟩
  by_cases hk : k = 0
  · rw [if_pos hk]
    split
    · rename_i hc
      refine tail_ret_D p h hn hr (typed_tail ht (by rw [← at'_eq_part]; exact hc.2) (by omega))
        (fun z hz => .ok ((isTerms_add hw (isTerms_q hz) ?_).congr ?_))
      · rintro qs x c qs' x' c' ⟨rfl, _⟩ ⟨rfl, _⟩; simp
      · intro qs x c
        unfold QTermD Pure
        rw [if_pos hk, ← at'_eq_part]
        constructor
        · rintro (h1 | h1)
          · exact Or.inl h1
          · exact Or.inr (Or.inr ⟨h1.1, hc.2, h1.2⟩)
        · rintro (h1 | h1 | h1)
          · exact Or.inl h1
          · omega
          · exact Or.inr ⟨h1.1, h1.2.2⟩
    · rename_i hc
      refine .ok (hw.congr (fun qs x c => ?_))
      unfold QTermD Pure
      constructor
      · exact Or.inl
      · rintro (h1 | h1 | h1)
        · exact h1
        · omega
        · exact absurd h1.2.2 (hlast hc h1.2.1 x c)
  · rw [if_neg hk, if_neg (by omega), if_neg hk1]
    have last : ∀ (w : Poly) (T : Mono → List Int → ℚ → Prop), IsTerms T w → (∀ qs x c, T qs x c → qs = [] ∨ qs = [.q]) →
        RetTerms (fun qs x c => T qs x c ∨ (qs = [.q, .q] ∧ part lam 0 = n + k ∧ TermD k n p lam.tail ((n + k) :: x) c))
          (if lam.length > 0 ∧ at' lam 0 = n + k then do
            let v ← pieriD p lam.tail k n
            let z ← Poly.apply (fun x => .ok (partStar x (n + k))) v
            .ok (Poly.add w (Poly.mul (Poly.pow (Poly.sym .q) 2) z))
          else .ok w) := by
      intro w T hw hT
      split
      · rename_i hc
        refine tail_ret_D p h hn hr (typed_tail ht (by rw [← at'_eq_part]; exact hc.2) (by omega))
          (fun z hz => .ok ((isTerms_add hw (isTerms_qq hz) ?_).congr ?_))
        · rintro qs x c qs' x' c' h1 ⟨rfl, _⟩
          rcases hT _ _ _ h1 with rfl | rfl <;> simp
        · intro qs x c
          rw [← at'_eq_part]
          exact or_congr_right ⟨fun h1 => ⟨h1.1, hc.2, h1.2⟩, fun h1 => ⟨h1.1, h1.2.2⟩⟩
      · rename_i hc
        refine .ok (hw.congr (fun qs x c => ?_))
        constructor
        · exact Or.inl
        · rintro (h1 | h1)
          · exact h1
          · exact absurd h1.2.2 (hlast hc h1.2.1 x c)
    have hQ : ∀ qs x c, QTermD k n p lam qs x c ↔ (Pure (TermD k n p lam) qs x c ∨
        (qs = [.q] ∧ ∃ nu, TermD k (n + 1) p lam nu c ∧ TildeD k (n - k + 2) (n + k) nu x)) ∨
        (qs = [.q, .q] ∧ part lam 0 = n + k ∧ TermD k n p lam.tail ((n + k) :: x) c) := by
      intro qs x c
      unfold QTermD Pure
      rw [if_neg hk, or_assoc]
      have : 0 < k := by omega
      simp only [this, true_and]
    have hk2 : 2 ≤ k := by omega
    dsimp only
    split
    · refine RetTerms.bind (pieriD_ret p (n := n + 1) (k := k) (lam := lam) (inBox_mono h) (by omega) (by omega) ht) ?_
      intro v hv
      refine RetTerms.bind (isTerms_apply hv (f := fun x => .ok (partTilde x (n - k + 2) (n + k)))
        (gTilde (n - k + 2) (n + k)) (fun x c _ => by rw [partTilde_opt])
        (fun x c x' c' y h1 h2 h3 h4 => gTilde_inj hk2 hn h1.marked h2.marked h3 h4)) ?_
      intro z hz
      refine RetTerms.bind (isTerms_apply hz (f := fun x => .ok (Poly.sym (.S (typeSwap x k))))
        (fun x => some (typeSwap x k)) (fun x c _ => rfl) ?_) ?_
      · rintro x c x' c' y ⟨u, h1, h2⟩ ⟨u', h1', h2'⟩ h3 h4
        injection h3 with h3
        injection h4 with h4
        exact Marked.swap_inj (gTilde_marked hk2 hn h1.marked h2) (gTilde_marked hk2 hn h1'.marked h2') (h3.trans h4.symm)
      · intro y hy
        refine (last _ _ (isTerms_add hw (isTerms_q hy) ?_) ?_).congr (fun qs x c => ?_)
        · rintro qs x c qs' x' c' ⟨rfl, _⟩ ⟨rfl, _⟩; simp
        · rintro qs x c (⟨rfl, _⟩ | ⟨rfl, _⟩) <;> simp
        · rw [hQ]
          refine or_congr_left (or_congr_right (and_congr_right (fun _ => ?_)))
          constructor
          · rintro ⟨z, ⟨nu, h1, h2⟩, h3⟩
            injection h3 with h3
            exact ⟨nu, h1, (tildeD_iff hk2 hn h1.marked).1 ⟨z, h2, h3⟩⟩
          · rintro ⟨nu, h1, h2⟩
            obtain ⟨z, h3, h4⟩ := (tildeD_iff hk2 hn h1.marked).2 h2
            exact ⟨z, ⟨nu, h1, h3⟩, by rw [h4]⟩
    · rename_i hc
      refine (last _ _ hw (fun qs x c h1 => Or.inl h1.1)).congr (fun qs x c => ?_)
      rw [hQ]
      refine or_congr_left ⟨Or.inl, ?_⟩
      rintro (h1 | ⟨_, nu, h1, h2⟩)
      · exact h1
      · exfalso
        apply hc
        obtain ⟨mu, r1, r2, _, r4, r5, _⟩ := h1
        obtain ⟨mu', nt, z1, z2, z3⟩ := h2
        have hl : (mu.length : Int) = n - k + 2 := by
          have hp : ∀ l : List Int, 0 ∉ l → l.filter (· ≠ 0) = l := by
            intro l hl
            rw [List.filter_eq_self]
            intro a ha
            simp
            rintro rfl
            exact hl ha
          have hmu0 : (0 : Int) ∉ mu := fun hh => by have := r1.2 0 hh; omega
          have e1 : nu.filter (· ≠ 0) = mu := by
            rcases r5 with rfl | ⟨_, rfl⟩
            · exact hp _ hmu0
            · rw [List.filter_append, hp _ hmu0]; simp
          have e2 : nu.filter (· ≠ 0) = mu' := by
            rcases z3 with ⟨_, rfl, _⟩ | ⟨_, rfl, _⟩ | ⟨_, rfl, _⟩
            · exact hp _ z1
            · exact hp _ z1
            · rw [List.filter_append, hp _ z1]; simp
          rw [← e1, e2]; exact z2.1
        have hst := (strips_iff h.isPart r2.isPart).1 r4.strips
        obtain ⟨r, hr'⟩ : ∃ r : Nat, n - k = r := ⟨(n - k).toNat, by omega⟩
        have h3 := (hst r).1
        have hlen : r + 1 < mu.length := by omega
        have h4 : 0 < part mu (r + 1) := by
          have : part mu (r + 1) = mu[r + 1] := by simp [part, hlen]
          rw [this]
          exact r1.2 _ (List.getElem_mem _)
        have h5 : r < lam.length := by
          by_contra hc
          rw [part_of_ge (l := lam) (by omega)] at h3
          omega
        refine ⟨by omega, ?_⟩
        rw [at'_eq_part, show (n - k).toNat = r by omega]
        omega

end Verif
