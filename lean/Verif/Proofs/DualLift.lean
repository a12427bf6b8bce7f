import Verif.Proofs.QPieriD1
/-!
# The dual classes in the quantum Pieri rule of `OG(n, 2n+2)`

`qpieri` with `k = 1` replaces a strict partition `mu` by its complement in `{1, ..., n}`, adds a first column of length `n`
and dualizes. The result is `mu` with its first row removed and a column of the length of that row added.
-/

namespace Verif
open Spec

/-- remove the first row and add a column of the same length -/
def wrap (mu : List Int) : List Int :=
  mu.tail.map (· + 1) ++ List.replicate (part mu 0 - (mu.length - 1)).toNat 1

theorem strict_lt_iff {l : List Int} (h : l.Pairwise (· > ·)) (v : Int) {i : Nat} (hi : i < l.length) :
    part l i < v ↔ l.length ≤ i + l.countP (fun x => decide (x < v)) := by
  induction l generalizing i with
  | nil => simp at hi
  | cons x l ih =>
    rw [List.pairwise_cons] at h
    by_cases hx : x < v
    · have hall : (x :: l).countP (fun y => decide (y < v)) = (x :: l).length := by
        rw [List.countP_eq_length]
        intro y hy
        rcases List.mem_cons.1 hy with rfl | hy
        · simpa using hx
        · have := h.1 y hy
          simp; omega
      rw [hall]
      constructor
      · intro _; omega
      · intro _
        rw [part_of_lt hi]
        have hm := List.getElem_mem hi
        rcases List.mem_cons.1 hm with he | hm
        · omega
        · have := h.1 _ hm; omega
    · rw [List.countP_cons_of_neg (by simpa using hx)]
      cases i with
      | zero =>
        have : l.countP (fun y => decide (y < v)) ≤ l.length := List.countP_le_length
        simp only [part, List.getD_cons_zero, List.length_cons]
        omega
      | succ i =>
        have := ih h.2 (i := i) (by simpa using hi)
        have e : part (x :: l) (i + 1) = part l i := by simp [part]
        rw [e, this, List.length_cons]
        omega

theorem strict_countP {l : List Int} (h : l.Pairwise (· > ·)) {i : Nat} (hi : i < l.length) :
    l.countP (fun x => decide (x < part l i)) + 1 + i = l.length := by
  induction l generalizing i with
  | nil => simp at hi
  | cons x l ih =>
    rw [List.pairwise_cons] at h
    cases i with
    | zero =>
      have e : part (x :: l) 0 = x := by simp [part]
      rw [e, List.countP_cons_of_neg (by simp), List.length_cons]
      have : l.countP (fun y => decide (y < x)) = l.length := by
        rw [List.countP_eq_length]
        intro y hy
        have := h.1 y hy
        simp; omega
      omega
    | succ i =>
      have e : part (x :: l) (i + 1) = part l i := by simp [part]
      have hi' : i < l.length := by simpa using hi
      have hx : ¬ x < part l i := by
        have := h.1 (part l i) (by rw [part_of_lt hi']; exact List.getElem_mem hi')
        omega
      rw [e, List.countP_cons_of_neg (by simpa using hx), List.length_cons]
      have := ih h.2 hi'
      omega

theorem compl_countP {ord : List Int → List Int} (ho : Ascending ord) {n s : Int} {mu : List Int}
    (h : StrictIn n s mu) {v : Int} (hv : 1 ≤ v) (hv2 : v ≤ n + 1) :
    (((complMu ord n mu).countP (fun x => decide (x < v)) + mu.countP (fun x => decide (x < v)) : Nat) : Int) = v - 1 := by
  have hs : ((pyRange 1 (n + 1)).filter (fun y => decide (y ∉ mu))).Pairwise (· < ·) := (pyRange_sorted 1 (n + 1)).filter _
  unfold complMu
  rw [ho _ hs, List.countP_reverse, List.countP_filter]
  have hperm : ((pyRange 1 (n + 1)).filter (fun y => decide (y ∈ mu))).Perm mu := by
    rw [List.perm_ext_iff_of_nodup ((pyRange_nodup _ _).filter _) (h.1.imp (fun hab => by omega))]
    intro y
    rw [List.mem_filter, mem_pyRange]
    constructor
    · intro hy; simpa using hy.2
    · intro hy; have := h.2.1 y hy; exact ⟨by omega, by simpa using hy⟩
  rw [← hperm.countP_eq, List.countP_filter]
  have hsplit : ∀ l : List Int, l.countP (fun a => decide (a < v) && decide (a ∉ mu)) +
      l.countP (fun a => decide (a < v) && decide (a ∈ mu)) = l.countP (fun a => decide (a < v)) := by
    intro l
    induction l with
    | nil => rfl
    | cons y l ih =>
      simp only [List.countP_cons]
      by_cases h1 : y < v <;> by_cases h2 : y ∈ mu <;> simp [h1, h2] <;> simp at ih <;> omega
  rw [hsplit]
  have : (pyRange 1 (n + 1)).countP (fun a => decide (a < v)) = (pyRange 1 v).length := by
    rw [List.countP_eq_length_filter]
    apply List.Perm.length_eq
    rw [List.perm_ext_iff_of_nodup ((pyRange_nodup _ _).filter _) (pyRange_nodup _ _)]
    intro y
    rw [List.mem_filter, mem_pyRange, mem_pyRange]
    simp only [decide_eq_true_eq]
    omega
  rw [this, pyRange_length]
  omega

/-- the combinatorics of a strict partition `mu` in `1..N` and its complement `c` -/
structure Compl (N : Nat) (mu c : List Int) : Prop where
  mu_strict : mu.Pairwise (· > ·)
  mu_mem : ∀ x ∈ mu, 0 < x ∧ x ≤ (N : Int)
  c_strict : c.Pairwise (· > ·)
  c_mem : ∀ x ∈ c, 0 < x ∧ x ≤ (N : Int)
  disj : ∀ x ∈ c, x ∉ mu
  len : mu.length + c.length = N
  count : ∀ v : Int, 1 ≤ v → v ≤ N + 1 →
    ((c.countP (fun x => decide (x < v)) + mu.countP (fun x => decide (x < v)) : Nat) : Int) = v - 1

theorem compl_of_strictIn {ord : List Int → List Int} (ho : Ascending ord) {N : Nat} {s : Int} {mu : List Int}
    (h : StrictIn N s mu) : Compl N mu (complMu ord N mu) := by
  obtain ⟨t, ht, _⟩ := compl_spec ho (by omega) h
  have hc : ∀ v : Int, 1 ≤ v → v ≤ N + 1 → _ := fun v h1 h2 => compl_countP ho h h1 h2
  refine ⟨h.1, h.2.1, ht.1, ht.2.1, ?_, ?_, hc⟩
  · intro x hx
    have hs : ((pyRange 1 ((N : Int) + 1)).filter (fun y => decide (y ∉ mu))).Pairwise (· < ·) :=
      (pyRange_sorted 1 ((N : Int) + 1)).filter _
    unfold complMu at hx
    rw [ho _ hs, List.mem_reverse, List.mem_filter] at hx
    simpa using hx.2
  · have := hc (N + 1) (by omega) (by omega)
    have e : ∀ l : List Int, (∀ x ∈ l, 0 < x ∧ x ≤ (N : Int)) → l.countP (fun x => decide (x < (N : Int) + 1)) = l.length := by
      intro l hl
      rw [List.countP_eq_length]
      intro x hx
      have := hl x hx
      simp; omega
    rw [e _ h.2.1, e _ ht.2.1] at this
    omega

namespace Compl
variable {N : Nat} {mu c : List Int} (h : Compl N mu c)
include h

theorem c_part {i : Nat} (hi : i < c.length) : 0 < part c i ∧ part c i ≤ N :=
  h.c_mem _ (by rw [part_of_lt hi]; exact List.getElem_mem hi)

theorem mu_part {i : Nat} (hi : i < mu.length) : 0 < part mu i ∧ part mu i ≤ N :=
  h.mu_mem _ (by rw [part_of_lt hi]; exact List.getElem_mem hi)

theorem ne {i j : Nat} (hi : i < c.length) (hj : j < mu.length) : part c i ≠ part mu j := by
  intro e
  exact h.disj (part c i) (by rw [part_of_lt hi]; exact List.getElem_mem hi)
    (by rw [e, part_of_lt hj]; exact List.getElem_mem hj)

/-- how many parts of `mu` are smaller than a part of the complement -/
theorem mu_count {i : Nat} (hi : i < c.length) :
    (mu.countP (fun x => decide (x < part c i)) : Int) = part c i - c.length + i := by
  have h1 := h.count (part c i) (by have := h.c_part hi; omega) (by have := h.c_part hi; omega)
  have h2 := strict_countP h.c_strict hi
  omega

theorem c_count {s : Nat} (hs : s < mu.length) :
    (c.countP (fun x => decide (x < part mu s)) : Int) = part mu s - mu.length + s := by
  have h1 := h.count (part mu s) (by have := h.mu_part hs; omega) (by have := h.mu_part hs; omega)
  have h2 := strict_countP h.mu_strict hs
  omega

theorem mu_lt_iff {i s : Nat} (hi : i < c.length) (hs : s < mu.length) :
    part mu s < part c i ↔ (N : Int) ≤ s + part c i + i := by
  rw [strict_lt_iff h.mu_strict _ hs]
  have := h.mu_count hi
  have := h.len
  omega

theorem c_lt_iff {i s : Nat} (hi : i < c.length) (hs : s < mu.length) :
    part c i < part mu s ↔ (N : Int) ≤ i + part mu s + s := by
  rw [strict_lt_iff h.c_strict _ hi]
  have := h.c_count hs
  have := h.len
  omega

theorem lift_eq : liftMu N c = c.map (· + 1) ++ List.replicate mu.length 1 := by
  unfold liftMu rep
  have := h.len
  rw [show ((N : Int) - c.length).toNat = mu.length by omega]

theorem lift_part_lt {i : Nat} (hi : i < c.length) : part (liftMu N c) i = part c i + 1 := by
  rw [h.lift_eq]
  unfold part
  rw [List.getD_append _ _ _ _ (by simpa using hi), List.getD_eq_getElem _ _ (by simpa using hi),
    List.getD_eq_getElem _ _ hi]
  simp

theorem lift_part_ge {i : Nat} (hi : c.length ≤ i) (hi2 : i < N) : part (liftMu N c) i = 1 := by
  have := h.len
  rw [h.lift_eq]
  unfold part
  rw [List.getD_append_right _ _ _ _ (by simpa using hi), List.getD_eq_getElem _ _ (by simp; omega)]
  simp

theorem lift_cnt {j : Nat} (hj : c.length ≤ j) (hj2 : j < N) :
    cnt (part (liftMu N c)) 1 (-1) j = part mu (N - j) := by
  have hlen := h.len
  have key : ∀ A : Nat, A ≤ c.length → (∀ i < c.length, (part c i + 1 + i ≤ j ↔ c.length ≤ i + A)) →
      cnt (part (liftMu N c)) 1 (-1) j = j - c.length + A := by
    intro A hA hi
    unfold cnt
    have e : (Finset.range j).filter (fun i => cond (part (liftMu N c)) 1 (-1) i j) =
        Finset.Ico (c.length - A) j := by
      ext i
      rw [Finset.mem_filter, Finset.mem_range, Finset.mem_Ico]
      unfold cond
      rw [h.lift_part_ge hj hj2]
      by_cases hic : i < c.length
      · rw [h.lift_part_lt hic]
        have := hi i hic
        omega
      · by_cases hij : i < j
        · rw [h.lift_part_ge (by omega) (by omega)]
          omega
        · omega
    rw [e, Nat.card_Ico]
    omega
  by_cases hjc : j = c.length
  · rw [key 0 (by omega)]
    · rw [part_of_ge (l := mu) (by omega)]; omega
    · intro i hi
      have := h.mu_count hi
      have h2 : mu.countP (fun x => decide (x < part c i)) ≤ mu.length := List.countP_le_length
      omega
  · have hs : N - j < mu.length := by omega
    rw [key (c.countP (fun x => decide (x < part mu (N - j)))) List.countP_le_length]
    · have := h.c_count hs
      omega
    · intro i hi
      rw [← strict_lt_iff h.c_strict _ hi]
      have h1 := h.mu_lt_iff hi hs
      have h2 := h.ne hi hs
      omega

/-- the index list of the lifted complement -/
theorem lift_seq (hmu : mu ≠ []) (hks : KSeq (part (liftMu N c)) 1) (nt : Int) {j : Nat} (hj : j < N) :
    seqD (part (liftMu N c)) 1 (N + 1) nt j =
      if j < c.length then N + 1 - part c j
      else if j = c.length then N + 1 + (if (nt + (j : Int)) % 2 = 1 then 0 else 1)
      else N + 2 + part mu (N - j) := by
  have hlen := h.len
  have hpos : 0 < mu.length := List.length_pos_of_ne_nil hmu
  by_cases h1 : j < c.length
  · have h2 := h.c_part h1
    rw [if_pos h1, seqD_gt hks (by rw [h.lift_part_lt h1]; omega), h.lift_part_lt h1]
    omega
  · rw [if_neg h1]
    by_cases h2 : j = c.length
    · have hf : FirstK (part (liftMu N c)) 1 j := by
        refine ⟨h.lift_part_ge (by omega) hj, ?_⟩
        by_cases h0 : j = 0
        · exact Or.inl h0
        · right
          rw [h.lift_part_lt (by omega)]
          have := h.c_part (i := j - 1) (by omega)
          omega
      rw [if_pos h2, seqD_first hks hf, offD_first hf]
    · have hf : ¬ FirstK (part (liftMu N c)) 1 j := by
        rintro ⟨_, h3 | h3⟩
        · omega
        · rw [h.lift_part_ge (by omega) (by omega)] at h3
          omega
      rw [if_neg h2]
      unfold seqD
      rw [offD_other (by rw [h.lift_part_ge (by omega) hj]) hf, h.lift_cnt (by omega) hj, h.lift_part_ge (by omega) hj]
      omega

/-- the dual of that index list -/
theorem dual_seq (hmu : mu ≠ []) (hks : KSeq (part (liftMu N c)) 1) (nt : Int) (q : Nat → Int)
    (hq : ∀ j < N, q j = seqD (part (liftMu N c)) 1 (N + 1) nt j) {j : Nat} (hj : j < N) :
    dualSeqD q N (N + 1) j =
      if j + 1 < mu.length then N + 1 - part mu (j + 1)
      else if j + 1 = mu.length then N + 1 + (if (nt + (mu.length : Int)) % 2 = 1 then 0 else 1)
      else N + 2 + part c (N - 1 - j) := by
  have hlen := h.len
  have hpos : 0 < mu.length := List.length_pos_of_ne_nil hmu
  have e := h.lift_seq hmu hks nt (j := N - 1 - j) (by omega)
  rw [← hq _ (by omega)] at e
  have sw : dualSeqD q N (N + 1) j = if ((N : Int) + 1) % 2 = 1 then swapMid (N + 1) (2 * (N + 1) + 1 - q (N - 1 - j))
      else 2 * (N + 1) + 1 - q (N - 1 - j) := rfl
  rw [sw]
  by_cases h1 : j + 1 < mu.length
  · rw [if_neg (by omega), if_neg (by omega), show N - (N - 1 - j) = j + 1 by omega] at e
    rw [if_pos h1, e]
    have := h.mu_part h1
    unfold swapMid
    split
    · rw [if_neg (by omega), if_neg (by omega)]; omega
    · omega
  · rw [if_neg h1]
    by_cases h2 : j + 1 = mu.length
    · have hc : ((N - 1 - j : Nat) : Int) = N - mu.length := by omega
      rw [if_neg (by omega), if_pos (by omega), hc] at e
      rw [if_pos h2]
      unfold swapMid
      by_cases h3 : ((N : Int) + 1) % 2 = 1
      · rw [if_pos h3]
        by_cases h4 : (nt + (mu.length : Int)) % 2 = 1
        · rw [if_pos (by omega)] at e
          rw [if_pos h4, e, if_neg (by omega), if_pos (by omega)]; omega
        · rw [if_neg (by omega)] at e
          rw [if_neg h4, e, if_pos (by omega)]
      · rw [if_neg h3]
        by_cases h4 : (nt + (mu.length : Int)) % 2 = 1
        · rw [if_neg (by omega)] at e
          rw [if_pos h4, e]; omega
        · rw [if_pos (by omega)] at e
          rw [if_neg h4, e]; omega
    · rw [if_pos (by omega)] at e
      rw [if_neg h2, e]
      have := h.c_part (i := N - 1 - j) (by omega)
      unfold swapMid
      split
      · rw [if_neg (by omega), if_neg (by omega)]; omega
      · omega

theorem wrap_part (hmu : mu ≠ []) (j : Nat) : part (wrap mu) j =
    if j + 1 < mu.length then part mu (j + 1) + 1 else if (j : Int) < part mu 0 then 1 else 0 := by
  have hpos : 0 < mu.length := List.length_pos_of_ne_nil hmu
  have e : ∀ i, part mu.tail i = part mu (i + 1) := by
    intro i
    unfold part
    cases mu <;> simp
  have h0 : (mu.length : Int) ≤ part mu 0 := by
    have := h.c_count hpos
    omega
  unfold wrap
  generalize part mu 0 = z at *
  by_cases h1 : j + 1 < mu.length
  · rw [if_pos h1, ← e]
    have hj : j < mu.tail.length := by simp; omega
    unfold part
    rw [List.getD_append _ _ _ _ (by simpa using hj), List.getD_eq_getElem _ _ (by simpa using hj),
      List.getD_eq_getElem _ _ hj]
    simp
  · rw [if_neg h1]
    have hl : (mu.tail.map (· + 1)).length = mu.length - 1 := by simp
    conv_lhs => unfold part
    rw [List.getD_append_right _ _ _ _ (by rw [hl]; omega), hl]
    by_cases h2 : (j : Int) < z
    · rw [if_pos h2, List.getD_eq_getElem _ _ (by simp; omega)]
      simp
    · rw [if_neg h2, List.getD_eq_default _ _ (by simp; omega)]

theorem wrap_reduced (hmu : mu ≠ []) : ReducedPart (wrap mu) ∧ (wrap mu).length ≤ N ∧ (1 : Int) ∈ wrap mu := by
  have hpos : 0 < mu.length := List.length_pos_of_ne_nil hmu
  have h0 : (mu.length : Int) ≤ part mu 0 := by
    have := h.c_count hpos
    omega
  have h1 := h.mu_part hpos
  have hsub : mu.tail.Sublist mu := List.tail_sublist mu
  refine ⟨⟨?_, ?_⟩, ?_, ?_⟩
  · unfold wrap
    rw [List.pairwise_append]
    refine ⟨?_, ?_, ?_⟩
    · rw [List.pairwise_map]; exact (h.mu_strict.sublist hsub).imp (fun hab => by omega)
    · rw [List.pairwise_replicate]; right; exact le_refl _
    · intro a ha b hb
      obtain ⟨y, hy, rfl⟩ := List.mem_map.1 ha
      have := h.mu_mem y (hsub.subset hy)
      have := List.eq_of_mem_replicate hb
      omega
  · intro x hx
    unfold wrap at hx
    rcases List.mem_append.1 hx with hx | hx
    · obtain ⟨y, hy, rfl⟩ := List.mem_map.1 hx
      have := h.mu_mem y (hsub.subset hy)
      omega
    · have := List.eq_of_mem_replicate hx; omega
  · unfold wrap
    simp
    omega
  · unfold wrap
    rw [List.mem_append]
    right
    rw [List.mem_replicate]
    exact ⟨by omega, rfl⟩

/-- the parts of the dual class -/
theorem dual_back (hmu : mu ≠ []) (p : Nat → Int) (hiso : IsoSeq p N (2 * (N + 1))) (b : Int) (hb : b = 0 ∨ b = 1)
    (hp : ∀ j < N, p j = if j + 1 < mu.length then N + 1 - part mu (j + 1)
      else if j + 1 = mu.length then N + 1 + b else N + 2 + part c (N - 1 - j)) {j : Nat} (hj : j < N) :
    backD p 1 (N + 1) j = part (wrap mu) j := by
  have hlen := h.len
  have hpos : 0 < mu.length := List.length_pos_of_ne_nil hmu
  have h0 : (mu.length : Int) ≤ part mu 0 := by
    have := h.c_count hpos
    omega
  rw [h.wrap_part hmu]
  by_cases h1 : j + 1 < mu.length
  · have e : p j = N + 1 - part mu (j + 1) := by rw [hp j hj, if_pos h1]
    have := h.mu_part h1
    rw [if_pos h1, backD_ge hiso hj (by omega), e]
    omega
  · rw [if_neg h1]
    by_cases h2 : j + 1 = mu.length
    · have e : p j = N + 1 + b := by rw [hp j hj, if_neg h1, if_pos h2]
      rw [if_pos (by omega), backD_mid hiso hj (by omega)]
    · have e : p j = N + 2 + part c (N - 1 - j) := by rw [hp j hj, if_neg h1, if_neg h2]
      have hc : N - 1 - j < c.length := by omega
      have hcp := h.c_part hc
      have hB := h.mu_count hc
      rw [(backD_le' hiso hj (by omega)).1]
      have ed : dcnt p (2 * (N + 1) + 1) j = ((j - (mu.length - 1 - mu.countP (fun x => decide (x < part c (N - 1 - j)))) : Nat) : Int) := by
        unfold dcnt
        have e2 : (Finset.range j).filter (fun i => p i + p j > 2 * (N + 1) + 1) =
            Finset.Ico (mu.length - 1 - mu.countP (fun x => decide (x < part c (N - 1 - j)))) j := by
          ext i
          rw [Finset.mem_filter, Finset.mem_range, Finset.mem_Ico, e]
          by_cases hi : i < j
          · rw [hp i (by omega)]
            by_cases h3 : i + 1 < mu.length
            · rw [if_pos h3]
              have := strict_lt_iff h.mu_strict (part c (N - 1 - j)) h3
              omega
            · rw [if_neg h3]
              by_cases h4 : i + 1 = mu.length
              · rw [if_pos h4]; omega
              · rw [if_neg h4]
                have := h.c_part (i := N - 1 - i) (by omega)
                omega
          · omega
        rw [e2, Nat.card_Ico]
      unfold backC
      rw [ed, e]
      have hl0 := strict_lt_iff h.mu_strict (part c (N - 1 - j)) hpos
      have hc0 := h.c_lt_iff hc hpos
      have hne := h.ne hc hpos
      have hle : mu.countP (fun x => decide (x < part c (N - 1 - j))) ≤ mu.length := List.countP_le_length
      split
      · omega
      · omega

end Compl

theorem mkOG_one {n : Int} (hn : 1 ≤ n) : mkOG n (2 * n + 2) = .ok ⟨.D, 1, n⟩ := by
  unfold mkOG
  rw [if_neg (by omega), if_neg (by omega)]
  congr 2 <;> omega

/-- dualizing the lifted complement; the type is exchanged -/
theorem dual_lift {ord : List Int → List Int} (ho : Ascending ord) {n s : Int} (hn : 1 ≤ n) {mu : List Int}
    (h : StrictIn n s mu) (hmu : mu ≠ []) (e : List Int) (he : e = [] ∨ e = [0]) :
    (Space.mk .D 1 n).dualize (liftMu n (complMu ord n mu) ++ e) =
      .ok (wrap mu ++ (if e = [] then [0] else [])) := by
  obtain ⟨N, rfl⟩ : ∃ N : Nat, n = N := ⟨n.toNat, by omega⟩
  have C := compl_of_strictIn ho h
  obtain ⟨t, ht, _⟩ := compl_spec ho (by omega) h
  generalize hc : complMu ord N mu = c at *
  have hlen := C.len
  have hpos : 0 < mu.length := List.length_pos_of_ne_nil hmu
  obtain ⟨h1, h2, h3, h4, _⟩ := lift_spec (by omega) ht
  have hcls : ClsD 1 N (t + N) (liftMu N c ++ e) := by
    rcases he with rfl | rfl
    · rw [List.append_nil]; exact ⟨_, h1, h2, h3, Or.inl rfl⟩
    · exact ⟨_, h1, h2, h3, Or.inr ⟨by simpa using h4 (by omega), rfl⟩⟩
  have hks : KSeq (part (liftMu N c)) 1 := kseq_of_kstrict (by omega) (reduced_isPart h1) h2.kstrict
  have hX := mkOG_one hn
  obtain ⟨a, _⟩ := typed_of_cls (m := N) (c := 2 * N + 1 - N) (by push_cast; omega) (by push_cast; omega) hcls
  obtain ⟨hi, hi2, _, _⟩ := C11_part_index_part (N : Int) N (by omega) _ hX (liftMu N c ++ e) (by
    rw [show (N : Int) + 1 - N = ((1 : Nat) : Int) by push_cast; omega]; exact a)
  have hs := isoSeq_of_indexList hi hi2
  rw [Int.toNat_natCast, show 2 * (N : Int) + 2 = 2 * (N + 1) by omega] at hs
  have hlist : (Space.mk .D 1 N).part2index (liftMu N c ++ e) =
      (List.range N).map (seqD (part (liftMu N c)) 1 (N + 1) (markD (liftMu N c ++ e) (N + 1))) := by
    show part2indexD _ 1 N = _
    rw [part2indexD_eq, show ((N : Int) + 1 - 1).toNat = N by omega]
    have : part (liftMu N c ++ e) = part (liftMu N c) := by
      funext i
      rcases he with rfl | rfl
      · rw [List.append_nil]
      · exact part_append_zero _ i
    rw [this]
  have hq : ∀ j < N, part ((Space.mk .D 1 N).part2index (liftMu N c ++ e)) j =
      seqD (part (liftMu N c)) 1 (N + 1) (markD (liftMu N c ++ e) (N + 1)) j := by
    intro j hj
    rw [hlist, part_map_range _ _ _ hj]
  have hiso := dualSeqD_iso hs
  have hnt : markD (liftMu N c ++ e) (N + 1) = if e = [] then (N : Int) + 1 else N + 2 := by
    rcases he with rfl | rfl
    · rw [List.append_nil, markD_reduced h1, if_pos rfl]
    · rw [markD_marked, if_neg (by simp)]; omega
  generalize markD (liftMu N c ++ e) (N + 1) = nt at *
  have hp := fun j (hj : j < N) => C.dual_seq hmu hks nt _ hq hj
  generalize hP : dualSeqD (part ((Space.mk .D 1 N).part2index (liftMu N c ++ e))) N (N + 1) = p at *
  have hback := fun j (hj : j < N) => C.dual_back hmu p hiso _ (by split <;> simp) hp hj
  obtain ⟨w1, w2, w3⟩ := C.wrap_reduced hmu
  have hd : (Space.mk .D 1 N).dualize (liftMu N c ++ e) = index2partD ((List.range N).map p) 1 N := by
    simp only [Space.dualize, Space.ambient, decide_true]
    show index2partD _ 1 N = _
    have hN : 2 * (N : Int) + 2 = 2 * (N + 1) := by omega
    rw [hN, dualizeIndex_D' (m := N) (by rw [hi.1]; simp), hP]
  rw [hd]
  have heq := index2partD_eq (p := p) (k := 1) (n := N) (by rw [show ((N : Int) + 1 - 1).toNat = N by omega]; exact hiso)
  rw [show ((N : Int) + 1 - 1).toNat = N by omega] at heq
  rw [heq]
  dsimp only
  rw [partClip_map_part w1 w2 hback, if_neg (by simpa using w3)]
  -- the type
  have hmid := hp (mu.length - 1) (by omega)
  rw [if_neg (by omega), if_pos (by omega)] at hmid
  have hsmall : ∀ i, i + 1 < mu.length → p i ≤ N := by
    intro i hi'
    rw [hp i (by omega), if_pos hi']
    have := C.mu_part hi'
    omega
  have hlarge : ∀ i < N, mu.length ≤ i → N + 2 < p i := by
    intro i hi' hi2'
    rw [hp i hi', if_neg (by omega), if_neg (by omega)]
    have := C.c_part (i := N - 1 - i) (by omega)
    omega
  have hmiss := missing_length (J := if (nt + (mu.length : Int)) % 2 = 1 then mu.length else mu.length - 1)
    hiso (by omega) (by split <;> omega) (by
      intro i hi'
      by_cases hi1 : i + 1 < mu.length
      · have := hsmall i hi1
        split <;> omega
      · by_cases hi2 : mu.length ≤ i
        · have := hlarge i hi' hi2
          split <;> omega
        · have : i = mu.length - 1 := by omega
          subst this
          rw [hmid]
          split <;> omega)
  generalize ((pyRange 1 ((N : Int) + 1 + 1)).filter (fun x => decide (x ∉ (List.range N).map p))).length = q at hmiss ⊢
  have hne : ¬ (([0] : List Int) = []) := by simp
  rcases he with rfl | rfl
  · rw [if_pos rfl] at hnt
    have hq1 : q % 2 = 1 := by split at hmiss <;> omega
    rw [if_pos hq1, if_pos rfl]
  · rw [if_neg hne] at hnt
    have hq1 : ¬ q % 2 = 1 := by split at hmiss <;> omega
    rw [if_neg hq1, if_neg hne, List.append_nil]

end Verif
