import Verif.Proofs.PieriD
import Verif.Props.Maps
/-!
# Degrees in the quantum Pieri rules of types B and D
-/

namespace Verif
open Spec MvPolynomial

/-- classes of type B and C of size `s` -/
def ClsB (k : Nat) (n s : Int) (x : List Int) : Prop := ReducedPart x ∧ InBox k n 0 x ∧ x.sum = s

/-- classes of type D of size `s` -/
def ClsD (k : Nat) (n s : Int) (x : List Int) : Prop :=
  ∃ mu, ReducedPart mu ∧ InBox k n 1 mu ∧ mu.sum = s ∧ (x = mu ∨ ((k : Int) ∈ mu ∧ x = mu ++ [0]))

theorem pieriB_all (p : Int) {k : Nat} {n : Int} {lam : List Int} (h : InBox k n 0 lam) (hn : 0 ≤ n)
    (hr : 0 ≤ n - k) : RetAll (OneS (ClsB k n (lam.sum + p))) (pieriB p lam k n) := by
  obtain ⟨w, R, h1, h2, h3, h4, _, h5⟩ := pieriB_terms p h hn hr
  refine ⟨w, h1, h2, ?_⟩
  intro m hm
  obtain ⟨t, ht, rfl⟩ := List.mem_map.1 hm
  obtain ⟨mu, hmu, rfl⟩ := List.mem_map.1 (h5.mem_iff.1 ht)
  obtain ⟨a, b, c, _⟩ := (h4 mu).1 hmu
  exact ⟨mu, rfl, a, b, c⟩

theorem pieriD_all (p : Int) {k : Nat} {n : Int} {lam : List Int} (h : InBox k n 1 lam) (hn : 0 ≤ n)
    (hr : 0 ≤ n + 1 - k) : RetAll (OneS (ClsD k n (lam.sum + p.natAbs))) (pieriD p lam k n) := by
  obtain ⟨w, R, h1, h2, h3, h4, h5⟩ := pieriD_terms p h hn hr
  refine ⟨w, h1, h2, ?_⟩
  intro m hm
  obtain ⟨t, ht, rfl⟩ := List.mem_map.1 hm
  obtain ⟨mu, hmu, ht⟩ := List.mem_flatMap.1 (h5.mem_iff.1 ht)
  obtain ⟨a, b, c, _⟩ := (h4 mu).1 hmu
  rcases ((dcoef_terms _ _ _ _ _).2 t ht).2 with e | ⟨hk, e⟩
  · exact ⟨mu, e, mu, a, b, c, Or.inl rfl⟩
  · exact ⟨mu ++ [0], e, mu, a, b, c, Or.inr ⟨hk, rfl⟩⟩

theorem InBox.tail {k : Nat} {n d : Int} {l : List Int} (hn : 0 ≤ n + k) (h : InBox k n d l) : InBox k n d l.tail := by
  cases l with
  | nil => exact h
  | cons x l =>
    have hs := List.pairwise_cons.1 h.kstrict
    have hp := List.pairwise_cons.1 h.isPart.1
    refine ⟨⟨hp.2, fun y hy => h.isPart.2 y (List.mem_of_mem_tail hy)⟩, hs.2, ?_, ?_⟩
    · intro r hr
      exact h.rows (r + 1) (by push_cast; omega)
    · cases l with
      | nil => simp [part]; omega
      | cons y l =>
        have h1 := hp.1 y (by simp)
        have h2 : x ≤ n + k := h.cols
        simp [part]; omega

theorem reducedPart_tail {l : List Int} (h : ReducedPart l) : ReducedPart l.tail :=
  ⟨h.1.tail, fun x hx => h.2 x (List.mem_of_mem_tail hx)⟩

theorem sum_tail {l : List Int} (h : l.length > 0) : l.tail.sum = l.sum - at' l 0 := by
  cases l with
  | nil => simp at h
  | cons x l => simp [at']

theorem star_B {k : Nat} {n s c : Int} (hn : 0 ≤ n) {x : List Int} (h : ClsB k n s x) :
    All (OneS (ClsB k n (s - c))) (partStar x c) := by
  unfold partStar
  split
  · exact all_nil _
  · rename_i hx
    push Not at hx
    refine all_sym ⟨_, rfl, reducedPart_tail h.1, h.2.1.tail (by omega), ?_⟩
    rw [sum_tail (by omega), h.2.2, hx.2]

theorem star_D {k : Nat} {n s : Int} (hn : 0 ≤ n) {x : List Int} (h : ClsD k n s x) :
    All (OneS (ClsD k n (s - (n + k)))) (partStar x (n + k)) := by
  unfold partStar
  split
  · exact all_nil _
  · rename_i hx
    push Not at hx
    obtain ⟨mu, h1, h2, h3, h4⟩ := h
    rcases h4 with rfl | ⟨hk, rfl⟩
    · refine all_sym ⟨_, rfl, x.tail, reducedPart_tail h1, h2.tail (by omega), ?_, Or.inl rfl⟩
      rw [sum_tail (by omega), h3, hx.2]
    · cases mu with
      | nil => cases hk
      | cons y mu =>
        have hy : y = n + k := hx.2
        refine all_sym ⟨_, rfl, mu, reducedPart_tail h1, h2.tail (by omega), ?_, Or.inr ⟨?_, rfl⟩⟩
        · simp at h3; omega
        · rcases List.mem_cons.1 hk with hk | hk
          · have h0 := h1.2 y (by simp)
            have h5 : y = 0 := h2.rows 0 (by omega)
            omega
          · exact hk

/-! ### `part_tilde` -/

theorem sum_ones : ∀ (l : List Int), (∀ x ∈ l, x = 1) → l.sum = l.length
  | [], _ => rfl
  | x :: l, h => by
    rw [List.sum_cons, sum_ones l (fun y hy => h y (by simp [hy])), h x (by simp)]
    push_cast [List.length_cons]; ring

theorem tilde_shape {mu : List Int} (h : ReducedPart mu) {r : Nat} (hr : 1 ≤ r) (hlen : r ≤ mu.length)
    (h1 : r < mu.length → at' mu r ≤ 1) :
    ((mu.take r).drop 1).sum = mu.sum - at' mu 0 - (mu.length - r) ∧ ReducedPart ((mu.take r).drop 1) ∧
      (∀ x ∈ mu, 1 < x → x ≠ at' mu 0 → x ∈ (mu.take r).drop 1) := by
  have hones : ∀ x ∈ mu.drop r, x = 1 := by
    intro x hx
    have h0 := h.2 x (List.mem_of_mem_drop hx)
    obtain ⟨i, hi, rfl⟩ := List.mem_iff_getElem.1 hx
    have hlt : r < mu.length := by rw [List.length_drop] at hi; omega
    have h2 := h1 hlt
    have h3 : at' mu r = mu[r] := by simp [at', hlt]
    rw [List.getElem_drop] at h0 ⊢
    rcases Nat.eq_zero_or_pos i with rfl | hi0
    · simp only [Nat.add_zero] at h0 ⊢; omega
    · have := List.pairwise_iff_getElem.1 h.1 r (r + i) hlt (by rw [List.length_drop] at hi; omega) (by omega)
      omega
  have hsum : mu.sum = (mu.take r).sum + (mu.drop r).sum := by
    conv_lhs => rw [← List.take_append_drop r mu]
    rw [List.sum_append]
  rw [sum_ones _ hones, List.length_drop] at hsum
  have hsub : ((mu.take r).drop 1).Sublist mu := (List.drop_sublist _ _).trans (List.take_sublist _ _)
  refine ⟨?_, ⟨h.1.sublist hsub, fun x hx => h.2 x (hsub.subset hx)⟩, ?_⟩
  · obtain ⟨s, rfl⟩ : ∃ s, r = s + 1 := ⟨r - 1, by omega⟩
    cases mu with
    | nil => simp at hlen
    | cons y mu =>
      simp [at'] at hsum ⊢
      push_cast [Nat.cast_sub (show s ≤ mu.length by simpa using hlen)] at hsum
      omega
  · intro x hx h1x hne
    obtain ⟨s, rfl⟩ : ∃ s, r = s + 1 := ⟨r - 1, by omega⟩
    cases mu with
    | nil => simp at hlen
    | cons y mu =>
      simp [at'] at hne
      rw [← List.take_append_drop (s + 1) (y :: mu)] at hx
      rcases List.mem_append.1 hx with hx | hx
      · simp at hx ⊢
        rcases hx with rfl | hx
        · exact absurd rfl hne
        · exact hx
      · have := hones x hx; omega

theorem inBox_sub {k : Nat} {n c d : Int} {l l' : List Int} (h : InBox k c d l) (hs : l'.Sublist l) (h0 : 0 ≤ n + k)
    (hr : (l'.length : Int) ≤ n + d - k) (hc : ∀ x ∈ l', x ≤ n + k) : InBox k n d l' := by
  refine ⟨⟨h.isPart.1.sublist hs, fun x hx => h.isPart.2 x (hs.subset hx)⟩, h.kstrict.sublist hs, ?_, ?_⟩
  · intro r hr'; exact part_of_ge (by omega)
  · cases l' with
    | nil => simp [part]; omega
    | cons x l' => simpa [part] using hc x (by simp)

theorem partLen_reduced {mu : List Int} (h : ReducedPart mu) : partLen mu = mu.length := by
  unfold partLen
  rw [partClip_of_noTrailing]
  intro h0
  have := h.2 _ (List.mem_of_getLast? h0)
  omega

theorem le_head {mu : List Int} (h : ReducedPart mu) : ∀ x ∈ mu, x ≤ at' mu 0 := by
  cases mu with
  | nil => simp
  | cons y mu =>
    intro x hx
    simp [at']
    rcases List.mem_cons.1 hx with rfl | hx
    · exact le_refl _
    · exact (List.pairwise_cons.1 h.1).1 x hx

theorem tilde_B {k : Nat} {n s : Int} (hr : 0 ≤ n - k) {x : List Int} (h : ClsB k (n + 1) s x) :
    All (OneS (ClsB k n (s - (n + k)))) (partTilde x (n - k + 1) (n + k)) := by
  obtain ⟨h1, h2, h3⟩ := h
  unfold partTilde
  rw [partLen_reduced h1]
  split
  · exact all_nil _
  · rename_i hc
    push Not at hc
    dsimp only
    split
    · exact all_nil _
    · split
      · exact all_nil _
      · rename_i hr0 hcond
        have hlen : x.length > 0 := by omega
        have h4 := hc.2 hlen
        have hz : ¬ (x.length > 0 ∧ last' x = 0) := fun hh => last'_reduced h1 hlen hh.2
        obtain ⟨a, b, _⟩ := tilde_shape h1 (r := (n - k + 1 + at' x 0 - (n + k)).toNat) (by omega) (by omega) (by
          intro hlt
          by_contra hgt
          exact hcond ⟨by omega, by omega, by omega⟩)
        rw [if_neg hz, List.append_nil]
        refine all_sym ⟨_, rfl, b, ?_, ?_⟩
        · refine inBox_sub h2 ((List.drop_sublist _ _).trans (List.take_sublist _ _)) (by omega) ?_ ?_
          · rw [List.length_drop, List.length_take]; omega
          · intro y hy
            have := le_head h1 y (List.mem_of_mem_take (List.mem_of_mem_drop hy))
            omega
        · rw [a, h3]; omega

theorem tilde_D {k : Nat} {n s : Int} (hk2 : 2 ≤ k) (hr : 0 ≤ n + 1 - k) {x : List Int} (h : ClsD k (n + 1) s x) :
    All (OneS (ClsD k n (s - (n + k)))) (partTilde x (n - k + 2) (n + k)) := by
  obtain ⟨mu, h1, h2, h3, hx⟩ := h
  have hpl : partLen x = mu.length := by
    rcases hx with rfl | ⟨_, rfl⟩
    · exact partLen_reduced h1
    · unfold partLen; rw [partClip_concat_zero]; exact partLen_reduced h1
  have hat : ∀ i, at' x i = at' mu i := by
    intro i
    rcases hx with rfl | ⟨_, rfl⟩
    · rfl
    · exact part_append_zero mu i
  have hxl : mu.length ≤ x.length := by
    rcases hx with rfl | ⟨_, rfl⟩ <;> simp
  unfold partTilde
  rw [hpl]
  split
  · exact all_nil _
  · rename_i hc
    push Not at hc
    dsimp only
    split
    · exact all_nil _
    · split
      · exact all_nil _
      · rename_i hr0 hcond
        rw [hat] at hr0 hcond
        rw [hat]
        have hlen : mu.length > 0 := by omega
        have h4 := hc.2 (by omega)
        rw [hat] at h4
        obtain ⟨a, b, c⟩ := tilde_shape h1 (r := (n - k + 2 + at' mu 0 - (n + k)).toNat) (by omega) (by omega) (by
          intro hlt
          by_contra hgt
          rw [hat] at hcond
          exact hcond ⟨by omega, by omega, by omega⟩)
        have hbox : InBox k n 1 ((mu.take (n - k + 2 + at' mu 0 - (n + k)).toNat).drop 1) := by
          refine inBox_sub h2 ((List.drop_sublist _ _).trans (List.take_sublist _ _)) (by omega) ?_ ?_
          · rw [List.length_drop, List.length_take]; omega
          · intro y hy
            have := le_head h1 y (List.mem_of_mem_take (List.mem_of_mem_drop hy))
            omega
        refine all_sym ⟨_, rfl, _, b, hbox, by rw [a, h3]; omega, ?_⟩
        rcases hx with rfl | ⟨hkm, rfl⟩
        · left
          have hz : ¬ (x.length > 0 ∧ last' x = 0) := fun hh => last'_reduced h1 hlen hh.2
          rw [if_neg hz, List.append_nil]
        · right
          refine ⟨c k hkm (by omega) (by omega), ?_⟩
          rw [if_pos ⟨by simp, by simp [last']⟩, List.take_append_of_le_length (by omega)]

theorem typeSwap_D {k : Nat} {n s : Int} {x : List Int} (h : ClsD k n s x) : ClsD k n s (typeSwap x k) := by
  obtain ⟨mu, h1, h2, h3, hx⟩ := h
  unfold typeSwap
  rcases hx with rfl | ⟨hkm, rfl⟩
  · split
    · rename_i h0
      rw [List.length_eq_zero_iff] at h0
      exact ⟨x, h1, h2, h3, Or.inl h0.symm⟩
    · rename_i h0
      have hl := last'_reduced h1 (by omega)
      simp only [if_neg hl]
      split
      · exact ⟨x, h1, h2, h3, Or.inl rfl⟩
      · rename_i hk
        exact ⟨x, h1, h2, h3, Or.inr ⟨by tauto, rfl⟩⟩
  · have e1 : last' (mu ++ [0]) = 0 := by simp [last']
    have e2 : (mu ++ [0]).dropLast = mu := by simp
    rw [if_neg (by simp), if_neg (by simp [hkm]), if_pos e1, e2]
    exact ⟨mu, h1, h2, h3, Or.inl rfl⟩

/-! ### Assembly -/

/-- monomials `q^d * S[nu]` with `P d nu` -/
def QTerm (P : Nat → List Int → Prop) (m : Mono) : Prop := ∃ d nu, m = List.replicate d Sym.q ++ [.S nu] ∧ P d nu

theorem qterm_zero {P : Nat → List Int → Prop} {Q : List Int → Prop} (h : ∀ x, Q x → P 0 x) {w : Poly}
    (hw : All (OneS Q) w) : All (QTerm P) w :=
  hw.mono (by rintro m ⟨x, rfl, hx⟩; exact ⟨0, x, rfl, h x hx⟩)

theorem qterm_one {P : Nat → List Int → Prop} {Q : List Int → Prop} (h : ∀ x, Q x → P 1 x) {w : Poly}
    (hw : All (OneS Q) w) : All (QTerm P) (Poly.mul (Poly.sym .q) w) :=
  all_mul (A := fun m => m = [Sym.q]) ⟨wf_sym _, fun m hm => supp_sym hm⟩ hw (by
    rintro _ _ rfl ⟨x, rfl, hx⟩
    exact ⟨1, x, by simp [Mono.mul, Mono.ins, Sym.code, listLt], h x hx⟩)

theorem qterm_two {P : Nat → List Int → Prop} {Q : List Int → Prop} (h : ∀ x, Q x → P 2 x) {w : Poly}
    (hw : All (OneS Q) w) : All (QTerm P) (Poly.mul (Poly.pow (Poly.sym .q) 2) w) := by
  have e : Poly.pow (Poly.sym .q) 2 = [([.q, .q], 1)] := by decide +kernel
  rw [e]
  refine all_mul (A := fun m => m = [Sym.q, Sym.q]) ⟨?_, by simp [supp]⟩ hw ?_
  · exact ⟨by simp, by simp [Sym.code, listLt]⟩
  · rintro _ _ rfl ⟨x, rfl, hx⟩
    exact ⟨2, x, by simp [Mono.mul, Mono.ins, Sym.code, listLt, List.replicate], h x hx⟩

theorem RetAll.bind {A Q : Mono → Prop} {r : Except PyErr Poly} {f : Poly → Except PyErr Poly} (h : RetAll A r)
    (hf : ∀ w, All A w → RetAll Q (f w)) : RetAll Q (r >>= f) := by
  obtain ⟨w, rfl, hw⟩ := h
  exact hf w hw

theorem RetAll.ok {Q : Mono → Prop} {w : Poly} (h : All Q w) : RetAll Q (.ok w) := ⟨w, rfl, h⟩

theorem RetAll.imp {A Q : Mono → Prop} {r : Except PyErr Poly} (h : RetAll A r) (hi : ∀ m, A m → Q m) :
    RetAll Q r := by
  obtain ⟨w, h1, h2⟩ := h
  exact ⟨w, h1, h2.mono hi⟩

/-- the degree of `q` for types B and D -/
def degBD (k : Nat) (n : Int) : Int := if k = 0 then 2 * n else n + k

theorem tail_B (p : Int) {k : Nat} {n : Int} {lam : List Int} (h : InBox k n 0 lam) (hn : 0 ≤ n)
    (hr : 0 ≤ n - k) (hc : lam.length > 0 ∧ at' lam 0 = n + k) {f : Poly → Except PyErr Poly} {Q : Mono → Prop}
    (hf : ∀ z, All (OneS (ClsB k n (lam.sum + p - 2 * (n + k)))) z → RetAll Q (f z)) :
    RetAll Q (do
      let w ← pieriB p lam.tail k n
      let z ← Poly.apply (fun x => .ok (partStar x (n + k))) w
      f z) := by
  refine (pieriB_all p (h.tail (by omega)) hn hr).bind (fun w hw => ?_)
  refine (apply_one (f := fun x => .ok (partStar x (n + k))) (Q := ClsB k n (lam.sum + p - 2 * (n + k))) hw
    (fun x hx => ?_)).bind hf
  have := star_B (c := n + k) hn hx
  rw [sum_tail hc.1, hc.2, show lam.sum - (n + k) + p - (n + k) = lam.sum + p - 2 * (n + k) by ring] at this
  exact .ok this

theorem qpieriB_all (p : Int) {k : Nat} {n : Int} {lam : List Int} (h : InBox k n 0 lam) (hn : 0 ≤ n)
    (hr : 0 ≤ n - k) (hm : k = 0 ∨ 0 < n - k) :
    RetAll (QTerm (fun d => ClsB k n (lam.sum + p - d * degBD k n))) (qpieriB p lam k n) := by
  unfold qpieriB
  refine (pieriB_all p h hn hr).bind (fun w hw => ?_)
  have hw := qterm_zero (P := fun d => ClsB k n (lam.sum + p - d * degBD k n)) (fun x hx => by simpa using hx) hw
  split
  · rename_i hk
    have hD : degBD k n = 2 * (n + k) := by simp [degBD, hk]
    split
    · rename_i hc
      refine tail_B p h hn hr hc (fun z hz => .ok (all_add hw (qterm_one (fun x hx => ?_) hz)))
      rw [hD]
      simpa using hx
    · exact .ok hw
  rw [if_neg (by omega)]
  · rename_i hk
    have hD : degBD k n = n + k := by simp [degBD, hk]
    have last : ∀ w, All (QTerm (fun d => ClsB k n (lam.sum + p - d * degBD k n))) w →
        RetAll (QTerm (fun d => ClsB k n (lam.sum + p - d * degBD k n)))
          (if lam.length > 0 ∧ at' lam 0 = n + k then do
            let v ← pieriB p lam.tail k n
            let z ← Poly.apply (fun x => .ok (partStar x (n + k))) v
            .ok (Poly.add w (Poly.mul (Poly.pow (Poly.sym .q) 2) z))
          else .ok w) := by
      intro w hw
      split
      · rename_i hc
        refine tail_B p h hn hr hc (fun z hz => .ok (all_add hw (qterm_two (fun x hx => ?_) hz)))
        rw [hD]
        simpa using hx
      · exact .ok hw
    dsimp only
    split
    · refine RetAll.bind (pieriB_all p (n := n + 1) (k := k) (lam := lam)
          ⟨h.isPart, h.kstrict, fun r hr => h.rows r (by omega), by have := h.cols; omega⟩ (by omega) (by omega)) ?_
      intro v hv
      refine RetAll.bind (apply_one hv (fun x hx => .ok (tilde_B hr hx))) ?_
      intro z hz
      refine last _ (all_add hw (qterm_one (fun x hx => ?_) hz))
      rw [hD]
      simpa using hx
    · exact last _ hw

theorem tail_D (p : Int) {k : Nat} {n : Int} {lam : List Int} (h : InBox k n 1 lam) (hn : 0 ≤ n)
    (hr : 0 ≤ n + 1 - k) (hc : lam.length > 0 ∧ at' lam 0 = n + k) {f : Poly → Except PyErr Poly} {Q : Mono → Prop}
    (hf : ∀ z, All (OneS (ClsD k n (lam.sum + p.natAbs - 2 * (n + k)))) z → RetAll Q (f z)) :
    RetAll Q (do
      let w ← pieriD p lam.tail k n
      let z ← Poly.apply (fun x => .ok (partStar x (n + k))) w
      f z) := by
  refine (pieriD_all p (h.tail (by omega)) hn hr).bind (fun w hw => ?_)
  refine (apply_one (f := fun x => .ok (partStar x (n + k))) (Q := ClsD k n (lam.sum + p.natAbs - 2 * (n + k))) hw
    (fun x hx => ?_)).bind hf
  have := star_D hn hx
  rw [sum_tail hc.1, hc.2, show lam.sum - (n + k) + (p.natAbs : Int) - (n + k) = lam.sum + p.natAbs - 2 * (n + k) by ring]
    at this
  exact .ok this

theorem qpieriD_all (ord : List Int → List Int) (p : Int) {k : Nat} (hk1 : k ≠ 1) {n : Int} {lam : List Int}
    (h : InBox k n 1 lam) (hn : 0 ≤ n) (hr : 0 ≤ n + 1 - k) (hm : k = 0 ∨ 0 < n + 1 - k) :
    RetAll (QTerm (fun d => ClsD k n (lam.sum + p.natAbs - d * degBD k n))) (qpieriD ord p lam k n) := by
  unfold qpieriD
  refine (pieriD_all p h hn hr).bind (fun w hw => ?_)
  have hw := qterm_zero (P := fun d => ClsD k n (lam.sum + p.natAbs - d * degBD k n)) (fun x hx => by simpa using hx) hw
  split
  · rename_i hk
    have hD : degBD k n = 2 * (n + k) := by simp [degBD, hk]
    split
    · rename_i hc
      refine tail_D p h hn hr hc (fun z hz => .ok (all_add hw (qterm_one (fun x hx => ?_) hz)))
      rw [hD]
      simpa using hx
    · exact .ok hw
  rename_i hk
  rw [if_neg (by omega)]
  have hD : degBD k n = n + k := by simp [degBD, hk]
  have last : ∀ w, All (QTerm (fun d => ClsD k n (lam.sum + p.natAbs - d * degBD k n))) w →
      RetAll (QTerm (fun d => ClsD k n (lam.sum + p.natAbs - d * degBD k n)))
        (if lam.length > 0 ∧ at' lam 0 = n + k then do
          let v ← pieriD p lam.tail k n
          let z ← Poly.apply (fun x => .ok (partStar x (n + k))) v
          .ok (Poly.add w (Poly.mul (Poly.pow (Poly.sym .q) 2) z))
        else .ok w) := by
    intro w hw
    split
    · rename_i hc
      refine tail_D p h hn hr hc (fun z hz => .ok (all_add hw (qterm_two (fun x hx => ?_) hz)))
      rw [hD]
      simpa using hx
    · exact .ok hw
  dsimp only
  split
  · refine RetAll.bind (pieriD_all p (n := n + 1) (k := k) (lam := lam)
        ⟨h.isPart, h.kstrict, fun r hr => h.rows r (by omega), by have := h.cols; omega⟩ (by omega) (by omega)) ?_
    intro v hv
    refine RetAll.bind (apply_one hv (fun x hx => .ok (tilde_D (by omega) hr hx))) ?_
    intro z hz
    refine RetAll.bind (apply_one (f := fun x => .ok (Poly.sym (.S (typeSwap x k)))) hz
      (fun x hx => .ok (all_sym ⟨_, rfl, typeSwap_D hx⟩))) ?_
    intro y hy
    refine last _ (all_add hw (qterm_one (fun x hx => ?_) hy))
    rw [hD]
    simpa using hx
  · exact last _ hw

end Verif
