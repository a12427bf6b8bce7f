import Mathlib.Data.Rat.Floor
import Verif.Model.Output
import Verif.Props.RingA
import Verif.Props.Classes
import Verif.Proofs.Sort
/-!
# C38, C39, C41, C45: tables, expansions, CSV comparison, ASCII diagrams
-/

namespace Verif
open Spec

/-! ## C41 CSV comparison -/

/-- The normalised rows of a file: rows with at least three fields, not all empty. -/
def Spec.NormRow (norm : String → Except PyErr String) (f : List (List String)) (r : String × String × String) :
    Prop :=
  ∃ a b c rest c', (a :: b :: c :: rest) ∈ f ∧ (∃ x ∈ a :: b :: c :: rest, x ≠ "") ∧ norm c = .ok c' ∧ r = (a, b, c')

/-- The normalisation does not raise on any used row. -/
def Spec.Readable (norm : String → Except PyErr String) (f : List (List String)) : Prop :=
  ∀ a b c rest, (a :: b :: c :: rest) ∈ f → (∃ x ∈ a :: b :: c :: rest, x ≠ "") → ∃ c', norm c = .ok c'

theorem readCsv_spec (norm : String → Except PyErr String) (f : List (List String)) (h : Readable norm f) :
    ∃ s, readCsv norm f = .ok s ∧ s.Nodup ∧ ∀ r, r ∈ s ↔ NormRow norm f r := by
  induction f with
  | nil => exact ⟨[], rfl, List.nodup_nil, fun r => by simp [NormRow]⟩
  | cons row rest ih =>
    obtain ⟨s, h1, h2, h3⟩ := ih (fun a b c t hm hx => h a b c t (by simp [hm]) hx)
    unfold readCsv
    by_cases hany : row.any (fun f => decide (f ≠ "")) = true
    · simp only [hany, Bool.not_true, Bool.false_eq_true, if_false]
      have hne : ∃ x ∈ row, x ≠ "" := by simpa using hany
      rcases row with _ | ⟨a, _ | ⟨b, _ | ⟨c, t⟩⟩⟩
      · refine ⟨s, h1, h2, fun r => ?_⟩
        rw [h3]; simp [NormRow]
      · refine ⟨s, h1, h2, fun r => ?_⟩
        rw [h3]; simp [NormRow]
      · refine ⟨s, h1, h2, fun r => ?_⟩
        rw [h3]; simp [NormRow]
      · obtain ⟨c', hc'⟩ := h a b c t (by simp) hne
        simp only [hc', h1]
        have hmem : ∀ r, NormRow norm ((a :: b :: c :: t) :: rest) r ↔ r = (a, b, c') ∨ NormRow norm rest r := by
          intro r
          constructor
          · rintro ⟨a2, b2, c2, t2, c2', hm, hx, hn, rfl⟩
            rcases List.mem_cons.1 hm with e | e
            · injection e with e1 e2; injection e2 with e2 e3; injection e3 with e3 e4
              subst e1; subst e2; subst e3
              rw [hc'] at hn; injection hn with hn; subst hn
              exact Or.inl rfl
            · exact Or.inr ⟨a2, b2, c2, t2, c2', e, hx, hn, rfl⟩
          · rintro (rfl | ⟨a2, b2, c2, t2, c2', hm, hx, hn, rfl⟩)
            · exact ⟨a, b, c, t, c', by simp, hne, hc', rfl⟩
            · exact ⟨a2, b2, c2, t2, c2', by simp [hm], hx, hn, rfl⟩
        by_cases hin : (a, b, c') ∈ s
        · refine ⟨s, by simp [bind, Except.bind, hin], h2, fun r => ?_⟩
          rw [hmem, h3]
          constructor
          · exact Or.inr
          · rintro (rfl | h)
            · exact (h3 _).1 hin
            · exact h
        · refine ⟨(a, b, c') :: s, by simp [bind, Except.bind, hin], List.nodup_cons.2 ⟨hin, h2⟩, fun r => ?_⟩
          rw [hmem, List.mem_cons, h3]
    · simp only [Bool.not_eq_true] at hany
      simp only [hany, Bool.not_false, if_true]
      refine ⟨s, h1, h2, fun r => ?_⟩
      rw [h3]
      constructor
      · rintro ⟨a2, b2, c2, t2, c2', hm, hx, hn, rfl⟩
        exact ⟨a2, b2, c2, t2, c2', by simp [hm], hx, hn, rfl⟩
      · rintro ⟨a2, b2, c2, t2, c2', hm, hx, hn, rfl⟩
        rcases List.mem_cons.1 hm with e | e
        · exfalso
          obtain ⟨x, hx1, hx2⟩ := hx
          rw [e] at hx1
          rw [List.any_eq_false] at hany
          exact hany x hx1 (by simpa using hx2)
        · exact ⟨a2, b2, c2, t2, c2', e, hx, hn, rfl⟩

/-- **C41.** The answer is `True` exactly if the two files have the same set of normalised rows. -/
theorem C41_set_equality (norm : String → Except PyErr String) (f g : List (List String))
    (hf : Readable norm f) (hg : Readable norm g) :
    ∃ b, checkBijection norm f g = .ok b ∧ (b = true ↔ ∀ r, NormRow norm f r ↔ NormRow norm g r) := by
  obtain ⟨s, s1, s2, s3⟩ := readCsv_spec norm f hf
  obtain ⟨t, t1, t2, t3⟩ := readCsv_spec norm g hg
  refine ⟨decide (s.length = t.length ∧ (s.filter (fun r => decide (r ∈ t))).length = s.length),
    by simp only [checkBijection, s1, t1, bind, Except.bind], ?_⟩
  rw [decide_eq_true_iff]
  constructor
  · rintro ⟨h1, h2⟩
    have hsub : ∀ r ∈ s, r ∈ t := by
      have : s.filter (fun r => decide (r ∈ t)) = s := List.Sublist.eq_of_length List.filter_sublist h2
      intro r hr
      rw [← this] at hr
      simpa using (List.mem_filter.1 hr).2
    have hperm : s.Perm t := (s2.subperm hsub).perm_of_length_le (by omega)
    intro r
    rw [← s3, ← t3, hperm.mem_iff]
  · intro h
    have hperm : s.Perm t := (List.perm_ext_iff_of_nodup s2 t2).2 (fun r => by rw [s3, t3, h])
    refine ⟨hperm.length_eq, ?_⟩
    congr 1
    rw [List.filter_eq_self]
    intro r hr
    simpa using hperm.mem_iff.1 hr

/-- **C41.** Reflexive, symmetric, transitive. -/
theorem C41_equivalence (norm : String → Except PyErr String) (f g h : List (List String))
    (hf : Readable norm f) (hg : Readable norm g) (hh : Readable norm h) :
    checkBijection norm f f = .ok true ∧
    checkBijection norm f g = checkBijection norm g f ∧
    (checkBijection norm f g = .ok true → checkBijection norm g h = .ok true →
      checkBijection norm f h = .ok true) := by
  have key : ∀ f g, Readable norm f → Readable norm g →
      (checkBijection norm f g = .ok true ↔ ∀ r, NormRow norm f r ↔ NormRow norm g r) ∧
      (checkBijection norm f g = .ok false ↔ ¬ ∀ r, NormRow norm f r ↔ NormRow norm g r) := by
    intro f g hf hg
    obtain ⟨b, h1, h2⟩ := C41_set_equality norm f g hf hg
    rw [h1, ← h2]
    cases b <;> simp
  refine ⟨((key f f hf hf).1).2 (fun r => Iff.rfl), ?_, fun h1 h2 => ?_⟩
  · by_cases hc : ∀ r, NormRow norm f r ↔ NormRow norm g r
    · rw [((key f g hf hg).1).2 hc, ((key g f hg hf).1).2 (fun r => (hc r).symm)]
    · rw [((key f g hf hg).2).2 hc, ((key g f hg hf).2).2 (fun h' => hc (fun r => (h' r).symm))]
  · exact ((key f h hf hh).1).2 (fun r => (((key f g hf hg).1).1 h1 r).trans (((key g h hg hh).1).1 h2 r))

/-- **C41.** Row order, repetitions, blank rows and short rows do not matter. -/
theorem C41_insensitive (norm : String → Except PyErr String) (f g : List (List String))
    (hf : Readable norm f)
    (h : ∀ r : List String, 3 ≤ r.length → (∃ x ∈ r, x ≠ "") → (r ∈ f ↔ r ∈ g)) :
    checkBijection norm f g = .ok true := by
  have hg : Readable norm g := fun a b c t hm hx => hf a b c t ((h _ (by simp) hx).2 hm) hx
  obtain ⟨b, h1, h2⟩ := C41_set_equality norm f g hf hg
  rw [h1]
  congr 1
  rw [h2]
  intro r
  constructor
  · rintro ⟨a, b, c, t, c', hm, hx, hn, rfl⟩
    exact ⟨a, b, c, t, c', (h _ (by simp) hx).1 hm, hx, hn, rfl⟩
  · rintro ⟨a, b, c, t, c', hm, hx, hn, rfl⟩
    exact ⟨a, b, c, t, c', (h _ (by simp) hx).2 hm, hx, hn, rfl⟩

/-- **C41.** A third column that cannot be parsed raises. -/
theorem C41_raises (norm : String → Except PyErr String) (a b c : String) (t : List String) (rest : List (List String))
    (e : PyErr) (hx : ∃ x ∈ a :: b :: c :: t, x ≠ "") (he : norm c = .error e) (g : List (List String)) :
    checkBijection norm ((a :: b :: c :: t) :: rest) g = .error e := by
  have hany : (a :: b :: c :: t).any (fun f => decide (f ≠ "")) = true := by simpa using hx
  simp only [checkBijection, readCsv, hany, he]
  rfl

example : checkBijection (fun s => .ok (if s = "x " ∨ s = " x" then "x" else s)) [["1", "2", "x "], ["", "", ""], ["a", "b"], ["3", "4", "y"]]
    [["3", "4", "y"], ["1", "2", " x"], ["1", "2", "x", "z"]] = .ok true := by decide +kernel
example : checkBijection (fun s => .ok s) [["1", "2", "x"]] [["1", "2", "y"]] = .ok false := by decide +kernel
example : Readable (fun s => .ok s) [["1", "2", "x"], []] := fun _ _ c _ _ _ => ⟨c, rfl⟩

/-! ## C38 multiplication tables -/

theorem mapM_ok {α β : Type} {f : α → Except PyErr β} {l : List α} (h : ∀ a ∈ l, ∃ b, f a = .ok b) :
    ∃ r, l.mapM f = .ok r ∧ r.length = l.length ∧ ∀ i (h1 : i < l.length) (h2 : i < r.length), f l[i] = .ok r[i] := by
  induction l with
  | nil => exact ⟨[], rfl, rfl, fun i h1 => by simp at h1⟩
  | cons a l ih =>
    obtain ⟨b, hb⟩ := h a (by simp)
    obtain ⟨r, h1, h2, h3⟩ := ih (fun x hx => h x (by simp [hx]))
    refine ⟨b :: r, ?_, by simp [h2], ?_⟩
    · rw [List.mapM_cons, hb, h1]; rfl
    · intro i hi hi'
      cases i with
      | zero => exact hb
      | succ i => exact h3 i (by simpa using hi) (by simpa using hi')

/-- The entry of a table. -/
def Spec.cell (t : List (List Poly)) (i j : Nat) : Poly := (t.getD i []).getD j []

theorem multTable_spec {labels : List (List Int)} {prod : Poly → Poly → Except PyErr Poly}
    (h : ∀ a ∈ labels, ∀ b ∈ labels, ∃ w, prod (Poly.sym (.S a)) (Poly.sym (.S b)) = .ok w) :
    ∃ t, multTable labels prod = .ok t ∧ t.length = labels.length ∧ (∀ r ∈ t, r.length = labels.length) ∧
      ∀ i j (hi : i < labels.length) (hj : j < labels.length),
        prod (Poly.sym (.S labels[i])) (Poly.sym (.S labels[j])) = .ok (cell t i j) := by
  have hrow : ∀ a ∈ labels, ∃ r, labels.mapM (fun b => prod (Poly.sym (.S a)) (Poly.sym (.S b))) = .ok r ∧
      r.length = labels.length ∧ ∀ i (h1 : i < labels.length) (h2 : i < r.length),
        prod (Poly.sym (.S a)) (Poly.sym (.S labels[i])) = .ok r[i] := fun a ha => mapM_ok (h a ha)
  obtain ⟨t, h1, h2, h3⟩ := mapM_ok (f := fun a => labels.mapM (fun b => prod (Poly.sym (.S a)) (Poly.sym (.S b))))
    (l := labels) (fun a ha => ⟨_, (hrow a ha).choose_spec.1⟩)
  have hlen : ∀ i (hi : i < t.length), t[i].length = labels.length ∧ ∀ j (h1 : j < labels.length) (h2 : j < t[i].length),
      prod (Poly.sym (.S (labels[i]'(by omega)))) (Poly.sym (.S labels[j])) = .ok t[i][j] := by
    intro i hi
    obtain ⟨r, r1, r2, r3⟩ := hrow (labels[i]'(by omega)) (List.getElem_mem _)
    have := h3 i (by omega) hi
    rw [r1] at this
    injection this with this
    subst this
    exact ⟨r2, r3⟩
  refine ⟨t, h1, h2, ?_, ?_⟩
  · intro r hr
    obtain ⟨i, hi, rfl⟩ := List.getElem_of_mem hr
    exact (hlen i hi).1
  · intro i j hi hj
    have hi' : i < t.length := by omega
    have hj' : j < t[i].length := by rw [(hlen i hi').1]; exact hj
    have : cell t i j = t[i][j] := by
      unfold cell
      rw [List.getD_eq_getElem _ _ hi', List.getD_eq_getElem _ _ hj']
    rw [this]
    exact (hlen i hi').2 j hj hj'

theorem linComb_sym {m : Nat} {n : Int} {l : List Int} (h : GrClass m n l) : LinComb (GrClass m n) (Poly.sym (.S l)) := by
  refine ⟨⟨by simp [Poly.sym], ?_⟩, ?_⟩
  · intro t ht
    simp only [Poly.sym, List.mem_singleton] at ht
    subst ht
    simp
  · intro t ht
    simp only [Poly.sym, List.mem_singleton] at ht
    subst ht
    exact ⟨0, l, by simp, h⟩

theorem table_generic {m : Nat} {n : Int} (prod : Poly → Poly → Except PyErr Poly)
    (hclosed : ∀ {a b : Poly}, LinComb (GrClass m n) a → LinComb (GrClass m n) b → ∃ w, prod a b = .ok w ∧ LinComb (GrClass m n) w)
    (hcomm : ∀ {a b : Poly}, LinComb (GrClass m n) a → LinComb (GrClass m n) b → SameResult (prod a b) (prod b a))
    (hunit : ∀ {a : Poly}, LinComb (GrClass m n) a → SameResult (prod (Poly.sym (.S [])) a) (.ok a) ∧
      SameResult (prod a (Poly.sym (.S []))) (.ok a))
    (L : List (List Int)) (hL : ∀ l, l ∈ L ↔ GrClass m n l) (hsort : L.Pairwise (fun a b => listLt a b = true))
    (h0 : GrClass m n []) :
    ∃ t, multTable L prod = .ok t ∧ t.length = L.length ∧ (∀ r ∈ t, r.length = L.length) ∧
      (∀ i j (hi : i < L.length) (hj : j < L.length),
        prod (Poly.sym (.S L[i])) (Poly.sym (.S L[j])) = .ok (cell t i j)) ∧
      (∀ i j, i < L.length → j < L.length → (cell t i j).Perm (cell t j i)) ∧
      (∃ h : 0 < L.length, L[0] = []) ∧
      (∀ j (hj : j < L.length), cell t 0 j = Poly.sym (.S L[j]) ∧ cell t j 0 = Poly.sym (.S L[j])) := by
  have hcl : ∀ i (hi : i < L.length), LinComb (GrClass m n) (Poly.sym (.S L[i])) :=
    fun i hi => linComb_sym ((hL _).1 (List.getElem_mem hi))
  obtain ⟨t, t1, t2, t3, t4⟩ := multTable_spec (labels := L) (prod := prod) (fun a ha b hb => by
    obtain ⟨w, hw, _⟩ := hclosed (linComb_sym ((hL a).1 ha)) (linComb_sym ((hL b).1 hb))
    exact ⟨w, hw⟩)
  have hmem : [] ∈ L := (hL []).2 h0
  have hpos : 0 < L.length := List.length_pos_of_mem hmem
  have hfirst : L[0] = [] := by
    obtain ⟨i, hi, he⟩ := List.getElem_of_mem hmem
    rcases Nat.eq_zero_or_pos i with h | h
    · subst h; exact he
    · have := List.pairwise_iff_getElem.1 hsort 0 i hpos hi h
      rw [he] at this
      cases hL0 : L[0] <;> rw [hL0] at this <;> simp [listLt] at this
  refine ⟨t, t1, t2, t3, t4, ?_, ⟨hpos, hfirst⟩, ?_⟩
  · intro i j hi hj
    obtain ⟨w, w', h1, h2, h3⟩ := hcomm (hcl i hi) (hcl j hj)
    rw [t4 i j hi hj] at h1
    rw [t4 j i hj hi] at h2
    injection h1 with h1; injection h2 with h2
    subst h1; subst h2
    exact h3
  · intro j hj
    obtain ⟨⟨w, w', h1, h2, h3⟩, ⟨v, v', g1, g2, g3⟩⟩ := hunit (hcl j hj)
    have e1 := t4 0 j hpos hj
    have e2 := t4 j 0 hj hpos
    rw [hfirst] at e1 e2
    rw [e1] at h1; rw [e2] at g1
    injection h1 with h1; injection h2 with h2; injection g1 with g1; injection g2 with g2
    subst h1; subst h2; subst g1; subst g2
    exact ⟨List.perm_singleton.1 h3, List.perm_singleton.1 g3⟩

/-- **C38.** `MultTable(Gr(m,n))`: one row and one column per class, entry `(i,j)` is the product of the
classes `i` and `j`, the table is symmetric (up to the order in which terms are stored), and the first row and
column (those of `S[]`) list the classes. -/
theorem C38_mult_table {m : Nat} {n : Int} (hm : 1 ≤ m) {X : Space} (hX : mkGr m n = .ok X) {fuel : Nat}
    (hf : giamBound m n ≤ fuel) :
    ∃ L t, Terminates X.schubClasses L ∧ multTable L (Gr.mult X fuel) = .ok t ∧ t.length = L.length ∧
      (∀ r ∈ t, r.length = L.length) ∧
      (∀ i j (hi : i < L.length) (hj : j < L.length),
        Gr.mult X fuel (Poly.sym (.S L[i])) (Poly.sym (.S L[j])) = .ok (cell t i j)) ∧
      (∀ i j, i < L.length → j < L.length → (cell t i j).Perm (cell t j i)) ∧
      (∃ h : 0 < L.length, L[0] = []) ∧
      (∀ j (hj : j < L.length), cell t 0 j = Poly.sym (.S L[j]) ∧ cell t j 0 = Poly.sym (.S L[j])) := by
  obtain ⟨L, l1, l2, l3, _⟩ := C05_classes_partial m n (by omega) X hX
  have hmn : (m : Int) ≤ n := by
    unfold mkGr at hX
    by_contra h
    split at hX
    · cases hX
    · split at hX
      · cases hX
      · omega
  obtain ⟨t, ht⟩ := table_generic (m := m) (n := n) (Gr.mult X fuel) (fun ha hb => C20_closed hm hX hf ha hb)
    (fun ha hb => C20_comm hm hX hf ha hb) (fun ha => C20_unit hm hX hf ha) L
    (fun l => by rw [l3]; rfl) l2 (by simp [GrClass, ReducedPart, InRect])
  exact ⟨L, t, l1, ht⟩

/-- **C38.** The same for `QMultTable`. -/
theorem C38_qmult_table {m : Nat} {n : Int} (hm : 1 ≤ m) {X : Space} (hX : mkGr m n = .ok X) {fuel : Nat}
    (hf : giamBound m n ≤ fuel) :
    ∃ L t, Terminates X.schubClasses L ∧ multTable L (Gr.qmult X fuel) = .ok t ∧ t.length = L.length ∧
      (∀ r ∈ t, r.length = L.length) ∧
      (∀ i j (hi : i < L.length) (hj : j < L.length),
        Gr.qmult X fuel (Poly.sym (.S L[i])) (Poly.sym (.S L[j])) = .ok (cell t i j)) ∧
      (∀ i j, i < L.length → j < L.length → (cell t i j).Perm (cell t j i)) ∧
      (∃ h : 0 < L.length, L[0] = []) ∧
      (∀ j (hj : j < L.length), cell t 0 j = Poly.sym (.S L[j]) ∧ cell t j 0 = Poly.sym (.S L[j])) := by
  obtain ⟨L, l1, l2, l3, _⟩ := C05_classes_partial m n (by omega) X hX
  obtain ⟨t, ht⟩ := table_generic (m := m) (n := n) (Gr.qmult X fuel) (fun ha hb => C21_closed hm hX hf ha hb)
    (fun ha hb => C21_comm hm hX hf ha hb) (fun ha => C21_unit hm hX hf ha) L
    (fun l => by rw [l3]; rfl) l2 (by simp [GrClass, ReducedPart, InRect])
  exact ⟨L, t, l1, ht⟩

example : multTable [[], [1], [2]] (Gr.qmult ⟨.A, 2, 3⟩ 10) = .ok
    [[Poly.sym (.S []), Poly.sym (.S [1]), Poly.sym (.S [2])],
     [Poly.sym (.S [1]), Poly.sym (.S [2]), [([.q, .S []], 1)]],
     [Poly.sym (.S [2]), [([.q, .S []], 1)], [([.q, .S [1]], 1)]]] := by decide +kernel

/-! ## C39 `schur_expansion` -/

/-- The value of a list of pairs (coefficient, partition). -/
noncomputable def Spec.resum (ts : List (Poly × List Int)) : P :=
  (ts.map (fun t => den t.1 * MvPolynomial.X (Sym.S t.2))).sum

theorem schurArgs_lin (d : Nat) (p : List Int) :
    schurArgs (List.replicate d Sym.q ++ [Sym.S p]) = [p] := by
  unfold schurArgs
  rw [List.filterMap_append]
  have h1 : List.filterMap (schurArg (List.replicate d Sym.q ++ [Sym.S p])) (List.replicate d Sym.q) = [] := by
    rw [List.filterMap_eq_nil_iff]
    intro a ha
    rw [(List.mem_replicate.1 ha).2]
    rfl
  rw [h1]
  simp [schurArg, List.count_append, List.count_replicate]

theorem erase_lin (d : Nat) (p : List Int) :
    (List.replicate d Sym.q ++ [Sym.S p]).erase (.S p) = List.replicate d Sym.q := by
  rw [List.erase_append_right _ (by simp [List.mem_replicate])]
  simp

theorem asSchur_lin (d : Nat) (p : List Int) :
    asSchur (List.replicate d Sym.q ++ [Sym.S p]) = if d = 0 then some p else none := by
  rcases d with _ | _ | d
  · rfl
  · rfl
  · rfl

theorem dedup_lin (d : Nat) (p : List Int) :
    (List.replicate (d + 1) Sym.q ++ [Sym.S p]).dedup = [Sym.q, Sym.S p] := by
  induction d with
  | zero => simp
  | succ d ih =>
    rw [List.replicate_succ, List.cons_append, List.dedup_cons_of_mem (by simp [List.mem_replicate]), ih]

theorem expandTerm_lin {t : Mono × Rat} {d : Nat} {p : List Int} (h : t.1 = List.replicate d Sym.q ++ [Sym.S p])
    (b : Bool) : expandTerm b t = .ok ([(List.replicate d Sym.q, t.2)], p) := by
  unfold expandTerm
  rw [h, if_neg (by simp), asSchur_lin]
  by_cases hd : d = 0
  · subst hd
    by_cases hc : t.2 = 1
    · rw [if_pos ⟨hc, by simp⟩, hc]; simp [Poly.const]
    · rw [if_neg (fun h => hc h.1), if_pos (Or.inl hc), schurArgs_lin]
      simp only [erase_lin]
  · rw [if_neg (by simp [hd])]
    obtain ⟨e, rfl⟩ := Nat.exists_eq_succ_of_ne_zero hd
    rw [if_pos (Or.inr (by rw [Nat.succ_eq_add_one, dedup_lin]; simp)), schurArgs_lin]
    simp only [erase_lin]

theorem expandTerms_lin (b : Bool) (ts : Poly)
    (h : ∀ t ∈ ts, ∃ d l, t.1 = List.replicate d Sym.q ++ [Sym.S l]) :
    ∃ rs, ts.mapM (expandTerm b) = .ok rs ∧ resum rs = den ts ∧ rs.length = ts.length ∧
      (∀ r ∈ rs, ∃ t ∈ ts, ∃ d, t.1 = List.replicate d Sym.q ++ [Sym.S r.2] ∧ r.1 = [(List.replicate d Sym.q, t.2)]) := by
  induction ts with
  | nil => exact ⟨[], rfl, by simp [resum, den], rfl, by simp⟩
  | cons t ts ih =>
    obtain ⟨rs, h1, h2, h3, h4⟩ := ih (fun x hx => h x (by simp [hx]))
    obtain ⟨d, l, hd⟩ := h t (by simp)
    refine ⟨([(List.replicate d Sym.q, t.2)], l) :: rs, ?_, ?_, by simp [h3], ?_⟩
    · rw [List.mapM_cons, expandTerm_lin hd, h1]; rfl
    · have hval : den [(List.replicate d Sym.q, t.2)] * MvPolynomial.X (Sym.S l) = MvPolynomial.C t.2 * monoDen t.1 := by
        rw [hd]; simp [den, monoDen, mul_assoc]
      unfold resum at h2 ⊢
      rw [List.map_cons, List.sum_cons, h2, hval]
      simp [den]
    · intro r hr
      rcases List.mem_cons.1 hr with rfl | hr
      · exact ⟨t, by simp, d, hd, rfl⟩
      · obtain ⟨t', ht', h5⟩ := h4 r hr
        exact ⟨t', by simp [ht'], h5⟩

theorem hasQ_lin (d : Nat) (p : List Int) : hasQ (List.replicate d Sym.q ++ [Sym.S p]) = decide (0 < d) := by
  cases d with
  | zero => rfl
  | succ d => simp [hasQ, List.replicate_succ]

/-- **C39.** On an expanded sum of at least two terms `c q^d S[l]` the pairs are sorted by partition and re-sum to the
expression; with `include_q=False` exactly the terms without `q` are kept, with numbers as coefficients. -/
theorem C39_expansion (e : Poly) (he : LinComb (fun _ => True) e) (h2 : 2 ≤ e.length) (includeQ : Bool) :
    ∃ ts, schurExpansion e includeQ = .ok (.list ts) ∧
      ts.Pairwise (fun a b => listLt b.2 a.2 = false) ∧
      (includeQ = true → resum ts = den e ∧ ts.length = e.length) ∧
      (includeQ = false → resum ts = den (e.filter (fun t => decide (Sym.q ∉ t.1))) ∧
        ∀ t ∈ ts, ∃ c, t.1 = [([], c)]) := by
  have hlin : ∀ t ∈ e, ∃ d l, t.1 = List.replicate d Sym.q ++ [Sym.S l] := by
    intro t ht
    obtain ⟨d, l, h, _⟩ := he.2 t ht
    exact ⟨d, l, h⟩
  obtain ⟨rs, r1, r2, r3, r4⟩ := expandTerms_lin true (e.filter (fun t => includeQ || !hasQ t.1))
    (fun t ht => hlin t (List.mem_filter.1 ht).1)
  have hform : schurExpansion e includeQ = .ok (.list (rs.insertionSort (fun a b => listLt b.2 a.2 = false))) := by
    unfold schurExpansion
    rcases e with _ | ⟨a, _ | ⟨b, e⟩⟩
    · simp at h2
    · simp at h2
    · simp only [r1]; rfl
  have hperm := List.perm_insertionSort (fun a b : Part => listLt b.2 a.2 = false) rs
  have hres : resum (rs.insertionSort (fun a b => listLt b.2 a.2 = false)) = resum rs := by
    unfold resum
    exact (hperm.map _).sum_eq
  refine ⟨_, hform, ?_, ?_, ?_⟩
  · have hle : ∀ a b : Part, listLt b.2 a.2 = false ↔ listLe a.2 b.2 = true := fun a b => by simp [listLe]
    haveI : Std.Total (fun a b : Part => listLt b.2 a.2 = false) := ⟨fun a b => by
      have := listLe_total a.2 b.2
      rw [hle, hle]
      simpa using this⟩
    haveI : IsTrans Part (fun a b : Part => listLt b.2 a.2 = false) := ⟨fun a b c h1 h2 => by
      rw [hle] at *
      exact listLe_trans _ _ _ h1 h2⟩
    exact List.pairwise_insertionSort _ rs
  · intro hq
    subst hq
    rw [hres, r2, hperm.length_eq, r3]
    simp
  · intro hq
    subst hq
    have hfil : e.filter (fun t => false || !hasQ t.1) = e.filter (fun t => decide (Sym.q ∉ t.1)) := by
      apply List.filter_congr
      intro t ht
      obtain ⟨d, l, h⟩ := hlin t ht
      rw [h, hasQ_lin]
      rcases Nat.eq_zero_or_pos d with rfl | hd
      · simp
      · have hmem : Sym.q ∈ List.replicate d Sym.q ++ [Sym.S l] := by
          simp [List.mem_replicate]; omega
        simp [hd, hmem]
    refine ⟨by rw [hres, r2, hfil], ?_⟩
    intro t ht
    obtain ⟨t', ht', d, hd, hc⟩ := r4 t (hperm.mem_iff.1 ht)
    have := (List.mem_filter.1 ht').2
    rw [hd, hasQ_lin] at this
    have hd0 : d = 0 := by simpa using this
    subst hd0
    exact ⟨t'.2, by simpa using hc⟩

/-- **C39, one term.** A single term gives a pair instead of a list and `include_q` is ignored. -/
theorem C39_single (t : Mono × Rat) (d : Nat) (l : List Int) (h : t.1 = List.replicate d Sym.q ++ [Sym.S l])
    (includeQ : Bool) : schurExpansion [t] includeQ = .ok (.single ([(List.replicate d Sym.q, t.2)], l)) := by
  simp only [schurExpansion, expandTerm_lin h]; rfl

/-- a product of parameters `q`, `q1`, `q2` -/
def Spec.IsPar (m : Mono) : Prop := ∀ s ∈ m, ∀ l, s ≠ Sym.S l

theorem schurArgs_par {m : Mono} (hm : IsPar m) (p : List Int) : schurArgs (m ++ [Sym.S p]) = [p] := by
  unfold schurArgs
  rw [List.filterMap_append]
  have h1 : List.filterMap (schurArg (m ++ [Sym.S p])) m = [] := by
    rw [List.filterMap_eq_nil_iff]
    intro a ha
    cases a with
    | S l => exact absurd rfl (hm _ ha l)
    | _ => rfl
  have h2 : List.count (Sym.S p) m = 0 := List.count_eq_zero.2 fun h => hm _ h p rfl
  rw [h1]
  simp [schurArg, List.count_append, h2]

theorem asSchur_par {m : Mono} (hm : IsPar m) (p : List Int) (h0 : m ≠ []) : asSchur (m ++ [Sym.S p]) = none := by
  rcases m with _ | ⟨a, _ | ⟨b, m⟩⟩
  · exact absurd rfl h0
  · cases a with
    | S l => exact absurd rfl (hm _ (by simp) l)
    | _ => rfl
  · cases a <;> rfl

theorem dedup_par {m : Mono} (hm : IsPar m) (p : List Int) (h0 : m ≠ []) : 1 < (m ++ [Sym.S p]).dedup.length := by
  obtain ⟨a, m', rfl⟩ := List.exists_cons_of_ne_nil h0
  have h1 : a ∈ (a :: m' ++ [Sym.S p]).dedup := by simp
  have h2 : Sym.S p ∈ (a :: m' ++ [Sym.S p]).dedup := by simp
  have hne := hm a (by simp) p
  generalize (a :: m' ++ [Sym.S p]).dedup = L at h1 h2
  rcases L with _ | ⟨x, _ | ⟨y, L⟩⟩
  · simp at h1
  · simp at h1 h2
    exact absurd (h1.trans h2.symm) hne
  · simp

theorem expandTerm_par {t : Mono × Rat} {m : Mono} {p : List Int} (hm : IsPar m) (h : t.1 = m ++ [Sym.S p])
    (b : Bool) : expandTerm b t = .ok ([(m, t.2)], p) := by
  have he : (m ++ [Sym.S p]).erase (.S p) = m := by
    rw [List.erase_append_right _ (fun h => hm _ h p rfl)]
    simp
  unfold expandTerm
  rw [h, if_neg (by simp)]
  by_cases hd : m = []
  · subst hd
    by_cases hc : t.2 = 1
    · rw [if_pos ⟨hc, rfl⟩, hc]; rfl
    · rw [if_neg (fun h => hc h.1), if_pos (Or.inl hc), schurArgs_par hm]
      simp only [he]
  · rw [asSchur_par hm p hd, if_neg (by simp), if_pos (Or.inr (dedup_par hm p hd)), schurArgs_par hm]
    simp only [he]

theorem hasQ_par {m : Mono} (hm : IsPar m) (p : List Int) : hasQ (m ++ [Sym.S p]) = decide (m ≠ []) := by
  cases m with
  | nil => rfl
  | cons a m =>
    cases a with
    | S l => exact absurd rfl (hm _ (by simp) l)
    | _ => simp [hasQ]

theorem expandTerms_par (b : Bool) (ts : Poly) (h : ∀ t ∈ ts, ∃ m l, IsPar m ∧ t.1 = m ++ [Sym.S l]) :
    ∃ rs, ts.mapM (expandTerm b) = .ok rs ∧ resum rs = den ts ∧ rs.length = ts.length ∧
      (∀ r ∈ rs, ∃ t ∈ ts, ∃ m, IsPar m ∧ t.1 = m ++ [Sym.S r.2] ∧ r.1 = [(m, t.2)]) := by
  induction ts with
  | nil => exact ⟨[], rfl, by simp [resum, den], rfl, by simp⟩
  | cons t ts ih =>
    obtain ⟨rs, h1, h2, h3, h4⟩ := ih (fun x hx => h x (by simp [hx]))
    obtain ⟨m, l, hm, hd⟩ := h t (by simp)
    refine ⟨([(m, t.2)], l) :: rs, ?_, ?_, by simp [h3], ?_⟩
    · rw [List.mapM_cons, expandTerm_par hm hd, h1]; rfl
    · have hval : den [(m, t.2)] * MvPolynomial.X (Sym.S l) = MvPolynomial.C t.2 * monoDen t.1 := by
        rw [hd]; simp [den, monoDen, mul_assoc]
      unfold resum at h2 ⊢
      rw [List.map_cons, List.sum_cons, h2, hval]
      simp [den]
    · intro r hr
      rcases List.mem_cons.1 hr with rfl | hr
      · exact ⟨t, by simp, m, hm, hd, rfl⟩
      · obtain ⟨t', ht', h5⟩ := h4 r hr
        exact ⟨t', by simp [ht'], h5⟩

/-- **C39** with several parameters, as on `OG(n, 2n+2)`: terms `c * (product of q, q1, q2) * S[l]`. With `include_q=False` exactly
the terms `c * S[l]` are kept. -/
theorem C39_parameters (e : Poly) (he : ∀ t ∈ e, ∃ m l, IsPar m ∧ t.1 = m ++ [Sym.S l]) (h2 : 2 ≤ e.length) (includeQ : Bool) :
    ∃ ts, schurExpansion e includeQ = .ok (.list ts) ∧
      (includeQ = true → resum ts = den e ∧ ts.length = e.length) ∧
      (includeQ = false → resum ts = den (e.filter (fun t => decide (t.1.length = 1))) ∧ ∀ t ∈ ts, ∃ c, t.1 = [([], c)]) := by
  obtain ⟨rs, r1, r2, r3, r4⟩ := expandTerms_par true (e.filter (fun t => includeQ || !hasQ t.1))
    (fun t ht => he t (List.mem_filter.1 ht).1)
  have hform : schurExpansion e includeQ = .ok (.list (rs.insertionSort (fun a b => listLt b.2 a.2 = false))) := by
    unfold schurExpansion
    rcases e with _ | ⟨a, _ | ⟨b, e⟩⟩
    · simp at h2
    · simp at h2
    · simp only [r1]; rfl
  have hperm := List.perm_insertionSort (fun a b : Part => listLt b.2 a.2 = false) rs
  have hres : resum (rs.insertionSort (fun a b => listLt b.2 a.2 = false)) = resum rs := by
    unfold resum
    exact (hperm.map _).sum_eq
  refine ⟨_, hform, ?_, ?_⟩
  · intro hq
    subst hq
    rw [hres, r2, hperm.length_eq, r3]
    simp
  · intro hq
    subst hq
    have hfil : e.filter (fun t => false || !hasQ t.1) = e.filter (fun t => decide (t.1.length = 1)) := by
      apply List.filter_congr
      intro t ht
      obtain ⟨m, l, hm, h⟩ := he t ht
      rw [h, hasQ_par hm]
      simp
    refine ⟨by rw [hres, r2, hfil], ?_⟩
    intro t ht
    obtain ⟨t', ht', m, hm, hd, hc⟩ := r4 t (hperm.mem_iff.1 ht)
    have := (List.mem_filter.1 ht').2
    rw [hd, hasQ_par hm] at this
    have hd0 : m = [] := by simpa using this
    subst hd0
    exact ⟨t'.2, hc⟩

example : schurExpansion [([.q1, .S [1]], 2), ([.S [3]], 1), ([.q1, .q2, .S []], 5), ([.S [2, 1]], 3)] false =
      .ok (.list [([([], 3)], [2, 1]), ([([], 1)], [3])]) ∧
    schurExpansion [([.q1, .S [1]], 2), ([.S [3]], 1), ([.q1, .q2, .S []], 5)] true =
      .ok (.list [([([.q1, .q2], 5)], []), ([([.q1], 2)], [1]), ([([], 1)], [3])]) := by decide +kernel

/-- **C39, constants.** A number `c` gives the pair `(int(c), [])`: `c` rounded towards zero. -/
theorem C39_constant (c : Rat) (b : Bool) :
    ∃ z : Int, schurExpansion [([], c)] b = .ok (.single (Poly.const z, [])) ∧ (0 ≤ c → (z : Rat) ≤ c ∧ c < z + 1) ∧
      (c ≤ 0 → c ≤ z ∧ (z : Rat) < c + 1) := by
  refine ⟨ratToInt c, rfl, ?_, ?_⟩
  · intro h
    have h1 : 0 ≤ c.num := Rat.num_nonneg.2 h
    have : ratToInt c = ⌊c⌋ := by
      unfold ratToInt
      rw [Int.tdiv_eq_ediv_of_nonneg h1, Rat.floor_def']
    rw [this]
    exact ⟨Int.floor_le c, Int.lt_floor_add_one c⟩
  · intro h
    have h1 : 0 ≤ (-c).num := Rat.num_nonneg.2 (by linarith)
    have : ratToInt c = -⌊-c⌋ := by
      unfold ratToInt
      rw [Rat.floor_def', ← Int.tdiv_eq_ediv_of_nonneg h1, Rat.num_neg_eq_neg_num, Rat.den_neg_eq_den, Int.neg_tdiv, neg_neg]
    rw [this]
    push_cast
    exact ⟨by linarith [Int.floor_le (-c)], by linarith [Int.lt_floor_add_one (-c)]⟩

example : schurExpansion [([], -7/2)] true = .ok (.single (Poly.const (-3), [])) ∧
    schurExpansion [([], 7/2)] true = .ok (.single (Poly.const 3, [])) := by decide +kernel

/-- **C39, powers.** A term `c * S[l]^(k+2)` with `c ≠ 1`, or with parameters, raises: the power is not counted as a Schubert class. -/
theorem C39_power (m : Mono) (hm : IsPar m) (l : List Int) (k : Nat) (c : Rat) (h : c ≠ 1 ∨ m ≠ []) (b : Bool) :
    schurExpansion [(m ++ List.replicate (k + 2) (Sym.S l), c)] b = .error .valueError := by
  have h1 : schurArgs (m ++ List.replicate (k + 2) (Sym.S l)) = [] := by
    unfold schurArgs
    rw [List.filterMap_eq_nil_iff]
    intro a ha
    rcases List.mem_append.1 ha with ha | ha
    · cases a with
      | S l => exact absurd rfl (hm _ ha l)
      | _ => rfl
    · rw [List.eq_of_mem_replicate ha]
      simp [schurArg, List.count_append, List.count_replicate_self]
      omega
  have h2 : ∀ (m : Mono), asSchur (m ++ List.replicate (k + 2) (Sym.S l)) = none := by
    intro m
    rcases m with _ | ⟨a, m⟩
    · rfl
    · cases m <;> cases a <;> rfl
  have h3 : c ≠ 1 ∨ (m ++ List.replicate (k + 2) (Sym.S l)).dedup.length > 1 := by
    refine h.imp_right fun h0 => ?_
    obtain ⟨a, m', rfl⟩ := List.exists_cons_of_ne_nil h0
    have h1 : a ∈ (a :: m' ++ List.replicate (k + 2) (Sym.S l)).dedup := by simp
    have h2 : Sym.S l ∈ (a :: m' ++ List.replicate (k + 2) (Sym.S l)).dedup := by simp
    have hne := hm a (by simp) l
    generalize (a :: m' ++ List.replicate (k + 2) (Sym.S l)).dedup = L at h1 h2
    rcases L with _ | ⟨x, _ | ⟨y, L⟩⟩
    · simp at h1
    · simp at h1 h2
      exact absurd (h1.trans h2.symm) hne
    · simp
  simp only [schurExpansion, expandTerm, h2]
  rw [if_neg (by simp), if_neg (by simp), if_pos h3, h1]
  rfl

example : schurExpansion [([.S [1], .S [1]], 2)] true = .error .valueError ∧
    schurExpansion [([.q, .S [1], .S [1], .S [1]], 1)] true = .error .valueError := by decide +kernel

/-- **C39, other expressions.** A bare `q` (or a power of one symbol) in a sum makes the function call itself
without end; a product of two classes raises; a constant is rounded towards zero. -/
theorem C39_other :
    (∀ b, schurExpansion [([.q], 1), ([.S [1]], 1)] true = .error .recursion ∧
      schurExpansion [([.S [1], .S [1]], 1), ([.S [2]], 1)] b = .error .recursion ∧
      schurExpansion [([.S [1], .S [2]], 1), ([.S [2]], 1)] b = .error .valueError) ∧
    schurExpansion [([], 1/2), ([.S [1]], 1)] true = .ok (.list [(Poly.const 0, []), (Poly.const 1, [1])]) := by
  refine ⟨fun b => ?_, by decide +kernel⟩
  cases b <;> decide +kernel

example : schurExpansion [([.q, .S [1]], 2), ([.S [3]], 1), ([.S [2, 1]], 3)] false =
    .ok (.list [([([], 3)], [2, 1]), ([([], 1)], [3])]) := by decide +kernel
example : LinComb (fun _ => True) [([.q, .S [1]], 2), ([.S [3]], 1)] := by
  refine ⟨⟨by decide, ?_⟩, ?_⟩
  · intro t ht
    simp at ht
    rcases ht with rfl | rfl <;> simp [Sym.code, listLt]
  · intro t ht
    simp at ht
    rcases ht with rfl | rfl
    · exact ⟨1, [1], rfl, trivial⟩
    · exact ⟨0, [3], rfl, trivial⟩

/-! ## C45 ASCII diagrams -/

theorem boxes_length (c : Int) : (boxes c).length = 2 * c.toNat := by
  unfold boxes; induction c.toNat with
  | zero => rfl
  | succ n ih => rw [List.replicate_succ, List.flatten_cons, List.length_append, ih]; simp; omega

theorem blanks_length (c : Int) : (blanks c).length = 2 * c.toNat := by
  unfold blanks; induction c.toNat with
  | zero => rfl
  | succ n ih => rw [List.replicate_succ, List.flatten_cons, List.length_append, ih]; simp; omega

theorem blanks_eq (c : Int) : blanks c = List.replicate (2 * c.toNat) ' ' := by
  unfold blanks; induction c.toNat with
  | zero => rfl
  | succ n ih =>
    rw [List.replicate_succ, List.flatten_cons, ih, show 2 * (n + 1) = 2 * n + 1 + 1 by omega,
      List.replicate_succ, List.replicate_succ]; rfl

theorem le_maxOr0 {p : List Int} {r : Int} (h : r ∈ p) : r ≤ maxOr0 p := by
  induction p with
  | nil => simp at h
  | cons a p ih =>
    rcases p with _ | ⟨b, p⟩
    · simp at h; simp [maxOr0, h]
    · rw [maxOr0]
      rcases List.mem_cons.1 h with rfl | h
      · exact le_max_left _ _
      · exact le_trans (ih h) (le_max_right _ _)

theorem maxOr0_partition {p : List Int} (h : IsPartition p) (hp : p ≠ []) : maxOr0 p = part p 0 := by
  induction p with
  | nil => exact absurd rfl hp
  | cons a p ih =>
    rcases p with _ | ⟨b, p⟩
    · rfl
    · have h1 := (List.pairwise_cons.1 h.1)
      rw [maxOr0, ih ⟨h1.2, fun x hx => h.2 x (by simp [hx])⟩ (by simp)]
      have := h1.1 b (by simp)
      simp only [part, List.getD_cons_zero]
      exact max_eq_left this

/-- A picture of `l`: `h` rows of width `2w`; row `i` shows `l_i` boxes followed by blanks. -/
def Spec.Picture (l : List Int) (w : Int) (h : Nat) (rows : List (List Char)) : Prop :=
  rows.length = h ∧ ∀ i (hi : i < rows.length), rows[i].length = 2 * w.toNat ∧
    ∃ b, rows[i] = (List.replicate (part l i).toNat ['[', ']']).flatten ++ List.replicate b ' '

theorem picture_ascii {l : List Int} (hl : IsPartition l) (hne : l ≠ []) :
    Picture l (part l 0) l.length (partitionToAscii l) := by
  refine ⟨by simp [partitionToAscii], fun i hi => ?_⟩
  have hi' : i < l.length := by simpa [partitionToAscii] using hi
  have hmem := List.getElem_mem hi'
  have hmax := maxOr0_partition hl hne
  have hle := le_maxOr0 hmem
  have h0 := hl.2 _ hmem
  have hp : part l i = l[i] := List.getD_eq_getElem _ _ hi'
  simp only [partitionToAscii, List.getElem_map]
  refine ⟨?_, 2 * (maxOr0 l - l[i]).toNat, ?_⟩
  · rw [List.length_append, boxes_length, blanks_length]; omega
  · rw [blanks_eq, hp]; rfl

/-- **C45.** `partition_to_ascii` draws the partition in a rectangle of width `2 l_1`. -/
theorem C45_ascii {l : List Int} (hl : IsPartition l) : Picture l (part l 0) l.length (partitionToAscii l) := by
  by_cases hne : l = []
  · subst hne; exact ⟨rfl, fun i hi => by simp [partitionToAscii] at hi⟩
  · exact picture_ascii hl hne

/-- **C45.** `embed_partition` draws a non-empty partition in a rectangle of width `2w` and `max(h, rows)` rows, for every
`w ≥ l_1`. -/
theorem C45_embed_partial {l : List Int} (hl : IsPartition l) (hne : l ≠ []) (w h : Int) (hw : part l 0 ≤ w) :
    ∃ rows, embedPartition l w h = .ok rows ∧ Picture l w (max h.toNat l.length) rows := by
  obtain ⟨p1, p2⟩ := picture_ascii hl hne
  unfold embedPartition
  rcases hr : partitionToAscii l with _ | ⟨r0, rs⟩
  · rw [hr] at p1; simp at p1; exact absurd p1.symm (by simpa using hne)
  · rw [hr] at p1 p2
    simp only
    have hr0 := (p2 0 (by simp)).1
    simp only [List.getElem_cons_zero] at hr0
    have hnn := hl.part_nonneg 0
    -- after the widening step
    have hstep : ∃ res : List (List Char), (if w * 2 > (r0.length : Int) then
        (r0 :: rs).map (fun row => row ++ blanks (w - (row.length : Int) / 2)) else r0 :: rs) = res ∧
        Picture l w l.length res := by
      refine ⟨_, rfl, ?_⟩
      split
      · refine ⟨by simpa using p1, fun i hi => ?_⟩
        have hi' : i < (r0 :: rs).length := by simpa using hi
        obtain ⟨q1, b, q2⟩ := p2 i hi'
        simp only [List.getElem_map]
        refine ⟨?_, b + 2 * (w - ((r0 :: rs)[i].length : Int) / 2).toNat, ?_⟩
        · rw [List.length_append, blanks_length, q1]; omega
        · rw [blanks_eq, List.replicate_add, ← List.append_assoc, ← q2]
      · have : w = part l 0 := by omega
        rw [this]
        exact ⟨p1, p2⟩
    obtain ⟨res, e1, e2, e3⟩ := hstep
    rw [e1]
    refine ⟨_, rfl, ?_⟩
    split
    · rename_i hgt
      refine ⟨?_, fun i hi => ?_⟩
      · rw [List.length_append, List.length_replicate]; omega
      · by_cases hi' : i < res.length
        · simp only [List.getElem_append_left hi']
          exact e3 i hi'
        · simp only [List.getElem_append_right (Nat.le_of_not_lt hi'), List.getElem_replicate]
          refine ⟨blanks_length w, 2 * w.toNat, ?_⟩
          rw [part_of_ge (by omega), blanks_eq]; rfl
    · refine ⟨by omega, e3⟩

/-- **C45 fails** for a width smaller than the first part: the added rows are too short; and the empty
partition raises. -/
theorem C45_refuted :
    embedPartition [3, 1] 1 3 = .ok ["[][][]".toList, "[]    ".toList, "  ".toList] ∧
    (∀ w h, embedPartition [] w h = .error .indexError) ∧
    drawAscii [([], [1]), ([], [])] = .error .valueError := by
  refine ⟨by decide +kernel, fun w h => rfl, rfl⟩

/-- **C45.** `embed_str`: `h` rows of the width of the text, the text in the first. -/
theorem C45_embed_str (s : List Char) (h : Int) :
    (embedStr s h).length = h.toNat ∧ ∀ i (hi : i < (embedStr s h).length), (embedStr s h)[i].length = s.length ∧
      (embedStr s h)[i] = if i = 0 then s else List.replicate s.length ' ' := by
  refine ⟨by simp [embedStr], fun i hi => ?_⟩
  simp only [embedStr, List.getElem_map, List.getElem_range]
  refine ⟨?_, trivial⟩
  split <;> simp

theorem drawBlocks_spec (h : Nat) : ∀ (first : Bool) (terms : List (List Char × List Int)),
    (∀ t ∈ terms, IsPartition t.2 ∧ t.2 ≠ [] ∧ t.2.length ≤ h) →
    ∃ bs, drawBlocks h first terms = .ok bs ∧ bs.length = terms.length ∧
      ∀ b ∈ bs, ∃ w, b.length = h ∧ ∀ r ∈ b, r.length = w
  | _, [], _ => ⟨[], rfl, rfl, by simp⟩
  | first, (c, p) :: rest, hyp => by
    obtain ⟨h1, h2, h3⟩ := hyp (c, p) (by simp)
    obtain ⟨rows, r1, r2, r3⟩ := C45_embed_partial h1 h2 (maxOr0 p) h (le_of_eq (maxOr0_partition h1 h2).symm)
    obtain ⟨bs, b1, b2, b3⟩ := drawBlocks_spec h false rest (fun t ht => hyp t (by simp [ht]))
    obtain ⟨s1, s2⟩ := C45_embed_str (if first then c else " + ".toList ++ c) h
    have hlen : rows.length = h := by simp only at h3; simp only [r2, Int.toNat_natCast]; omega
    refine ⟨_, by simp only [drawBlocks, if_neg h2, r1, b1]; rfl, by simp [b2], ?_⟩
    intro b hb
    rcases List.mem_cons.1 hb with rfl | hb
    · refine ⟨(if first then c else " + ".toList ++ c).length + 2 * (maxOr0 p).toNat, ?_, ?_⟩
      · rw [List.length_zipWith, s1, hlen]; simp
      · intro r hr
        obtain ⟨i, hi, rfl⟩ := List.getElem_of_mem hr
        rw [List.length_zipWith] at hi
        rw [List.getElem_zipWith, List.length_append, (s2 i (by omega)).1, (r3 i (by omega)).1]
    · exact b3 b hb

theorem foldl_max_le (terms : List (List Char × List Int)) (a : Nat) :
    a ≤ terms.foldl (fun m t => max m t.2.length) a ∧
    ∀ t ∈ terms, t.2.length ≤ terms.foldl (fun m t => max m t.2.length) a := by
  induction terms generalizing a with
  | nil => simp
  | cons t ts ih =>
    rw [List.foldl_cons]
    obtain ⟨h1, h2⟩ := ih (max a t.2.length)
    refine ⟨by omega, fun u hu => ?_⟩
    rcases List.mem_cons.1 hu with rfl | hu
    · omega
    · exact h2 u hu

/-- **C45.** The drawing of a linear combination of classes other than `S[]` has lines of equal width, as many as the longest
partition has rows. -/
theorem C45_draw (terms : List (List Char × List Int)) (h : ∀ t ∈ terms, IsPartition t.2 ∧ t.2 ≠ []) :
    ∃ lines w, drawAscii terms = .ok lines ∧ (∀ l ∈ lines, l.length = w) ∧
      (∀ t ∈ terms, t.2.length ≤ lines.length) := by
  obtain ⟨_, hm⟩ := foldl_max_le terms 0
  obtain ⟨bs, b1, b2, b3⟩ := drawBlocks_spec (terms.foldl (fun m t => max m t.2.length) 0) true terms
    (fun t ht => ⟨(h t ht).1, (h t ht).2, hm t ht⟩)
  have hw : ∃ w, ∀ i < terms.foldl (fun m t => max m t.2.length) 0,
      ((bs.map (fun b => b.getD i [])).flatten).length = w := by
    clear b1 b2
    induction bs with
    | nil => exact ⟨0, fun i _ => by simp⟩
    | cons b bs ih =>
      obtain ⟨w, hw⟩ := ih (fun b hb => b3 b (by simp [hb]))
      obtain ⟨v, hv1, hv2⟩ := b3 b (by simp)
      refine ⟨v + w, fun i hi => ?_⟩
      rw [List.map_cons, List.flatten_cons, List.length_append, hw i hi,
        List.getD_eq_getElem _ _ (by omega), hv2 _ (List.getElem_mem _)]
  obtain ⟨w, hw⟩ := hw
  refine ⟨_, w, by simp only [drawAscii, b1]; rfl, ?_, ?_⟩
  · intro l hl
    obtain ⟨i, hi, rfl⟩ := List.mem_map.1 hl
    exact hw i (List.mem_range.1 hi)
  · intro t ht
    rw [List.length_map, List.length_range]
    exact hm t ht

example : drawAscii [("2*".toList, [2, 1]), ([], [3])] =
    .ok ["2*[][] + [][][]".toList, "  []           ".toList] := by decide +kernel
example : IsPartition [3, 1] ∧ embedPartition [3, 1] 4 3 =
    .ok ["[][][]  ".toList, "[]      ".toList, "        ".toList] :=
  ⟨by constructor <;> decide, by decide +kernel⟩

end Verif
