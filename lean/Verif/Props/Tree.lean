import Verif.Spec.Dec
import Verif.Model.Tree
import Verif.Proofs.RingOps
import Verif.Props.RingA
import Verif.Props.RingBC
import Verif.Props.RingD
import Mathlib.Algebra.MvPolynomial.Degrees
/-!
# C83, C84: `is_valid`, `has_part_zero_padding`, `list_schur_oprands`
-/

namespace Verif
open Spec MvPolynomial

namespace Spec

mutual
/-- The polynomial that an expression stands for; `none` if it is not a polynomial. -/
noncomputable def treeDen : Tree → Option P
  | .num c => some (C c)
  | .sym s => some (X s)
  | .add l => (treeDens l).map List.sum
  | .mul l => (treeDens l).map List.prod
  | .pow b e =>
    match e with
    | .num c => if c.den = 1 ∧ 0 ≤ c.num then (treeDen b).map (· ^ c.num.toNat) else none
    | _ => none
/-- on the arguments -/
noncomputable def treeDens : List Tree → Option (List P)
  | [] => some []
  | t :: r => (treeDen t).bind fun v => (treeDens r).map (v :: ·)
end

mutual
/-- The Schubert symbols that occur in an expression, from left to right. -/
def schurs : Tree → List (List Int)
  | .num _ => []
  | .sym (.S p) => [p]
  | .sym _ => []
  | .add l => schursL l
  | .mul l => schursL l
  | .pow b e => schurs b ++ schurs e
/-- in the arguments -/
def schursL : List Tree → List (List Int)
  | [] => []
  | t :: r => schurs t ++ schursL r
end

end Spec

theorem isNumber_den {t : Tree} (h : t.isNumber = true) : ∃ c, t = .num c := by
  cases t <;> simp [Tree.isNumber] at h
  exact ⟨_, rfl⟩

mutual
theorem lin_sound (t : Tree) (h : t.isLinear = true) : ∃ v, treeDen t = some v ∧ v.totalDegree ≤ 1 := by
  match t with
  | .num c => exact ⟨C c, by simp [treeDen], by simp⟩
  | .sym s => exact ⟨X s, by simp [treeDen], by simp [totalDegree_X]⟩
  | .add l =>
    rw [Tree.isLinear] at h
    obtain ⟨vs, h1, h2⟩ := linL_sound l h
    refine ⟨vs.sum, by rw [treeDen, h1]; rfl, ?_⟩
    clear h h1
    induction vs with
    | nil => simp
    | cons v vs ih =>
      rw [List.sum_cons]
      exact (totalDegree_add _ _).trans (max_le (h2 v (by simp)) (ih fun w hw => h2 w (by simp [hw])))
  | .mul l =>
    rw [Tree.isLinear] at h
    split at h
    · rename_i hc
      match l, hc, h with
      | [a, b], hc, h =>
        simp only [Tree.isLinearNN, Bool.and_true, Bool.and_eq_true, Bool.or_eq_true] at h
        have key : ∀ x y : Tree, x.isNumber = true → y.isLinear = true → (∃ v, treeDen y = some v ∧ v.totalDegree ≤ 1) →
            ∃ c v, treeDen x = some (C c) ∧ treeDen y = some v ∧ v.totalDegree ≤ 1 := by
          intro x y hx _ ⟨v, h1, h2⟩
          obtain ⟨c, rfl⟩ := isNumber_den hx
          exact ⟨c, v, by simp [treeDen], h1, h2⟩
        have hdeg : ∀ (c : ℚ) (v : P), v.totalDegree ≤ 1 → (C c * v).totalDegree ≤ 1 := by
          intro c v hv
          refine (totalDegree_mul _ _).trans ?_
          simpa using hv
        by_cases ha : a.isNumber = true
        · by_cases hb : b.isNumber = true
          · simp [ha, hb] at hc
          · have hb' : b.isLinear = true := by simpa [hb] using h.2
            obtain ⟨c, v, h1, h2, h3⟩ := key a b ha hb' (lin_sound b hb')
            exact ⟨C c * v, by simp [treeDen, treeDens, h1, h2], hdeg _ _ h3⟩
        · have ha' : a.isLinear = true := by simpa [ha] using h.1
          by_cases hb : b.isNumber = true
          · obtain ⟨c, v, h1, h2, h3⟩ := key b a hb ha' (lin_sound a ha')
            exact ⟨C c * v, by simp [treeDen, treeDens, h1, h2, mul_comm], hdeg _ _ h3⟩
          · simp [ha, hb] at hc
    · simp at h
  | .pow b e =>
    match e with
    | .num c =>
      rw [Tree.isLinear] at h
      split at h
      · rename_i hc
        obtain ⟨v, h1, h2⟩ := lin_sound b h
        exact ⟨v, by simp [treeDen, hc, h1], h2⟩
      · simp at h
    | .sym _ => simp [Tree.isLinear] at h
    | .add _ => simp [Tree.isLinear] at h
    | .mul _ => simp [Tree.isLinear] at h
    | .pow _ _ => simp [Tree.isLinear] at h
theorem linL_sound (l : List Tree) (h : Tree.isLinearL l = true) :
    ∃ vs, treeDens l = some vs ∧ ∀ v ∈ vs, v.totalDegree ≤ 1 := by
  match l with
  | [] => exact ⟨[], by simp [treeDens], by simp⟩
  | t :: r =>
    rw [Tree.isLinearL, Bool.and_eq_true] at h
    obtain ⟨v, h1, h2⟩ := lin_sound t h.1
    obtain ⟨vs, h3, h4⟩ := linL_sound r h.2
    exact ⟨v :: vs, by simp [treeDens, h1, h3], by simpa using ⟨h2, h4⟩⟩
end

/-- **C83**: what `is_valid` accepts is a polynomial of degree at most one. -/
theorem C83_sound (t : Tree) (h : t.isLinear = true) : ∃ v, treeDen t = some v ∧ v.totalDegree ≤ 1 := lin_sound t h

example : (Tree.add [.num 3, .mul [.num 2, .sym (.S [2, 1])], .sym .q]).isLinear = true := by decide +kernel

/-! ### Expanded expressions -/

theorem treeDens_map {α : Type} (f : α → Tree) (g : α → P) (l : List α) (h : ∀ x ∈ l, treeDen (f x) = some (g x)) :
    treeDens (l.map f) = some (l.map g) := by
  induction l with
  | nil => simp [treeDens]
  | cons a l ih =>
    simp only [List.map_cons, treeDens, h a (by simp), ih fun x hx => h x (by simp [hx])]
    rfl

theorem ofMono_den (m : Mono) : ∃ vs, treeDens (Tree.ofMono m) = some vs ∧ vs.prod = monoDen m := by
  refine ⟨m.dedup.map (fun s => X s ^ m.count s), ?_, ?_⟩
  · refine treeDens_map _ _ _ fun s _ => ?_
    split
    · rename_i h; simp [treeDen, h]
    · simp [treeDen]
  · unfold monoDen
    rw [Finset.prod_list_map_count m, ← List.prod_toFinset _ m.nodup_dedup]
    congr 1
    ext s; simp

theorem mulOf_den (l : List Tree) {vs : List P} (h : treeDens l = some vs) : treeDen (Tree.mulOf l) = some vs.prod := by
  match l with
  | [] => simp only [treeDens, Option.some.injEq] at h; simp [← h, Tree.mulOf, treeDen]
  | [t] =>
    simp only [treeDens, Option.map_some] at h
    cases ht : treeDen t with
    | none => simp [ht] at h
    | some v =>
      simp only [ht, Option.bind_some, Option.some.injEq] at h
      simp [← h, Tree.mulOf, ht]
  | a :: b :: r =>
    change treeDen (.mul (a :: b :: r)) = _
    rw [treeDen, h]; rfl

theorem ofTerm_den (t : Mono × Rat) : treeDen (Tree.ofTerm t) = some (C t.2 * monoDen t.1) := by
  obtain ⟨vs, h1, h2⟩ := ofMono_den t.1
  unfold Tree.ofTerm
  split
  · rename_i h
    rw [mulOf_den _ h1, h2, h]; simp
  · rw [mulOf_den (vs := C t.2 :: vs) _ (by simp [treeDens, treeDen, h1]), List.prod_cons, h2]

/-- **C83**: the sympy expression of an expanded polynomial stands for that polynomial. -/
theorem C83_represents (p : Poly) : treeDen (Tree.ofPoly p) = some (den p) := by
  match p with
  | [] => simp [Tree.ofPoly, treeDen, den]
  | [t] => rw [Tree.ofPoly, ofTerm_den]; simp [den]
  | a :: b :: r =>
    change treeDen (.add ((a :: b :: r).map Tree.ofTerm)) = _
    rw [treeDen, treeDens_map _ (fun t => C t.2 * monoDen t.1) _ fun t _ => ofTerm_den t]
    rfl

theorem expo_degree (m : Mono) : ((expo m).sum fun _ => id) = m.length := by
  rw [← Finsupp.card_toMultiset, expo, Multiset.toFinsupp_toMultiset]
  rfl

theorem den_degree {p : Poly} (hp : WF p) (d : ℕ) : (den p).totalDegree ≤ d ↔ ∀ t ∈ p, t.1.length ≤ d := by
  constructor
  · intro h t ht
    have h1 := coeff_den_mem hp (m := t.1) (c := t.2) ht
    have h2 : expo t.1 ∈ (den p).support := by
      rw [mem_support_iff, h1]; exact (hp.2 t ht).1
    have h3 := le_totalDegree h2
    have h4 := expo_degree t.1
    change ((expo t.1).sum fun _ e => e) = _ at h4
    omega
  · intro h
    clear hp
    unfold den
    induction p with
    | nil => simp
    | cons t p ih =>
      rw [List.map_cons, List.sum_cons]
      refine (totalDegree_add _ _).trans (max_le ?_ (ih fun u hu => h u (by simp [hu])))
      rw [monoDen_eq, C_mul_monomial, mul_one]
      refine (totalDegree_monomial_le _ _).trans ?_
      rw [expo_degree]
      exact h t (by simp)

theorem ofTerm_linear (t : Mono × Rat) (h : t.1.length ≤ 1) : (Tree.ofTerm t).isLinear = true := by
  obtain ⟨m, c⟩ := t
  match m, h with
  | [], _ =>
    unfold Tree.ofTerm Tree.ofMono
    split <;> simp [Tree.mulOf, Tree.isLinear]
  | [s], _ =>
    unfold Tree.ofTerm Tree.ofMono
    split
    · simp [Tree.mulOf, Tree.isLinear]
    · simp only [List.dedup_cons_of_notMem, List.not_mem_nil, not_false_eq_true, List.dedup_nil, List.map_cons, List.map_nil, Tree.mulOf,
        Tree.isLinear, Tree.isLinearNN, List.count_singleton_self, if_true, List.filter, Tree.isNumber]
      simp

theorem isLinearL_map {α : Type} (f : α → Tree) (l : List α) : Tree.isLinearL (l.map f) = true ↔ ∀ x ∈ l, (f x).isLinear = true := by
  induction l with
  | nil => simp [Tree.isLinearL]
  | cons a l ih => simp [Tree.isLinearL, ih]

/-- **C83**: on expanded expressions `is_valid` accepts exactly the polynomials of degree at most one. -/
theorem C83_exact {p : Poly} (hp : WF p) : (Tree.ofPoly p).isLinear = true ↔ (den p).totalDegree ≤ 1 := by
  constructor
  · intro h
    obtain ⟨v, h1, h2⟩ := C83_sound _ h
    rw [C83_represents] at h1
    rw [Option.some.inj h1]
    exact h2
  · intro h
    rw [den_degree hp] at h
    match p, h with
    | [], _ => simp [Tree.ofPoly, Tree.isLinear]
    | [t], h => rw [Tree.ofPoly]; exact ofTerm_linear t (h t (by simp))
    | a :: b :: r, h =>
      change (Tree.add ((a :: b :: r).map Tree.ofTerm)).isLinear = true
      rw [Tree.isLinear, isLinearL_map]
      exact fun t ht => ofTerm_linear t (h t ht)

/-- `2*S[1] - q` is accepted and `S[1]^2` is not. -/
example : WF [([.S [1]], 2), ([.q], -1)] ∧ (Tree.ofPoly [([.S [1]], 2), ([.q], -1)]).isLinear = true ∧
    WF [([.S [1], .S [1]], 1)] ∧ (Tree.ofPoly [([.S [1], .S [1]], 1)]).isLinear = false := by decide +kernel

/-- **C83**: a linear combination of classes is accepted exactly if it contains no `q`. -/
theorem C83_lincomb {cls : List Int → Prop} {p : Poly} (hp : LinComb cls p) : (Tree.ofPoly p).isLinear = true ↔ QFree p := by
  rw [C83_exact hp.1, den_degree hp.1]
  refine forall₂_congr fun t ht => ?_
  obtain ⟨d, l, h, -⟩ := hp.2 t ht
  rw [h]
  simp

example : LinComb ReducedPart [([.S [2, 1]], 2), ([.S [3]], -1)] ∧
    (Tree.ofPoly [([.S [2, 1]], 2), ([.S [3]], -1)]).isLinear = true ∧
    LinComb ReducedPart [([.S [2, 1]], 2), ([.q, .S [3]], -1)] ∧
    (Tree.ofPoly [([.S [2, 1]], 2), ([.q, .S [3]], -1)]).isLinear = false := by
  decide +kernel

theorem ofPoly_linear {p : Poly} (h : ∀ t ∈ p, t.1.length ≤ 1) : (Tree.ofPoly p).isLinear = true := by
  match p, h with
  | [], _ => simp [Tree.ofPoly, Tree.isLinear]
  | [t], h => rw [Tree.ofPoly]; exact ofTerm_linear t (h t (by simp))
  | a :: b :: r, h =>
    change (Tree.add ((a :: b :: r).map Tree.ofTerm)).isLinear = true
    rw [Tree.isLinear, isLinearL_map]
    exact fun t ht => ofTerm_linear t (h t ht)

/-- The product of any two classes is accepted by `is_valid`. -/
def Spec.ValidProducts (cls : List Int → Prop) (mul : Poly → Poly → Except PyErr Poly) : Prop :=
  ∀ l mu, cls l → cls mu → ∃ w, mul (Poly.sym (.S l)) (Poly.sym (.S mu)) = .ok w ∧ (Tree.ofPoly w).isLinear = true

theorem valid_graded {cls : List Int → Prop} {mul : Poly → Poly → Except PyErr Poly} (h : GradedClassical cls mul) :
    ValidProducts cls mul := by
  intro l mu hl hmu
  obtain ⟨w, h1, h2⟩ := h l mu hl hmu
  refine ⟨w, h1, ofPoly_linear fun t ht => ?_⟩
  obtain ⟨nu, h3, -⟩ := h2 t ht
  simp [h3]

/-- **C83**: classical products on `Gr(m,n)` are accepted. -/
theorem C83_mult_Gr {m : Nat} {n : Int} (hm : 0 < m) {X : Space} (hX : mkGr m n = .ok X) {fuel : Nat} (hf : giamBound m n ≤ fuel) :
    ValidProducts (GrClass m n) (Gr.mult X fuel) := valid_graded fun _ _ hl hmu => C23_mult hm hX hf hl hmu

/-- the classical product is accepted, the quantum product is not -/
example : Gr.mult ⟨.A, 3, 5⟩ 28 (Poly.sym (.S [2])) (Poly.sym (.S [2])) = .ok [([.S [2, 2]], 1), ([.S [3, 1]], 1)] ∧
    (Tree.ofPoly [([.S [2, 2]], 1), ([.S [3, 1]], 1)]).isLinear = true ∧
    Gr.qmult ⟨.A, 3, 5⟩ 28 (Poly.sym (.S [3, 1])) (Poly.sym (.S [2])) = .ok [([.S [3, 3]], 1), ([.q, .S [1]], 1)] ∧
    (Tree.ofPoly [([.S [3, 3]], 1), ([.q, .S [1]], 1)]).isLinear = false := by decide +kernel

/-- **C83**: on `IG(m,2n)`. -/
theorem C83_mult_IG {m n : Int} {X : Space} (hX : mkIG m (2 * n) = .ok X) {fuel : Nat} (hf : giamBoundBC m n ≤ fuel) :
    ValidProducts (BCClass m n) (X.mult fuel) := valid_graded (C56_graded_IG id hX hf).1

example :
    (Space.mk .C 1 3).mult 45 (Poly.sym (.S [2])) (Poly.sym (.S [2, 1])) = .ok [([.S [4, 1]], 2), ([.S [3, 2]], 1)] ∧
    (Tree.ofPoly [([.S [4, 1]], 2), ([.S [3, 2]], 1)]).isLinear = true := by decide +kernel

/-- **C83**: on `OG(m,2n+1)`. -/
theorem C83_mult_OG {m n : Int} (hmn : m ≤ n) {X : Space} (hX : mkOG m (2 * n + 1) = .ok X) {fuel : Nat}
    (hf : giamBoundBC m n ≤ fuel) : ValidProducts (BCClass m n) (X.mult fuel) := valid_graded (C56_graded_OG hmn hX hf)

example :
    (Space.mk .B 1 3).mult 45 (Poly.sym (.S [2])) (Poly.sym (.S [2, 1])) = .ok [([.S [4, 1]], 1), ([.S [3, 2]], 1)] := by
  decide +kernel

/-- **C83**: on `OG(m,2n+2)`. -/
theorem C83_mult_OGeven {m n : Int} (hn : 0 ≤ n) (hmn : m ≤ n + 1) {X : Space} (hX : mkOG m (2 * n + 2) = .ok X) {fuel : Nat}
    (hf : giamBoundD m n ≤ fuel) : ValidProducts (DClass m n) (X.mult fuel) := valid_graded (C67_graded hn hmn hX hf)

example :
    (Space.mk .D 2 3).mult 66 (Poly.sym (.S [2, 0])) (Poly.sym (.S [2, 1])) = .ok [([.S [4, 1]], 1), ([.S [3, 2]], 1)] ∧
    (Tree.ofPoly [([.S [4, 1]], 1), ([.S [3, 2]], 1)]).isLinear = true := by decide +kernel

/-- **C83**: `is_valid` looks at the way an expression is written: `(1*S[1])*2` with the inner product kept is
accepted only if every product has one number and one other argument; `2*2*S[1]` unexpanded and `S[1]*q` are not. -/
theorem C83_shape : (Tree.mul [.num 2, .mul [.num 3, .sym (.S [1])]]).isLinear = true ∧
    (Tree.mul [.num 2, .num 3, .sym (.S [1])]).isLinear = false ∧ (Tree.ofPoly [([.q, .S [1]], 1)]).isLinear = false ∧
    (Tree.ofPoly [([.S [1], .S [1]], 1)]).isLinear = false ∧ (Tree.ofPoly [([.S [1]], -2), ([.q], 1/2), ([], 7)]).isLinear = true := by
  decide +kernel

/-! ### C84 -/

/-- `l` ends with a zero. -/
def Spec.EndsWithZero (l : List Int) : Prop := ∃ l', l = l' ++ [0]

theorem clip_ne_iff (l : List Int) : partClip l ≠ l ↔ EndsWithZero l := by
  induction l using List.reverseRecOn with
  | nil => simp [EndsWithZero]
  | append_singleton l x _ =>
    by_cases hx : x = 0
    · subst hx
      rw [partClip_concat_zero]
      refine ⟨fun _ => ⟨l, rfl⟩, fun _ h => ?_⟩
      have : (partClip l).length ≤ l.length := by unfold partClip; simp
      rw [h] at this
      simp at this
    · rw [partClip_concat_ne _ _ hx]
      simp only [ne_eq, not_true_eq_false, false_iff]
      rintro ⟨l', h⟩
      have := congrArg List.getLast? h
      simp at this
      exact hx this

mutual
theorem zeroPadded_iff (t : Tree) : t.zeroPadded = true ↔ ∃ l ∈ schurs t, EndsWithZero l := by
  match t with
  | .num c => simp [Tree.zeroPadded, schurs]
  | .sym (.S p) => simp [Tree.zeroPadded, schurs, ← clip_ne_iff]
  | .sym .q => simp [Tree.zeroPadded, schurs]
  | .sym .q1 => simp [Tree.zeroPadded, schurs]
  | .sym .q2 => simp [Tree.zeroPadded, schurs]
  | .add l => rw [Tree.zeroPadded, schurs, zeroPaddedL_iff l]
  | .mul l => rw [Tree.zeroPadded, schurs, zeroPaddedL_iff l]
  | .pow b e => simp [Tree.zeroPadded, schurs, zeroPadded_iff b, zeroPadded_iff e, or_and_right, exists_or]
theorem zeroPaddedL_iff (l : List Tree) : Tree.zeroPaddedL l = true ↔ ∃ p ∈ schursL l, EndsWithZero p := by
  match l with
  | [] => simp [Tree.zeroPaddedL, schursL]
  | t :: r => simp [Tree.zeroPaddedL, schursL, zeroPadded_iff t, zeroPaddedL_iff r, or_and_right, exists_or]
end

/-- **C84**: `has_part_zero_padding` says whether some Schubert symbol of the expression, at any depth, ends with a zero. -/
theorem C84_zero_padding (t : Tree) : t.zeroPadded = true ↔ ∃ l ∈ schurs t, EndsWithZero l := zeroPadded_iff t

example : (Tree.mul [.sym .q, .pow (.sym (.S [2, 0])) (.num 2)]).zeroPadded = true ∧
    schurs (Tree.mul [.sym .q, .pow (.sym (.S [2, 0])) (.num 2)]) = [[2, 0]] ∧
    (Tree.mul [.sym .q, .pow (.sym (.S [2, 0, 1])) (.num 2)]).zeroPadded = false := by decide +kernel

mutual
/-- The `Schur` objects in a nested list, from left to right. -/
def Spec.opsFlat : Tree.Ops → List (List Int)
  | .none => []
  | .schur p => [p]
  | .list l => opsFlatL l
/-- in the entries -/
def Spec.opsFlatL : List Tree.Ops → List (List Int)
  | [] => []
  | o :: r => opsFlat o ++ opsFlatL r
end

mutual
theorem ops_flat (t : Tree) : opsFlat t.ops = schurs t := by
  match t with
  | .num c => simp [Tree.ops, schurs, opsFlat]
  | .sym (.S p) => simp [Tree.ops, schurs, opsFlat]
  | .sym .q => simp [Tree.ops, schurs, opsFlat]
  | .sym .q1 => simp [Tree.ops, schurs, opsFlat]
  | .sym .q2 => simp [Tree.ops, schurs, opsFlat]
  | .add l => rw [Tree.ops, schurs, opsFlat, ops_flatL l]
  | .mul l => rw [Tree.ops, schurs, opsFlat, ops_flatL l]
  | .pow b e => simp [Tree.ops, schurs, opsFlat, opsFlatL, ops_flat b, ops_flat e]
theorem ops_flatL (l : List Tree) : opsFlatL (Tree.opsL l) = schursL l := by
  match l with
  | [] => simp [Tree.opsL, schursL, opsFlatL]
  | t :: r => simp [Tree.opsL, schursL, opsFlatL, ops_flat t, ops_flatL r]
end

/-- **C84**: `list_schur_oprands` lists all Schubert symbols of the expression in order. -/
theorem C84_operands (t : Tree) : opsFlat t.ops = schurs t := ops_flat t

/-- **C84**: `isSchur` accepts the symbols whose name starts with `S`, and `list_schur_oprands` returns a `Schur` object for these and
for nothing else. -/
theorem C84_isSchur (t : Tree) : (t.isSchur = true ↔ ∃ s, t = .sym s ∧ s.text.head? = some 'S') ∧
    (t.isSchur = true ↔ ∃ p, t.ops = .schur p) := by
  rcases t with c | s | l | l | ⟨b, e⟩
  · simp [Tree.isSchur, Tree.ops]
  · cases s <;> simp [Tree.isSchur, Tree.ops, Sym.text]
  · simp [Tree.isSchur, Tree.ops]
  · simp [Tree.isSchur, Tree.ops]
  · simp [Tree.isSchur, Tree.ops]

example : (Tree.sym (.S [2, 0])).isSchur = true ∧ (Tree.sym .q1).isSchur = false ∧
    (Tree.mul [.num 2, .sym (.S [1])]).isSchur = false := by decide

theorem schursL_map {α : Type} (f : α → Tree) (l : List α) : schursL (l.map f) = (l.map (fun x => schurs (f x))).flatten := by
  induction l with
  | nil => simp [schursL]
  | cons a l ih => simp [schursL, ih]

theorem schursL_mulOf (l : List Tree) : schurs (Tree.mulOf l) = schursL l := by
  match l with
  | [] => simp [Tree.mulOf, schurs, schursL]
  | [t] => simp [Tree.mulOf, schursL]
  | a :: b :: r => change schurs (.mul (a :: b :: r)) = _; rw [schurs]

theorem mem_ofTerm (t : Mono × Rat) (l : List Int) : l ∈ schurs (Tree.ofTerm t) ↔ Sym.S l ∈ t.1 := by
  have h : l ∈ schursL (Tree.ofMono t.1) ↔ Sym.S l ∈ t.1 := by
    unfold Tree.ofMono
    rw [schursL_map]
    simp only [List.mem_flatten, List.mem_map, List.mem_dedup]
    constructor
    · rintro ⟨_, ⟨s, hs, rfl⟩, h⟩
      have : s = .S l := by
        cases s <;> (split at h <;> simp_all [schurs])
      exact this ▸ hs
    · intro h
      refine ⟨_, ⟨_, h, rfl⟩, ?_⟩
      split <;> simp [schurs]
  unfold Tree.ofTerm
  rw [schursL_mulOf]
  split
  · exact h
  · simpa [schursL, schurs] using h

/-- **C84**: the symbols of an expanded expression are those of its terms. -/
theorem C84_expanded (p : Poly) (l : List Int) : l ∈ schurs (Tree.ofPoly p) ↔ ∃ t ∈ p, Sym.S l ∈ t.1 := by
  match p with
  | [] => simp [Tree.ofPoly, schurs]
  | [t] => simp [Tree.ofPoly, mem_ofTerm]
  | a :: b :: r =>
    change l ∈ schurs (.add ((a :: b :: r).map Tree.ofTerm)) ↔ _
    rw [schurs, schursL_map]
    simp only [List.mem_flatten, List.mem_map]
    constructor
    · rintro ⟨_, ⟨t, ht, rfl⟩, h⟩
      exact ⟨t, ht, (mem_ofTerm t l).1 h⟩
    · rintro ⟨t, ht, h⟩
      exact ⟨_, ⟨t, ht, rfl⟩, (mem_ofTerm t l).2 h⟩

example : schurs (Tree.ofPoly [([.q, .S [2], .S [2]], 1), ([.S [3], .S [1]], 1 / 2)]) = [[2], [3], [1]] := by
  decide +kernel

/-- **C84**: a linear combination of reduced partitions is never reported as padded. -/
theorem C84_unpadded {cls : List Int → Prop} (hc : ∀ l, cls l → ReducedPart l) {p : Poly} (hp : LinComb cls p) :
    (Tree.ofPoly p).zeroPadded = false := by
  rw [← Bool.not_eq_true, C84_zero_padding]
  rintro ⟨l, h1, h2⟩
  obtain ⟨t, ht, h3⟩ := (C84_expanded p l).1 h1
  obtain ⟨d, l', h4, h5⟩ := hp.2 t ht
  rw [h4] at h3
  have : l = l' := by simpa using h3
  subst this
  obtain ⟨l'', rfl⟩ := h2
  exact absurd ((hc _ h5).2 0 (by simp)) (by omega)

example : LinComb ReducedPart [([.S [2, 1]], 2), ([.q, .S [3]], -1)] ∧
    (Tree.ofPoly [([.S [2, 1]], 2), ([.q, .S [3]], -1)]).zeroPadded = false := by decide +kernel

/-- **C84**: on `OG(m,2n+2)` an expression is reported as padded exactly if it contains a class of type 2,
although such a class is in normal form. -/
theorem C84_typeD {m n : Int} {p : Poly} (hp : LinComb (DClass m n) p) :
    (Tree.ofPoly p).zeroPadded = true ↔ ∃ t ∈ p, ∃ d l, t.1 = List.replicate d Sym.q ++ [.S l] ∧ EndsWithZero l := by
  rw [C84_zero_padding]
  constructor
  · rintro ⟨l, h1, h2⟩
    obtain ⟨t, ht, h3⟩ := (C84_expanded p l).1 h1
    obtain ⟨d, l', h4, -⟩ := hp.2 t ht
    rw [h4] at h3
    have : l = l' := by simpa using h3
    subst this
    exact ⟨t, ht, d, l, h4, h2⟩
  · rintro ⟨t, ht, d, l, h4, h2⟩
    exact ⟨l, (C84_expanded p l).2 ⟨t, ht, by simp [h4]⟩, h2⟩

example : LinComb (DClass 2 3) [([.S [2, 1, 0]], 2), ([.S [3]], -1)] ∧
    (Tree.ofPoly [([.S [2, 1, 0]], 2), ([.S [3]], -1)]).zeroPadded = true ∧
    (Tree.ofPoly [([.S [2, 1]], 2), ([.S [3]], -1)]).zeroPadded = false := by decide +kernel

/-- `q*S[2,0]^2 + S[3]/2`: symbols, padding and length. -/
example : (Tree.ofPoly [([.q, .S [2, 0], .S [2, 0]], 1), ([.S [3]], 1 / 2)]).zeroPadded = true ∧
    schurs (Tree.ofPoly [([.q, .S [2, 0], .S [2, 0]], 1), ([.S [3]], 1 / 2)]) = [[2, 0], [3]] ∧
    (Tree.ofPoly [([.q, .S [2, 0], .S [2, 0]], 1), ([.S [3]], 1 / 2)]).len = 2 ∧
    (Tree.ofPoly [([.S [3]], 2)]).len = 2 := by decide +kernel

/-- **C84**: `len` counts the terms of a sum with at least two terms. -/
theorem C84_len {p : Poly} (h : 2 ≤ p.length) : (Tree.ofPoly p).len = p.length := by
  match p, h with
  | a :: b :: r, _ => simp [Tree.ofPoly, Tree.len]

end Verif
