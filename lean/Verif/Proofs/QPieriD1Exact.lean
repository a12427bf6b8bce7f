import Verif.Proofs.DualLift
import Verif.Proofs.QPieriExact
import Verif.Spec.QPieri
/-!
# The terms with `q1` and `q2` in the quantum Pieri rule of `OG(n, 2n+2)`
-/

namespace Verif
open Spec MvPolynomial

theorem isTerms_nil : IsTerms (fun _ _ _ => False) [] := ⟨wf_nil, by simp⟩

theorem isTerms_q1 {T : List Int → ℚ → Prop} {z : Poly} (hz : IsTerms (Pure T) z) :
    IsTerms (fun qs' x c => qs' = [.q1] ∧ T x c) (Poly.mul (Poly.sym .q1) z) := by
  apply isTerms_mulq hz
  · intro x; simp [MSorted, Sym.code, listLt]
  · intro m c; rw [den_sym]; simp [den_cons]; ring

theorem isTerms_q2 {T : List Int → ℚ → Prop} {z : Poly} (hz : IsTerms (Pure T) z) :
    IsTerms (fun qs' x c => qs' = [.q2] ∧ T x c) (Poly.mul (Poly.sym .q2) z) := by
  apply isTerms_mulq hz
  · intro x; simp [MSorted, Sym.code, listLt]
  · intro m c; rw [den_sym]; simp [den_cons]; ring

theorem isTerms_symS (x : List Int) : IsTerms (Pure (fun y c => y = x ∧ c = 1)) (Poly.sym (.S x)) := by
  rw [isTerms_pure]
  refine ⟨wf_sym _, fun t => ?_⟩
  unfold Poly.sym
  simp

/-- `apply` on a linear combination of classes -/
theorem isTerms_apply_den {T : List Int → ℚ → Prop} {z : Poly} (hz : IsTerms (Pure T) z)
    {f : List Int → Except PyErr Poly} (g : List Int → Option (List Int))
    (hf : ∀ x c, T x c → f x = .ok (optSym (g x)))
    (hg : ∀ x c x' c' y, T x c → T x' c' → g x = some y → g x' = some y → x = x') :
    ∃ z', IsTerms (Pure (fun y c => ∃ x, T x c ∧ g x = some y)) z' ∧ den z' = subst (optVal g) (den z) := by
  obtain ⟨z', h1, h2⟩ := isTerms_apply hz g hf hg
  obtain ⟨z'', h3, h4, h5⟩ := apply_spec (f := f) (σ := optVal g) z (by
    intro t ht l hl
    obtain ⟨qs, x, c, ⟨rfl, hT⟩, rfl⟩ := (hz.2 t).1 ht
    simp at hl
    subst hl
    rw [hf l c hT]
    unfold optSym optVal
    cases g l with
    | none => exact ⟨_, rfl, wf_nil, by simp⟩
    | some y => exact ⟨_, rfl, wf_sym _, by simp⟩)
  rw [h1] at h3
  injection h3 with h3
  subst h3
  exact ⟨z', h2, h5⟩

/-- `apply` on `q1 * z1 + q2 * z2` -/
theorem isTerms_apply_q12 {T1 T2 : List Int → ℚ → Prop} {z1 z2 a b : Poly} (h1 : IsTerms (Pure T1) z1)
    (h2 : IsTerms (Pure T2) z2) (ha : IsTerms (fun qs x c => qs = [.q1] ∧ T1 x c) a)
    (hb : IsTerms (fun qs x c => qs = [.q2] ∧ T2 x c) b) (da : den a = X .q1 * den z1) (db : den b = X .q2 * den z2)
    {f : List Int → Except PyErr Poly} (g : List Int → Option (List Int))
    (hf1 : ∀ x c, T1 x c → f x = .ok (optSym (g x))) (hf2 : ∀ x c, T2 x c → f x = .ok (optSym (g x)))
    (hg1 : ∀ x c x' c' y, T1 x c → T1 x' c' → g x = some y → g x' = some y → x = x')
    (hg2 : ∀ x c x' c' y, T2 x c → T2 x' c' → g x = some y → g x' = some y → x = x') :
    RetTerms (fun qs y c => (qs = [.q1] ∧ ∃ x, T1 x c ∧ g x = some y) ∨ (qs = [.q2] ∧ ∃ x, T2 x c ∧ g x = some y))
      (Poly.apply f (Poly.add a b)) := by
  obtain ⟨y1, i1, d1⟩ := isTerms_apply_den h1 g hf1 hg1
  obtain ⟨y2, i2, d2⟩ := isTerms_apply_den h2 g hf2 hg2
  have hab := isTerms_add ha hb (by rintro qs x c qs' x' c' ⟨rfl, _⟩ ⟨rfl, _⟩; simp)
  obtain ⟨w, w1, w2, w3⟩ := apply_spec (f := f) (σ := optVal g) (Poly.add a b) (by
    intro t ht l hl
    obtain ⟨qs, x, c, hT, rfl⟩ := (hab.2 t).1 ht
    have hx : l = x ∧ f x = .ok (optSym (g x)) := by
      rcases hT with ⟨rfl, hT⟩ | ⟨rfl, hT⟩
      · simp at hl; exact ⟨hl, hf1 x c hT⟩
      · simp at hl; exact ⟨hl, hf2 x c hT⟩
    obtain ⟨rfl, hx⟩ := hx
    rw [hx]
    unfold optSym optVal
    cases g l with
    | none => exact ⟨_, rfl, wf_nil, by simp⟩
    | some y => exact ⟨_, rfl, wf_sym _, by simp⟩)
  have hsum := isTerms_add (isTerms_q1 i1) (isTerms_q2 i2)
    (by rintro qs x c qs' x' c' ⟨rfl, _⟩ ⟨rfl, _⟩; simp)
  refine ⟨w, w1, isTerms_of_den hsum w2 ?_⟩
  rw [w3, den_add, den_add, den_mul, den_mul, den_sym, den_sym, da, db, d1, d2]
  simp

/-! ### Shapes -/

theorem rowToColumn_eq {mu : List Int} (h : mu ≠ []) : rowToColumn mu = wrap mu := by
  cases mu with
  | nil => exact absurd rfl h
  | cons r mu =>
    unfold rowToColumn wrap
    simp only [List.tail_cons, List.length_cons, part, List.getD_cons_zero]
    congr 3
    push_cast
    omega

theorem wrap_inj {n s s' : Int} {mu mu' : List Int} (hn : 1 ≤ n) (h : StrictIn n s mu) (h' : StrictIn n s' mu')
    (h0 : mu ≠ []) (h0' : mu' ≠ []) (e : wrap mu = wrap mu') : mu = mu' := by
  have key : ∀ s mu, StrictIn n s mu → mu ≠ [] →
      mu = ((wrap mu).length : Int) :: ((wrap mu).filter (fun x => decide (1 < x))).map (fun x => x - 1) := by
    intro s mu h h0
    have ho : Ascending id := fun l _ => rfl
    obtain ⟨N, rfl⟩ : ∃ N : Nat, n = N := ⟨n.toNat, by omega⟩
    have C := compl_of_strictIn ho h
    have hpos : 0 < mu.length := List.length_pos_of_ne_nil h0
    have hlen := C.c_count hpos
    cases mu with
    | nil => exact absurd rfl h0
    | cons r mu =>
      have hr : part (r :: mu) 0 = r := rfl
      rw [hr] at hlen
      unfold wrap
      rw [hr]
      simp only [List.tail_cons, List.length_cons, List.length_append, List.length_map, List.length_replicate,
        List.filter_append]
      simp only [List.length_cons] at hlen
      push_cast at hlen
      congr 1
      · push_cast; omega
      · have e1 : (mu.map (· + 1)).filter (fun x => decide (1 < x)) = mu.map (· + 1) := by
          rw [List.filter_eq_self]
          intro x hx
          obtain ⟨y, hy, rfl⟩ := List.mem_map.1 hx
          have := h.2.1 y (by simp [hy])
          simp; omega
        have e2 : ∀ q : Nat, (List.replicate q (1 : Int)).filter (fun x => decide (1 < x)) = [] := by
          intro q
          rw [List.filter_eq_nil_iff]
          intro x hx
          have := List.eq_of_mem_replicate hx
          simp; omega
        rw [e1, e2, List.append_nil, List.map_map]
        conv_lhs => rw [← List.map_id mu]
        apply List.map_congr_left
        intro x _
        simp
  rw [key s mu h h0, key s' mu' h' h0', e]

theorem compl_inj {ord : List Int → List Int} (ho : Ascending ord) {n s s' : Int} {mu mu' : List Int}
    (h : StrictIn n s mu) (h' : StrictIn n s' mu') (e : complMu ord n mu = complMu ord n mu') : mu = mu' := by
  have hm : ∀ l : List Int, ∀ v, v ∈ complMu ord n l ↔ (1 ≤ v ∧ v ≤ n) ∧ v ∉ l := by
    intro l v
    have hs : ((pyRange 1 (n + 1)).filter (fun y => decide (y ∉ l))).Pairwise (· < ·) := (pyRange_sorted 1 (n + 1)).filter _
    unfold complMu
    rw [ho _ hs, List.mem_reverse, List.mem_filter, mem_pyRange]
    simp only [decide_eq_true_eq]
    constructor
    · rintro ⟨h1, h2⟩; exact ⟨by omega, h2⟩
    · rintro ⟨h1, h2⟩; exact ⟨by omega, h2⟩
  have hp : mu.Perm mu' := by
    rw [List.perm_ext_iff_of_nodup (h.1.imp (fun hab => by omega)) (h'.1.imp (fun hab => by omega))]
    intro v
    have h1 := hm mu v
    have h2 := hm mu' v
    rw [e] at h1
    constructor
    · intro hv
      by_contra hv'
      have hr := h.2.1 v hv
      exact (h1.1 (h2.2 ⟨by omega, hv'⟩)).2 hv
    · intro hv
      by_contra hv'
      have hr := h'.2.1 v hv
      exact (h2.1 (h1.2 ⟨by omega, hv'⟩)).2 hv
  exact hp.eq_of_pairwise (fun a b _ _ h1 h2 => by omega) h.1 h'.1

theorem lift_inj {n : Int} {c c' : List Int} (hc : ∀ x ∈ c, 0 < x) (hc' : ∀ x ∈ c', 0 < x)
    (e : liftMu n c = liftMu n c') : c = c' := by
  have key : ∀ c : List Int, (∀ x ∈ c, 0 < x) → c = ((liftMu n c).filter (fun x => decide (1 < x))).map (fun x => x - 1) := by
    intro c hc
    unfold liftMu rep
    rw [List.filter_append]
    have e1 : (c.map (· + 1)).filter (fun x => decide (1 < x)) = c.map (· + 1) := by
      rw [List.filter_eq_self]
      intro x hx
      obtain ⟨y, hy, rfl⟩ := List.mem_map.1 hx
      have := hc y hy
      simp; omega
    have e2 : ∀ q : Nat, (List.replicate q (1 : Int)).filter (fun x => decide (1 < x)) = [] := by
      intro q
      rw [List.filter_eq_nil_iff]
      intro x hx
      have := List.eq_of_mem_replicate hx
      simp; omega
    rw [e1, e2, List.append_nil, List.map_map]
    conv_lhs => rw [← List.map_id c]
    apply List.map_congr_left
    intro x _
    simp
  rw [key c hc, key c' hc', e]

/-- the dual of the lifted complement, for all strict partitions -/
theorem dual_lift_all {ord : List Int → List Int} (ho : Ascending ord) {n s : Int} (hn : 1 ≤ n) {mu : List Int}
    (h : StrictIn n s mu) :
    (Space.mk .D 1 n).dualize (liftMu n (complMu ord n mu)) = .ok (typeTwo 1 (rowToColumn mu)) ∧
    (Space.mk .D 1 n).dualize (liftMu n (complMu ord n mu) ++ [0]) = .ok (rowToColumn mu) := by
  by_cases h0 : mu = []
  · subst h0
    obtain ⟨t, ht, ht'⟩ := compl_spec ho (by omega) h
    have hs : s = 0 := by have := h.2.2; simpa using this.symm
    subst hs
    have nil : ∀ r, ClsD 1 n 0 r → r = [] := by
      rintro r ⟨nu, r1, _, r2, r3⟩
      have := (reduced_sum_nonneg r1).2 r2
      subst this
      rcases r3 with r3 | r3
      · exact r3
      · simp at r3
    constructor
    · obtain ⟨r, e1, e2⟩ := dual_spec hn ht (t := 0) (by omega) [] (Or.inl rfl)
      rw [List.append_nil] at e1
      rw [e1, nil r e2]
      rfl
    · obtain ⟨r, e1, e2⟩ := dual_spec hn ht (t := 0) (by omega) [0] (Or.inr rfl)
      rw [e1, nil r e2]
      rfl
  · have h1 := dual_lift ho hn h h0 [] (Or.inl rfl)
    have h2 := dual_lift ho hn h h0 [0] (Or.inr rfl)
    rw [List.append_nil, if_pos rfl] at h1
    rw [if_neg (by simp), List.append_nil] at h2
    obtain ⟨N, rfl⟩ : ∃ N : Nat, n = N := ⟨n.toNat, by omega⟩
    obtain ⟨_, _, w⟩ := (compl_of_strictIn ho h).wrap_reduced h0
    rw [h1, h2, rowToColumn_eq h0]
    unfold typeTwo
    rw [if_pos w]
    exact ⟨rfl, rfl⟩

theorem rowToColumn_inj {n s s' : Int} {mu mu' : List Int} (hn : 1 ≤ n) (h : StrictIn n s mu) (h' : StrictIn n s' mu')
    (e : rowToColumn mu = rowToColumn mu') : mu = mu' := by
  have ho : Ascending id := fun l _ => rfl
  have key : ∀ s mu, StrictIn n s mu → mu ≠ [] → rowToColumn mu ≠ [] := by
    intro s mu h h0
    obtain ⟨N, rfl⟩ : ∃ N : Nat, n = N := ⟨n.toNat, by omega⟩
    obtain ⟨_, _, w⟩ := (compl_of_strictIn ho h).wrap_reduced h0
    rw [rowToColumn_eq h0]
    intro he
    rw [he] at w
    simp at w
  by_cases h0 : mu = []
  · by_cases h0' : mu' = []
    · rw [h0, h0']
    · rw [h0] at e
      exact absurd e.symm (key _ _ h' h0')
  · by_cases h0' : mu' = []
    · rw [h0'] at e
      exact absurd e (key _ _ h h0)
    · rw [rowToColumn_eq h0, rowToColumn_eq h0'] at e
      exact wrap_inj hn h h' h0 h0' e

theorem typeTwo_inj {n s s' : Int} {mu mu' : List Int} (hn : 1 ≤ n) (h : StrictIn n s mu) (h' : StrictIn n s' mu')
    (e : typeTwo 1 (rowToColumn mu) = typeTwo 1 (rowToColumn mu')) : mu = mu' := by
  have ho : Ascending id := fun l _ => rfl
  apply rowToColumn_inj hn h h'
  have key : ∀ s mu, StrictIn n s mu → rowToColumn mu = (typeTwo 1 (rowToColumn mu)).filter (fun x => decide (0 < x)) := by
    intro s mu h
    have hp : ∀ x ∈ rowToColumn mu, 0 < x := by
      by_cases h0 : mu = []
      · subst h0; simp [rowToColumn]
      · obtain ⟨N, rfl⟩ : ∃ N : Nat, n = N := ⟨n.toNat, by omega⟩
        obtain ⟨w, _, _⟩ := (compl_of_strictIn ho h).wrap_reduced h0
        rw [rowToColumn_eq h0]
        exact w.2
    have hf : (rowToColumn mu).filter (fun x => decide (0 < x)) = rowToColumn mu := by
      rw [List.filter_eq_self]
      intro x hx
      simpa using hp x hx
    unfold typeTwo
    split
    · rw [List.filter_append, hf]; simp
    · rw [hf]
  rw [key s mu h, key s' mu' h', e]

/-! ### The products -/

/-- `dualize` as a partial map -/
def gDual (n : Int) (x : List Int) : Option (List Int) :=
  match (Space.mk .D 1 n).dualize x with
  | .ok r => some r
  | .error _ => none

/-- the terms of `cprd` -/
def TermLb (n p : Int) (lb mu : List Int) (c : ℚ) : Prop :=
  if p.natAbs ≤ 1 then mu = lb ∧ c = 1 else TermD 0 n (p.natAbs - 1) lb mu c

/-- the terms with `q1` and `q2` -/
def QTermD1 (n p : Int) (lam lb : List Int) (qs : Mono) (x : List Int) (c : ℚ) : Prop :=
  (qs = [.q1] ∧ (last' lam > 0 ∧ p > 0) ∧ ∃ mu, TermLb n p lb mu c ∧ x = typeTwo 1 (rowToColumn mu)) ∨
  (qs = [.q2] ∧ ((last' lam = 0 ∨ (1 : Int) ∉ lam) ∧ (p = -1 ∨ p > 1)) ∧ ∃ mu, TermLb n p lb mu c ∧ x = rowToColumn mu)

theorem qpieriD1_ret {ord : List Int → List Int} (ho : Ascending ord) (p : Int) {n : Int} (hn : 1 ≤ n)
    {lam : List Int} (h : ClsD 1 n lam.sum lam) (hl : at' lam (n - 1).toNat > 0) :
    RetTerms (QTermD1 n p lam (partClip (lam.map (fun x => max (x - 1) 0)))) (qpieriD1 ord p lam n) := by
  obtain ⟨mu, h1, h2, h3, hx⟩ := h
  have hx' : lam = mu ∨ lam = mu ++ [0] := by tauto
  have hat : at' lam (n - 1).toNat = part mu (n - 1).toNat := by
    rcases hx' with rfl | rfl
    · rfl
    · exact part_append_zero mu _
  have hlen : (mu.length : Int) = n := by
    have a1 : (n - 1).toNat < mu.length := by
      by_contra hge
      rw [hat, part_of_ge (by omega)] at hl
      omega
    have a2 := (class_of_inBox (m := n.toNat) (c := n + 1) (d := 1) (k := 1) (n := n) (by push_cast; omega) (by push_cast; omega)
      h1 h2).2.1
    omega
  obtain ⟨b1, b2, b3⟩ := lb_spec (by omega) h1 h2 hlen hx'
  unfold qpieriD1
  dsimp only
  generalize hlb : partClip (lam.map (fun x => max (x - 1) 0)) = lb at *
  -- the first product
  have c1 : RetTerms (Pure (TermLb n p lb))
      (if p.natAbs > 1 then pieriD (p.natAbs - 1) lb 0 n else .ok (Poly.sym (.S lb))) := by
    by_cases hp : p.natAbs > 1
    · rw [if_pos hp]
      obtain ⟨u, v⟩ := class_of_inBox (m := (n + 1).toNat) (c := n) (d := 1) (k := 0) (n := n) (by push_cast; omega)
        (by push_cast; omega) b1 b2
      refine (pieriD_ret (p.natAbs - 1) (k := 0) b2 (by omega) (by push_cast; omega)
        (m := (n + 1).toNat) (c := n) ⟨lb, b1, u, v, Or.inl rfl⟩).congr (fun qs x c => ?_)
      unfold Pure TermLb
      rw [if_neg (by omega)]
    · rw [if_neg hp]
      refine RetTerms.ok ((isTerms_symS lb).congr (fun qs x c => ?_))
      unfold Pure TermLb
      rw [if_pos (by omega)]
  have hstrict : ∀ x c, TermLb n p lb x c → ∃ s, StrictIn n s x := by
    intro x c hT
    unfold TermLb at hT
    split at hT
    · rw [hT.1]
      exact ⟨_, strictIn_of_cls ⟨lb, b1, b2, rfl, Or.inl rfl⟩⟩
    · obtain ⟨nu, r1, r2, r3, _, r4, _⟩ := hT
      exact ⟨_, strictIn_of_cls ⟨nu, r1, r2, r3, r4⟩⟩
  have rest : ∀ cprd, IsTerms (Pure (TermLb n p lb)) cprd → RetTerms (QTermD1 n p lam lb) (do
        let cprd ← Poly.apply (fun mu => .ok (Poly.sym (.S (complMu ord n mu)))) cprd
        let a ← if last' lam > 0 ∧ p > 0 then do
            let z ← Poly.apply (fun mu => .ok (Poly.sym (.S (liftMu n mu)))) cprd
            .ok (Poly.mul (Poly.sym .q1) z)
          else .ok []
        let b ← if (last' lam = 0 ∨ (1 : Int) ∉ lam) ∧ (p = -1 ∨ p > 1) then do
            let z ← Poly.apply (fun mu => .ok (Poly.sym (.S (liftMu n mu ++ [0])))) cprd
            .ok (Poly.mul (Poly.sym .q2) z)
          else .ok []
        Poly.apply (fun mu => do let r ← (Space.mk .D 1 n).dualize mu; .ok (Poly.sym (.S r))) (Poly.add a b)) := by
    intro cprd hcp
    refine RetTerms.bind (isTerms_apply hcp (f := fun mu => .ok (Poly.sym (.S (complMu ord n mu))))
      (fun mu => some (complMu ord n mu)) (fun x c _ => rfl) (fun x c x' c' y t1 t2 e1 e2 => ?_)) (fun cp hcp => ?_)
    · obtain ⟨s, hs⟩ := hstrict x c t1
      obtain ⟨s', hs'⟩ := hstrict x' c' t2
      rw [← e2] at e1
      injection e1 with e1
      exact compl_inj ho hs hs' e1
    let C : List Int → ℚ → Prop := fun y c => ∃ x, TermLb n p lb x c ∧ complMu ord n x = y
    have hcp : IsTerms (Pure C) cp := hcp.congr (fun qs x c => by simp [Pure, C])
    have hcpos : ∀ y c, C y c → ∀ v ∈ y, 0 < v := by
      rintro y c ⟨x, hT, rfl⟩ v hv
      obtain ⟨s, hs⟩ := hstrict x c hT
      obtain ⟨t, ht, _⟩ := compl_spec ho (by omega) hs
      exact (ht.2.1 v hv).1
    have fin : ∀ (P1 P2 : Prop) (z1 z2 a b : Poly),
        IsTerms (Pure (fun y c => P1 ∧ ∃ x, C x c ∧ liftMu n x = y)) z1 →
        IsTerms (Pure (fun y c => P2 ∧ ∃ x, C x c ∧ liftMu n x ++ [0] = y)) z2 →
        IsTerms (fun qs y c => qs = [.q1] ∧ P1 ∧ ∃ x, C x c ∧ liftMu n x = y) a →
        IsTerms (fun qs y c => qs = [.q2] ∧ P2 ∧ ∃ x, C x c ∧ liftMu n x ++ [0] = y) b →
        den a = X .q1 * den z1 → den b = X .q2 * den z2 →
        RetTerms (fun qs x c => (qs = [.q1] ∧ P1 ∧ ∃ mu, TermLb n p lb mu c ∧ x = typeTwo 1 (rowToColumn mu)) ∨
          (qs = [.q2] ∧ P2 ∧ ∃ mu, TermLb n p lb mu c ∧ x = rowToColumn mu))
          (Poly.apply (fun mu => do let r ← (Space.mk .D 1 n).dualize mu; .ok (Poly.sym (.S r))) (Poly.add a b)) := by
      intro P1 P2 z1 z2 a b i1 i2 i3 i4 da db
      have g1 : ∀ x c, TermLb n p lb x c → gDual n (liftMu n (complMu ord n x)) = some (typeTwo 1 (rowToColumn x)) := by
        intro x c hT
        obtain ⟨s, hs⟩ := hstrict x c hT
        unfold gDual
        rw [(dual_lift_all ho hn hs).1]
      have g2 : ∀ x c, TermLb n p lb x c → gDual n (liftMu n (complMu ord n x) ++ [0]) = some (rowToColumn x) := by
        intro x c hT
        obtain ⟨s, hs⟩ := hstrict x c hT
        unfold gDual
        rw [(dual_lift_all ho hn hs).2]
      refine RetTerms.congr (isTerms_apply_q12 i1 i2 i3 i4 da db (gDual n) ?_ ?_ ?_ ?_) ?_
      · rintro y c ⟨_, _, ⟨x, hT, rfl⟩, rfl⟩
        obtain ⟨s, hs⟩ := hstrict x c hT
        rw [g1 x c hT, (dual_lift_all ho hn hs).1]
        rfl
      · rintro y c ⟨_, _, ⟨x, hT, rfl⟩, rfl⟩
        obtain ⟨s, hs⟩ := hstrict x c hT
        rw [g2 x c hT, (dual_lift_all ho hn hs).2]
        rfl
      · rintro y c y' c' v ⟨_, _, ⟨x, hT, rfl⟩, rfl⟩ ⟨_, _, ⟨x', hT', rfl⟩, rfl⟩ e1 e2
        rw [g1 x c hT] at e1
        rw [g1 x' c' hT', ← e1] at e2
        injection e2 with e2
        obtain ⟨s, hs⟩ := hstrict x c hT
        obtain ⟨s', hs'⟩ := hstrict x' c' hT'
        rw [typeTwo_inj hn hs' hs e2]
      · rintro y c y' c' v ⟨_, _, ⟨x, hT, rfl⟩, rfl⟩ ⟨_, _, ⟨x', hT', rfl⟩, rfl⟩ e1 e2
        rw [g2 x c hT] at e1
        rw [g2 x' c' hT', ← e1] at e2
        injection e2 with e2
        obtain ⟨s, hs⟩ := hstrict x c hT
        obtain ⟨s', hs'⟩ := hstrict x' c' hT'
        rw [rowToColumn_inj hn hs' hs e2]
      · intro qs y c
        refine or_congr (and_congr_right (fun _ => ?_)) (and_congr_right (fun _ => ?_))
        · constructor
          · rintro ⟨_, ⟨hP, _, ⟨x, hT, rfl⟩, rfl⟩, e⟩
            rw [g1 x c hT] at e
            injection e with e
            exact ⟨hP, x, hT, e.symm⟩
          · rintro ⟨hP, x, hT, rfl⟩
            exact ⟨_, ⟨hP, _, ⟨x, hT, rfl⟩, rfl⟩, g1 x c hT⟩
        · constructor
          · rintro ⟨_, ⟨hP, _, ⟨x, hT, rfl⟩, rfl⟩, e⟩
            rw [g2 x c hT] at e
            injection e with e
            exact ⟨hP, x, hT, e.symm⟩
          · rintro ⟨hP, x, hT, rfl⟩
            exact ⟨_, ⟨hP, _, ⟨x, hT, rfl⟩, rfl⟩, g2 x c hT⟩
    have nilP : ∀ (P : Prop) (R : List Int → ℚ → Prop), ¬ P → IsTerms (Pure (fun y c => P ∧ R y c)) [] := by
      intro P R hP
      exact isTerms_nil.congr (fun qs x c => by simp [Pure, hP])
    have nilq : ∀ (P : Prop) (R : List Int → ℚ → Prop) (q : Mono), ¬ P → IsTerms (fun qs y c => qs = q ∧ P ∧ R y c) [] := by
      intro P R q hP
      exact isTerms_nil.congr (fun qs x c => by simp [hP])
    have second : ∀ z1 a, IsTerms (Pure (fun y c => (last' lam > 0 ∧ p > 0) ∧ ∃ x, C x c ∧ liftMu n x = y)) z1 →
        IsTerms (fun qs y c => qs = [.q1] ∧ (last' lam > 0 ∧ p > 0) ∧ ∃ x, C x c ∧ liftMu n x = y) a →
        den a = X .q1 * den z1 → RetTerms (QTermD1 n p lam lb) (do
            let b ← if (last' lam = 0 ∨ (1 : Int) ∉ lam) ∧ (p = -1 ∨ p > 1) then do
                let z ← Poly.apply (fun mu => .ok (Poly.sym (.S (liftMu n mu ++ [0])))) cp
                .ok (Poly.mul (Poly.sym .q2) z)
              else .ok []
            Poly.apply (fun mu => do let r ← (Space.mk .D 1 n).dualize mu; .ok (Poly.sym (.S r))) (Poly.add a b)) := by
      intro z1 a i1 i3 da
      dsimp only
      split
      · rename_i hcond
        refine RetTerms.bind (isTerms_apply hcp (f := fun mu => .ok (Poly.sym (.S (liftMu n mu ++ [0]))))
          (fun mu => some (liftMu n mu ++ [0])) (fun x c _ => rfl) (fun x c x' c' y t1 t2 e1 e2 => ?_)) (fun z hz => ?_)
        · rw [← e2] at e1
          injection e1 with e1
          exact lift_inj (hcpos _ _ t1) (hcpos _ _ t2) (List.append_cancel_right e1)
        · have i2 : IsTerms (Pure (fun y c => ((last' lam = 0 ∨ (1 : Int) ∉ lam) ∧ (p = -1 ∨ p > 1)) ∧
              ∃ x, C x c ∧ liftMu n x ++ [0] = y)) z := hz.congr (fun qs x c => by
            unfold Pure
            refine and_congr_right (fun _ => ?_)
            simp only [hcond, true_and, Option.some.injEq])
          refine fin _ _ _ _ _ _ i1 i2 i3 (isTerms_q2 i2) da ?_
          rw [den_mul, den_sym]
      · rename_i hcond
        exact fin _ _ _ _ _ _ i1 (nilP _ _ hcond) i3 (nilq _ _ _ hcond) da (by simp)
    dsimp only
    split
    · rename_i hcond
      refine RetTerms.bind (isTerms_apply hcp (f := fun mu => .ok (Poly.sym (.S (liftMu n mu))))
        (fun mu => some (liftMu n mu)) (fun x c _ => rfl) (fun x c x' c' y t1 t2 e1 e2 => ?_)) (fun z hz => ?_)
      · rw [← e2] at e1
        injection e1 with e1
        exact lift_inj (hcpos _ _ t1) (hcpos _ _ t2) e1
      · have i1 : IsTerms (Pure (fun y c => (last' lam > 0 ∧ p > 0) ∧ ∃ x, C x c ∧ liftMu n x = y)) z :=
          hz.congr (fun qs x c => by
            unfold Pure
            refine and_congr_right (fun _ => ?_)
            simp only [hcond, true_and, Option.some.injEq])
        refine second _ _ i1 (isTerms_q1 i1) ?_
        rw [den_mul, den_sym]
    · rename_i hcond
      exact second _ _ (nilP _ _ hcond) (nilq _ _ _ hcond) (by simp)
  split
  · rename_i hp
    rw [if_pos hp] at c1
    exact c1.bind rest
  · rename_i hp
    rw [if_neg hp] at c1
    exact c1.bind rest

/-- the terms of `qpieri` in type D for `k = 1` -/
def QTermD1Full (n p : Int) (lam : List Int) (qs : Mono) (x : List Int) (c : ℚ) : Prop :=
  (qs = [] ∧ TermD 1 n p lam x c) ∨
  (0 < at' lam (n - 1).toNat ∧ QTermD1 n p lam (partClip (lam.map (fun x => max (x - 1) 0))) qs x c) ∨
  (qs = [.q1, .q2] ∧ part lam 0 = n + 1 ∧ TermD 1 n p lam.tail ((n + 1) :: x) c)

theorem qpieriD_ret_one {ord : List Int → List Int} (ho : Ascending ord) (p : Int) {n : Int} {lam : List Int}
    (h : ClsD 1 n lam.sum lam) (hn : 1 ≤ n) :
    RetTerms (QTermD1Full n p lam) (qpieriD ord p lam 1 n) := by
  obtain ⟨ht, _⟩ := typed_of_cls (k := 1) (m := n.toNat) (c := n + 1) (by push_cast; omega) (by push_cast; rfl) h
  have hbox : InBox 1 n 1 lam := inBox_of_typed (m := n.toNat) (c := n + 1) (by push_cast; omega) (by push_cast; rfl) (by omega) ht
  unfold qpieriD
  refine (pieriD_ret p hbox (by omega) (by push_cast; omega) ht).bind (fun w hw => ?_)
  rw [if_neg (by omega), if_neg (by push_cast; omega), if_pos rfl]
  have last : ∀ (w : Poly) (T : Mono → List Int → ℚ → Prop), IsTerms T w → (∀ qs x c, T qs x c → qs.length ≤ 1) →
      RetTerms (fun qs x c => T qs x c ∨ (qs = [.q1, .q2] ∧ part lam 0 = n + 1 ∧ TermD 1 n p lam.tail ((n + 1) :: x) c))
        (if lam.length > 0 ∧ at' lam 0 = n + (1 : Nat) then do
          let v ← pieriD p lam.tail 1 n
          let z ← Poly.apply (fun x => .ok (partStar x (n + (1 : Nat)))) v
          .ok (Poly.add w (Poly.mul (Poly.mul (Poly.sym .q1) (Poly.sym .q2)) z))
        else .ok w) := by
    intro w T hw hT
    split
    · rename_i hc
      refine tail_ret_D p hbox (by omega) (by push_cast; omega)
        (typed_tail ht (by rw [← at'_eq_part]; exact hc.2) (by omega))
        (fun z hz => .ok ((isTerms_add hw (isTerms_q12 hz) ?_).congr ?_))
      · rintro qs x c qs' x' c' h1 ⟨rfl, _⟩ rfl
        have := hT _ _ _ h1
        simp at this
      · intro qs x c
        rw [← at'_eq_part]
        exact or_congr_right ⟨fun h1 => ⟨h1.1, hc.2, h1.2⟩, fun h1 => ⟨h1.1, h1.2.2⟩⟩
    · rename_i hc
      refine .ok (hw.congr (fun qs x c => ?_))
      constructor
      · exact Or.inl
      · rintro (h1 | h1)
        · exact h1
        · refine absurd ⟨?_, ?_⟩ hc
          · by_contra h0
            have : lam = [] := List.eq_nil_of_length_eq_zero (by omega)
            rw [this] at h1
            have := h1.2.1
            simp [part] at this
            omega
          · rw [at'_eq_part]; exact h1.2.1
  dsimp only
  split
  · rename_i hc
    refine RetTerms.bind (qpieriD1_ret ho p hn h hc.2) ?_
    intro z hz
    refine RetTerms.congr (last _ _ (isTerms_add hw hz ?_) ?_) ?_
    · rintro qs x c qs' x' c' ⟨rfl, _⟩ (⟨rfl, _⟩ | ⟨rfl, _⟩) <;> simp
    · rintro qs x c (⟨rfl, _⟩ | ⟨rfl, _⟩ | ⟨rfl, _⟩) <;> simp
    · intro qs x c
      unfold QTermD1Full Pure
      have := hc.2
      simp only [gt_iff_lt] at this
      simp only [this, true_and, or_assoc]
  · rename_i hc
    refine RetTerms.congr (last _ _ hw ?_) ?_
    · rintro qs x c ⟨rfl, _⟩; simp
    · intro qs x c
      unfold QTermD1Full Pure
      constructor
      · rintro (h1 | h1)
        · exact Or.inl h1
        · exact Or.inr (Or.inr h1)
      · rintro (h1 | h1 | h1)
        · exact Or.inl h1
        · refine absurd ⟨?_, h1.1⟩ hc
          by_contra hlt
          have h2 := h1.1
          rw [at'_eq_part, part_of_ge (by omega)] at h2
          omega
        · exact Or.inr h1

end Verif
