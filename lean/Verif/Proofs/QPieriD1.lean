import Verif.Proofs.QPieriHom
import Verif.Props.Dual
/-!
# The quantum Pieri rule of `OG(n, 2n+2)` (type D, `k = 1`)
-/

namespace Verif
open Spec MvPolynomial

/-- iterating over a set of integers in increasing order -/
def Ascending (ord : List Int → List Int) : Prop := ∀ l : List Int, l.Pairwise (· < ·) → ord l = l

theorem typed_of_cls {k : Nat} {n s : Int} {m : Nat} {c : Int} {x : List Int} (hm : (m : Int) = n + 1 - k)
    (hc : c = n + k) (h : ClsD k n s x) : TypedClass k m c x ∧ x.sum = s := by
  obtain ⟨mu, h1, h2, h3, h4⟩ := h
  obtain ⟨u, v⟩ := class_of_inBox (d := 1) hm hc h1 h2
  refine ⟨⟨mu, h1, u, v, h4⟩, ?_⟩
  rcases h4 with rfl | ⟨_, rfl⟩
  · exact h3
  · simpa using h3

theorem cls_of_typed {k : Nat} {n : Int} {m : Nat} {c : Int} {x : List Int} (hm : (m : Int) = n + 1 - k)
    (hc : c = n + k) (hn : 0 ≤ n) (h : TypedClass k m c x) : ClsD k n x.sum x := by
  obtain ⟨mu, h1, h2, h3, h4⟩ := h
  refine ⟨mu, h1, inBox_of_class hm hc hn h1 h2 h3, ?_, h4⟩
  rcases h4 with rfl | ⟨_, rfl⟩ <;> simp

/-! ### The shape `lb` -/

theorem sum_map_pred (l : List Int) (h : ∀ x ∈ l, 0 < x) : (l.map (fun x => max (x - 1) 0)).sum = l.sum - l.length := by
  induction l with
  | nil => rfl
  | cons x l ih =>
    have h1 := h x (by simp)
    rw [List.map_cons, List.sum_cons, ih (fun y hy => h y (by simp [hy])), List.sum_cons]
    push_cast [List.length_cons]
    omega

theorem lb_spec {n : Int} (hn : 0 ≤ n) {mu lam : List Int} (h1 : ReducedPart mu) (h2 : InBox 1 n 1 mu)
    (hlen : (mu.length : Int) = n) (hx : lam = mu ∨ lam = mu ++ [0]) :
    ReducedPart (partClip (lam.map (fun x => max (x - 1) 0))) ∧
      InBox 0 n 1 (partClip (lam.map (fun x => max (x - 1) 0))) ∧
      (partClip (lam.map (fun x => max (x - 1) 0))).sum = mu.sum - n := by
  have e : partClip (lam.map (fun x => max (x - 1) 0)) = partClip (mu.map (fun x => max (x - 1) 0)) := by
    rcases hx with rfl | rfl
    · rfl
    · rw [List.map_append]; exact partClip_concat_zero _
  rw [e]
  have hm : IsPartition (mu.map (fun x => max (x - 1) 0)) := isPartition_map_max (reduced_isPart h1)
  have hred := hm.partClip
  have hpart : ∀ i, part (partClip (mu.map (fun x => max (x - 1) 0))) i = max (part mu i - 1) 0 := by
    intro i
    rw [part_partClip, part_map (fun x => max (x - 1) 0) (by simp)]
  have hip : IsPartition (partClip (mu.map (fun x => max (x - 1) 0))) := reduced_isPart hred
  refine ⟨hred, ⟨hip, ?_, ?_, ?_⟩, ?_⟩
  · rw [kstrict_part (by simp) hip]
    intro i hi
    rw [hpart] at hi ⊢
    rw [hpart]
    have hmi := (kstrict_part (k := ((1 : Nat) : Int)) (by simp) (reduced_isPart h1)).1 h2.kstrict i (by push_cast at hi ⊢; omega)
    push_cast at hi
    omega
  · intro r hr
    rw [hpart, part_of_ge (l := mu) (by push_cast at hr; omega)]
    simp
  · rw [hpart]; have := h2.cols; push_cast at this ⊢; omega
  · rw [partClip_sum, sum_map_pred _ h1.2, hlen]

/-! ### The complement -/

theorem pyRange_sorted (a b : Int) : (pyRange a b).Pairwise (· < ·) := by
  unfold pyRange
  rw [List.pairwise_map]
  exact List.pairwise_lt_range.imp (fun h => by simpa using h)

theorem pyRange_sum (n : Int) (hn : 0 ≤ n) : 2 * (pyRange 1 (n + 1)).sum = n * (n + 1) := by
  obtain ⟨N, rfl⟩ := Int.eq_ofNat_of_zero_le hn
  unfold pyRange
  rw [show ((N : Int) + 1 - 1).toNat = N by omega]
  induction N with
  | zero => simp
  | succ N ih =>
    have := ih (by omega)
    rw [List.range_succ, List.map_append, List.sum_append]
    simp only [List.map_cons, List.map_nil, List.sum_cons, List.sum_nil]
    simp only [Int.ofNat_eq_natCast] at this ⊢
    push_cast at this ⊢
    linarith

/-- strictly decreasing lists with entries in `1..n` -/
def StrictIn (n : Int) (s : Int) (c : List Int) : Prop := c.Pairwise (· > ·) ∧ (∀ x ∈ c, 0 < x ∧ x ≤ n) ∧ c.sum = s

theorem strictIn_of_cls {n s : Int} {x : List Int} (h : ClsD 0 n s x) : StrictIn n s x := by
  obtain ⟨mu, h1, h2, h3, h4⟩ := h
  rcases h4 with rfl | ⟨h0, _⟩
  · have hs : x.Pairwise (fun a b => (0 : Int) < a → b < a) := h2.kstrict
    refine ⟨?_, ?_, h3⟩
    · exact hs.imp_of_mem (fun ha _ hab => hab (h1.2 _ ha))
    · intro y hy
      have h5 := le_head h1 y hy
      have h6 : at' x 0 ≤ n + (0 : Nat) := h2.cols
      exact ⟨h1.2 y hy, by push_cast at h6; omega⟩
  · have := h1.2 _ h0; simp at this

theorem compl_spec {ord : List Int → List Int} (ho : Ascending ord) {n s : Int} (hn : 0 ≤ n) {x : List Int}
    (h : StrictIn n s x) : ∃ t, StrictIn n t (complMu ord n x) ∧ 2 * t = n * (n + 1) - 2 * s := by
  have hs : ((pyRange 1 (n + 1)).filter (fun y => decide (y ∉ x))).Pairwise (· < ·) := (pyRange_sorted 1 (n + 1)).filter _
  unfold complMu
  rw [ho _ hs]
  refine ⟨_, ⟨?_, ?_, rfl⟩, ?_⟩
  · rw [List.pairwise_reverse]; exact hs
  · intro y hy
    rw [List.mem_reverse, List.mem_filter, mem_pyRange] at hy
    omega
  · rw [List.sum_reverse]
    have hperm : ((pyRange 1 (n + 1)).filter (fun y => decide (y ∈ x))).Perm x := by
      rw [List.perm_ext_iff_of_nodup ((pyRange_nodup _ _).filter _) (h.1.imp (fun hab => by omega))]
      intro y
      rw [List.mem_filter, mem_pyRange]
      constructor
      · intro hy; simpa using hy.2
      · intro hy; have := h.2.1 y hy; exact ⟨by omega, by simpa using hy⟩
    have hsplit : ∀ l : List Int, (l.filter (fun y => decide (y ∉ x))).sum + (l.filter (fun y => decide (y ∈ x))).sum = l.sum := by
      intro l
      induction l with
      | nil => rfl
      | cons y l ih =>
        by_cases hy : y ∈ x
        · rw [List.filter_cons_of_neg (by simpa using hy), List.filter_cons_of_pos (by simpa using hy)]
          simp only [List.sum_cons]; omega
        · rw [List.filter_cons_of_pos (by simpa using hy), List.filter_cons_of_neg (by simpa using hy)]
          simp only [List.sum_cons]; omega
    have h1 := hsplit (pyRange 1 (n + 1))
    have h2 := pyRange_sum n hn
    rw [hperm.sum_eq, h.2.2] at h1
    linarith

theorem strict_length {n s : Int} (hn : 0 ≤ n) {c : List Int} (h : StrictIn n s c) : (c.length : Int) ≤ n := by
  have hnd : c.Nodup := h.1.imp (fun hab => by omega)
  have hsub : c ⊆ pyRange 1 (n + 1) := fun x hx => by
    have := h.2.1 x hx
    rw [mem_pyRange]; omega
  have := (hnd.subperm hsub).length_le
  rw [pyRange_length] at this
  omega

theorem sum_map_succ (l : List Int) : (l.map (fun x => x + 1)).sum = l.sum + l.length := by
  induction l with
  | nil => rfl
  | cons x l ih =>
    rw [List.map_cons, List.sum_cons, ih, List.sum_cons]
    push_cast [List.length_cons]
    ring

theorem lift_spec {n s : Int} (hn : 0 ≤ n) {c : List Int} (h : StrictIn n s c) :
    ReducedPart (liftMu n c) ∧ InBox 1 n 1 (liftMu n c) ∧ (liftMu n c).sum = s + n ∧
      ((c.length : Int) < n → (1 : Int) ∈ liftMu n c) ∧
      ((c.length : Int) = n → (liftMu n c).length = n.toNat ∧ ∀ x ∈ liftMu n c, 1 < x) := by
  have hlen := strict_length hn h
  obtain ⟨e, he⟩ : ∃ e : Nat, n - c.length = e := ⟨(n - c.length).toNat, by omega⟩
  have hl : liftMu n c = c.map (· + 1) ++ List.replicate e 1 := by
    unfold liftMu rep; rw [he]; simp
  rw [hl]
  have hpos : ∀ x ∈ c.map (· + 1) ++ List.replicate e 1, 0 < x ∧ x ≤ n + 1 := by
    intro x hx
    rcases List.mem_append.1 hx with hx | hx
    · obtain ⟨y, hy, rfl⟩ := List.mem_map.1 hx
      have := h.2.1 y hy
      omega
    · have := List.eq_of_mem_replicate hx; omega
  have hmix : ∀ a ∈ c.map (· + 1), ∀ b ∈ List.replicate e (1 : Int), b < a := by
    intro a ha b hb
    obtain ⟨y, hy, rfl⟩ := List.mem_map.1 ha
    have := h.2.1 y hy
    have := List.eq_of_mem_replicate hb
    omega
  have hred : ReducedPart (c.map (· + 1) ++ List.replicate e 1) := by
    refine ⟨?_, fun x hx => (hpos x hx).1⟩
    rw [List.pairwise_append]
    refine ⟨?_, ?_, fun a ha b hb => by have := hmix a ha b hb; omega⟩
    · rw [List.pairwise_map]; exact h.1.imp (fun hab => by omega)
    · rw [List.pairwise_replicate]; right; exact le_refl _
  refine ⟨hred, ⟨reduced_isPart hred, ?_, ?_, ?_⟩, ?_, ?_, ?_⟩
  · unfold KStrict
    rw [List.pairwise_append]
    refine ⟨?_, ?_, fun a ha b hb _ => hmix a ha b hb⟩
    · rw [List.pairwise_map]; exact h.1.imp (fun hab _ => by omega)
    · rw [List.pairwise_replicate]; right; simp
  · intro r hr
    refine part_of_ge ?_
    rw [List.length_append, List.length_map, List.length_replicate]
    push_cast at hr; omega
  · cases hc : c.map (· + 1) ++ List.replicate e 1 with
    | nil => simp [part]; omega
    | cons y l => have := hpos y (by rw [hc]; simp); simp [part]; omega
  · rw [List.sum_append, sum_map_succ, h.2.2]
    simp; omega
  · intro hlt
    rw [List.mem_append]
    right
    rw [List.mem_replicate]
    exact ⟨by omega, rfl⟩
  · intro heq
    have : e = 0 := by omega
    subst this
    constructor
    · simp; omega
    · intro x hx
      simp at hx
      obtain ⟨y, hy, rfl⟩ := hx
      have := h.2.1 y hy
      omega

/-! ### Dualizing -/

theorem part2indexD_mark {n : Int} {mu : List Int} (hlen : mu.length = n.toNat) (h : ∀ x ∈ mu, 1 < x) :
    part2indexD (mu ++ [0]) 1 n = part2indexD mu 1 n := by
  unfold part2indexD
  dsimp only
  have e : ∀ j, at' (mu ++ [0] ++ rep 0 (n + 1 - 1)) j = at' (mu ++ rep 0 (n + 1 - 1)) j := by
    intro j
    unfold rep
    rw [at'_eq_part, at'_eq_part, part_append_zeros, part_append_zeros, part_append_zero]
  have ec : ∀ j, countInner (mu ++ [0] ++ rep 0 (n + 1 - 1)) 1 j (-1) = countInner (mu ++ rep 0 (n + 1 - 1)) 1 j (-1) := by
    intro j
    unfold countInner
    simp only [e]
  apply List.map_congr_left
  intro j hj
  rw [List.mem_range] at hj
  have hj' : j < mu.length := by omega
  have hgt : at' (mu ++ rep 0 (n + 1 - 1)) j > 1 := by
    unfold rep
    rw [at'_eq_part, part_append_zeros, part_of_lt hj']
    exact h _ (List.getElem_mem hj')
  simp only [e, ec]
  rw [if_pos hgt, if_pos hgt]

theorem dual_spec {n s t : Int} (hn : 1 ≤ n) {c : List Int} (h : StrictIn n s c) (hst : 2 * s = n * (n + 1) - 2 * t)
    (e : List Int) (he : e = [] ∨ e = [0]) :
    ∃ r, (Space.mk .D 1 n).dualize (liftMu n c ++ e) = .ok r ∧ ClsD 1 n t r := by
  obtain ⟨h1, h2, h3, h4, h5⟩ := lift_spec (by omega) h
  have hlen := strict_length (by omega) h
  have hX : mkOG n (2 * n + 2) = .ok ⟨.D, 1, n⟩ := by
    unfold mkOG
    rw [if_neg (by omega), if_neg (by omega)]
    congr 2 <;> omega
  have main : ∀ x, ClsD 1 n (s + n) x → ∃ r, (Space.mk .D 1 n).dualize x = .ok r ∧ ClsD 1 n t r := by
    intro x hx
    obtain ⟨a, b⟩ := typed_of_cls (m := n.toNat) (c := 2 * n + 1 - n) (by push_cast; omega) (by push_cast; omega) hx
    obtain ⟨r, r1, r2, _, r3⟩ := C12_dualize_D n n (by omega) _ hX x (by
      rw [show n + 1 - n = ((1 : Nat) : Int) by push_cast; omega]; exact a)
    refine ⟨r, r1, ?_⟩
    rw [show n + 1 - n = ((1 : Nat) : Int) by push_cast; omega] at r2
    have r4 := cls_of_typed (n := n) (by push_cast; omega) (by push_cast; omega) (by omega) r2
    have r5 : r.sum = t := by
      rw [b] at r3
      rw [show n + 1 - n = 1 by omega] at r3
      nlinarith
    rw [r5] at r4
    exact r4
  have plain : ClsD 1 n (s + n) (liftMu n c) := ⟨_, h1, h2, h3, Or.inl rfl⟩
  rcases he with rfl | rfl
  · rw [List.append_nil]; exact main _ plain
  · rcases lt_or_eq_of_le hlen with hlt | heq
    · exact main _ ⟨_, h1, h2, h3, Or.inr ⟨by simpa using h4 hlt, rfl⟩⟩
    · obtain ⟨r, r1, r2⟩ := main _ plain
      refine ⟨r, ?_, r2⟩
      obtain ⟨h6, h7⟩ := h5 heq
      rw [← r1]
      simp only [Space.dualize, Space.part2index]
      rw [part2indexD_mark h6 h7]

/-! ### Assembly -/

/-- the monomials that occur for `k = 1` -/
def Q12 (P : Nat → List Int → Prop) (m : Mono) : Prop :=
  ∃ qs nu, m = qs ++ [.S nu] ∧ (qs = [] ∨ qs = [.q1] ∨ qs = [.q2] ∨ qs = [.q1, .q2]) ∧ P qs.length nu

theorem all_mul_sym {s : Sym} {Q : List Int → Prop} {w : Poly} (hs : s = .q1 ∨ s = .q2) (hw : All (OneS Q) w) :
    All (fun m => ∃ s x, m = [s, .S x] ∧ (s = .q1 ∨ s = .q2) ∧ Q x) (Poly.mul (Poly.sym s) w) :=
  all_mul (A := fun m => m = [s]) ⟨wf_sym _, fun m hm => supp_sym hm⟩ hw (by
    rintro _ _ rfl ⟨x, rfl, hx⟩
    rcases hs with rfl | rfl
    · exact ⟨.q1, x, by simp [Mono.mul, Mono.ins, Sym.code, listLt], Or.inl rfl, hx⟩
    · exact ⟨.q2, x, by simp [Mono.mul, Mono.ins, Sym.code, listLt], Or.inr rfl, hx⟩)

theorem applyMono_two {f : List Int → Except PyErr Poly} {Q : List Int → Prop} {s : Sym} {x : List Int}
    (hs : s = .q1 ∨ s = .q2) (h : RetAll (OneS Q) (f x)) :
    RetAll (fun m => ∃ s x, m = [s, .S x] ∧ (s = .q1 ∨ s = .q2) ∧ Q x) (Poly.applyMono f [s, .S x]) := by
  obtain ⟨a, h1, h2⟩ := applyMono_one h
  refine ⟨Poly.mul (Poly.sym s) a, ?_, all_mul_sym hs h2⟩
  have e : Poly.applySym f s = .ok (Poly.sym s) := by rcases hs with rfl | rfl <;> rfl
  have e2 : Poly.applyMono f [s, .S x] = (do
      let a ← Poly.applySym f s
      let b ← Poly.applyMono f [.S x]
      .ok (Poly.mul a b)) := rfl
  rw [e2, e, h1]; rfl

theorem qpieriD1_all {ord : List Int → List Int} (ho : Ascending ord) (p : Int) {n : Int} (hn : 1 ≤ n)
    {lam : List Int} (h : ClsD 1 n lam.sum lam) (hl : at' lam (n - 1).toNat > 0) :
    RetAll (fun m => ∃ s x, m = [s, .S x] ∧ (s = .q1 ∨ s = .q2) ∧ ClsD 1 n (lam.sum + p.natAbs - (n + 1)) x)
      (qpieriD1 ord p lam n) := by
  obtain ⟨mu, h1, h2, h3, hx⟩ := h
  have hx' : lam = mu ∨ lam = mu ++ [0] := by tauto
  have hat : at' lam (n - 1).toNat = part mu (n - 1).toNat := by
    rcases hx' with rfl | rfl
    · rfl
    · exact part_append_zero mu _
  have hlen : (mu.length : Int) = n := by
    have a1 : (n - 1).toNat < mu.length := by
      by_contra hge
      rw [hat, part_of_ge (by omega)] at hl
      omega
    have a2 := (class_of_inBox (m := n.toNat) (c := n + 1) (d := 1) (k := 1) (n := n) (by push_cast; omega) (by push_cast; omega)
      h1 h2).2.1
    omega
  obtain ⟨b1, b2, b3⟩ := lb_spec (by omega) h1 h2 hlen hx'
  unfold qpieriD1
  dsimp only
  generalize hlb : partClip (lam.map (fun x => max (x - 1) 0)) = lb at *
  -- the first product
  have c1 : RetAll (OneS (StrictIn n (if p.natAbs > 1 then lb.sum + p.natAbs - 1 else lb.sum)))
      (if p.natAbs > 1 then pieriD (p.natAbs - 1) lb 0 n else .ok (Poly.sym (.S lb))) := by
    split
    · refine (pieriD_all (p.natAbs - 1) (k := 0) b2 (by omega) (by push_cast; omega)).imp ?_
      rintro m ⟨x, rfl, hx⟩
      refine ⟨x, rfl, ?_⟩
      have := strictIn_of_cls hx
      rw [show lb.sum + (((p.natAbs : Int) - 1).natAbs : Int) = lb.sum + p.natAbs - 1 by omega] at this
      exact this
    · exact .ok (all_sym ⟨lb, rfl, strictIn_of_cls ⟨lb, b1, b2, rfl, Or.inl rfl⟩⟩)
  generalize hS : (if p.natAbs > 1 then lb.sum + p.natAbs - 1 else lb.sum) = S at c1
  have rest : ∀ cprd, All (OneS (StrictIn n S)) cprd → RetAll (fun m => ∃ s x, m = [s, .S x] ∧ (s = .q1 ∨ s = .q2) ∧
      ClsD 1 n (lam.sum + p.natAbs - (n + 1)) x) (do
        let cprd ← Poly.apply (fun mu => .ok (Poly.sym (.S (complMu ord n mu)))) cprd
        let a ← if last' lam > 0 ∧ p > 0 then do
            let z ← Poly.apply (fun mu => .ok (Poly.sym (.S (liftMu n mu)))) cprd
            .ok (Poly.mul (Poly.sym .q1) z)
          else .ok []
        let b ← if (last' lam = 0 ∨ (1 : Int) ∉ lam) ∧ (p = -1 ∨ p > 1) then do
            let z ← Poly.apply (fun mu => .ok (Poly.sym (.S (liftMu n mu ++ [0])))) cprd
            .ok (Poly.mul (Poly.sym .q2) z)
          else .ok []
        Poly.apply (fun mu => do let r ← (Space.mk .D 1 n).dualize mu; .ok (Poly.sym (.S r))) (Poly.add a b)) := by
    intro cprd hcp
    refine RetAll.bind (apply_one (f := fun mu => .ok (Poly.sym (.S (complMu ord n mu))))
      (Q := fun c => ∃ t, StrictIn n t c ∧ 2 * t = n * (n + 1) - 2 * S) hcp (fun x hx => ?_)) ?_
    · exact .ok (all_sym ⟨_, rfl, compl_spec ho (by omega) hx⟩)
    · intro cp hcp
      have T : 2 ≤ p.natAbs ∨ p = 1 ∨ p = -1 → S = lam.sum + p.natAbs - (n + 1) := by
        intro hp
        have hsum : lam.sum = mu.sum := h3.symm
        rw [← hS]
        split <;> omega
      -- the shapes to be dualized
      let G : Mono → Prop := fun m => ∃ s x, m = [s, .S x] ∧ (s = .q1 ∨ s = .q2) ∧
        ∃ r, (Space.mk .D 1 n).dualize x = .ok r ∧ ClsD 1 n (lam.sum + p.natAbs - (n + 1)) r
      have fin : ∀ a b, All G a → All G b → RetAll (fun m => ∃ s x, m = [s, .S x] ∧ (s = .q1 ∨ s = .q2) ∧
          ClsD 1 n (lam.sum + p.natAbs - (n + 1)) x)
          (Poly.apply (fun mu => do let r ← (Space.mk .D 1 n).dualize mu; .ok (Poly.sym (.S r))) (Poly.add a b)) := by
        intro a b ha hb
        refine apply_all (all_add ha hb) ?_
        rintro m ⟨s, x, rfl, hs, r, hr, hr'⟩
        refine applyMono_two hs ⟨Poly.sym (.S r), ?_, all_sym ⟨r, rfl, hr'⟩⟩
        rw [hr]; rfl
      have second : ∀ a, All G a → RetAll (fun m => ∃ s x, m = [s, .S x] ∧ (s = .q1 ∨ s = .q2) ∧
          ClsD 1 n (lam.sum + p.natAbs - (n + 1)) x) (do
            let b ← if (last' lam = 0 ∨ (1 : Int) ∉ lam) ∧ (p = -1 ∨ p > 1) then do
                let z ← Poly.apply (fun mu => .ok (Poly.sym (.S (liftMu n mu ++ [0])))) cp
                .ok (Poly.mul (Poly.sym .q2) z)
              else .ok []
            Poly.apply (fun mu => do let r ← (Space.mk .D 1 n).dualize mu; .ok (Poly.sym (.S r))) (Poly.add a b)) := by
        intro a ha
        dsimp only
        split
        · rename_i hcond
          refine RetAll.bind (apply_one (f := fun mu => .ok (Poly.sym (.S (liftMu n mu ++ [0]))))
            (Q := fun x => ∃ r, (Space.mk .D 1 n).dualize x = .ok r ∧ ClsD 1 n (lam.sum + p.natAbs - (n + 1)) r)
            hcp (fun x hx => ?_)) (fun z hz => fin _ _ ha (all_mul_sym (Or.inr rfl) hz))
          obtain ⟨t, ht, ht'⟩ := hx
          exact .ok (all_sym ⟨_, rfl, dual_spec hn ht (by rw [← T (by omega)]; exact ht') [0] (Or.inr rfl)⟩)
        · exact fin _ _ ha (all_nil _)
      dsimp only
      split
      · rename_i hcond
        refine RetAll.bind (apply_one (f := fun mu => .ok (Poly.sym (.S (liftMu n mu))))
          (Q := fun x => ∃ r, (Space.mk .D 1 n).dualize x = .ok r ∧ ClsD 1 n (lam.sum + p.natAbs - (n + 1)) r)
          hcp (fun x hx => ?_)) (fun z hz => second _ (all_mul_sym (Or.inl rfl) hz))
        obtain ⟨t, ht, ht'⟩ := hx
        refine .ok (all_sym ⟨_, rfl, ?_⟩)
        have := dual_spec (t := lam.sum + p.natAbs - (n + 1)) hn ht (by rw [← T (by omega)]; exact ht') [] (Or.inl rfl)
        rwa [List.append_nil] at this
      · exact second _ (all_nil _)
  split
  · rename_i hp
    rw [if_pos hp] at c1
    exact c1.bind rest
  · rename_i hp
    rw [if_neg hp] at c1
    exact c1.bind rest

theorem qpieriD_all_one {ord : List Int → List Int} (ho : Ascending ord) (p : Int) {n : Int} {lam : List Int}
    (h : ClsD 1 n lam.sum lam) (hn : 1 ≤ n) :
    RetAll (Q12 (fun d => ClsD 1 n (lam.sum + p.natAbs - d * (n + 1)))) (qpieriD ord p lam 1 n) := by
  have hbox : InBox 1 n 1 lam := by
    obtain ⟨a, _⟩ := typed_of_cls (k := 1) (m := n.toNat) (c := n + 1) (by push_cast; omega) (by push_cast; rfl) h
    exact inBox_of_typed (by push_cast; omega) (by push_cast; rfl) (by omega) a
  unfold qpieriD
  refine (pieriD_all p hbox (by omega) (by push_cast; omega)).bind (fun w hw => ?_)
  rw [if_neg (by omega), if_neg (by push_cast; omega), if_pos rfl]
  have hw : All (Q12 (fun d => ClsD 1 n (lam.sum + p.natAbs - d * (n + 1)))) w :=
    hw.mono (by rintro m ⟨x, rfl, hx⟩; exact ⟨[], x, rfl, Or.inl rfl, by simpa using hx⟩)
  have last : ∀ w, All (Q12 (fun d => ClsD 1 n (lam.sum + p.natAbs - d * (n + 1)))) w →
      RetAll (Q12 (fun d => ClsD 1 n (lam.sum + p.natAbs - d * (n + 1))))
        (if lam.length > 0 ∧ at' lam 0 = n + (1 : Nat) then do
          let v ← pieriD p lam.tail 1 n
          let z ← Poly.apply (fun x => .ok (partStar x (n + (1 : Nat)))) v
          .ok (Poly.add w (Poly.mul (Poly.mul (Poly.sym .q1) (Poly.sym .q2)) z))
        else .ok w) := by
    intro w hw
    split
    · rename_i hc
      refine tail_D p hbox (by omega) (by push_cast; omega) hc (fun z hz => .ok (all_add hw ?_))
      have e : Poly.mul (Poly.sym .q1) (Poly.sym .q2) = [([.q1, .q2], 1)] := by decide +kernel
      rw [e]
      refine all_mul (A := fun m => m = [Sym.q1, Sym.q2]) ⟨?_, by simp [supp]⟩ hz ?_
      · exact ⟨by simp, by simp [Sym.code, listLt]⟩
      · rintro _ _ rfl ⟨x, rfl, hx⟩
        refine ⟨[.q1, .q2], x, by simp [Mono.mul, Mono.ins, Sym.code, listLt], by simp, ?_⟩
        simpa using hx
    · exact .ok hw
  dsimp only
  split
  · rename_i hc
    refine RetAll.bind (qpieriD1_all ho p hn h hc.2) ?_
    intro z hz
    refine last _ (all_add hw (hz.mono ?_))
    rintro m ⟨s, x, rfl, hs, hx⟩
    refine ⟨[s], x, rfl, ?_, by simpa using hx⟩
    rcases hs with rfl | rfl <;> simp
  · exact last _ hw

end Verif
