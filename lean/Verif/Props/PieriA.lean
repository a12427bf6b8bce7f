import Verif.Spec.Dec
import Verif.Proofs.QPieriA
import Verif.Model.Ring
import Verif.Props.IndexA
/-!
# C15, C16, C44: the Pieri rules of `Gr(m, n)`
-/

namespace Verif
open Spec MvPolynomial

theorem wf_classes {L : List (List Int)} (h : L.Nodup) :
    WF (L.map (fun mu => ([Sym.S mu], (1 : ℚ)))) := by
  refine ⟨?_, ?_⟩
  · rw [List.map_map]
    exact h.map (fun a b hab => by simpa using hab)
  · intro t ht
    rw [List.mem_map] at ht
    obtain ⟨mu, _, rfl⟩ := ht
    exact ⟨one_ne_zero, by simp⟩

theorem den_classes (L : List (List Int)) :
    den (L.map (fun mu => ([Sym.S mu], (1 : ℚ)))) = clsSum L := by
  induction L with
  | nil => rfl
  | cons l L ih => rw [List.map_cons, den_cons, ih, clsSum_cons]; simp

theorem wf_qclasses {L N : List (List Int)} (h : L.Nodup) (h' : N.Nodup) :
    WF (L.map (fun mu => ([Sym.S mu], (1 : ℚ))) ++ N.map (fun nu => ([Sym.q, Sym.S nu], (1 : ℚ)))) := by
  refine ⟨?_, ?_⟩
  · rw [List.map_append, List.map_map, List.map_map, List.nodup_append]
    refine ⟨h.map (fun a b hab => by simpa using hab), h'.map (fun a b hab => by simpa using hab), ?_⟩
    intro a ha b hb
    simp at ha hb
    obtain ⟨_, _, rfl⟩ := ha
    obtain ⟨_, _, rfl⟩ := hb
    simp
  · intro t ht
    rw [List.mem_append, List.mem_map, List.mem_map] at ht
    rcases ht with ⟨mu, _, rfl⟩ | ⟨mu, _, rfl⟩
    · exact ⟨one_ne_zero, by simp⟩
    · exact ⟨one_ne_zero, by simp [Sym.code, listLt]⟩

theorem den_qclasses (L N : List (List Int)) :
    den (L.map (fun mu => ([Sym.S mu], (1 : ℚ))) ++ N.map (fun nu => ([Sym.q, Sym.S nu], (1 : ℚ)))) =
      clsSum L + X .q * clsSum N := by
  rw [den_append, den_classes]
  congr 1
  induction N with
  | nil => simp
  | cons l L ih => rw [List.map_cons, den_cons, ih, clsSum_cons]; simp; ring

theorem apply_sym {f : List Int → Except PyErr Poly} {l : List Int} {v : P} (h : Returns (f l) v) :
    Returns (Poly.apply f (Poly.sym (.S l))) v := by
  have := apply_spec (f := f) (σ := fun _ => v) (Poly.sym (.S l)) (by
    intro t ht l' hl'
    simp [Poly.sym] at ht
    subst ht
    simp at hl'
    subst hl'
    exact h)
  simpa using this

/-- **C15.** The type A Pieri rule: `pieri(p, S[lam])` on `Gr(m, n)` is the sum, each with coefficient `1`,
of the classes `mu` such that `mu / lam` is a horizontal strip of size `p`. -/
theorem C15_pieri {m : Nat} {n : Int} {X : Space} (hm : 1 ≤ m) (hX : mkGr m n = .ok X) (p : Nat)
    {lam : List Int} (hl : IsPartition lam) (hr : InRect lam m (n - m)) :
    ∃ (w : Poly) (L : List (List Int)), Gr.pieri X p (Poly.sym (.S lam)) = .ok w ∧
      w.Perm (L.map (fun mu => ([Sym.S mu], (1 : ℚ)))) ∧ L.Nodup ∧
      ∀ mu, mu ∈ L ↔ ReducedPart mu ∧ InRect mu m (n - m) ∧ HorizontalStrip lam mu ∧
        mu.sum = lam.sum + p := by
  obtain ⟨rfl, _, hmn⟩ := mkGr_ok hX
  have hb := Box.pad (show 0 ≤ n - m by omega) hl hr
  have hlen := hb.len
  have hne : pad m lam ≠ [] := by intro h; rw [h] at hlen; simp at hlen; omega
  obtain ⟨w, hw, hw', hw''⟩ := apply_sym (f := fun l => pieriA p l (n - m) n) (l := lam)
    (pieriA_value (n := n) hm (by omega) (by omega) hl hr p)
  have hnd := clip_strips_nodup (p := p) hne hb.part.1 hb.le
  exact ⟨w, _, hw, perm_of_den_eq hw' (wf_classes hnd) (by rw [hw'', den_classes]), hnd,
    mem_clip_strips hm (by omega) hl hr p⟩

/-- A non-trivial instance of C15 (`σ₂ · σ₂₁` on `Gr(3,6)` has three terms). -/
example : mkGr 3 6 = .ok ⟨.A, 3, 6⟩ ∧
    Gr.pieri ⟨.A, 3, 6⟩ 2 (Poly.sym (.S [2, 1])) =
      .ok [([.S [3, 2]], 1), ([.S [3, 1, 1]], 1), ([.S [2, 2, 1]], 1)] := by decide +kernel

/-- `Gr(0, n)` is a point, where `S[p]` acts by `0` for `p ≥ 1`; the code returns the class unchanged
(reason why C15 needs `1 ≤ m`). -/
theorem C15_refuted_m0 : Gr.pieri ⟨.A, 3, 3⟩ 1 (Poly.sym (.S [])) = .ok (Poly.sym (.S [])) := by
  decide +kernel

/-- **C16.** Bertram's quantum Pieri rule. -/
theorem C16_qpieri {m : Nat} {n : Int} {X : Space} (hm : 1 ≤ m) (hmn : (m : Int) < n)
    (hX : mkGr m n = .ok X) (p : Nat) (hp : 1 ≤ p) (hpk : (p : Int) ≤ n - m)
    {lam : List Int} (hl : IsPartition lam) (hr : InRect lam m (n - m)) :
    ∃ (w : Poly) (L N : List (List Int)), Gr.qpieri X p (Poly.sym (.S lam)) = .ok w ∧
      w.Perm (L.map (fun mu => ([Sym.S mu], (1 : ℚ))) ++
        N.map (fun nu => ([Sym.q, Sym.S nu], (1 : ℚ)))) ∧ L.Nodup ∧ N.Nodup ∧
      (∀ mu, mu ∈ L ↔ ReducedPart mu ∧ InRect mu m (n - m) ∧ HorizontalStrip lam mu ∧
        mu.sum = lam.sum + p) ∧
      (∀ nu, nu ∈ N ↔ Bertram m lam nu ∧ nu.sum = lam.sum + p - n) := by
  obtain ⟨rfl, _, _⟩ := mkGr_ok hX
  have hb := Box.pad (show 0 ≤ n - m by omega) hl hr
  have hlen := hb.len
  have hne : pad m lam ≠ [] := by intro h; rw [h] at hlen; simp at hlen; omega
  obtain ⟨N, hN, hN', hN''⟩ := qpieriA_value (n := n) hm (show 1 ≤ n - m by omega) (by omega) hl hr p hp hpk
  obtain ⟨w, hw, hw', hw''⟩ := apply_sym (f := fun l => qpieriA p l (n - m) n) (l := lam) hN''
  have hnd := clip_strips_nodup (p := p) hne hb.part.1 hb.le
  refine ⟨w, _, N, hw, perm_of_den_eq hw' (wf_qclasses hnd hN) (by rw [hw'', den_qclasses]), hnd, hN,
    mem_clip_strips hm (by omega) hl hr p, ?_⟩
  intro nu
  rw [hN']
  constructor
  · rintro ⟨h1, h2⟩; exact ⟨h1, by omega⟩
  · rintro ⟨h1, h2⟩; exact ⟨h1, by omega⟩

/-- A non-trivial instance of C16: two quantum terms. -/
example : Gr.qpieri ⟨.A, 3, 6⟩ 2 (Poly.sym (.S [3, 2, 1])) =
    .ok [([.q, .S [1, 1]], 1), ([.q, .S [2]], 1), ([.S [3, 3, 2]], 1)] := by decide +kernel

/-- Outside `1 ≤ p ≤ n - m` the quantum rule is wrong when `k = 1`: on `Gr(2,3)` the code returns
`q*S[]` for the product of the (vanishing) class `S[5]` with the point. -/
theorem C16_refuted_large_p : Gr.qpieri ⟨.A, 1, 3⟩ 5 (Poly.sym (.S [1, 1])) =
    .ok [([.q, .S []], 1)] := by decide +kernel

/-- The only special class of `Gr(2,3)` gives the same term. -/
example : Gr.qpieri ⟨.A, 1, 3⟩ 1 (Poly.sym (.S [1, 1])) = .ok [([.q, .S []], 1)] := by decide +kernel

/-- On `Gr(0, n)` the quantum Pieri rule raises `IndexError` (`lam[-1]` of an empty list). -/
theorem C16_m0_raises : Gr.qpieri ⟨.A, 3, 3⟩ 1 (Poly.sym (.S [])) = .error .indexError := by
  decide +kernel

/-! ### C44 -/

theorem horizontalStrip_size {lam mu : List Int} (hl : IsPartition lam) (hm : IsPartition mu)
    (h : HorizontalStrip lam mu) {k : Int} (hk : 0 ≤ k) (hmk : part mu 0 ≤ k) :
    mu.sum ≤ lam.sum + k := by
  induction mu generalizing lam k with
  | nil =>
    have := List.sum_nonneg hl.2
    simp; omega
  | cons y mu ih =>
    have hm' : IsPartition mu := ⟨(List.pairwise_cons.1 hm.1).2, fun z hz => hm.2 z (by simp [hz])⟩
    cases lam with
    | nil =>
      have h0 : ∀ i, part mu i = 0 := by
        intro i
        have h1 := (h i).2
        rw [part_cons_succ, part_nil] at h1
        have := hm'.part_nonneg i
        omega
      have : mu.sum = 0 := by
        rw [← partClip_sum, (partClip_eq_iff mu []).2 (by simpa using h0)]; rfl
      simp only [List.sum_cons, this, List.sum_nil]
      simp at hmk; omega
    | cons x lam =>
      have hl' : IsPartition lam := ⟨(List.pairwise_cons.1 hl.1).2, fun z hz => hl.2 z (by simp [hz])⟩
      have hx : 0 ≤ x := hl.2 x (by simp)
      have := ih hl' hm' (fun i => h (i + 1)) hx (by simpa using (h 0).2)
      simp only [List.sum_cons]
      simp at hmk
      omega

/-- **C44.** `pieri(0, S[lam]) = S[lam]`. -/
theorem C44_zero_A {m : Nat} {n : Int} {X : Space} (hm : 1 ≤ m) (hX : mkGr m n = .ok X)
    {lam : List Int} (hl : ReducedPart lam) (hr : InRect lam m (n - m)) :
    Gr.pieri X 0 (Poly.sym (.S lam)) = .ok (Poly.sym (.S lam)) := by
  obtain ⟨w, L, hw, hp, hnd, hL⟩ := C15_pieri hm hX 0 hl.isPartition hr
  have h1 : L.Perm [lam] := by
    rw [List.perm_ext_iff_of_nodup hnd (by simp)]
    intro mu
    rw [hL, List.mem_singleton]
    constructor
    · rintro ⟨h1, h2, h3, h4⟩
      apply eq_of_part_eq h1.noTrailing hl.noTrailing
      -- equal sums and containment
      have key : ∀ (l u : List Int), IsPartition l → IsPartition u → HorizontalStrip l u → u.sum = l.sum →
          ∀ i, part u i = part l i := by
        intro l u
        induction u generalizing l with
        | nil =>
          intro hl hu hs he i
          have h0 := (hs i).1
          have := hl.part_nonneg i
          simp at h0 ⊢
          omega
        | cons y u ih =>
          intro hl hu hs he
          have hu' : IsPartition u := ⟨(List.pairwise_cons.1 hu.1).2, fun z hz => hu.2 z (by simp [hz])⟩
          cases l with
          | nil =>
            have hy : 0 ≤ y := hu.2 y (by simp)
            have hus := List.sum_nonneg hu'.2
            simp at he
            have h5 : ∀ i, part u i = 0 := by
              intro i
              have h1 := (hs i).2
              rw [part_cons_succ, part_nil] at h1
              have := hu'.part_nonneg i
              omega
            intro i
            cases i with
            | zero => simp; omega
            | succ i => simpa using h5 i
          | cons x l =>
            have hl' : IsPartition l := ⟨(List.pairwise_cons.1 hl.1).2, fun z hz => hl.2 z (by simp [hz])⟩
            have hge : l.sum ≤ u.sum := by
              have : ∀ (l u : List Int), IsPartition u → (∀ i, part l i ≤ part u i) → l.sum ≤ u.sum := by
                intro l
                induction l with
                | nil => intro u hu _; simpa using List.sum_nonneg hu.2
                | cons a l ih =>
                  intro u hu h
                  cases u with
                  | nil =>
                    have h1 := ih [] ⟨by simp, by simp⟩ (fun i => by simpa using h (i + 1))
                    have h2 := h 0
                    simp at h1 h2 ⊢; omega
                  | cons b u =>
                    have h1 := ih u ⟨(List.pairwise_cons.1 hu.1).2, fun z hz => hu.2 z (by simp [hz])⟩
                      (fun i => by simpa using h (i + 1))
                    have h2 := h 0
                    simp at h2 ⊢; omega
              exact this l u hu' (fun i => (hs (i + 1)).1)
            have hxy := (hs 0).1
            simp at hxy he
            have := ih l hl' hu' (fun i => hs (i + 1)) (by omega)
            intro i
            cases i with
            | zero => simp; omega
            | succ i => simpa using this i
      exact key lam mu hl.isPartition h1.isPartition h3 (by simpa using h4)
    · rintro rfl
      refine ⟨hl, hr, fun i => ⟨le_refl _, hl.isPartition.part_anti (by omega)⟩, by simp⟩
  have h2 := hp.trans (h1.map _)
  have : w = Poly.sym (.S lam) := by simpa [Poly.sym] using List.perm_singleton.1 h2
  rw [this] at hw; exact hw

example : Gr.pieri ⟨.A, 3, 6⟩ 0 (Poly.sym (.S [3, 1, 1])) = .ok [([.S [3, 1, 1]], 1)] := by decide +kernel

/-- **C44.** `pieri(p, S[]) = S[p]` for `1 ≤ p ≤ n - m`. -/
theorem C44_unit_A {m : Nat} {n : Int} {X : Space} (hm : 1 ≤ m) (hX : mkGr m n = .ok X) (p : Nat)
    (hp1 : 1 ≤ p) (hpk : (p : Int) ≤ n - m) :
    Gr.pieri X p (Poly.sym (.S [])) = .ok (Poly.sym (.S [(p : Int)])) := by
  obtain ⟨w, L, hw, hp, hnd, hL⟩ := C15_pieri hm hX p (lam := []) ⟨by simp, by simp⟩ ⟨by simp, by simp⟩
  have h1 : L.Perm [[(p : Int)]] := by
    rw [List.perm_ext_iff_of_nodup hnd (by simp)]
    intro mu
    rw [hL, List.mem_singleton]
    constructor
    · rintro ⟨h1, h2, h3, h4⟩
      cases mu with
      | nil => simp at h4; omega
      | cons x t =>
        cases t with
        | nil => simp at h4; rw [h4]
        | cons y t =>
          have := (h3 0).2
          simp at this
          have := h1.2 y (by simp)
          omega
    · rintro rfl
      refine ⟨⟨by simp, by simp; omega⟩, ⟨by simp; omega, by simpa using hpk⟩, ?_, by simp⟩
      intro i
      cases i <;> simp
  have h2 := hp.trans (h1.map _)
  have : w = Poly.sym (.S [(p : Int)]) := by simpa [Poly.sym] using List.perm_singleton.1 h2
  rw [← this]; exact hw

example : Gr.pieri ⟨.A, 3, 6⟩ 2 (Poly.sym (.S [])) = .ok [([.S [2]], 1)] := by decide +kernel

/-- **C44.** `pieri(p, x) = 0` for `p > n - m`. -/
theorem C44_large_A {m : Nat} {n : Int} {X : Space} (hm : 1 ≤ m) (hX : mkGr m n = .ok X) (p : Nat)
    (hpk : n - m < p) {lam : List Int} (hl : IsPartition lam) (hr : InRect lam m (n - m)) :
    Gr.pieri X p (Poly.sym (.S lam)) = .ok [] := by
  obtain ⟨w, L, hw, hp, hnd, hL⟩ := C15_pieri hm hX p hl hr
  obtain ⟨_, _, hmn⟩ := mkGr_ok hX
  have h1 : L = [] := by
    apply List.eq_nil_iff_forall_not_mem.2
    intro mu hmu
    rw [hL] at hmu
    obtain ⟨h1, h2, h3, h4⟩ := hmu
    have := horizontalStrip_size hl h1.isPartition h3 (show 0 ≤ n - m by omega)
      (InRect.part_le h2 (by omega) 0)
    omega
  subst h1
  have : w = [] := by simpa using hp
  rw [← this]; exact hw

example : mkGr 2 5 = .ok ⟨.A, 3, 5⟩ ∧ Gr.pieri ⟨.A, 3, 5⟩ 0 (Poly.sym (.S [2, 1])) =
    .ok (Poly.sym (.S [2, 1])) ∧ Gr.pieri ⟨.A, 3, 5⟩ 3 (Poly.sym (.S [])) = .ok (Poly.sym (.S [3])) ∧
    Gr.pieri ⟨.A, 3, 5⟩ 4 (Poly.sym (.S [2, 1])) = .ok [] := by decide +kernel

end Verif
