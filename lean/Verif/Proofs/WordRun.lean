import Verif.Proofs.WordShape
/-!
# The weight of a pair of words is the Pieri coefficient of the shapes
-/

namespace Verif
open Spec

/-- the state at the end, the exponent of `2` and the exponent of `x` -/
def runW : St → List L3 → List L3 → Option (St × Nat × Nat)
  | s, [], [] => some (s, 0, 0)
  | s, p :: u, q :: w =>
    match step s p q with
    | some (t, i, j) =>
      match runW t u w with
      | some (t', i', j') => some (t', i + i', j + j')
      | none => none
    | none => none
  | _, _, _ => none

theorem wt_run {R : Type*} [CommRing R] (c x : R) (s : St) (u w : List L3) : wt c x s u w =
    match runW s u w with
    | some (t, i, j) => 2 ^ i * x ^ j * endW c x t
    | none => 0 := by
  induction u generalizing s w with
  | nil => cases w <;> simp [wt, runW]
  | cons p u ih =>
    cases w with
    | nil => simp [wt, runW]
    | cons q w =>
      simp only [wt, runW]
      rcases step s p q with _ | ⟨t, i, j⟩
      · rfl
      · simp only [ih]
        rcases runW t u w with _ | ⟨t', i', j'⟩
        · simp
        · simp only [pow_add]; ring

namespace St

/-- an interval of the first half is open -/
def li : St → Nat
  | .lr => 1 | .l => 1 | _ => 0

/-- an interval of the second half is open -/
def ri : St → Nat
  | .lr => 1 | .r => 1 | _ => 0

end St

theorem step_spec (s : St) (p q : L3) :
    match step s p q with
    | some (t, i, _) => s.li + (if q = .a then 1 else 0) = t.li + (if p = .a then 1 else 0) ∧
        s.ri + (if p = .b then 1 else 0) = t.ri + (if q = .b then 1 else 0) ∧
        (p = .a → q = .a → s.li = 1 → s.ri = 1) ∧ (p = .b → q = .b → s.ri = 1 → s.li = 1) ∧
        i = (if s = .lr ∧ t ≠ .lr then 1 else 0)
    | none => ∀ t : St, s.li + (if q = .a then 1 else 0) = t.li + (if p = .a then 1 else 0) →
        s.ri + (if p = .b then 1 else 0) = t.ri + (if q = .b then 1 else 0) →
        ¬ ((p = .a → q = .a → s.li = 1 → s.ri = 1) ∧ (p = .b → q = .b → s.ri = 1 → s.li = 1)) := by
  cases s <;> cases p <;> cases q <;> simp only [step] <;>
    first
    | decide
    | (intro t; cases t <;> decide)

theorem St.ext_bits {s t : St} (h1 : s.li = t.li) (h2 : s.ri = t.ri) : s = t := by
  cases s <;> cases t <;> simp_all [St.li, St.ri]

theorem St.bits (i j : Nat) (hi : i ≤ 1) (hj : j ≤ 1) : ∃ s : St, s.li = i ∧ s.ri = j := by
  rcases Nat.lt_or_ge i 1 with h | h <;> rcases Nat.lt_or_ge j 1 with h' | h'
  · exact ⟨.z, by simp [St.li]; omega, by simp [St.ri]; omega⟩
  · exact ⟨.r, by simp [St.li]; omega, by simp [St.ri]; omega⟩
  · exact ⟨.l, by simp [St.li]; omega, by simp [St.ri]; omega⟩
  · exact ⟨.lr, by simp [St.li]; omega, by simp [St.ri]; omega⟩

theorem St.li_le (s : St) : s.li ≤ 1 := by cases s <;> decide
theorem St.ri_le (s : St) : s.ri ≤ 1 := by cases s <;> decide
theorem St.lr_iff (s : St) : s = .lr ↔ s.li = 1 ∧ s.ri = 1 := by cases s <;> decide

/-- The conditions of `Star`, beginning in a state. -/
structure StarO (s : St) (u w : List L3) : Prop where
  l : ∀ v ≤ u.length, alW u v ≤ alW w v + s.li ∧ alW w v + s.li ≤ alW u v + 1
  r : ∀ v ≤ u.length, alW u v + beW u v ≤ alW w v + beW w v + s.ri ∧ alW w v + beW w v + s.ri ≤ alW u v + beW u v + 1
  aa : ∀ v < u.length, alW u v = alW u (v + 1) + 1 → alW w v = alW w (v + 1) + 1 →
    alW w (v + 1) + s.li = alW u (v + 1) + 1 → alW w (v + 1) + beW w (v + 1) + s.ri = alW u (v + 1) + beW u (v + 1) + 1
  bb : ∀ v < u.length, alW u v + beW u v = alW u (v + 1) + beW u (v + 1) →
    alW w v + beW w v = alW w (v + 1) + beW w (v + 1) →
    alW w (v + 1) + beW w (v + 1) + s.ri = alW u (v + 1) + beW u (v + 1) + 1 → alW w (v + 1) + s.li = alW u (v + 1) + 1

/-- the state is `lr` at the boundary `v` -/
def OpenAt (s : St) (u w : List L3) (v : Nat) : Prop :=
  alW w v + s.li = alW u v + 1 ∧ alW w v + beW w v + s.ri = alW u v + beW u v + 1

instance (s : St) (u w : List L3) (v : Nat) : Decidable (OpenAt s u w v) := by unfold OpenAt; infer_instance

theorem starO_cons {s : St} {p q : L3} {u w : List L3} (h : u.length = w.length) :
    StarO s (p :: u) (q :: w) ↔ ∃ t i j, step s p q = some (t, i, j) ∧ StarO t u w := by
  have hs := step_spec s p q
  have eu : ∀ v ≤ u.length, alW (p :: u) v = alW u v + (if p = .a then 1 else 0) := fun v hv => alW_le p hv
  have ew : ∀ v ≤ u.length, alW (q :: w) v = alW w v + (if q = .a then 1 else 0) := fun v hv => alW_le q (by omega)
  have fu : ∀ v ≤ u.length, beW (p :: u) v = beW u v + (if p = .o then 1 else 0) := fun v hv => beW_le p hv
  have fw : ∀ v ≤ u.length, beW (q :: w) v = beW w v + (if q = .o then 1 else 0) := fun v hv => beW_le q (by omega)
  have pu : (if p = .a then 1 else 0) + (if p = .o then 1 else 0) + (if p = .b then 1 else 0) = 1 := by cases p <;> simp
  have pw : (if q = .a then 1 else 0) + (if q = .o then 1 else 0) + (if q = .b then 1 else 0) = 1 := by cases q <;> simp
  have u0 := alW_top (u := u) (le_refl _)
  have u1 := beW_top (u := u) (le_refl _)
  have w0 := alW_top (u := w) (v := u.length) (by omega)
  have w1 := beW_top (u := w) (v := u.length) (by omega)
  have tu0 := alW_top (u := p :: u) (v := u.length + 1) (by simp)
  have tu1 := beW_top (u := p :: u) (v := u.length + 1) (by simp)
  have tw0 := alW_top (u := q :: w) (v := u.length + 1) (by simp; omega)
  have tw1 := beW_top (u := q :: w) (v := u.length + 1) (by simp; omega)
  have pa : p = .a ↔ (if p = .a then 1 else 0) = 1 := by cases p <;> simp
  have qa : q = .a ↔ (if q = .a then 1 else 0) = 1 := by cases q <;> simp
  have pb : p = .b ↔ (if p = .b then 1 else 0) = 1 := by cases p <;> simp
  have qb : q = .b ↔ (if q = .b then 1 else 0) = 1 := by cases q <;> simp
  have pa' : (if p = .a then 1 else 0) ≤ 1 := by omega
  constructor
  · intro S
    have hl := S.l u.length (by simp)
    have hr := S.r u.length (by simp)
    rw [eu _ (le_refl _), ew _ (le_refl _), u0, w0] at hl
    rw [eu _ (le_refl _), ew _ (le_refl _), fu _ (le_refl _), fw _ (le_refl _), u0, w0, u1, w1] at hr
    have haa := S.aa u.length (by simp)
    have hbb := S.bb u.length (by simp)
    rw [eu _ (le_refl _), ew _ (le_refl _), u0, w0, tu0, tw0, tu1, tw1] at haa
    rw [eu _ (le_refl _), ew _ (le_refl _), fu _ (le_refl _), fw _ (le_refl _), u0, w0, u1, w1, tu0, tw0, tu1, tw1] at hbb
    have c1 : p = .a → q = .a → s.li = 1 → s.ri = 1 := by
      rw [pa, qa]; intro a1 a2 a3
      have := haa (by omega) (by omega) (by omega)
      omega
    have c2 : p = .b → q = .b → s.ri = 1 → s.li = 1 := by
      rw [pb, qb]; intro a1 a2 a3
      have := hbb (by omega) (by omega) (by omega)
      omega
    obtain ⟨t, ht1, ht2⟩ := St.bits (s.li + (if q = .a then 1 else 0) - (if p = .a then 1 else 0))
      (s.ri + (if p = .b then 1 else 0) - (if q = .b then 1 else 0)) (by omega) (by omega)
    rcases hst : step s p q with _ | ⟨t', i, j⟩
    · rw [hst] at hs
      exact absurd ⟨c1, c2⟩ (hs t (by omega) (by omega))
    · rw [hst] at hs
      simp only at hs
      refine ⟨t', i, j, rfl, ⟨fun v hv => ?_, fun v hv => ?_, fun v hv => ?_, fun v hv => ?_⟩⟩
      · have := S.l v (by simp; omega)
        rw [eu v hv, ew v hv] at this
        omega
      · have := S.r v (by simp; omega)
        rw [eu v hv, ew v hv, fu v hv, fw v hv] at this
        omega
      · have := S.aa v (by simp; omega)
        rw [eu v (by omega), ew v (by omega), eu (v + 1) (by omega), ew (v + 1) (by omega), fu (v + 1) (by omega), fw (v + 1) (by omega)] at this
        omega
      · have := S.bb v (by simp; omega)
        rw [eu v (by omega), ew v (by omega), eu (v + 1) (by omega), ew (v + 1) (by omega), fu (v + 1) (by omega), fw (v + 1) (by omega),
          fu v (by omega), fw v (by omega)] at this
        omega
  · rintro ⟨t, i, j, hst, S⟩
    rw [hst] at hs
    simp only at hs
    obtain ⟨s1, s2, s3, s4, _⟩ := hs
    rw [pa, qa] at s3
    rw [pb, qb] at s4
    have b1 := s.li_le
    have b2 := s.ri_le
    refine ⟨fun v hv => ?_, fun v hv => ?_, fun v hv => ?_, fun v hv => ?_⟩
    · rcases Nat.lt_or_ge u.length v with h1 | h1
      · obtain rfl : v = u.length + 1 := by simp at hv; omega
        omega
      · have := S.l v h1
        rw [eu v h1, ew v h1]
        omega
    · rcases Nat.lt_or_ge u.length v with h1 | h1
      · obtain rfl : v = u.length + 1 := by simp at hv; omega
        omega
      · have := S.r v h1
        rw [eu v h1, ew v h1, fu v h1, fw v h1]
        omega
    · rcases Nat.lt_or_ge v u.length with h1 | h1
      · have := S.aa v h1
        rw [eu v (by omega), ew v (by omega), eu (v + 1) (by omega), ew (v + 1) (by omega), fu (v + 1) (by omega), fw (v + 1) (by omega)]
        omega
      · obtain rfl : v = u.length := by simp at hv; omega
        rw [eu _ (le_refl _), ew _ (le_refl _), tu0, tw0, tu1, tw1, u0, w0]
        omega
    · rcases Nat.lt_or_ge v u.length with h1 | h1
      · have := S.bb v h1
        rw [eu v (by omega), ew v (by omega), eu (v + 1) (by omega), ew (v + 1) (by omega), fu (v + 1) (by omega), fw (v + 1) (by omega),
          fu v (by omega), fw v (by omega)]
        omega
      · obtain rfl : v = u.length := by simp at hv; omega
        rw [eu _ (le_refl _), ew _ (le_refl _), fu _ (le_refl _), fw _ (le_refl _), tu0, tw0, tu1, tw1, u0, w0, u1, w1]
        omega

theorem openAt_cons {s t : St} {p q : L3} {u w : List L3} (h : u.length = w.length) {i j : Nat}
    (hst : step s p q = some (t, i, j)) {v : Nat} (hv : v ≤ u.length) :
    OpenAt s (p :: u) (q :: w) v ↔ OpenAt t u w v := by
  have hs := step_spec s p q
  rw [hst] at hs
  simp only at hs
  obtain ⟨s1, s2, _⟩ := hs
  unfold OpenAt
  rw [alW_le p hv, alW_le q (show v ≤ w.length by omega), beW_le p hv, beW_le q (show v ≤ w.length by omega)]
  have pu : (if p = .a then 1 else 0) + (if p = .o then 1 else 0) + (if p = .b then 1 else 0) = 1 := by cases p <;> simp
  have pw : (if q = .a then 1 else 0) + (if q = .o then 1 else 0) + (if q = .b then 1 else 0) = 1 := by cases q <;> simp
  omega

/-- The run exists exactly under the conditions; the exponent of `2` counts the boundaries where `lr` is left. -/
theorem runW_spec : ∀ (u w : List L3), u.length = w.length → ∀ s : St,
    (StarO s u w → ∃ t i j, runW s u w = some (t, i, j)) ∧
    ∀ t i j, runW s u w = some (t, i, j) → StarO s u w ∧
      t.li + alW u 0 = alW w 0 + s.li ∧ t.ri + alW u 0 + beW u 0 = alW w 0 + beW w 0 + s.ri ∧
      i = ((Finset.range u.length).filter (fun v => OpenAt s u w (v + 1) ∧ ¬ OpenAt s u w v)).card := by
  intro u
  induction u with
  | nil =>
    intro w hw s
    obtain rfl : w = [] := List.length_eq_zero_iff.1 (by simpa using hw.symm)
    refine ⟨fun _ => ⟨s, 0, 0, rfl⟩, ?_⟩
    intro t i j h
    simp only [runW, Option.some.injEq, Prod.mk.injEq] at h
    obtain ⟨rfl, rfl, rfl⟩ := h
    refine ⟨⟨fun v _ => ?_, fun v _ => ?_, fun v hv => by simp at hv, fun v hv => by simp at hv⟩, by simp [alW], by simp [alW, beW], by simp⟩
    · have := s.li_le; simp [alW]; omega
    · have := s.ri_le; simp [alW, beW]; omega
  | cons p u ih =>
    intro w hw s
    cases w with
    | nil => simp at hw
    | cons q w =>
      have hw : u.length = w.length := by simpa using hw
      constructor
      · intro S
        obtain ⟨t, i, j, hst, S'⟩ := (starO_cons hw).1 S
        obtain ⟨t', i', j', h'⟩ := (ih w hw t).1 S'
        exact ⟨t', i + i', j + j', by simp only [runW, hst, h']⟩
      · intro t' i' j' h
        simp only [runW] at h
        rcases hst : step s p q with _ | ⟨t, i, j⟩
        · rw [hst] at h; simp at h
        · rw [hst] at h
          simp only at h
          rcases hr : runW t u w with _ | ⟨t1, i1, j1⟩
          · rw [hr] at h; simp at h
          · rw [hr] at h
            simp only [Option.some.injEq, Prod.mk.injEq] at h
            obtain ⟨rfl, rfl, rfl⟩ := h
            obtain ⟨S, e1, e2, e3⟩ := (ih w hw t).2 _ _ _ hr
            have hs := step_spec s p q
            rw [hst] at hs
            simp only at hs
            obtain ⟨s1, s2, _, _, s5⟩ := hs
            have pu : (if p = .a then 1 else 0) + (if p = .o then 1 else 0) + (if p = .b then 1 else 0) = 1 := by cases p <;> simp
            have pw : (if q = .a then 1 else 0) + (if q = .o then 1 else 0) + (if q = .b then 1 else 0) = 1 := by cases q <;> simp
            refine ⟨(starO_cons hw).2 ⟨t, i, j, hst, S⟩, ?_, ?_, ?_⟩
            · rw [alW_le p (Nat.zero_le _), alW_le q (Nat.zero_le _)]; omega
            · rw [alW_le p (Nat.zero_le _), alW_le q (Nat.zero_le _), beW_le p (Nat.zero_le _), beW_le q (Nat.zero_le _)]; omega
            · rw [List.length_cons, Finset.range_add_one, Finset.filter_insert]
              have hcongr : (Finset.range u.length).filter (fun v => OpenAt s (p :: u) (q :: w) (v + 1) ∧ ¬ OpenAt s (p :: u) (q :: w) v) =
                  (Finset.range u.length).filter (fun v => OpenAt t u w (v + 1) ∧ ¬ OpenAt t u w v) := by
                apply Finset.filter_congr
                intro v hv
                rw [Finset.mem_range] at hv
                rw [openAt_cons hw hst (by omega), openAt_cons hw hst (by omega)]
              have htop : OpenAt s (p :: u) (q :: w) (u.length + 1) ↔ s = .lr := by
                unfold OpenAt
                rw [alW_top (u := p :: u) (by simp), alW_top (u := q :: w) (by simp; omega),
                  beW_top (u := p :: u) (by simp), beW_top (u := q :: w) (by simp; omega), St.lr_iff]
                omega
              have hnext : OpenAt s (p :: u) (q :: w) u.length ↔ t = .lr := by
                rw [openAt_cons hw hst (le_refl _)]
                unfold OpenAt
                rw [alW_top (u := u) (le_refl _), alW_top (u := w) (by omega),
                  beW_top (u := u) (le_refl _), beW_top (u := w) (by omega), St.lr_iff]
                omega
              rw [hcongr, s5, e3]
              simp only [htop, hnext]
              split
              · rw [Finset.card_insert_of_notMem (by simp)]; omega
              · omega

theorem starO_z {u w : List L3} (h : u.length = w.length) :
    StarO .z u w ↔ Star u.length (alW u) (beW u) (alW w) (beW w) := by
  constructor
  · intro S
    refine ⟨fun v => ?_, fun v => ?_, S.aa, S.bb⟩
    · rcases Nat.lt_or_ge u.length v with hv | hv
      · rw [alW_top (u := u) (by omega), alW_top (u := w) (by omega)]; omega
      · exact S.l v hv
    · rcases Nat.lt_or_ge u.length v with hv | hv
      · rw [alW_top (u := u) (by omega), alW_top (u := w) (by omega), beW_top (u := u) (by omega), beW_top (u := w) (by omega)]
        omega
      · exact S.r v hv
  · intro S
    exact ⟨fun v _ => S.l v, fun v _ => S.r v, S.aa, S.bb⟩

end Verif
