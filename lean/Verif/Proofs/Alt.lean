import Verif.Proofs.Cyl
import Mathlib.Algebra.Order.Antidiag.Pi
import Mathlib.GroupTheory.Perm.Fin
import Mathlib.Algebra.BigOperators.Group.Finset.Basic
import Mathlib.Algebra.Module.BigOperators
import Mathlib.Data.Fin.Tuple.Basic
import Mathlib.Tactic.Module
/-!
# Alternating functions and horizontal strips

`D` is a function of vectors of natural numbers, alternating under permutations of the entries. The sum of
`D (β + α)` over all `α` of size `p` keeps only the horizontal strips on `β`. If in addition adding `n` to an entry
multiplies `D` by a constant, the strips that wind around the cylinder more than once cancel too.
-/

namespace Verif.Alt
open Finset

variable {m : ℕ} {A : Type*} [AddCommGroup A]

/-- Alternating functions of vectors. -/
structure Alternating (D : (Fin (m + 1) → ℕ) → A) : Prop where
  perm : ∀ (γ : Fin (m + 1) → ℕ) (σ : Equiv.Perm (Fin (m + 1))), D (γ ∘ σ) = (Equiv.Perm.sign σ : ℤ) • D γ
  zero : ∀ (γ : Fin (m + 1) → ℕ) (i j : Fin (m + 1)), i ≠ j → γ i = γ j → D γ = 0

theorem Alternating.swap {D : (Fin (m + 1) → ℕ) → A} (h : Alternating D) (γ : Fin (m + 1) → ℕ)
    {i j : Fin (m + 1)} (hij : i ≠ j) : D (γ ∘ Equiv.swap i j) = - D γ := by
  rw [h.perm, Equiv.Perm.sign_swap hij]; simp

/-- Splitting a sum by the last predicate that holds. -/
theorem sum_last {ι κ : Type*} [Fintype κ] [LinearOrder κ] (s u : Finset ι) (F : ι → A) (P : κ → ι → Prop)
    (hu : ∀ a, a ∈ u ↔ a ∈ s ∧ ∀ i, ¬ P i a)
    (h : ∀ i (t : Finset ι), (∀ a, a ∈ t ↔ a ∈ s ∧ P i a ∧ ∀ j, i < j → ¬ P j a) → ∑ a ∈ t, F a = 0) :
    ∑ a ∈ s, F a = ∑ a ∈ u, F a := by
  classical
  have hu' : u = s.filter (fun a => ∀ i, ¬ P i a) := by ext a; rw [hu, Finset.mem_filter]
  have key : ∀ a, F a = (if (∀ i, ¬ P i a) then F a else 0) +
      ∑ i, if (P i a ∧ ∀ j, i < j → ¬ P j a) then F a else 0 := by
    intro a
    by_cases hP : ∀ i, ¬ P i a
    · rw [if_pos hP, Finset.sum_eq_zero (fun i _ => if_neg (fun hi => hP i hi.1)), add_zero]
    · rw [if_neg hP, zero_add]
      push Not at hP
      have hne : (univ.filter (fun i => P i a)).Nonempty := by
        obtain ⟨i, hi⟩ := hP
        exact ⟨i, by simpa using hi⟩
      have hmem := Finset.max'_mem _ hne
      have hle := fun j hj => Finset.le_max' (univ.filter (fun i => P i a)) j hj
      rw [Finset.mem_filter] at hmem
      rw [Finset.sum_eq_single (Finset.max' _ hne)]
      · rw [if_pos]
        refine ⟨hmem.2, fun j hj hPj => ?_⟩
        exact absurd (hle j (by simpa using hPj)) (not_le.2 hj)
      · intro i _ hi
        rw [if_neg]
        rintro ⟨h1, h2⟩
        have := hle i (by simpa using h1)
        exact h2 _ (lt_of_le_of_ne this hi) hmem.2
      · intro hn; exact absurd (Finset.mem_univ _) hn
  rw [hu', Finset.sum_congr rfl (fun a _ => key a), Finset.sum_add_distrib, Finset.sum_comm, Finset.sum_filter]
  rw [Finset.sum_eq_zero (s := univ), add_zero]
  intro i _
  rw [← Finset.sum_filter]
  exact h i _ (fun a => Finset.mem_filter)

/-- Vectors of natural numbers of sum `p`. -/
abbrev comps (m p : ℕ) : Finset (Fin (m + 1) → ℕ) := Finset.piAntidiag Finset.univ p

theorem mem_comps {p : ℕ} {α : Fin (m + 1) → ℕ} : α ∈ comps m p ↔ ∑ i, α i = p := by
  simp [comps, Finset.mem_piAntidiag]

theorem vadd_sub {a b : Fin (m + 1) → ℕ} (h : a ≤ b) : a + (b - a) = b := by
  funext i
  have : a i ≤ b i := h i
  simp only [Pi.add_apply, Pi.sub_apply]; omega

theorem vadd_sub_left (a b : Fin (m + 1) → ℕ) : (a + b) - a = b := by
  funext i
  simp

/-- An involution on the vectors `β + α` that changes the sign of `D`. -/
theorem sum_cancel {D : (Fin (m + 1) → ℕ) → A} (β : Fin (m + 1) → ℕ) (s : Finset (Fin (m + 1) → ℕ))
    (T : (Fin (m + 1) → ℕ) → (Fin (m + 1) → ℕ)) (hT : ∀ α ∈ s, β ≤ T (β + α)) (hTT : ∀ α ∈ s, T (T (β + α)) = β + α)
    (hD : ∀ α ∈ s, D (T (β + α)) = - D (β + α)) (h0 : ∀ α ∈ s, T (β + α) = β + α → D (β + α) = 0)
    (hs : ∀ α ∈ s, T (β + α) - β ∈ s) : ∑ α ∈ s, D (β + α) = 0 := by
  have hb : ∀ α ∈ s, β + (T (β + α) - β) = T (β + α) := fun α hα => vadd_sub (hT α hα)
  refine Finset.sum_involution (fun α _ => T (β + α) - β) ?_ ?_ ?_ ?_
  · intro α hα; rw [hb α hα, hD α hα, add_neg_cancel]
  · intro α hα hne he
    apply hne
    apply h0 α hα
    rw [← hb α hα, he]
  · intro α hα; exact hs α hα
  · intro α hα
    show T (β + (T (β + α) - β)) - β = α
    rw [hb α hα, hTT α hα, vadd_sub_left]

theorem sum_comp_swap (γ : Fin (m + 1) → ℕ) (σ : Equiv.Perm (Fin (m + 1))) : ∑ i, (γ ∘ σ) i = ∑ i, γ i :=
  Equiv.sum_comp σ γ

theorem strictAnti_of {β : Fin (m + 1) → ℕ} (h : ∀ i : Fin m, β i.succ < β i.castSucc) : StrictAnti β :=
  Fin.strictAnti_iff_succ_lt.2 h

/-- The strip condition. -/
abbrev Strip (β γ : Fin (m + 1) → ℕ) : Prop := ∀ i : Fin m, ¬ β i.castSucc ≤ γ i.succ

/-- Only horizontal strips contribute. -/
theorem sum_strip {D : (Fin (m + 1) → ℕ) → A} (hD : Alternating D) {β : Fin (m + 1) → ℕ}
    (hβ : StrictAnti β) (p : ℕ) :
    ∑ α ∈ comps m p, D (β + α) = ∑ α ∈ comps m p with Strip β (β + α), D (β + α) := by
  apply sum_last (κ := Fin m) (comps m p) _ (fun α => D (β + α)) (fun i α => β i.castSucc ≤ (β + α) i.succ)
    (fun α => Finset.mem_filter)
  intro i s hs
  have hne : i.castSucc ≠ i.succ := Fin.castSucc_lt_succ.ne
  apply sum_cancel β _ (fun γ => γ ∘ Equiv.swap i.castSucc i.succ)
  · intro α hα j
    replace hα := (hs _).1 hα
    simp only [Function.comp_apply]
    by_cases h1 : j = i.castSucc
    · subst h1; rw [Equiv.swap_apply_left]; exact hα.2.1
    · by_cases h2 : j = i.succ
      · subst h2; rw [Equiv.swap_apply_right]
        have := hβ (Fin.castSucc_lt_succ (i := i))
        simp only [Pi.add_apply]; omega
      · rw [Equiv.swap_apply_of_ne_of_ne h1 h2]; simp
  · intro α _; funext j; simp
  · intro α _; exact hD.swap _ hne
  · intro α _ he
    apply hD.zero _ i.castSucc i.succ hne
    have := congrFun he i.succ
    simpa using this
  · intro α hα
    have hα' := hα
    replace hα := (hs _).1 hα
    obtain ⟨h1, h2, h3⟩ := hα
    have hle : β ≤ (β + α) ∘ Equiv.swap i.castSucc i.succ := by
      intro j
      simp only [Function.comp_apply]
      by_cases h1 : j = i.castSucc
      · subst h1; rw [Equiv.swap_apply_left]; exact h2
      · by_cases h2 : j = i.succ
        · subst h2; rw [Equiv.swap_apply_right]
          have := hβ (Fin.castSucc_lt_succ (i := i))
          simp only [Pi.add_apply]; omega
        · rw [Equiv.swap_apply_of_ne_of_ne h1 h2]; simp
    have hadd := vadd_sub hle
    rw [hs, hadd]
    refine ⟨?_, ?_, ?_⟩
    · rw [mem_comps] at h1 ⊢
      have e1 := sum_comp_swap (β + α) (Equiv.swap i.castSucc i.succ)
      rw [← hadd] at e1
      simp only [Pi.add_apply, Finset.sum_add_distrib] at e1
      simp only [Pi.sub_apply] at e1 ⊢
      omega
    · simp only [Function.comp_apply, Equiv.swap_apply_right, Pi.add_apply]; omega
    · intro j hj
      have e1 : j.succ ≠ i.castSucc := by
        intro h; have := congrArg Fin.val h; simp at this; omega
      have e2 : j.succ ≠ i.succ := by
        intro h; have := Fin.succ_injective _ h; omega
      simp only [Function.comp_apply]
      rw [Equiv.swap_apply_of_ne_of_ne e1 e2]
      exact h3 j hj

/-- Strips winding around the cylinder more than once cancel. -/
theorem sum_wind {R : Type*} [CommRing R] [Module R A] {D : (Fin (m + 1) → ℕ) → A} (hD : Alternating D) {n : ℕ} {c : R}
    (hsh : ∀ γ i, D (Function.update γ i (γ i + n)) = c • D γ)
    {β : Fin (m + 1) → ℕ} (hβ : StrictAnti β) (hn : β 0 < n) {p : ℕ} (hp : p < n) :
    ∑ α ∈ comps m p, D (β + α) =
      ∑ α ∈ comps m p with (Strip β (β + α) ∧ (β + α) 0 < n + β (Fin.last m)), D (β + α) := by
  rw [sum_strip hD hβ]
  apply sum_last (κ := (Fin m)ᵒᵈ) _ _ (fun α => D (β + α))
    (fun i α => n + β (OrderDual.ofDual i).succ ≤ (β + α) 0)
  · intro α
    rw [Finset.mem_filter, Finset.mem_filter, and_assoc]
    apply and_congr_right
    intro hα
    apply and_congr_right
    intro _
    constructor
    · intro h i
      have : β (Fin.last m) ≤ β (OrderDual.ofDual i).succ := hβ.antitone (Fin.le_last _)
      omega
    · intro h
      rcases Nat.eq_zero_or_pos m with h0 | h0
      · subst h0
        have e0 : (Fin.last 0) = 0 := rfl
        have hα0 : ∑ j, α j = p := mem_comps.1 hα
        rw [Fin.sum_univ_one] at hα0
        rw [e0, Pi.add_apply]
        omega
      · have := h (OrderDual.toDual ⟨m - 1, by omega⟩)
        have e : (Fin.succ (⟨m - 1, by omega⟩ : Fin m)) = Fin.last m := by
          ext; simp; omega
        simp only [OrderDual.ofDual_toDual, e] at this
        omega
  · refine OrderDual.forall.2 (fun i s hs => ?_)
    simp only [OrderDual.ofDual_toDual, Finset.mem_filter, mem_comps] at hs
    -- the window of the first entry
    have hs0 : (0 : Fin (m + 1)) ≠ i.succ := (Fin.succ_ne_zero i).symm
    have hwin : ∀ α ∈ s,
        (∑ j, α j = p) ∧ Strip β (β + α) ∧ n + β i.succ ≤ (β + α) 0 ∧ (β + α) 0 < n + β i.castSucc := by
      intro α hα
      rw [hs] at hα
      obtain ⟨⟨h1, h2⟩, h3, h4⟩ := hα
      refine ⟨h1, h2, h3, ?_⟩
      rcases Nat.eq_zero_or_pos i.val with h0 | h0
      · have e : i.castSucc = 0 := by ext; simpa using h0
        rw [e]
        have : α 0 ≤ ∑ j, α j := Finset.single_le_sum (fun _ _ => Nat.zero_le _) (Finset.mem_univ _)
        simp only [Pi.add_apply]; omega
      · have := h4 (OrderDual.toDual ⟨i.val - 1, by omega⟩) (by
          rw [OrderDual.toDual_lt_toDual, Fin.lt_def]; show i.val - 1 < i.val; omega)
        have e : Fin.succ (⟨i.val - 1, by omega⟩ : Fin m) = i.castSucc := by ext; simp; omega
        simp only [OrderDual.ofDual_toDual, e] at this
        omega
    let T : (Fin (m + 1) → ℕ) → (Fin (m + 1) → ℕ) := fun γ =>
      Function.update (Function.update γ 0 (γ i.succ + n)) i.succ (γ 0 - n)
    have hT0 : ∀ γ, T γ 0 = γ i.succ + n := fun γ => by
      simp only [T]; rw [Function.update_of_ne hs0, Function.update_self]
    have hTi : ∀ γ, T γ i.succ = γ 0 - n := fun γ => by
      simp only [T]; rw [Function.update_self]
    have hTj : ∀ γ j, j ≠ 0 → j ≠ i.succ → T γ j = γ j := fun γ j h1 h2 => by
      simp only [T]; rw [Function.update_of_ne h2, Function.update_of_ne h1]
    have hle : ∀ α, Strip β (β + α) → n + β i.succ ≤ (β + α) 0 → β ≤ T (β + α) := by
      intro α h2 h3 j
      show β j ≤ T (β + α) j
      by_cases j0 : j = 0
      · rw [j0, hT0]; omega
      · by_cases j1 : j = i.succ
        · rw [j1, hTi]; omega
        · rw [hTj _ _ j0 j1]; simp
    have hbase : ∀ γ : Fin (m + 1) → ℕ, n ≤ γ 0 → D γ = c • D (Function.update γ 0 (γ 0 - n)) := by
      intro γ hγ
      rw [← hsh]
      congr 1
      funext j
      by_cases j0 : j = 0
      · rw [j0, Function.update_self, Function.update_self]; omega
      · rw [Function.update_of_ne j0, Function.update_of_ne j0]
    have hTD : ∀ γ : Fin (m + 1) → ℕ, n ≤ γ 0 → D (T γ) = - D γ := by
      intro γ hγ
      rw [hbase γ hγ, hbase (T γ) (by rw [hT0]; omega), ← smul_neg, ← hD.swap _ hs0]
      congr 2
      funext j
      simp only [Function.comp_apply]
      by_cases j0 : j = 0
      · subst j0
        rw [Function.update_self, hT0, Equiv.swap_apply_left, Function.update_of_ne hs0.symm]; omega
      · by_cases j1 : j = i.succ
        · subst j1
          rw [Function.update_of_ne j0, hTi, Equiv.swap_apply_right, Function.update_self]
        · rw [Equiv.swap_apply_of_ne_of_ne j0 j1, Function.update_of_ne j0, Function.update_of_ne j0, hTj _ _ j0 j1]
    apply sum_cancel β _ T
    · intro α hα
      obtain ⟨h1, h2, h3, h4⟩ := hwin α hα
      exact hle α h2 h3
    · intro α hα
      obtain ⟨h1, h2, h3, h4⟩ := hwin α hα
      funext j
      by_cases j0 : j = 0
      · subst j0; rw [hT0, hTi]; omega
      · by_cases j1 : j = i.succ
        · subst j1; rw [hTi, hT0]; omega
        · rw [hTj _ _ j0 j1, hTj _ _ j0 j1]
    · intro α hα
      obtain ⟨h1, h2, h3, h4⟩ := hwin α hα
      exact hTD _ (by omega)
    · intro α hα he
      obtain ⟨h1, h2, h3, h4⟩ := hwin α hα
      rw [hbase _ (by omega), hD.zero _ 0 i.succ hs0, smul_zero]
      have := congrFun he i.succ
      rw [hTi] at this
      rw [Function.update_self, Function.update_of_ne hs0.symm, this]
    · intro α hα
      obtain ⟨h1, h2, h3, h4⟩ := hwin α hα
      have hadd := vadd_sub (hle α h2 h3)
      rw [hs, hadd]
      refine ⟨⟨?_, ?_⟩, ?_, ?_⟩
      · have e1 : ∑ j, T (β + α) j = ∑ j, (β + α) j := by
          rw [← Finset.add_sum_erase _ _ (Finset.mem_univ (0 : Fin (m + 1))),
            ← Finset.add_sum_erase _ (β + α) (Finset.mem_univ (0 : Fin (m + 1))),
            ← Finset.add_sum_erase _ (T (β + α)) (a := i.succ) (by simp),
            ← Finset.add_sum_erase _ (β + α) (a := i.succ) (by simp), hT0, hTi,
            Finset.sum_congr rfl (fun j hj => hTj (β + α) j (by
              rw [Finset.mem_erase, Finset.mem_erase] at hj; exact hj.2.1) (by
              rw [Finset.mem_erase] at hj; exact hj.1))]
          have e3 : ((univ.erase 0).erase i.succ).sum (β + α) = ∑ x ∈ (univ.erase 0).erase i.succ, (β + α) x := rfl
          omega
        have e2 : ∑ j, (β + (T (β + α) - β)) j = ∑ j, (β + α) j := by rw [hadd]; exact e1
        simp only [Pi.add_apply, Finset.sum_add_distrib] at e2
        omega
      · intro j
        by_cases j1 : j = i
        · subst j1; rw [hTi]; omega
        · rw [hTj _ _ (Fin.succ_ne_zero j) (fun h => j1 (Fin.succ_injective _ h))]
          exact h2 j
      · rw [hT0]
        simp only [Pi.add_apply]; omega
      · intro j hj
        have hlt : OrderDual.ofDual j < i := hj
        have e : β i.castSucc ≤ β (OrderDual.ofDual j).succ := by
          apply hβ.antitone
          rw [Fin.le_def]; simp only [Fin.val_succ, Fin.val_castSucc]
          have := Fin.lt_def.1 hlt
          omega
        have := h2 i
        rw [hT0]
        omega

end Verif.Alt
