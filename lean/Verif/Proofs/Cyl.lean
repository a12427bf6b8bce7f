import Mathlib.Order.Interval.Finset.Basic
import Mathlib.Data.Pi.Interval
import Mathlib.Data.Int.Interval
import Mathlib.Data.Fin.SuccPred
import Mathlib.Algebra.BigOperators.Fin
import Mathlib.Algebra.Order.Group.Int
import Mathlib.Algebra.Order.Group.Unbundled.Abs
import Mathlib.Algebra.Group.Fin.Basic
import Mathlib.Tactic.Ring
import Mathlib.Tactic.Linarith
/-!
# Cylindric horizontal strips

A vector `f` of `m+1` integers is continued to all rows by `f (i + m + 1) = f i - k`.
`Om k p f` is the set of horizontal strips of size `p` on `f` in this sense. Adding two strips commutes,
by reflecting the intermediate vector in the box of its possible values.
-/

namespace Verif.Cyl
open Finset

variable {m : ℕ}

/-- The previous row. -/
def sh (k : ℤ) (f : Fin (m + 1) → ℤ) : Fin (m + 1) → ℤ := fun i => f (i - 1) + if i = 0 then k else 0

/-- The next row. -/
def dn (k : ℤ) (f : Fin (m + 1) → ℤ) : Fin (m + 1) → ℤ := fun i => f (i + 1) - if i + 1 = 0 then k else 0

theorem dn_sh (k : ℤ) (f : Fin (m + 1) → ℤ) : dn k (sh k f) = f := by
  funext i; simp [dn, sh]

theorem sh_dn (k : ℤ) (f : Fin (m + 1) → ℤ) : sh k (dn k f) = f := by
  funext i; simp [dn, sh]

theorem sh_mono {k : ℤ} {f g : Fin (m + 1) → ℤ} (h : f ≤ g) : sh k f ≤ sh k g := by
  intro i
  have := h (i - 1)
  simp only [sh]; linarith

theorem dn_mono {k : ℤ} {f g : Fin (m + 1) → ℤ} (h : f ≤ g) : dn k f ≤ dn k g := by
  intro i
  have := h (i + 1)
  simp only [dn]; linarith

theorem le_sh_iff {k : ℤ} {f g : Fin (m + 1) → ℤ} : f ≤ sh k g ↔ dn k f ≤ g :=
  ⟨fun h => by have := dn_mono (k := k) h; rwa [dn_sh] at this,
   fun h => by have := sh_mono (k := k) h; rwa [sh_dn] at this⟩

theorem sum_sh (k : ℤ) (f : Fin (m + 1) → ℤ) : ∑ i, sh k f i = ∑ i, f i + k := by
  simp only [sh, sum_add_distrib]
  congr 1
  · exact (Equiv.subRight (1 : Fin (m + 1))).sum_comp f
  · simp

theorem sum_dn (k : ℤ) (f : Fin (m + 1) → ℤ) : ∑ i, dn k f i = ∑ i, f i - k := by
  have := sum_sh k (dn k f)
  rw [sh_dn] at this
  linarith

theorem sh_sup (k : ℤ) (f g : Fin (m + 1) → ℤ) : sh k (f ⊔ g) = sh k f ⊔ sh k g := by
  funext i
  simp [sh, max_add_add_right]

/-- Horizontal strips of size `p`. -/
def Om (k : ℤ) (p : ℤ) (f : Fin (m + 1) → ℤ) : Finset (Fin (m + 1) → ℤ) :=
  (Finset.Icc f (sh k f)).filter (fun g => ∑ i, g i = ∑ i, f i + p)

theorem mem_Om {k p : ℤ} {f g : Fin (m + 1) → ℤ} :
    g ∈ Om k p f ↔ f ≤ g ∧ g ≤ sh k f ∧ ∑ i, g i = ∑ i, f i + p := by
  simp [Om, and_assoc]

/-- Reflection of the intermediate vector. -/
def refl (k : ℤ) (f h g : Fin (m + 1) → ℤ) : Fin (m + 1) → ℤ := (f ⊔ dn k h) + (h ⊓ sh k f) - g

theorem refl_sum (k : ℤ) (f h g : Fin (m + 1) → ℤ) :
    ∑ i, refl k f h g i = ∑ i, f i + ∑ i, h i - ∑ i, g i := by
  have h1 := sum_sh k (f ⊔ dn k h)
  rw [sh_sup, sh_dn] at h1
  have h2 : ∑ i, (sh k f ⊔ h) i + ∑ i, (h ⊓ sh k f) i = ∑ i, sh k f i + ∑ i, h i := by
    rw [← sum_add_distrib, ← sum_add_distrib]
    apply sum_congr rfl
    intro i _
    simp only [Pi.sup_apply, Pi.inf_apply]
    rw [inf_comm]
    exact max_add_min _ _
  have h3 := sum_sh k f
  simp only [refl, Pi.add_apply, Pi.sub_apply, sum_sub_distrib, sum_add_distrib]
  linarith

theorem refl_refl (k : ℤ) (f h g : Fin (m + 1) → ℤ) : refl k f h (refl k f h g) = g := by
  simp [refl]

theorem refl_mem {k a b : ℤ} {f g h : Fin (m + 1) → ℤ} (hg : g ∈ Om k a f) (hh : h ∈ Om k b g) :
    refl k f h g ∈ Om k b f ∧ h ∈ Om k a (refl k f h g) := by
  rw [mem_Om] at hg hh
  obtain ⟨g1, g2, g3⟩ := hg
  obtain ⟨h1, h2, h3⟩ := hh
  rw [le_sh_iff] at h2
  have hs := refl_sum k f h g
  have hlo : f ⊔ dn k h ≤ refl k f h g := by
    intro i
    have a1 := h1 i
    have a2 := g2 i
    have : g i ≤ (h ⊓ sh k f) i := le_inf a1 a2
    simp only [refl, Pi.add_apply, Pi.sub_apply]
    linarith
  have hhi : refl k f h g ≤ h ⊓ sh k f := by
    intro i
    have a1 := h2 i
    have a2 := g1 i
    have : (f ⊔ dn k h) i ≤ g i := sup_le a2 a1
    simp only [refl, Pi.add_apply, Pi.sub_apply]
    linarith
  rw [mem_Om, mem_Om, le_sh_iff (g := refl k f h g)]
  refine ⟨⟨le_trans le_sup_left hlo, le_trans hhi inf_le_right, by linarith⟩,
    le_trans hhi inf_le_left, le_trans le_sup_right hlo, by linarith⟩

/-- Adding strips of sizes `a` and `b` commutes. -/
theorem Om_comm {A : Type*} [AddCommMonoid A] (k a b : ℤ) (f : Fin (m + 1) → ℤ)
    (F : (Fin (m + 1) → ℤ) → A) :
    ∑ g ∈ Om k a f, ∑ h ∈ Om k b g, F h = ∑ g ∈ Om k b f, ∑ h ∈ Om k a g, F h := by
  rw [Finset.sum_sigma', Finset.sum_sigma']
  refine Finset.sum_bij' (fun x _ => ⟨refl k f x.2 x.1, x.2⟩) (fun x _ => ⟨refl k f x.2 x.1, x.2⟩) ?_ ?_ ?_ ?_ ?_
  · rintro ⟨g, h⟩ hx
    rw [mem_sigma] at hx ⊢
    exact refl_mem hx.1 hx.2
  · rintro ⟨g, h⟩ hx
    rw [mem_sigma] at hx ⊢
    exact refl_mem hx.1 hx.2
  · rintro ⟨g, h⟩ _; simp [refl_refl]
  · rintro ⟨g, h⟩ _; simp [refl_refl]
  · rintro ⟨g, h⟩ _; rfl

/-- Shifting a vector along the diagonal of the cylinder: removing an `n`-rim hook. -/
def rot (k : ℤ) (f : Fin (m + 1) → ℤ) : Fin (m + 1) → ℤ := fun i => dn k f i - 1

/-- The inverse of `rot`. -/
def unrot (k : ℤ) (f : Fin (m + 1) → ℤ) : Fin (m + 1) → ℤ := fun i => sh k f i + 1

theorem unrot_rot (k : ℤ) (f : Fin (m + 1) → ℤ) : unrot k (rot k f) = f := by
  funext i; simp [unrot, rot, sh, dn]; ring

theorem rot_unrot (k : ℤ) (f : Fin (m + 1) → ℤ) : rot k (unrot k f) = f := by
  funext i; simp [unrot, rot, sh, dn]; ring

theorem rot_le_rot {k : ℤ} {f g : Fin (m + 1) → ℤ} : rot k f ≤ rot k g ↔ f ≤ g := by
  constructor
  · intro h i
    have := h (i - 1)
    simp only [rot, dn, sub_add_cancel] at this
    linarith
  · intro h i
    have := h (i + 1)
    simp only [rot, dn]
    linarith

theorem sh_rot (k : ℤ) (f : Fin (m + 1) → ℤ) : sh k (rot k f) = rot k (sh k f) := by
  funext i; simp [sh, rot, dn]; ring

theorem sum_rot (k : ℤ) (f : Fin (m + 1) → ℤ) : ∑ i, rot k f i = ∑ i, f i - k - (m + 1) := by
  simp only [rot, sum_sub_distrib, sum_dn]
  simp

theorem rot_mem_Om {k p : ℤ} {f g : Fin (m + 1) → ℤ} : rot k g ∈ Om k p (rot k f) ↔ g ∈ Om k p f := by
  rw [mem_Om, mem_Om, rot_le_rot, sh_rot, rot_le_rot, sum_rot, sum_rot]
  constructor <;> rintro ⟨h1, h2, h3⟩ <;> exact ⟨h1, h2, by linarith⟩

theorem sum_Om_rot {A : Type*} [AddCommMonoid A] (k p : ℤ) (f : Fin (m + 1) → ℤ)
    (F : (Fin (m + 1) → ℤ) → A) :
    ∑ h ∈ Om k p (rot k f), F h = ∑ h ∈ Om k p f, F (rot k h) := by
  symm
  refine Finset.sum_bij' (fun h _ => rot k h) (fun h _ => unrot k h) ?_ ?_ ?_ ?_ ?_
  · intro h hh; exact rot_mem_Om.2 hh
  · intro h hh; rw [← rot_mem_Om, rot_unrot]; exact hh
  · intro h _; exact unrot_rot k h
  · intro h _; exact rot_unrot k h
  · intro h _; rfl

end Verif.Cyl
