import Verif.Proofs.QPieriA
import Verif.Model.PieriBCD
/-!
# Sums of expressions indexed by shapes, and the monomials that occur in them
-/

namespace Verif
open Spec MvPolynomial

theorem sumPoly_aux (f : List Int → Poly) (s : List (List Int)) (acc : Poly) (hacc : WF acc)
    (hf : ∀ x ∈ s, WF (f x)) :
    WF (s.foldl (fun acc x => Poly.add acc (f x)) acc) ∧
      den (s.foldl (fun acc x => Poly.add acc (f x)) acc) = den acc + (s.map (fun x => den (f x))).sum := by
  induction s generalizing acc with
  | nil => simp [hacc]
  | cons x s ih =>
    obtain ⟨h1, h2⟩ := ih (Poly.add acc (f x)) (wf_add hacc.sorted (hf x (by simp)))
      (fun y hy => hf y (by simp [hy]))
    refine ⟨h1, ?_⟩
    rw [List.foldl_cons, h2, den_add, List.map_cons, List.sum_cons]
    ring

theorem wf_sumPoly {f : List Int → Poly} {s : List (List Int)} (hf : ∀ x ∈ s, WF (f x)) : WF (sumPoly f s) :=
  (sumPoly_aux f s [] wf_nil hf).1

theorem den_sumPoly {f : List Int → Poly} {s : List (List Int)} (hf : ∀ x ∈ s, WF (f x)) :
    den (sumPoly f s) = (s.map (fun x => den (f x))).sum := by
  have := (sumPoly_aux f s [] wf_nil hf).2
  simpa [sumPoly] using this

/-- the list of terms `c(x) * S[x]` -/
def termsOf (c : List Int → ℚ) (L : List (List Int)) : Poly := L.map (fun x => ([Sym.S x], c x))

/-- the list of terms `c(x) * q * S[x]` -/
def qtermsOf (c : List Int → ℚ) (L : List (List Int)) : Poly := L.map (fun x => ([Sym.q, Sym.S x], c x))

theorem wf_termsOf {c : List Int → ℚ} {L : List (List Int)} (h : L.Nodup) (hc : ∀ x ∈ L, c x ≠ 0) :
    WF (termsOf c L) := by
  unfold termsOf
  refine ⟨?_, ?_⟩
  · rw [List.map_map]
    exact h.map (fun a b hab => by simpa using hab)
  · intro t ht
    rw [List.mem_map] at ht
    obtain ⟨mu, hm, rfl⟩ := ht
    exact ⟨hc _ hm, by simp⟩

theorem den_termsOf (c : List Int → ℚ) (L : List (List Int)) :
    den (termsOf c L) = (L.map (fun x => C (c x) * X (.S x))).sum := by
  unfold termsOf
  induction L with
  | nil => rfl
  | cons l L ih => rw [List.map_cons, den_cons, ih, List.map_cons, List.sum_cons]; simp

theorem wf_qtermsOf {c c' : List Int → ℚ} {L N : List (List Int)} (h : L.Nodup) (h' : N.Nodup)
    (hc : ∀ x ∈ L, c x ≠ 0) (hc' : ∀ x ∈ N, c' x ≠ 0) : WF (termsOf c L ++ qtermsOf c' N) := by
  unfold termsOf qtermsOf
  refine ⟨?_, ?_⟩
  · rw [List.map_append, List.map_map, List.map_map, List.nodup_append]
    refine ⟨h.map (fun a b hab => by simpa using hab), h'.map (fun a b hab => by simpa using hab), ?_⟩
    intro a ha b hb
    simp at ha hb
    obtain ⟨_, _, rfl⟩ := ha
    obtain ⟨_, _, rfl⟩ := hb
    simp
  · intro t ht
    rw [List.mem_append, List.mem_map, List.mem_map] at ht
    rcases ht with ⟨mu, hm, rfl⟩ | ⟨mu, hm, rfl⟩
    · exact ⟨hc _ hm, by simp⟩
    · exact ⟨hc' _ hm, by simp [Sym.code, listLt]⟩

theorem den_qtermsOf (c : List Int → ℚ) (L : List (List Int)) :
    den (qtermsOf c L) = X .q * (L.map (fun x => C (c x) * X (.S x))).sum := by
  unfold qtermsOf
  induction L with
  | nil => simp
  | cons l L ih => rw [List.map_cons, den_cons, ih, List.map_cons, List.sum_cons]; simp; ring

theorem sumPoly_terms {c : List Int → ℚ} {L : List (List Int)} (h : L.Nodup) (hc : ∀ x ∈ L, c x ≠ 0) :
    WF (sumPoly (fun x => Poly.scale (c x) (Poly.sym (.S x))) L) ∧
    (sumPoly (fun x => Poly.scale (c x) (Poly.sym (.S x))) L).Perm (termsOf c L) := by
  have hw : ∀ x ∈ L, WF (Poly.scale (c x) (Poly.sym (.S x))) := fun x _ => wf_scale _ (wf_sym _)
  refine ⟨wf_sumPoly hw, perm_of_den_eq (wf_sumPoly hw) (wf_termsOf h hc) ?_⟩
  rw [den_sumPoly hw, den_termsOf]
  congr 1
  apply List.map_congr_left
  intro x _
  rw [den_scale]
  simp

/-! ### Monomials -/

/-- the monomials of an expression -/
def supp (p : Poly) : List Mono := p.map Prod.fst

theorem supp_add {a b : Poly} {m : Mono} (h : m ∈ supp (Poly.add a b)) : m ∈ supp a ∨ m ∈ supp b := by
  unfold Poly.add at h
  induction a with
  | nil => exact Or.inr h
  | cons t a ih =>
    rw [List.foldr_cons] at h
    rcases mem_addTerm_fst h with h | h
    · left; subst h; simp [supp]
    · rcases ih h with h | h
      · left; simp only [supp, List.map_cons, List.mem_cons]; exact Or.inr h
      · exact Or.inr h

theorem supp_scale {c : ℚ} {a : Poly} {m : Mono} (h : m ∈ supp (Poly.scale c a)) : m ∈ supp a := by
  unfold Poly.scale at h
  split at h
  · simp [supp] at h
  · simpa [supp] using h

theorem supp_mulTerm {m : Mono} {c : ℚ} {a : Poly} {x : Mono} (h : x ∈ supp (Poly.mulTerm m c a)) :
    ∃ y ∈ supp a, x = Mono.mul m y := by
  unfold Poly.mulTerm at h
  induction a with
  | nil => simp [supp] at h
  | cons t a ih =>
    rw [List.foldr_cons] at h
    rcases mem_addTerm_fst h with h | h
    · exact ⟨t.1, by simp [supp], h⟩
    · obtain ⟨y, hy, e⟩ := ih h
      exact ⟨y, by simp only [supp, List.map_cons, List.mem_cons]; exact Or.inr hy, e⟩

theorem supp_mul {a b : Poly} {x : Mono} (h : x ∈ supp (Poly.mul a b)) :
    ∃ y ∈ supp a, ∃ z ∈ supp b, x = Mono.mul y z := by
  unfold Poly.mul at h
  induction a with
  | nil => simp [supp] at h
  | cons t a ih =>
    rw [List.foldr_cons] at h
    rcases supp_add h with h | h
    · obtain ⟨z, hz, e⟩ := supp_mulTerm h
      exact ⟨t.1, by simp [supp], z, hz, e⟩
    · obtain ⟨y, hy, z, hz, e⟩ := ih h
      exact ⟨y, by simp only [supp, List.map_cons, List.mem_cons]; exact Or.inr hy, z, hz, e⟩

theorem supp_sym {s : Sym} {x : Mono} (h : x ∈ supp (Poly.sym s)) : x = [s] := by
  simpa [supp, Poly.sym] using h

theorem supp_const {c : ℚ} {x : Mono} (h : x ∈ supp (Poly.const c)) : x = [] := by
  unfold Poly.const at h
  split at h
  · simp [supp] at h
  · simpa [supp] using h

/-- an expression in normal form all of whose monomials satisfy `Q` -/
def All (Q : Mono → Prop) (p : Poly) : Prop := WF p ∧ ∀ m ∈ supp p, Q m

/-- a computation that returns such an expression -/
def RetAll (Q : Mono → Prop) (r : Except PyErr Poly) : Prop := ∃ w, r = .ok w ∧ All Q w

theorem All.mono {Q Q' : Mono → Prop} {p : Poly} (h : All Q p) (hq : ∀ m, Q m → Q' m) : All Q' p :=
  ⟨h.1, fun m hm => hq m (h.2 m hm)⟩

theorem all_add {Q : Mono → Prop} {a b : Poly} (ha : All Q a) (hb : All Q b) : All Q (Poly.add a b) :=
  ⟨wf_add ha.1.sorted hb.1, fun m hm => (supp_add hm).elim (ha.2 m) (hb.2 m)⟩

theorem all_nil (Q : Mono → Prop) : All Q [] := ⟨wf_nil, by simp [supp]⟩

theorem all_sym {Q : Mono → Prop} {s : Sym} (h : Q [s]) : All Q (Poly.sym s) :=
  ⟨wf_sym _, fun m hm => by rw [supp_sym hm]; exact h⟩

theorem all_mul {A B Q : Mono → Prop} {a b : Poly} (ha : All A a) (hb : All B b)
    (h : ∀ x y, A x → B y → Q (Mono.mul x y)) : All Q (Poly.mul a b) := by
  refine ⟨wf_mul hb.1, ?_⟩
  intro m hm
  obtain ⟨y, hy, z, hz, rfl⟩ := supp_mul hm
  exact h y z (ha.2 y hy) (hb.2 z hz)

theorem apply_all {A Q : Mono → Prop} {f : List Int → Except PyErr Poly} {w : Poly} (hw : All A w)
    (h : ∀ m, A m → RetAll Q (Poly.applyMono f m)) : RetAll Q (Poly.apply f w) := by
  have hA : ∀ m ∈ supp w, A m := hw.2
  clear hw
  induction w with
  | nil => exact ⟨[], rfl, all_nil Q⟩
  | cons t w ih =>
    obtain ⟨m, c⟩ := t
    obtain ⟨a, h1, h2⟩ := h m (hA m (by simp [supp]))
    obtain ⟨b, h3, h4⟩ := ih (fun m' hm' => hA m' (by simp only [supp, List.map_cons, List.mem_cons]; exact Or.inr hm'))
    refine ⟨Poly.add (Poly.scale c a) b, ?_, wf_add (wf_scale c h2.1).sorted h4.1, ?_⟩
    · simp only [Poly.apply, h1, h3]; rfl
    · intro m hm
      rcases supp_add hm with hm | hm
      · exact h2.2 m (supp_scale hm)
      · exact h4.2 m hm

/-- the monomials `S[x]` with `P x` -/
def OneS (P : List Int → Prop) (m : Mono) : Prop := ∃ x, m = [.S x] ∧ P x

theorem applyMono_one {f : List Int → Except PyErr Poly} {Q : List Int → Prop} {x : List Int}
    (h : RetAll (OneS Q) (f x)) : RetAll (OneS Q) (Poly.applyMono f [.S x]) := by
  obtain ⟨a, h1, h2⟩ := h
  refine ⟨Poly.mul a (Poly.const 1), ?_, all_mul h2 (B := fun m => m = []) ⟨wf_const 1, fun m hm => supp_const hm⟩ ?_⟩
  · simp only [Poly.applyMono, Poly.applySym, h1]; rfl
  · rintro _ _ ⟨y, rfl, hy⟩ rfl
    exact ⟨y, rfl, hy⟩

theorem apply_one {f : List Int → Except PyErr Poly} {P Q : List Int → Prop} {w : Poly} (hw : All (OneS P) w)
    (h : ∀ x, P x → RetAll (OneS Q) (f x)) : RetAll (OneS Q) (Poly.apply f w) :=
  apply_all hw (by rintro m ⟨x, rfl, hx⟩; exact applyMono_one (h x hx))

end Verif
