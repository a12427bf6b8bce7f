import Verif.Proofs.PieriCls
import Verif.Proofs.RingAbs
/-!
# The quantum Pieri rule of type C
-/

namespace Verif
open Spec MvPolynomial

/-- the shapes `nu` such that `c :: nu` is one of the given shapes -/
def tails (c : Int) (R : List (List Int)) : List (List Int) :=
  (R.filter (fun l => decide (l.head? = some c))).map List.tail

theorem mem_tails {c : Int} {R : List (List Int)} {nu : List Int} : nu ∈ tails c R ↔ c :: nu ∈ R := by
  unfold tails
  rw [List.mem_map]
  constructor
  · rintro ⟨l, hl, rfl⟩
    rw [List.mem_filter] at hl
    cases l with
    | nil => simp at hl
    | cons x l => simp at hl; rw [← hl.2]; exact hl.1
  · intro h
    exact ⟨c :: nu, List.mem_filter.2 ⟨h, by simp⟩, rfl⟩

theorem nodup_tails {c : Int} {R : List (List Int)} (h : R.Nodup) : (tails c R).Nodup := by
  unfold tails
  refine List.Nodup.map_on ?_ (h.filter _)
  intro a ha b hb hab
  rw [List.mem_filter] at ha hb
  cases a with
  | nil => simp at ha
  | cons x a =>
    cases b with
    | nil => simp at hb
    | cons y b => simp at ha hb hab; rw [ha.2, hb.2, hab]

theorem subst_terms (σ : List Int → P) (c : List Int → ℚ) (L : List (List Int)) :
    subst σ ((L.map (fun x => C (c x) * X (.S x))).sum) = (L.map (fun x => C (c x) * σ x)).sum := by
  induction L with
  | nil => simp
  | cons l L ih => rw [List.map_cons, List.sum_cons, map_add, ih, map_mul, subst_C, subst_S]; simp

theorem sum_starVal (v : Int) (c : List Int → ℚ) (R : List (List Int)) :
    (R.map (fun x => C (c x) * starVal v x)).sum =
      ((tails v R).map (fun nu => C (c (v :: nu)) * X (.S nu))).sum := by
  induction R with
  | nil => simp [tails]
  | cons l R ih =>
    rw [List.map_cons, List.sum_cons, ih]
    unfold tails starVal
    cases l with
    | nil => simp
    | cons x l =>
      by_cases hx : x = v
      · subst hx; simp [at']
      · simp [at', hx]

theorem inBox_mono {k : Nat} {n d : Int} {l : List Int} (h : InBox k n d l) : InBox k (n + 1) d l :=
  ⟨h.isPart, h.kstrict, fun r hr => h.rows r (by omega), by have := h.cols; omega⟩

theorem inBox_cons {k : Nat} {n : Int} {nu : List Int} (hn : 0 ≤ n) (hr : 0 ≤ n - k) :
    (ReducedPart ((n + k + 1) :: nu) ∧ InBox k (n + 1) 0 ((n + k + 1) :: nu)) ↔
      ReducedPart nu ∧ InBox k n 0 nu := by
  constructor
  · rintro ⟨⟨h1, h2⟩, h3⟩
    have h1' := List.pairwise_cons.1 h1
    have hs := List.pairwise_cons.1 h3.kstrict
    have hred : ReducedPart nu := ⟨h1'.2, fun x hx => h2 x (by simp [hx])⟩
    refine ⟨hred, reduced_isPart hred, hs.2, ?_, ?_⟩
    · intro r hr'
      exact h3.rows (r + 1) (by push_cast; omega)
    · cases nu with
      | nil => simp [part]; omega
      | cons y nu => have := hs.1 y (by simp) (by omega); simp [part]; omega
  · rintro ⟨⟨h1, h2⟩, h3⟩
    have hle : ∀ y ∈ nu, y ≤ n + k := by
      have := (class_of_inBox (m := (n - k).toNat) (c := n + k) (by omega) rfl ⟨h1, h2⟩ h3).2.2
      exact this
    have hred : ReducedPart ((n + k + 1) :: nu) := by
      refine ⟨List.pairwise_cons.2 ⟨fun y hy => by have := hle y hy; omega, h1⟩, ?_⟩
      intro x hx
      rcases List.mem_cons.1 hx with rfl | hx
      · omega
      · exact h2 x hx
    refine ⟨hred, reduced_isPart hred, List.pairwise_cons.2 ⟨fun y hy _ => by have := hle y hy; omega, h3.kstrict⟩, ?_, ?_⟩
    · intro r hr'
      obtain ⟨s, rfl⟩ : ∃ s, r = s + 1 := ⟨r - 1, by omega⟩
      exact h3.rows s (by push_cast at hr'; omega)
    · simp [part]; omega

/-- `qpieriC_inner` on a class -/
theorem qpieriC_terms (p : Int) {k : Nat} {n : Int} {lam : List Int} (h : InBox k n 0 lam) (hn : 0 ≤ n)
    (hr : 0 ≤ n - k) : ∃ w R N, qpieriC p lam k n = .ok w ∧ WF w ∧ R.Nodup ∧ N.Nodup ∧
      (∀ mu, mu ∈ R ↔ ReducedPart mu ∧ InBox k n 0 mu ∧ mu.sum = lam.sum + p ∧ PieriArrow k 0 lam mu) ∧
      (∀ nu, nu ∈ N ↔ ReducedPart nu ∧ InBox k n 0 nu ∧ nu.sum + (n + k + 1) = lam.sum + p ∧
        PieriArrow k 0 lam ((n + k + 1) :: nu)) ∧
      (p ≤ n + k → ∀ nu ∈ N, 1 ≤ countComps lam ((n + k + 1) :: nu) true k 0) ∧
      w.Perm (termsOf (fun mu => 2 ^ countComps lam mu true k 0) R ++
        qtermsOf (fun nu => 2 ^ countComps lam ((n + k + 1) :: nu) true k 0 / 2) N) := by
  obtain ⟨w, R, h1, h2, h3, h4, h5⟩ := pieriC_terms p h hn hr
  obtain ⟨w', R', h1', h2', h3', h4', h5'⟩ := pieriC_terms p (inBox_mono h) (n := n + 1) (by omega) (by omega)
  obtain ⟨z, hz, hz', hz''⟩ := apply_spec' w' (partStar_returns (n + k + 1))
  have hN : ∀ nu, nu ∈ tails (n + k + 1) R' ↔ ReducedPart nu ∧ InBox k n 0 nu ∧
      nu.sum + (n + k + 1) = lam.sum + p ∧ PieriArrow k 0 lam ((n + k + 1) :: nu) := by
    intro nu
    rw [mem_tails, h4', ← and_assoc, inBox_cons hn hr, List.sum_cons, and_assoc, add_comm (n + k + 1)]
  have hwf := wf_qtermsOf (c := fun mu => (2 : ℚ) ^ countComps lam mu true k 0)
    (c' := fun nu => (2 : ℚ) ^ countComps lam ((n + k + 1) :: nu) true k 0 / 2) h3 (nodup_tails (c := n + k + 1) h3')
    (fun _ _ => pow_ne_zero _ (by norm_num)) (fun _ _ => div_ne_zero (pow_ne_zero _ (by norm_num)) (by norm_num))
  have hw : WF (Poly.add w (Poly.mul (Poly.scale (1 / 2) (Poly.sym .q)) z)) := wf_add h2.sorted (wf_mul hz')
  refine ⟨_, R, tails (n + k + 1) R', ?_, hw, h3, nodup_tails h3', h4, hN, ?_, perm_of_den_eq hw hwf ?_⟩
  · unfold qpieriC
    rw [h1, h1']
    simp only [bind, Except.bind, hz]
  · intro hp nu hnu
    rw [mem_tails, h4'] at hnu
    obtain ⟨_, hb, hsum, harr⟩ := hnu
    have hsh := (shapeRel_iff (inBox_mono h) hb (Or.inl rfl) (by omega) (by omega)).2 harr
    obtain ⟨e, he, hlt⟩ := star_free h hb hr hsh (by simp [part]; omega) (by omega)
    exact countComps_pos (inBox_mono h) hb (Or.inl rfl) (by omega) (by omega) hsh true he (fun _ => hlt)
  · rw [den_add, den_mul, den_scale, hz'', den_append, den_qtermsOf, den_perm h5, den_perm h5', den_termsOf,
      den_termsOf, subst_terms, sum_starVal]
    congr 1
    rw [den_sym, mul_comm (C (1 / 2 : ℚ)), mul_assoc, ← List.sum_map_mul_left]
    congr 3
    funext nu
    rw [← mul_assoc, ← C_mul]
    congr 2
    ring

end Verif
