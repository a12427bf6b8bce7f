import Verif.Proofs.RingBC
import Verif.Props.Classes
/-!
# C59: the number of Schubert classes of `IG(m, 2n)` and `OG(m, 2n+1)`
-/

namespace Verif
open Spec

theorem countP_words (n k : Nat) :
    (words n).countP (fun w => decide (colsW 0 w = k)) * 2 ^ k = 2 ^ n * n.choose k := by
  induction n generalizing k with
  | zero => cases k <;> simp [words, colsW]
  | succ n ih =>
    unfold words
    rw [List.countP_append, List.countP_append, List.countP_map, List.countP_map, List.countP_map]
    have e1 : (fun w => decide (colsW 0 w = k)) ∘ (fun w => L3.a :: w) = fun w => decide (colsW 0 w = k) := rfl
    have e2 : (fun w => decide (colsW 0 w = k)) ∘ (fun w => L3.b :: w) = fun w => decide (colsW 0 w = k) := rfl
    rw [e1, e2]
    cases k with
    | zero =>
      have e0 : (fun w => decide (colsW 0 w = 0)) ∘ (fun w => L3.o :: w) = fun _ => false := by
        funext w; simp [colsW]
      rw [e0]
      have := ih 0
      simp only [Nat.choose_zero_right, pow_zero, mul_one] at this ⊢
      rw [this, pow_succ, show List.countP (fun _ : List L3 => false) (words n) = 0 by simp]; ring
    | succ k =>
      have e0 : (fun w => decide (colsW 0 w = k + 1)) ∘ (fun w => L3.o :: w) = fun w => decide (colsW 0 w = k) := by
        funext w; simp [colsW]
      rw [e0]
      have h1 := ih k
      have h2 := ih (k + 1)
      rw [Nat.choose_succ_succ]
      generalize (words n).countP (fun w => decide (colsW 0 w = k)) = A at *
      generalize (words n).countP (fun w => decide (colsW 0 w = k + 1)) = B at *
      calc (A + B + B) * 2 ^ (k + 1) = 2 * (A * 2 ^ k) + 2 * (B * 2 ^ (k + 1)) := by ring
        _ = _ := by rw [h1, h2]; ring

theorem card_Wd {n k : Nat} (hk : k ≤ n) : (Wd n k).card = 2 ^ (n - k) * n.choose k := by
  have h : (Wd n k).card = (words n).countP (fun w => decide (colsW 0 w = k)) := by
    unfold Wd
    rw [List.countP_eq_length_filter, ← List.toFinset_card_of_nodup ((words_nodup n).filter _)]
    congr 1
    ext w
    simp
  have h2 := countP_words n k
  rw [← h] at h2
  have h3 : 2 ^ n = 2 ^ (n - k) * 2 ^ k := by rw [← pow_add]; congr 1; omega
  rw [h3] at h2
  exact Nat.eq_of_mul_eq_mul_right (show 0 < 2 ^ k by positivity) (by rw [h2]; ring)

theorem count_classes {n k : Nat} (hk : k ≤ n) {L : List (List Int)} (hL : L.Nodup) (h : ∀ l, l ∈ L ↔ clsBC n k l) :
    L.length = 2 ^ (n - k) * n.choose k := by
  classical
  rw [← card_Wd hk, ← List.toFinset_card_of_nodup hL, ← Finset.card_image_of_injOn (s := Wd n k) (f := labW)
    (fun u hu w hw h => Wd_inj u hu w hw h)]
  congr 1
  ext l
  rw [List.mem_toFinset, h, Wd_cls hk, Finset.mem_image]

theorem sorted_nodup {L : List (List Int)} (h : L.Pairwise (fun a b => listLt a b = true)) : L.Nodup :=
  h.imp (fun {a b} hab he => by
    subst he
    exact absurd hab (by simp [listLt_irrefl]))

/-- **C59**, type C. `IG(m, 2n)` has `2^m * binomial(n, m)` Schubert classes. -/
theorem C59_count_IG {m n : Int} {X : Space} (hX : mkIG m (2 * n) = .ok X) :
    ∃ L, Terminates X.schubClasses L ∧ L.Nodup ∧ L.length = 2 ^ m.toNat * n.toNat.choose m.toNat := by
  obtain ⟨L, h1, h2, h3⟩ := C06_classes_IG m n X hX
  obtain ⟨_, hm, hmn, _⟩ := mkIG_even hX
  obtain ⟨a, rfl⟩ := Int.eq_ofNat_of_zero_le (show 0 ≤ n by omega)
  obtain ⟨b, hb⟩ := Int.eq_ofNat_of_zero_le (show 0 ≤ a - m by omega)
  have hk : b ≤ a := by omega
  refine ⟨L, h1, sorted_nodup h2, ?_⟩
  have := count_classes hk (sorted_nodup h2) (fun l => by
    rw [h3, clsBC_eq hk, show (a : Int) - b = m by omega])
  rw [this, show m.toNat = a - b by omega, Int.toNat_natCast, Nat.choose_symm hk]

/-- **C59**, type B. `OG(m, 2n+1)` has `2^m * binomial(n, m)` Schubert classes. -/
theorem C59_count_OG {m n : Int} (hmn : m ≤ n) {X : Space} (hX : mkOG m (2 * n + 1) = .ok X) :
    ∃ L, Terminates X.schubClasses L ∧ L.Nodup ∧ L.length = 2 ^ m.toNat * n.toNat.choose m.toNat := by
  obtain ⟨L, h1, h2, h3⟩ := C06_classes_OG m n hmn X hX
  obtain ⟨hm, _, _⟩ := mkOG_odd hX
  obtain ⟨a, rfl⟩ := Int.eq_ofNat_of_zero_le (show 0 ≤ n by omega)
  obtain ⟨b, hb⟩ := Int.eq_ofNat_of_zero_le (show 0 ≤ a - m by omega)
  have hk : b ≤ a := by omega
  refine ⟨L, h1, sorted_nodup h2, ?_⟩
  have := count_classes hk (sorted_nodup h2) (fun l => by
    rw [h3, clsBC_eq hk, show (a : Int) - b = m by omega])
  rw [this, show m.toNat = a - b by omega, Int.toNat_natCast, Nat.choose_symm hk]

/-- `IG(2, 6)` has `2^2 * 3 = 12` classes -/
example : mkIG 2 (2 * 3) = .ok ⟨.C, 1, 3⟩ ∧ (allKstrict 100 1 2 4).map List.length = some 12 ∧
    2 ^ 2 * Nat.choose 3 2 = 12 := by
  refine ⟨by decide, by decide +kernel, by decide⟩

end Verif
