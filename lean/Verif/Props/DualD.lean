import Verif.Proofs.WordDDual
import Verif.Props.RingD
import Verif.Props.CountBC
/-!
# C68: Poincaré duality of `OG(m, 2n+2)`; C69: the number of its classes
-/

namespace Verif
open Spec

theorem pointClass_D {a b : Nat} (h : b ≤ a + 1) : dlD a b [] = (Space.mk .D b a).pointClass := by
  have d1 := dualize_dlD h [] (clsD_nil h)
  have p1 := (C37_point_D _ _ (by omega) _ (mkOGD_nat a b h)).2.2.1
  rw [d1] at p1
  exact Except.ok.inj p1

/-- **C68**, classical. The coefficient of the point class in `S[l] * S[mu]` is `1` if `mu = dualize(l)` and `0` otherwise. In
particular `dualize` treats the two types of classes correctly. -/
theorem C68_duality {m n : Int} (hn : 0 ≤ n) (hmn : m ≤ n + 1) {X : Space} (hX : mkOG m (2 * n + 2) = .ok X) {fuel : Nat}
    (hf : giamBoundD m n ≤ fuel) {l mu : List Int} (hl : DClass m n l) (hmu : DClass m n mu) :
    ∃ w l', X.mult fuel (Poly.sym (.S l)) (Poly.sym (.S mu)) = .ok w ∧ X.dualize l = .ok l' ∧
      coeffOf [.S X.pointClass] w = if mu = l' then 1 else 0 := by
  obtain ⟨a, b, h, rfl, rfl, rfl⟩ := ogdCase hn hmn hX
  rw [dClass_eq h] at hl hmu
  rw [giamBoundD_eq h] at hf
  obtain ⟨w, h1, h2⟩ := (ringD a b h).gdual (dlD a b) (dlD_cls h) (dlD_dlD h)
    (fun p l nu _ hl hn => tDD_dual 0 0 h p hl hn) hf hl hmu
  refine ⟨w, dlD a b l, h1, dualize_dlD h l hl, ?_⟩
  rw [← pointClass_D h]
  simpa using h2 0

example : (Space.mk .D 2 3).dualize [2, 1] = .ok [4, 2] ∧
    (Space.mk .D 2 3).mult 66 (Poly.sym (.S [2, 1])) (Poly.sym (.S [4, 2])) = .ok [([.S [5, 4]], 1)] ∧
    (Space.mk .D 2 3).mult 66 (Poly.sym (.S [2, 1])) (Poly.sym (.S [4, 2, 0])) = .ok [] := by decide +kernel

/-- **C68**, quantum. The same for the quantum product, and no multiple of the point class by a positive power of `q` occurs. -/
theorem C68_qduality (ord : List Int → List Int) {m n : Int} (hm : 0 < m) (hmn : m ≤ n + 1) (hne : m ≠ n) {X : Space}
    (hX : mkOG m (2 * n + 2) = .ok X) {fuel : Nat} (hf : giamBoundD m n ≤ fuel) {l mu : List Int} (hl : DClass m n l)
    (hmu : DClass m n mu) :
    ∃ w l', X.qmult ord fuel (Poly.sym (.S l)) (Poly.sym (.S mu)) = .ok w ∧ X.dualize l = .ok l' ∧
      ∀ d, coeffOf (List.replicate d .q ++ [.S X.pointClass]) w = if mu = l' ∧ d = 0 then 1 else 0 := by
  obtain ⟨a, b, h, hb1, rfl, rfl, rfl⟩ := ogdCase' hm hmn hne hX
  rw [dClass_eq (by omega)] at hl hmu
  rw [giamBoundD_eq (by omega)] at hf
  obtain ⟨w, h1, h2⟩ := (ringQD ord a b h hb1).gdual (dlD a b) (dlD_cls (by omega)) (dlD_dlD (by omega))
    (fun p l nu _ hl hn => tDD_dual _ _ (by omega) p hl hn) hf hl hmu
  refine ⟨w, dlD a b l, h1, dualize_dlD (by omega) l hl, fun d => ?_⟩
  rw [← pointClass_D (by omega)]
  exact h2 d

/-- in `OG(2, 6)`, where `k = 1`, the dual of `S[1]` is the class `S[3,1,0]` of the other type; in `OG(2, 8)`, where `k = 2`, the
dual of `S[2]` is the class `S[5,2]` of the same type -/
example : DClass 2 2 [1] ∧ DClass 2 2 [3, 1, 0] ∧ (Space.mk .D 1 2).dualize [1] = .ok [3, 1, 0] ∧
    (Space.mk .D 1 2).pointClass = [3, 2] ∧
    (Space.mk .D 1 2).mult 50 (Poly.sym (.S [1])) (Poly.sym (.S [3, 1, 0])) = .ok [([.S [3, 2]], 1)] ∧
    (Space.mk .D 1 2).mult 50 (Poly.sym (.S [1])) (Poly.sym (.S [3, 1])) = .ok [] ∧
    (Space.mk .D 2 3).dualize [2] = .ok [5, 2] ∧ (Space.mk .D 2 3).pointClass = [5, 4] ∧
    (Space.mk .D 2 3).mult 66 (Poly.sym (.S [2])) (Poly.sym (.S [5, 2])) = .ok [([.S [5, 4]], 1)] ∧
    (Space.mk .D 2 3).mult 66 (Poly.sym (.S [2])) (Poly.sym (.S [5, 2, 0])) = .ok [] := by
  refine ⟨⟨[1], ⟨by decide, by decide⟩, by unfold KStrict; decide, ⟨by decide, by decide⟩, .inl rfl⟩,
    ⟨[3, 1], ⟨by decide, by decide⟩, by unfold KStrict; decide, ⟨by decide, by decide⟩, .inr ⟨by decide, rfl⟩⟩,
    ?_, ?_, ?_, ?_, ?_, ?_, ?_, ?_⟩ <;>
    decide +kernel

theorem card_WdD_zero (n : Nat) : (WdD n 0).card = 2 ^ n := by
  rw [← show 2 ^ (n - 0) * n.choose 0 = 2 ^ n by simp, ← card_Wd (Nat.zero_le n)]
  symm
  apply Finset.card_bij (fun u _ => ((u, .a) : WordD))
  · intro u hu
    rw [mem_Wd] at hu
    rw [mem_WdD]
    exact ⟨hu.1, hu.2, fun _ => rfl⟩
  · intro u _ w _ h
    exact congrArg Prod.fst h
  · intro W hW
    rw [mem_WdD] at hW
    have h2 := hW.2.2 rfl
    refine ⟨W.1, ?_, ?_⟩
    · rw [mem_Wd]
      refine ⟨hW.1, ?_⟩
      have := hW.2.1
      unfold colsD at this
      rw [h2] at this
      exact this
    · rw [← h2]

theorem colsW_one (u : List L3) : colsW 1 u = colsW 0 u + 1 := by
  induction u with
  | nil => rfl
  | cons p u ih => cases p <;> simp [colsW, ih]

theorem card_WdD_succ {n k : Nat} (hk : k ≤ n) : (WdD n (k + 1)).card = 2 ^ (n - k) * (n + 1).choose (k + 1) := by
  have hdec : WdD n (k + 1) = (Wd n k).image (fun u => ((u, .o) : WordD)) ∪
      ((Wd n (k + 1)).image (fun u => ((u, .a) : WordD)) ∪
        (Wd n (k + 1)).image (fun u => ((u, .b) : WordD))) := by
    ext ⟨u, i⟩
    simp only [mem_WdD, Finset.mem_union, Finset.mem_image, mem_Wd, Prod.mk.injEq, colsD]
    cases i
    · simp [L3.k0, colsW_one]
    · simp [L3.k0]
    · simp [L3.k0]
  rw [hdec, Finset.card_union_of_disjoint, Finset.card_union_of_disjoint, Finset.card_image_of_injective,
    Finset.card_image_of_injective, Finset.card_image_of_injective, card_Wd hk]
  · rw [Nat.choose_succ_succ, Nat.mul_add]
    congr 1
    by_cases h : k + 1 ≤ n
    · rw [card_Wd h, show n - k = n - (k + 1) + 1 by omega, pow_succ]; ring
    · have h0 : Wd n (k + 1) = ∅ := by
        apply Finset.eq_empty_of_forall_notMem
        intro u hu
        rw [mem_Wd] at hu
        have := rows_add_cols 0 0 u
        omega
      rw [h0, Nat.choose_eq_zero_of_lt (by omega)]; simp
  · exact fun _ _ h => congrArg Prod.fst h
  · exact fun _ _ h => congrArg Prod.fst h
  · exact fun _ _ h => congrArg Prod.fst h
  · rw [Finset.disjoint_left]
    rintro ⟨u, i⟩ h1 h2
    simp only [Finset.mem_image, Prod.mk.injEq] at h1 h2
    obtain ⟨_, _, _, rfl⟩ := h1
    obtain ⟨_, _, _, h⟩ := h2
    cases h
  · rw [Finset.disjoint_left]
    rintro ⟨u, i⟩ h1 h2
    simp only [Finset.mem_union, Finset.mem_image, Prod.mk.injEq] at h1 h2
    obtain ⟨_, _, _, rfl⟩ := h1
    rcases h2 with ⟨_, _, _, h⟩ | ⟨_, _, _, h⟩ <;> cases h

theorem count_classesD {n k : Nat} (hk : k ≤ n + 1) {L : List (List Int)} (hL : L.Nodup) (h : ∀ l, l ∈ L ↔ clsD n k l) :
    L.length = (WdD n k).card := by
  classical
  rw [← List.toFinset_card_of_nodup hL, ← Finset.card_image_of_injOn (s := WdD n k) (f := labD)
    (fun u hu w hw h => WdD_inj u hu w hw h)]
  congr 1
  ext l
  rw [List.mem_toFinset, h, WdD_cls hk, Finset.mem_image]

/-- **C69**. `OG(m, 2n+2)` has `2^m * binomial(n+1, m)` Schubert classes if `m ≤ n`; a component of `OG(n+1, 2n+2)` has `2^n`. -/
theorem C69_count {m n : Int} (hn : 0 ≤ n) (hmn : m ≤ n + 1) {X : Space} (hX : mkOG m (2 * n + 2) = .ok X) :
    ∃ L, Terminates X.schubClasses L ∧ L.Nodup ∧
      L.length = if m = n + 1 then 2 ^ n.toNat else 2 ^ m.toNat * (n + 1).toNat.choose m.toNat := by
  obtain ⟨L, h1, h2, h3⟩ := C07_classes_OGeven m n hmn X hX
  obtain ⟨a, b, hk, rfl, rfl, rfl⟩ := ogdCase hn hmn hX
  refine ⟨L, h1, sorted_nodup h2, ?_⟩
  rw [count_classesD hk (sorted_nodup h2) (fun l => by
    rw [h3, ← dClass_eq hk]; rfl)]
  cases b with
  | zero => rw [if_pos (by simp), card_WdD_zero]; simp
  | succ b =>
    rw [if_neg (by push_cast; omega), card_WdD_succ (by omega)]
    rw [show ((a : Int) + 1 - (b + 1 : Nat)).toNat = a - b by push_cast; omega, show ((a : Int) + 1).toNat = a + 1 by omega,
      show a - b = a + 1 - (b + 1) by omega, Nat.choose_symm hk]

/-- `OG(2, 8)` has `2^2 * 6 = 24` classes: 18 partitions, 6 of them with a part `2`; a component of `OG(4, 8)` has `2^3` -/
example : mkOG 2 (2 * 3 + 2) = .ok ⟨.D, 2, 3⟩ ∧
    (allKstrict 100 2 2 5).map (fun L => L.length + (L.filter (fun mu => (2 : Int) ∈ mu)).length) = some (2 ^ 2 * Nat.choose 4 2) ∧
    mkOG 4 (2 * 3 + 2) = .ok ⟨.D, 0, 3⟩ ∧ (allKstrict 100 0 4 3).map List.length = some (2 ^ 3) := by
  refine ⟨?_, ?_, ?_, ?_⟩ <;> decide +kernel

end Verif
