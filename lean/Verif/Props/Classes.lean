import Verif.Spec.Dec
import Verif.Proofs.Kstrict
import Verif.Proofs.Sort
import Verif.Spec.Fuel
/-!
# Properties C04, C05, C06, C07, C31, C37, C40: enumerations, constructors, class lists
-/

namespace Verif
open Spec

/-! ## C04 `all_kstrict` -/

/-- `ys` is what sorting `xs` and dropping repetitions gives. -/
theorem unique_eval {xs ys : List (List Int)} (h : ys.Pairwise (fun a b => listLt a b = true) ∧ (∀ x ∈ ys, x ∈ xs) ∧ ∀ x ∈ xs, x ∈ ys) :
    uniqueSchurList xs = ys :=
  (sorted_ext h.1 (uniqueSchurList_sorted _) (fun x => by rw [mem_uniqueSchurList]; exact ⟨h.2.1 x, h.2.2 x⟩)).symm

/-- For the evaluation of `schub_classes` in the examples. -/
theorem map_unique_eval {o : Option (List (List Int))} {ys : List (List Int)}
    (h : ∃ xs ∈ o.toList, ys.Pairwise (fun a b => listLt a b = true) ∧ (∀ x ∈ ys, x ∈ xs) ∧ ∀ x ∈ xs, x ∈ ys) :
    o.map uniqueSchurList = some ys := by
  obtain ⟨xs, h1, h2⟩ := h
  cases o with
  | none => simp at h1
  | some a =>
    obtain rfl : xs = a := by simpa using h1
    rw [Option.map_some, unique_eval h2]

/-- C04: termination, no repetition, and exactly the k-strict partitions of the rectangle. -/
theorem C04_all_kstrict (k rows cols : Int) (hk : 0 ≤ k) (hr : 0 ≤ rows) (hc : k ≤ cols) :
    ∃ L, Terminates (fun fuel => allKstrict fuel k rows cols) L ∧ L.Nodup ∧
      ∀ l, l ∈ L ↔ ReducedPart l ∧ KStrict k l ∧ InRect l rows.toNat cols := by
  obtain ⟨k, rfl⟩ := Int.eq_ofNat_of_zero_le hk
  obtain ⟨r, rfl⟩ := Int.eq_ofNat_of_zero_le hr
  obtain ⟨c, rfl⟩ := Int.eq_ofNat_of_zero_le (le_trans hk hc)
  refine ⟨(enumB (nxtK k) r c).map partClip, ⟨_, fun fuel hf => allKstrict_eq k r c (by omega) fuel hf⟩,
    enumB_clip_nodup _ _ _, fun l => ?_⟩
  exact mem_clip_enumB_kstrict k r c l

example : (0 : Int) ≤ 1 ∧ (0 : Int) ≤ 2 ∧ (1 : Int) ≤ 3 ∧
    allKstrict 20 1 2 3 = some [[3, 2], [3, 1], [3], [2, 1], [2], [1, 1], [1], []] := by decide

/-- C04, outside the stated range (`cols < k`) the rectangle is not respected. -/
theorem C04_narrow_rectangle : allKstrict 10 3 1 1 = some [[3], [2], [1], []] := by decide

example : allKstrict 20 1 2 3 = some [[3, 2], [3, 1], [3], [2, 1], [2], [1, 1], [1], []] := by decide +kernel

/-! ## C05 classes of `Gr(m,n)` -/

/-- C05 (every `1 ≤ m ≤ n`; missing: `m = 0`, where the claim is false, see `C05_refuted_m0`). -/
theorem C05_classes_partial (m n : Int) (hm : 1 ≤ m) (X : Space) (hX : mkGr m n = .ok X) :
    ∃ L, Terminates X.schubClasses L ∧ L.Pairwise (fun a b => listLt a b = true) ∧
      (∀ l, l ∈ L ↔ ReducedPart l ∧ InRect l m.toNat (n - m)) ∧
      L.length = Nat.choose n.toNat m.toNat := by
  unfold mkGr at hX
  split at hX
  · cases hX
  split at hX
  · cases hX
  injection hX with hX
  subst hX
  rename_i h1 h2
  obtain ⟨r, rfl⟩ := Int.eq_ofNat_of_zero_le (show 0 ≤ m by omega)
  obtain ⟨a, ha⟩ := Int.eq_ofNat_of_zero_le (show 0 ≤ n - r by omega)
  have hn : n = a + r := by omega
  subst hn
  have ha' : ((a : Int) + r - r) = a := by omega
  have hrr : ((a : Int) + r - a) = r := by omega
  refine ⟨uniqueSchurList (((enumB id r a).map partClip).mergeSort (fun a b => !listLt b a)),
    ⟨(enumB id r a).length + 1, fun fuel hf => ?_⟩, uniqueSchurList_sorted _, ?_, ?_⟩
  · simp only [Space.schubClasses, ha', hrr, rep, Int.toNat_natCast]
    rw [partGen_rect r a (by omega) fuel hf]
    rfl
  · intro l
    rw [mem_uniqueSchurList, List.mem_mergeSort, ha', Int.toNat_natCast, List.mem_map]
    constructor
    · rintro ⟨x, hx, rfl⟩
      rw [mem_enumB, adm_id_iff] at hx
      obtain ⟨hl, hp, hb⟩ := hx
      exact ⟨hp.partClip, by rw [← hl]; exact partClip_length_le x,
        fun y hy => hb y ((partClip_sublist x).mem hy)⟩
    · rintro ⟨hr, hlen, hb⟩
      refine ⟨l ++ List.replicate (r - l.length) 0, ?_, ?_⟩
      · rw [mem_enumB, adm_id_iff]
        refine ⟨by simp; omega, isPartition_of_part ?_, ?_⟩
        · intro i
          rw [part_append_zeros, part_append_zeros]
          exact hr.isPartition.part_anti (Nat.le_succ i)
        · intro x hx
          rw [List.mem_append, List.mem_replicate] at hx
          rcases hx with hx | hx
          · exact hb x hx
          · omega
      · rw [partClip_append_zeros, partClip_of_noTrailing hr.noTrailing]
  · rw [uniqueSchurList_length_of_nodup, List.length_mergeSort, List.length_map, enumB_id_length]
    · congr 1
    · exact (List.mergeSort_perm _ _).nodup_iff.2 (enumB_clip_nodup _ _ _)

example : ∃ X, mkGr 2 4 = .ok X ∧
    X.schubClasses 20 = some [[], [1], [1, 1], [2], [2, 1], [2, 2]] := by
  refine ⟨_, rfl, ?_⟩
  unfold Space.schubClasses
  have : partGen 20 (rep 2 (4 - 2)) = some [[2, 2], [2, 1], [2], [1, 1], [1], []] := by decide
  simp only [show ((4 : Int) - 2) = 2 by rfl, show ((4:Int) - (4-2)) = 4 - 2 by rfl] at *
  rw [this]
  simp [uniqueSchurList, List.mergeSort, List.merge, List.MergeSort.Internal.splitInTwo, listLt]

/-- C05 fails for `m = 0`: the space is a point, but the list of classes is empty. -/
theorem C05_refuted_m0 (n : Int) (hn : 0 ≤ n) :
    ∃ X, mkGr 0 n = .ok X ∧ Terminates X.schubClasses [] ∧ ReducedPart [] ∧ InRect [] 0 n := by
  refine ⟨⟨.A, n - 0, n⟩, ?_, ⟨0, fun fuel _ => ?_⟩, ?_, ?_⟩
  · unfold mkGr
    rw [if_neg (by omega), if_neg (by omega)]
  · simp [Space.schubClasses, rep, partGen, uniqueSchurList]
  · simp [ReducedPart]
  · simp [InRect]

/-! ## C06 classes of `IG(m,2n)` and `OG(m,2n+1)` -/

theorem classesBC (X : Space) (ht : X.type = .B ∨ X.type = .C) (hk : 0 ≤ X.k) (hkn : X.k ≤ X.n) :
    ∃ L, Terminates X.schubClasses L ∧ L.Pairwise (fun a b => listLt a b = true) ∧
      ∀ l, l ∈ L ↔ ReducedPart l ∧ KStrict X.k l ∧ InRect l (X.n - X.k).toNat (X.n + X.k) := by
  obtain ⟨L, hT, _, hmem⟩ := C04_all_kstrict X.k (X.n - X.k) (X.n + X.k) hk (by omega) (by omega)
  refine ⟨uniqueSchurList L, ?_, uniqueSchurList_sorted _, fun l => by rw [mem_uniqueSchurList, hmem]⟩
  obtain ⟨N, hN⟩ := hT.map uniqueSchurList
  refine ⟨N, fun fuel hf => ?_⟩
  rw [← hN fuel hf]
  rcases ht with ht | ht <;> simp [Space.schubClasses, ht]

/-- C06, symplectic case. -/
theorem C06_classes_IG (m n : Int) (X : Space) (hX : mkIG m (2 * n) = .ok X) :
    ∃ L, Terminates X.schubClasses L ∧ L.Pairwise (fun a b => listLt a b = true) ∧
      ∀ l, l ∈ L ↔ ReducedPart l ∧ KStrict (n - m) l ∧ InRect l m.toNat (2 * n - m) := by
  unfold mkIG at hX
  split at hX
  · cases hX
  split at hX
  · cases hX
  split at hX
  · cases hX
  injection hX with hX
  obtain ⟨L, h1, h2, h3⟩ := classesBC X (by rw [← hX]; simp) (by rw [← hX]; simp; omega)
    (by rw [← hX]; simp; omega)
  refine ⟨L, h1, h2, ?_⟩
  intro l
  rw [h3, ← hX]
  simp only
  rw [show (2 * n / 2 - m) = n - m by omega, show (2 * n / 2 - (n - m)) = m by omega,
    show (2 * n / 2 + (n - m)) = 2 * n - m by omega]

/-- `IG(2,6)` -/
example :
    (Space.mk .C 1 3).schubClasses 60 =
      some [[], [1], [1, 1], [2], [2, 1], [3], [3, 1], [3, 2], [4], [4, 1], [4, 2], [4, 3]] := by
  unfold Space.schubClasses
  exact map_unique_eval (by decide +kernel)

/-- C06, odd orthogonal case (`m ≤ n`; the constructor itself does not check this, see C31). -/
theorem C06_classes_OG (m n : Int) (hmn : m ≤ n) (X : Space) (hX : mkOG m (2 * n + 1) = .ok X) :
    ∃ L, Terminates X.schubClasses L ∧ L.Pairwise (fun a b => listLt a b = true) ∧
      ∀ l, l ∈ L ↔ ReducedPart l ∧ KStrict (n - m) l ∧ InRect l m.toNat (2 * n - m) := by
  unfold mkOG at hX
  split at hX
  · cases hX
  rw [if_pos (by omega)] at hX
  injection hX with hX
  obtain ⟨L, h1, h2, h3⟩ := classesBC X (by rw [← hX]; simp) (by rw [← hX]; simp; omega)
    (by rw [← hX]; simp; omega)
  refine ⟨L, h1, h2, ?_⟩
  intro l
  rw [h3, ← hX]
  simp only
  rw [show ((2 * n + 1 - 1) / 2 - m) = n - m by omega,
    show ((2 * n + 1 - 1) / 2 - (n - m)) = m by omega,
    show ((2 * n + 1 - 1) / 2 + (n - m)) = 2 * n - m by omega]

/-- `OG(2,7)` and the maximal `OG(3,7)` -/
example :
    (Space.mk .B 1 3).schubClasses 60 =
      some [[], [1], [1, 1], [2], [2, 1], [3], [3, 1], [3, 2], [4], [4, 1], [4, 2], [4, 3]] ∧
    (Space.mk .B 0 3).schubClasses 60 = some [[], [1], [2], [2, 1], [3], [3, 1], [3, 2], [3, 2, 1]] := by
  unfold Space.schubClasses
  exact ⟨map_unique_eval (by decide +kernel), map_unique_eval (by decide +kernel)⟩

example : ∃ X, mkIG 2 6 = .ok X := ⟨_, rfl⟩
example : ∃ X, mkOG 2 7 = .ok X ∧ (2 : Int) ≤ 3 := ⟨_, rfl, by decide⟩

/-! ## C07 classes of `OG(m,2n+2)` -/

/-- C07: exactly the k-strict partitions of the rectangle, those with a part `k` twice: bare and with
one trailing `0`. -/
theorem C07_classes_OGeven (m n : Int) (hmn : m ≤ n + 1) (X : Space) (hX : mkOG m (2 * n + 2) = .ok X) :
    ∃ L, Terminates X.schubClasses L ∧ L.Pairwise (fun a b => listLt a b = true) ∧
      ∀ l, l ∈ L ↔ ∃ mu, ReducedPart mu ∧ KStrict (n + 1 - m) mu ∧ InRect mu m.toNat (2 * n + 1 - m) ∧
        (l = mu ∨ ((n + 1 - m) ∈ mu ∧ l = mu ++ [0])) := by
  unfold mkOG at hX
  split at hX
  · cases hX
  rw [if_neg (by omega)] at hX
  injection hX with hX
  rename_i hneg
  by_cases hn : 0 ≤ n
  · obtain ⟨L, hT, _, hmem⟩ := C04_all_kstrict (n + 1 - m) m (2 * n + 1 - m) (by omega) (by omega) (by omega)
    refine ⟨uniqueSchurList (L.flatMap (fun mu => if (n + 1 - m) ∈ mu then [mu, mu ++ [0]] else [mu])),
      ?_, uniqueSchurList_sorted _, ?_⟩
    · obtain ⟨N, hN⟩ := hT.map (fun l => uniqueSchurList
        (l.flatMap (fun mu => if (n + 1 - m) ∈ mu then [mu, mu ++ [0]] else [mu])))
      refine ⟨N, fun fuel hf => ?_⟩
      rw [← hN fuel hf, ← hX]
      simp only [Space.schubClasses]
      rw [show ((2 * n + 2) / 2 - m) = n + 1 - m by omega,
        show ((2 * n + 2) / 2 - 1 + 1 - (n + 1 - m)) = m by omega,
        show ((2 * n + 2) / 2 - 1 + (n + 1 - m)) = 2 * n + 1 - m by omega]
    · intro l
      rw [mem_uniqueSchurList, List.mem_flatMap]
      constructor
      · rintro ⟨mu, hmu, hl⟩
        rw [hmem] at hmu
        refine ⟨mu, hmu.1, hmu.2.1, hmu.2.2, ?_⟩
        split at hl
        · simp at hl
          rcases hl with rfl | rfl
          · left; rfl
          · right; exact ⟨by assumption, rfl⟩
        · left; simpa using hl
      · rintro ⟨mu, h1, h2, h3, h4⟩
        refine ⟨mu, (hmem mu).2 ⟨h1, h2, h3⟩, ?_⟩
        rcases h4 with rfl | ⟨hk, rfl⟩
        · split <;> simp
        · simp [hk]
  · -- `n = -1`: `OG(0,0)`
    have hn' : n = -1 := by omega
    have hm' : m = 0 := by omega
    subst hn' hm'
    refine ⟨[[]], ⟨1, fun fuel hf => ?_⟩, by simp, ?_⟩
    · obtain ⟨f, rfl⟩ : ∃ f, fuel = f + 1 := ⟨fuel - 1, by omega⟩
      rw [← hX]
      simp [Space.schubClasses, allKstrict, allKstrictLoop, firstKstrict, itrKstrict, uniqueSchurList]
    · intro l
      constructor
      · intro hl
        refine ⟨[], by simp [ReducedPart], by simp [KStrict], by simp [InRect], ?_⟩
        left; simpa using hl
      · rintro ⟨mu, _, _, ⟨h3, _⟩, h4⟩
        have : mu = [] := by simpa using h3
        subst this
        simpa using h4

example : ∃ X, mkOG 2 6 = .ok X ∧ (2 : Int) ≤ 2 + 1 := ⟨_, rfl, by decide⟩

/-- `OG(2,6)`, where `k = 1` and every partition with a part 1 counts twice. -/
example : (Space.mk .D 1 2).schubClasses 60 =
    some [[], [1], [1, 0], [1, 1], [1, 1, 0], [2], [2, 1], [2, 1, 0], [3], [3, 1], [3, 1, 0], [3, 2]] := by
  have h := map_unique_eval
    (o := (allKstrict 60 1 (2 + 1 - 1) (2 + 1)).map (fun l => l.flatMap (fun mu => if 1 ∈ mu then [mu, mu ++ [0]] else [mu])))
    (ys := [[], [1], [1, 0], [1, 1], [1, 1, 0], [2], [2, 1], [2, 1, 0], [3], [3, 1], [3, 1, 0], [3, 2]]) (by decide +kernel)
  rw [Option.map_map] at h
  exact h

/-! ## C31 constructors and `clone` -/

/-- C31: `Grassmannian(m,n)` raises exactly on negative arguments and `m > n`. -/
theorem C31_gr (m n : Int) :
    (¬ (0 ≤ m ∧ m ≤ n) ∧ mkGr m n = .error .valueError) ∨
    (∃ X, mkGr m n = .ok X ∧ 0 ≤ m ∧ m ≤ n ∧ 0 ≤ X.k ∧ X.k ≤ X.n ∧
      X.typeData = (.A, n - m, n, m, n, n)) := by
  unfold mkGr
  by_cases h : m < 0 ∨ n < 0
  · left; rw [if_pos h]; exact ⟨by omega, rfl⟩
  · rw [if_neg h]
    by_cases h2 : m > n
    · left; rw [if_pos h2]; exact ⟨by omega, rfl⟩
    · right; rw [if_neg h2]
      refine ⟨_, rfl, by omega, by omega, ?_, ?_, ?_⟩
      · simp; omega
      · simp; omega
      · simp [Space.typeData, Space.degreeQ]

example : mkGr 2 5 = .ok ⟨.A, 3, 5⟩ ∧ mkGr 3 2 = .error .valueError ∧
    mkGr (-1) 2 = .error .valueError := by decide +kernel

/-- C31: `IsotropicGrassmannian(m,n)` raises exactly on negative arguments, odd `n` and `m > n/2`. -/
theorem C31_ig (m n : Int) :
    (¬ (0 ≤ m ∧ 2 * m ≤ n ∧ n % 2 = 0) ∧ mkIG m n = .error .valueError) ∨
    (∃ X, mkIG m n = .ok X ∧ 0 ≤ m ∧ 2 * m ≤ n ∧ n % 2 = 0 ∧ 0 ≤ X.k ∧ X.k ≤ X.n ∧
      X.typeData = (.C, n / 2 - m, n / 2, m, n, n + 1 - m)) := by
  unfold mkIG
  by_cases h : m < 0 ∨ n < 0
  · left; rw [if_pos h]; exact ⟨by omega, rfl⟩
  · rw [if_neg h]
    by_cases h2 : n % 2 = 1
    · left; rw [if_pos h2]; exact ⟨by omega, rfl⟩
    · rw [if_neg h2]
      by_cases h3 : m > n / 2
      · left; rw [if_pos h3]; exact ⟨by omega, rfl⟩
      · right; rw [if_neg h3]
        refine ⟨_, rfl, by omega, by omega, by omega, ?_, ?_, ?_⟩
        · simp; omega
        · simp; omega
        · simp [Space.typeData, Space.degreeQ]; omega

example : mkIG 2 6 = .ok ⟨.C, 1, 3⟩ ∧ mkIG 2 7 = .error .valueError ∧
    mkIG 4 6 = .error .valueError := by decide +kernel

/-- C31: `OrthogonalGrassmannian(m,n)` raises exactly on negative arguments; for `2m ≤ n` the
invariants hold and the type data report the arguments. -/
theorem C31_og (m n : Int) :
    ((m < 0 ∨ n < 0) ∧ mkOG m n = .error .valueError) ∨
    (∃ X, mkOG m n = .ok X ∧ 0 ≤ m ∧ 0 ≤ n ∧ X.typeData.2.2.2.1 = m ∧ X.typeData.2.2.2.2.1 = n ∧
      (2 * m ≤ n → 0 ≤ X.k ∧ X.k ≤ X.n + 1) ∧ (n % 2 = 1 → X.k ≤ X.n)) := by
  unfold mkOG
  by_cases h : m < 0 ∨ n < 0
  · left; rw [if_pos h]; exact ⟨h, rfl⟩
  · rw [if_neg h]
    right
    by_cases h2 : n % 2 = 1
    · rw [if_pos h2]
      refine ⟨_, rfl, by omega, by omega, ?_, ?_, ?_, ?_⟩ <;> simp [Space.typeData] <;> omega
    · rw [if_neg h2]
      refine ⟨_, rfl, by omega, by omega, ?_, ?_, ?_, ?_⟩ <;> simp [Space.typeData] <;> omega

example : mkOG 2 7 = .ok ⟨.B, 1, 3⟩ ∧
    mkOG 2 8 = .ok ⟨.D, 2, 3⟩ ∧ mkOG (-1) 8 = .error .valueError := by decide +kernel

/-- C31 fails for `OG` as stated (`0 ≤ k` for every accepted argument): `OG(3,5)` is accepted with
`k = -1`. -/
theorem C31_refuted_og_negative_k : mkOG 3 5 = .ok ⟨.B, -1, 2⟩ := by decide

/-- C31, `clone` in type A returns the same space. -/
theorem C31_clone_partial (m n : Int) (X : Space) (hX : mkGr m n = .ok X) : X.clone = .ok X := by
  unfold mkGr at hX
  split at hX
  · cases hX
  split at hX
  · cases hX
  injection hX with hX
  subst hX
  simp only [Space.clone, mkGr]
  rw [if_neg (by omega), if_neg (by omega)]
  congr 2; omega

example : (Space.mk .A 3 5).clone = .ok ⟨.A, 3, 5⟩ := by decide +kernel

/-- C31: `clone` of `IG(2,6)` raises, of `IG(1,8)` gives `IG(1,4)`; of `OG(2,7)` gives `OG(2,3)`. -/
theorem C31_refuted_clone :
    (mkIG 2 6).bind Space.clone = .error .valueError ∧
    (mkIG 1 8).bind Space.clone = mkIG 1 4 ∧
    (mkOG 2 7).bind Space.clone = mkOG 2 3 := by decide

/-- C31: `clone` is wrong for *every* symplectic and orthogonal Grassmannian with `n ≥ 1`. -/
theorem C31_clone_never_BCD (X : Space) (ht : X.type ≠ .A) (hn : 1 ≤ X.n) : X.clone ≠ .ok X := by
  rcases X with ⟨t, k, n⟩
  cases t with
  | A => exact absurd rfl ht
  | C =>
    simp only [Space.clone, mkIG]
    split
    · simp
    split
    · simp
    split
    · simp
    simp at hn ⊢; omega
  | B =>
    simp only [Space.clone, mkOG]
    split
    · simp
    split <;> simp at hn ⊢ <;> omega
  | D =>
    simp only [Space.clone, mkOG]
    split
    · simp
    split <;> simp at hn ⊢ <;> omega

example : (Space.mk .C 1 3).clone = .error .valueError := by decide +kernel

/-! ## C40 `unique_schur_list` -/

/-- C40: strictly increasing with the same members. -/
theorem C40_sorted (xs : List (List Int)) :
    (uniqueSchurList xs).Pairwise (fun a b => listLt a b = true) ∧
      ∀ x, x ∈ uniqueSchurList xs ↔ x ∈ xs :=
  ⟨uniqueSchurList_sorted xs, mem_uniqueSchurList xs⟩

example : uniqueSchurList [[2, 1], [1, 1, 1], [2, 1], [], [2]] = [[], [1, 1, 1], [2], [2, 1]] := unique_eval (by decide)

/-- C40: the result depends only on the set of members (in particular not on Python's set order). -/
theorem C40_depends_on_set (xs ys : List (List Int)) (h : ∀ x, x ∈ xs ↔ x ∈ ys) :
    uniqueSchurList xs = uniqueSchurList ys :=
  sorted_ext (uniqueSchurList_sorted _) (uniqueSchurList_sorted _)
    (fun x => by rw [mem_uniqueSchurList, mem_uniqueSchurList, h])

example : uniqueSchurList [[2], [2, 1], [], [1, 1, 1], []] = [[], [1, 1, 1], [2], [2, 1]] := unique_eval (by decide)

/-- C40: any strictly increasing list with these members is the result. -/
theorem C40_unique (xs ys : List (List Int)) (hs : ys.Pairwise (fun a b => listLt a b = true))
    (h : ∀ x, x ∈ ys ↔ x ∈ xs) : ys = uniqueSchurList xs :=
  sorted_ext hs (uniqueSchurList_sorted _) (fun x => by rw [mem_uniqueSchurList, h])

/-- C40: the order used is a strict total order. -/
theorem C40_order (a b c : List Int) :
    listLt a a = false ∧ (listLt a b = true → listLt b c = true → listLt a c = true) ∧
    (listLt a b = true ∨ a = b ∨ listLt b a = true) :=
  ⟨listLt_irrefl a, listLt_trans, listLt_total a b⟩

example : listLt [2, 1] [2] = false ∧ listLt [2] [2, 1] = true ∧ listLt [1, 3] [2] = true := by decide +kernel

example : ∀ x, x ∈ [[2, 1], [1], [2, 1]] ↔ x ∈ [[1], [2, 1]] := by
  intro x; simp; tauto

end Verif
