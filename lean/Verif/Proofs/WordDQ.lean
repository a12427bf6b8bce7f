import Verif.Proofs.WordD
import Verif.Proofs.WordQB
/-!
# The Pieri operators of type D commute

The Pieri operators of type D, classical and quantum, are combinations of two transfer matrices on words with an inner
letter. The quantum terms of odd degree exchange the two types, that is the inner letters `a` and `b`.
-/

namespace Verif
open Spec

section
variable {R : Type*} [CommRing R]

/-- the part of the first operator that keeps the types, by first letters -/
def kerE (h' : R) (g : St → R) : L3 → L3 → R
  | .o, .o => g .z
  | .o, .a => g .l
  | .o, .b => 0
  | .a, .o => 0
  | .a, .a => g .z
  | .a, .b => h' * g .lr
  | .b, .o => g .r
  | .b, .a => g .lr
  | .b, .b => g .z

/-- the part of the first operator that exchanges the types, by first letters -/
def kerO (h x : R) (g : St → R) : L3 → L3 → R
  | .o, .o => h * (x * g .lr)
  | .o, .b => h * g .l
  | .a, .o => h * g .r
  | _, _ => 0

/-- the part of the second operator that keeps the types, by first letters -/
def kerSE (g : St → R) : L3 → L3 → R
  | .o, .a => g .l
  | .a, .a => g .z
  | .b, .o => g .r
  | .b, .b => g .z
  | _, _ => 0

/-- the part of the second operator that exchanges the types, by first letters -/
def kerSO (h : R) (g : St → R) : L3 → L3 → R
  | .a, .o => h * g .r
  | .o, .b => -(h * g .l)
  | _, _ => 0

/-- the part of the first operator that keeps the types -/
def opGE (h' x : R) (U W : WordD) : R :=
  match U.1, W.1 with
  | p :: u, q :: w => kerE h' (fun s => gD x s (u, U.2) (w, W.2)) p q
  | _, _ => gD x .z U W

/-- the part of the first operator that exchanges the types -/
def opGO (h x : R) (U W : WordD) : R :=
  match U.1, W.1 with
  | p :: u, q :: w => kerO h x (fun s => gD x s (u, U.2) (w, W.2)) p q
  | _, _ => 0

/-- the part of the second operator that keeps the types -/
def opSE (U W : WordD) : R :=
  match U.1, W.1 with
  | p :: u, q :: w => kerSE (fun s => sD s (u, U.2) (w, W.2)) p q
  | _, _ => sD .z U W

/-- the part of the second operator that exchanges the types -/
def opSO (h : R) (U W : WordD) : R :=
  match U.1, W.1 with
  | p :: u, q :: w => kerSO h (fun s => sD s (u, U.2) (w, W.2)) p q
  | _, _ => 0

/-- the first operator -/
def opG (h h' x : R) (U W : WordD) : R := opGE h' x U W + opGO h x U (swD W)

/-- the second operator -/
def opS (h : R) (U W : WordD) : R := opSE U W + opSO h U (swD W)

theorem opGE_sw (h' x : R) (U W : WordD) : opGE h' x (swD U) (swD W) = 1 * opGE h' x U W := by
  rcases U with ⟨_ | ⟨p, u⟩, i⟩ <;> rcases W with ⟨_ | ⟨q, w⟩, j⟩ <;>
    simp only [opGE, one_mul, ← gD_sw x _ _ (_, j)] <;> rfl

theorem opGO_sw (h x : R) (U W : WordD) : opGO h x (swD U) (swD W) = 1 * opGO h x U W := by
  rcases U with ⟨_ | ⟨p, u⟩, i⟩ <;> rcases W with ⟨_ | ⟨q, w⟩, j⟩ <;> simp only [opGO, one_mul] <;> try rfl
  have : (fun s => gD x s (u, i) (w, j)) = fun s => gD x s (swD (u, i)) (swD (w, j)) := by
    funext s; rw [gD_sw]
  rw [this]; rfl

theorem opSE_sw (U W : WordD) : (opSE (swD U) (swD W) : R) = -1 * opSE U W := by
  rcases U with ⟨_ | ⟨p, u⟩, i⟩ <;> rcases W with ⟨_ | ⟨q, w⟩, j⟩ <;> simp only [opSE] <;> try (rw [neg_one_mul, ← sD_sw]; rfl)
  have : (fun s => (sD s (u, i.sw) (w, j.sw) : R)) = fun s => -sD s (u, i) (w, j) := by
    funext s; rw [← sD_sw]; rfl
  simp only [swD, this]
  cases p <;> cases q <;> simp [kerSE]

theorem opSO_sw (h : R) (U W : WordD) : opSO h (swD U) (swD W) = -1 * opSO h U W := by
  rcases U with ⟨_ | ⟨p, u⟩, i⟩ <;> rcases W with ⟨_ | ⟨q, w⟩, j⟩ <;> simp only [opSO] <;> try (simp [swD]; done)
  have : (fun s => (sD s (u, i.sw) (w, j.sw) : R)) = fun s => -sD s (u, i) (w, j) := by
    funext s; rw [← sD_sw]; rfl
  simp only [swD, this]
  cases p <;> cases q <;> simp [kerSO]

/-- the composition of two operators with a part that exchanges the types -/
theorem twist_sum (n : Nat) (E O E' O' : WordD → WordD → R) (e : R) (hE : ∀ U W, E' (swD U) (swD W) = e * E' U W)
    (hO : ∀ U W, O' (swD U) (swD W) = e * O' U W) (U V : WordD) :
    sumD n (fun W => (E U W + O U (swD W)) * (E' W V + O' W (swD V))) =
      sumD n (fun W => E U W * E' W V + e * (O U W * O' W V)) +
        sumD n (fun W => E U W * O' W (swD V) + e * (O U W * E' W (swD V))) := by
  have h1 : sumD n (fun W => (E U W + O U (swD W)) * (E' W V + O' W (swD V))) =
      sumD n (fun W => E U W * E' W V + E U W * O' W (swD V)) +
        sumD n (fun W => O U (swD W) * (E' W V + O' W (swD V))) := by
    rw [← sumD_add]; exact sumD_congr (fun W _ => by ring)
  have h2 : sumD n (fun W => O U (swD W) * (E' W V + O' W (swD V))) =
      sumD n (fun W => O U W * (E' (swD W) V + O' (swD W) (swD V))) := by
    rw [← sumD_sw]; simp only [swD_swD]
  rw [h1, h2, ← sumD_add, ← sumD_add]
  refine sumD_congr (fun W _ => ?_)
  rw [hO, show E' (swD W) V = e * E' W (swD V) by rw [← hE, swD_swD]]
  ring

theorem ker_comp (h h' x y : R) (p q : L3) (U V : WordD) :
    sumD (U.1.length + 1) (fun W => (opGE h' x (p :: U.1, U.2) W + opGO h x (p :: U.1, U.2) W) *
      (opGE h' y W (q :: V.1, V.2) + opGO h y W (q :: V.1, V.2))) = compQ h h' x y (fGG x y U V) p q := by
  rw [sumD_succ]
  cases p <;> cases q <;> simp only [opGE, opGO, kerE, kerO, compQ, fGG, ← sumD_mul, ← sumD_add] <;>
    exact sumD_congr (fun w _ => by ring)

/-- both parts of a product, from the products for `h` and for `-h` -/
theorem half_parts [IsDomain R] (h2 : (2 : R) ≠ 0) {n : Nat} {a b c d a' b' c' d' : WordD → R}
    (hp : sumD n (fun W => (a W + b W) * (c W + d W)) = sumD n (fun W => (a' W + b' W) * (c' W + d' W)))
    (hm : sumD n (fun W => (a W - b W) * (c W - d W)) = sumD n (fun W => (a' W - b' W) * (c' W - d' W))) :
    sumD n (fun W => a W * c W + 1 * (b W * d W)) = sumD n (fun W => a' W * c' W + 1 * (b' W * d' W)) ∧
      sumD n (fun W => a W * d W + 1 * (b W * c W)) = sumD n (fun W => a' W * d' W + 1 * (b' W * c' W)) := by
  constructor
  · apply mul_left_cancel₀ h2
    have e : ∀ a b c d : WordD → R, 2 * sumD n (fun W => a W * c W + 1 * (b W * d W)) =
        sumD n (fun W => (a W + b W) * (c W + d W)) + sumD n (fun W => (a W - b W) * (c W - d W)) := by
      intro a b c d
      rw [← sumD_mul, ← sumD_add]; exact sumD_congr (fun W _ => by ring)
    rw [e, e, hp, hm]
  · apply mul_left_cancel₀ h2
    have e : ∀ a b c d : WordD → R, 2 * sumD n (fun W => a W * d W + 1 * (b W * c W)) =
        sumD n (fun W => (a W + b W) * (c W + d W)) + -1 * sumD n (fun W => (a W - b W) * (c W - d W)) := by
      intro a b c d
      rw [← sumD_mul, ← sumD_mul, ← sumD_add]; exact sumD_congr (fun W _ => by ring)
    rw [e, e, hp, hm]

theorem opGO_neg (h x : R) (U W : WordD) : opGO (-h) x U W = -opGO h x U W := by
  rcases U with ⟨_ | ⟨p, u⟩, i⟩ <;> rcases W with ⟨_ | ⟨q, w⟩, j⟩ <;> simp only [opGO, neg_zero]
  cases p <;> cases q <;> simp [kerO]

theorem opSO_neg (h : R) (U W : WordD) : opSO (-h) U W = -opSO h U W := by
  rcases U with ⟨_ | ⟨p, u⟩, i⟩ <;> rcases W with ⟨_ | ⟨q, w⟩, j⟩ <;> simp only [opSO, neg_zero]
  cases p <;> cases q <;> simp [kerSO]

theorem opG_nil (h h' x : R) (i : L3) (w : List L3) (j : L3) : opG h h' x ([], i) (w, j) = gD x .z ([], i) (w, j) := by
  simp [opG, opGE, opGO]

theorem gD_z_nil (x : R) (i j : L3) : gD x .z ([], i) ([], j) = if i = j then 1 else 0 := by
  cases i <;> cases j <;> rfl

/-- **Commutation of the first operators.** -/
theorem opG_comm [IsDomain R] (h2 : (2 : R) ≠ 0) {h h' x y : R} (hx : x ≠ 0) (hy : y ≠ 0) (hxy : x + y ≠ 0) {U V : WordD}
    (hl : U.1.length = V.1.length) (hh : h' = h ^ 2 ∨ (colsW 0 U.1 = 0 ∧ colsW 0 V.1 = 0)) :
    sumD U.1.length (fun W => opG h h' x U W * opG h h' y W V) = sumD U.1.length (fun W => opG h h' y U W * opG h h' x W V) := by
  unfold opG
  rw [twist_sum _ _ _ _ _ 1 (opGE_sw h' y) (opGO_sw h y), twist_sum _ _ _ _ _ 1 (opGE_sw h' x) (opGO_sw h x)]
  have key : ∀ V : WordD, U.1.length = V.1.length → (h' = h ^ 2 ∨ (colsW 0 U.1 = 0 ∧ colsW 0 V.1 = 0)) →
      ∀ g : R, g ^ 2 = h ^ 2 → sumD U.1.length (fun W => (opGE h' x U W + opGO g x U W) * (opGE h' y W V + opGO g y W V)) =
        sumD U.1.length (fun W => (opGE h' y U W + opGO g y U W) * (opGE h' x W V + opGO g x W V)) := by
    intro V hl hh g hg
    rcases U with ⟨_ | ⟨p, u⟩, i⟩
    · rcases V with ⟨_ | ⟨q, v⟩, j⟩
      · simp [sumD, sumW, opGE, opGO, gD_z_nil]
      · simp at hl
    · rcases V with ⟨_ | ⟨q, v⟩, j⟩
      · simp at hl
      · have e := ker_comp g h' x y p q (u, i) (v, j)
        have e' := ker_comp g h' y x p q (u, i) (v, j)
        simp only [List.length_cons] at e e' ⊢
        rw [e, e']
        apply compQ_comm hx hy hxy (fGG_inter x y (by simpa using hl))
        rcases hh with hh | ⟨h1, h2⟩
        · exact Or.inl (hh.trans hg.symm)
        · refine Or.inr ⟨?_, ?_⟩
          · rintro rfl; simp [colsW] at h1
          · rintro rfl; simp [colsW] at h2
  have par : ∀ V : WordD, U.1.length = V.1.length → (h' = h ^ 2 ∨ (colsW 0 U.1 = 0 ∧ colsW 0 V.1 = 0)) → _ := fun V hl hh =>
    half_parts h2 (key V hl hh h rfl) (by
      have := key V hl hh (-h) (by ring)
      simp only [opGO_neg, ← sub_eq_add_neg] at this
      exact this)
  rw [(par V hl hh).1, (par (swD V) hl hh).2]

/-! ### The second operator -/

/-- the second operator, then the first -/
def compSGk (h h' y : R) (f : St → St → R) : L3 → L3 → R
  | .o, .o => h * f .l .r + -h * f .l .r
  | .o, .a => f .l .z + -h * f .l .lr
  | .o, .b => h' * f .l .lr + -h * f .l .z
  | .a, .o => h * f .z .r + h * (f .r .z + h * (y * f .r .lr))
  | .a, .a => f .z .z + h * f .r .l
  | .a, .b => h' * f .z .lr + h ^ 2 * f .r .l
  | .b, .o => f .r .z + h * (y * f .r .lr) + f .z .r
  | .b, .a => f .r .l + f .z .lr
  | .b, .b => h * f .r .l + f .z .z

/-- the first operator, then the second -/
def compGSk (h h' y : R) (g : St → St → R) : L3 → L3 → R
  | .o, .o => h * g .l .r + -h * g .l .r
  | .o, .a => g .z .l + -h * (y * g .lr .l) + g .l .z
  | .o, .b => -h * g .l .z + -h * (g .z .l + -h * (y * g .lr .l))
  | .a, .o => h' * g .lr .r + h * g .z .r
  | .a, .a => g .z .z + -h * g .r .l
  | .a, .b => h' * g .lr .z + h ^ 2 * g .r .l
  | .b, .o => g .z .r + h * g .lr .r
  | .b, .a => g .r .l + g .lr .z
  | .b, .b => g .z .z + -h * g .r .l

theorem ker_compSG (h h' y : R) (p q : L3) (U V : WordD) :
    sumD (U.1.length + 1) (fun W => (opSE (p :: U.1, U.2) W + opSO h (p :: U.1, U.2) W) *
      (opGE h' y W (q :: V.1, V.2) + opGO h y W (q :: V.1, V.2))) = compSGk h h' y (fSG y U V) p q := by
  rw [sumD_succ]
  cases p <;> cases q <;> simp only [opGE, opGO, opSE, opSO, kerE, kerO, kerSE, kerSO, compSGk, fSG, ← sumD_mul, ← sumD_add] <;>
    exact sumD_congr (fun w _ => by ring)

theorem ker_compGS (h h' y : R) (p q : L3) (U V : WordD) :
    sumD (U.1.length + 1) (fun W => (opGE h' y (p :: U.1, U.2) W + opGO (-h) y (p :: U.1, U.2) W) *
      (opSE W (q :: V.1, V.2) + opSO h W (q :: V.1, V.2))) = compGSk h h' y (fGS y U V) p q := by
  rw [sumD_succ]
  cases p <;> cases q <;> simp only [opGE, opGO, opSE, opSO, kerE, kerO, kerSE, kerSO, compGSk, fGS, ← sumD_mul, ← sumD_add] <;>
    exact sumD_congr (fun w _ => by ring)

theorem compS_comm [IsDomain R] {h y : R} (hy : y ≠ 0) {f g : St → St → R}
    (H : ∀ s t, y * g s t = interS y f s t) (p q : L3) :
    compSGk h (h ^ 2) y f p q = compGSk h (h ^ 2) y g p q := by
  apply mul_left_cancel₀ hy
  have z_z := H .z .z
  have z_l := H .z .l
  have z_r := H .z .r
  have lr_z := H .lr .z
  have lr_l := H .lr .l
  have lr_r := H .lr .r
  have l_z := H .l .z
  have l_r := H .l .r
  have r_z := H .r .z
  have r_l := H .r .l
  simp only [interS] at z_z z_l z_r lr_z lr_l lr_r l_z l_r r_z r_l
  cases p <;> cases q <;> simp only [compSGk, compGSk]
  · ring
  · linear_combination -z_l + h * y * lr_l - l_z
  · linear_combination h * l_z + h * z_l - h ^ 2 * y * lr_l
  · linear_combination - h ^ 2 * lr_r - h * z_r
  · linear_combination -z_z + h * r_l
  · linear_combination -h ^ 2 * lr_z - h ^ 2 * r_l
  · linear_combination -z_r - h * lr_r
  · linear_combination -r_l - lr_z
  · linear_combination -z_z + h * r_l

/-- **Commutation of the two operators.** -/
theorem opS_comm [IsDomain R] (h2 : (2 : R) ≠ 0) {h y : R} (hy : y ≠ 0) {U V : WordD} (hl : U.1.length = V.1.length) :
    sumD U.1.length (fun W => opS h U W * opG h (h ^ 2) y W V) = sumD U.1.length (fun W => opG h (h ^ 2) y U W * opS h W V) := by
  unfold opG opS
  rw [twist_sum _ _ _ _ _ 1 (opGE_sw (h ^ 2) y) (opGO_sw h y), twist_sum _ _ _ _ _ (-1) opSE_sw (opSO_sw h)]
  have key : ∀ V : WordD, U.1.length = V.1.length →
      ∀ g : R, g ^ 2 = h ^ 2 → sumD U.1.length (fun W => (opSE U W + opSO g U W) * (opGE (h ^ 2) y W V + opGO g y W V)) =
        sumD U.1.length (fun W => (opGE (h ^ 2) y U W + opGO (-g) y U W) * (opSE W V + opSO g W V)) := by
    intro V hl g hg
    rcases U with ⟨_ | ⟨p, u⟩, i⟩
    · rcases V with ⟨_ | ⟨q, v⟩, j⟩
      · cases i <;> cases j <;> simp [sumD, sumW, opGE, opGO, opSE, opSO, gD_z_nil, sD, wtS, endSg]
      · simp at hl
    · rcases V with ⟨_ | ⟨q, v⟩, j⟩
      · simp at hl
      · have e := ker_compSG g (h ^ 2) y p q (u, i) (v, j)
        have e' := ker_compGS g (h ^ 2) y p q (u, i) (v, j)
        simp only [List.length_cons] at e e' ⊢
        rw [e, e', ← hg]
        exact compS_comm hy (fS_inter y (by simpa using hl)) p q
  have par : ∀ V : WordD, U.1.length = V.1.length → _ := fun V hl =>
    half_parts h2 (key V hl h rfl) (by
      have := key V hl (-h) (by ring)
      simp only [opGO_neg, opSO_neg, ← sub_eq_add_neg, neg_neg] at this ⊢
      simp only [sub_neg_eq_add]
      exact this)
  rw [(par V hl).1, (par (swD V) hl).2]
  congr 1 <;> exact sumD_congr (fun W _ => by rw [opGO_neg]; ring)

end

end Verif
