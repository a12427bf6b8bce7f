import Verif.Proofs.WordQB
/-!
# Transfer matrices for the Pieri operators of type D

A class of `OG(n+1-k, 2n+2)` is a word of `n` letters and an inner letter, for the two middle coordinates: `o` for the
classes without a part `k`, and `a`, `b` for the two types of the classes with a part `k`. The sums of the Pieri operators
over the two special classes of degree `k` are given by the transfer matrix of types B and C with other weights at the end of
the words; the difference of these two operators is given by a second transfer matrix, with signs.
-/

namespace Verif
open Spec

section
variable {R : Type*} [CommRing R]

/-- the weight of a pair of words, with any weights at the end -/
def wtE (e : St → R) (x : R) : St → List L3 → List L3 → R
  | s, [], [] => e s
  | s, p :: u, q :: w =>
    match step s p q with
    | some (t, i, j) => 2 ^ i * x ^ j * wtE e x t u w
    | none => 0
  | _, _, _ => 0

/-- the contribution of one letter of the middle word -/
def viaE (x y : R) (s t : St) (p m q : L3) (f : St → St → R) : R :=
  match step s p m, step t m q with
  | some (s', i, j), some (t', i', j') => 2 ^ i * x ^ j * (2 ^ i' * y ^ j') * f s' t'
  | _, _ => 0

/-- the composition of two transfer matrices, with any weights at the end -/
def compE (x y : R) (B : St → St → R) : List L3 → List L3 → St → St → R
  | [], [], s, t => B s t
  | p :: u, q :: v, s, t => viaE x y s t p .o q (compE x y B u v) + viaE x y s t p .a q (compE x y B u v) +
      viaE x y s t p .b q (compE x y B u v)
  | _, _, _, _ => 0

theorem viaE_add (x y : R) (s t : St) (p m q : L3) (f g : St → St → R) :
    viaE x y s t p m q (fun s t => f s t + g s t) = viaE x y s t p m q f + viaE x y s t p m q g := by
  unfold viaE
  rcases step s p m with _ | ⟨s', i, j⟩
  · simp
  · rcases step t m q with _ | ⟨t', i', j'⟩
    · simp
    · simp only; ring

theorem compE_add (x y : R) (B B' : St → St → R) : ∀ (u v : List L3) (s t : St),
    compE x y (fun s t => B s t + B' s t) u v s t = compE x y B u v s t + compE x y B' u v s t := by
  intro u
  induction u with
  | nil => intro v s t; cases v <;> simp [compE]
  | cons p u ih =>
    intro v s t
    cases v with
    | nil => simp [compE]
    | cons q v =>
      have : compE x y (fun s t => B s t + B' s t) u v = fun s t => compE x y B u v s t + compE x y B' u v s t := by
        funext s t; exact ih v s t
      simp only [compE, this, viaE_add]
      ring

theorem compE_eq (e f : St → R) (x y : R) : ∀ (u v : List L3), u.length = v.length → ∀ (s t : St),
    sumW u.length (fun w => wtE e x s u w * wtE f y t w v) = compE x y (fun s t => e s * f t) u v s t := by
  intro u
  induction u with
  | nil =>
    intro v hv s t
    obtain rfl : v = [] := List.length_eq_zero_iff.1 (by simpa using hv.symm)
    rfl
  | cons p u ih =>
    intro v hv s t
    cases v with
    | nil => simp at hv
    | cons q v =>
      have hv : u.length = v.length := by simpa using hv
      have key : ∀ m, sumW u.length (fun w => wtE e x s (p :: u) (m :: w) * wtE f y t (m :: w) (q :: v)) =
          viaE x y s t p m q (compE x y (fun s t => e s * f t) u v) := by
        intro m
        unfold viaE
        simp only [wtE]
        rcases step s p m with _ | ⟨s', i, j⟩
        · simp only [zero_mul]; exact sumW_zero _
        · rcases step t m q with _ | ⟨t', i', j'⟩
          · simp only [mul_zero]; exact sumW_zero _
          · simp only
            rw [← ih v hv, ← sumW_mul]
            exact sumW_congr (fun w _ => by ring)
      rw [List.length_cons]
      unfold sumW
      rw [key, key, key]
      rfl

theorem viaE_inter {x y : R} {f g : St → St → R}
    (ih : ∀ s t, (x + y) * x * y * g s t = inter x y f s t) (s t : St) (p m q : L3) :
    (x + y) * x * y * viaE y x s t p m q g = viaE y x s t p m q (inter x y f) := by
  unfold viaE
  rcases step s p m with _ | ⟨s', i, j⟩
  · simp
  · rcases step t m q with _ | ⟨t', i', j'⟩
    · simp
    · simp only
      rw [← ih]; ring

/-- the intertwiner relation is passed on from the weights at the end -/
theorem compE_inter {x y : R} {B B' : St → St → R} (hB : ∀ s t, (x + y) * x * y * B' s t = inter x y B s t) :
    ∀ (u v : List L3), u.length = v.length → ∀ s t,
      (x + y) * x * y * compE y x B' u v s t = inter x y (compE x y B u v) s t := by
  intro u
  induction u with
  | nil =>
    intro v hv s t
    obtain rfl : v = [] := List.length_eq_zero_iff.1 (by simpa using hv.symm)
    exact hB s t
  | cons p u ih =>
    intro v hv s t
    cases v with
    | nil => simp at hv
    | cons q v =>
      have ih := ih v (by simpa using hv)
      simp only [compE]
      rw [mul_add, mul_add, viaE_inter ih, viaE_inter ih, viaE_inter ih]
      generalize hF : compE x y B u v = F
      cases p <;> cases q <;> cases s <;> cases t <;>
        simp only [inter, viaE, compE, step, hF] <;> ring

/-! ### The second transfer matrix -/

/-- the next state and the sign -/
def stepSg : St → L3 → L3 → Option (St × Int)
  | .z, .o, .a => some (.l, 1)
  | .z, .a, .a => some (.z, 1)
  | .z, .b, .o => some (.r, 1)
  | .z, .b, .b => some (.z, 1)
  | .l, .o, .o => some (.l, -1)
  | .l, .a, .o => some (.z, -1)
  | .l, .b, .b => some (.l, 1)
  | .r, .o, .o => some (.r, 1)
  | .r, .o, .b => some (.z, 1)
  | .r, .a, .a => some (.r, 1)
  | _, _, _ => none

/-- the signed weight of a pair of words -/
def wtS (e : St → R) : St → List L3 → List L3 → R
  | s, [], [] => e s
  | s, p :: u, q :: w =>
    match stepSg s p q with
    | some (t, i) => i * wtS e t u w
    | none => 0
  | _, _, _ => 0

/-- the signed matrix first -/
def viaSG (y : R) (s t : St) (p m q : L3) (f : St → St → R) : R :=
  match stepSg s p m, step t m q with
  | some (s', i), some (t', i', j') => i * (2 ^ i' * y ^ j') * f s' t'
  | _, _ => 0

/-- the signed matrix second -/
def viaGS (y : R) (s t : St) (p m q : L3) (f : St → St → R) : R :=
  match step s p m, stepSg t m q with
  | some (s', i, j), some (t', i') => 2 ^ i * y ^ j * i' * f s' t'
  | _, _ => 0

def compSG (y : R) (B : St → St → R) : List L3 → List L3 → St → St → R
  | [], [], s, t => B s t
  | p :: u, q :: v, s, t => viaSG y s t p .o q (compSG y B u v) + viaSG y s t p .a q (compSG y B u v) +
      viaSG y s t p .b q (compSG y B u v)
  | _, _, _, _ => 0

def compGS (y : R) (B : St → St → R) : List L3 → List L3 → St → St → R
  | [], [], s, t => B s t
  | p :: u, q :: v, s, t => viaGS y s t p .o q (compGS y B u v) + viaGS y s t p .a q (compGS y B u v) +
      viaGS y s t p .b q (compGS y B u v)
  | _, _, _, _ => 0

theorem viaSG_add (y : R) (s t : St) (p m q : L3) (f g : St → St → R) :
    viaSG y s t p m q (fun s t => f s t + g s t) = viaSG y s t p m q f + viaSG y s t p m q g := by
  unfold viaSG
  rcases stepSg s p m with _ | ⟨s', i⟩
  · simp
  · rcases step t m q with _ | ⟨t', i', j'⟩
    · simp
    · simp only; ring

theorem viaGS_add (y : R) (s t : St) (p m q : L3) (f g : St → St → R) :
    viaGS y s t p m q (fun s t => f s t + g s t) = viaGS y s t p m q f + viaGS y s t p m q g := by
  unfold viaGS
  rcases step s p m with _ | ⟨s', i, j⟩
  · simp
  · rcases stepSg t m q with _ | ⟨t', i'⟩
    · simp
    · simp only; ring

theorem compSG_add (y : R) (B B' : St → St → R) : ∀ (u v : List L3) (s t : St),
    compSG y (fun s t => B s t + B' s t) u v s t = compSG y B u v s t + compSG y B' u v s t := by
  intro u
  induction u with
  | nil => intro v s t; cases v <;> simp [compSG]
  | cons p u ih =>
    intro v s t
    cases v with
    | nil => simp [compSG]
    | cons q v =>
      have : compSG y (fun s t => B s t + B' s t) u v = fun s t => compSG y B u v s t + compSG y B' u v s t := by
        funext s t; exact ih v s t
      simp only [compSG, this, viaSG_add]
      ring

theorem compGS_add (y : R) (B B' : St → St → R) : ∀ (u v : List L3) (s t : St),
    compGS y (fun s t => B s t + B' s t) u v s t = compGS y B u v s t + compGS y B' u v s t := by
  intro u
  induction u with
  | nil => intro v s t; cases v <;> simp [compGS]
  | cons p u ih =>
    intro v s t
    cases v with
    | nil => simp [compGS]
    | cons q v =>
      have : compGS y (fun s t => B s t + B' s t) u v = fun s t => compGS y B u v s t + compGS y B' u v s t := by
        funext s t; exact ih v s t
      simp only [compGS, this, viaGS_add]
      ring

theorem compSG_eq (e f : St → R) (y : R) : ∀ (u v : List L3), u.length = v.length → ∀ (s t : St),
    sumW u.length (fun w => wtS e s u w * wtE f y t w v) = compSG y (fun s t => e s * f t) u v s t := by
  intro u
  induction u with
  | nil =>
    intro v hv s t
    obtain rfl : v = [] := List.length_eq_zero_iff.1 (by simpa using hv.symm)
    rfl
  | cons p u ih =>
    intro v hv s t
    cases v with
    | nil => simp at hv
    | cons q v =>
      have hv : u.length = v.length := by simpa using hv
      have key : ∀ m, sumW u.length (fun w => wtS e s (p :: u) (m :: w) * wtE f y t (m :: w) (q :: v)) =
          viaSG y s t p m q (compSG y (fun s t => e s * f t) u v) := by
        intro m
        unfold viaSG
        simp only [wtE, wtS]
        rcases stepSg s p m with _ | ⟨s', i⟩
        · simp only [zero_mul]; exact sumW_zero _
        · rcases step t m q with _ | ⟨t', i', j'⟩
          · simp only [mul_zero]; exact sumW_zero _
          · simp only
            rw [← ih v hv, ← sumW_mul]
            exact sumW_congr (fun w _ => by ring)
      rw [List.length_cons]
      unfold sumW
      rw [key, key, key]
      rfl

theorem compGS_eq (e f : St → R) (y : R) : ∀ (u v : List L3), u.length = v.length → ∀ (s t : St),
    sumW u.length (fun w => wtE e y s u w * wtS f t w v) = compGS y (fun s t => e s * f t) u v s t := by
  intro u
  induction u with
  | nil =>
    intro v hv s t
    obtain rfl : v = [] := List.length_eq_zero_iff.1 (by simpa using hv.symm)
    rfl
  | cons p u ih =>
    intro v hv s t
    cases v with
    | nil => simp at hv
    | cons q v =>
      have hv : u.length = v.length := by simpa using hv
      have key : ∀ m, sumW u.length (fun w => wtE e y s (p :: u) (m :: w) * wtS f t (m :: w) (q :: v)) =
          viaGS y s t p m q (compGS y (fun s t => e s * f t) u v) := by
        intro m
        unfold viaGS
        simp only [wtE, wtS]
        rcases step s p m with _ | ⟨s', i, j⟩
        · simp only [zero_mul]; exact sumW_zero _
        · rcases stepSg t m q with _ | ⟨t', i'⟩
          · simp only [mul_zero]; exact sumW_zero _
          · simp only
            rw [← ih v hv, ← sumW_mul]
            exact sumW_congr (fun w _ => by ring)
      rw [List.length_cons]
      unfold sumW
      rw [key, key, key]
      rfl

/-- The matrix that intertwines the two compositions, times `y`. -/
def interS (y : R) (f : St → St → R) : St → St → R
  | .z, .z => y * f .z .z
  | .z, .l => -f .z .l
  | .z, .r => y * (f .z .r + f .r .z)
  | .lr, .z => y * (f .z .lr + 2 * f .r .l)
  | .lr, .l => f .l .lr
  | .lr, .r => y * (y * f .r .lr)
  | .l, .z => f .z .l + y * f .l .z
  | .l, .l => -f .l .l
  | .l, .r => y * (f .z .lr + f .l .r + f .r .l)
  | .r, .z => y * (y * f .r .z)
  | .r, .l => -(y * f .r .l)
  | .r, .r => y * (y * f .r .r)
  | _, .lr => 0

theorem viaGS_inter {y : R} {f g : St → St → R}
    (ih : ∀ s t, y * g s t = interS y f s t) (s t : St) (p m q : L3) :
    y * viaGS y s t p m q g = viaGS y s t p m q (interS y f) := by
  unfold viaGS
  rcases step s p m with _ | ⟨s', i, j⟩
  · simp
  · rcases stepSg t m q with _ | ⟨t', i'⟩
    · simp
    · simp only
      rw [← ih]; ring

theorem compS_inter {y : R} {B B' : St → St → R} (hB : ∀ s t, y * B' s t = interS y B s t) :
    ∀ (u v : List L3), u.length = v.length → ∀ s t,
      y * compGS y B' u v s t = interS y (compSG y B u v) s t := by
  intro u
  induction u with
  | nil =>
    intro v hv s t
    obtain rfl : v = [] := List.length_eq_zero_iff.1 (by simpa using hv.symm)
    exact hB s t
  | cons p u ih =>
    intro v hv s t
    cases v with
    | nil => simp at hv
    | cons q v =>
      have ih := ih v (by simpa using hv)
      simp only [compGS]
      rw [mul_add, mul_add, viaGS_inter ih, viaGS_inter ih, viaGS_inter ih]
      generalize hF : compSG y B u v = F
      cases p <;> cases q <;> cases s <;> cases t <;>
        simp only [interS, viaSG, viaGS, compSG, step, stepSg, hF] <;> push_cast <;> ring

/-! ### Words with an inner letter -/

/-- exchange the two types -/
def L3.sw : L3 → L3
  | .o => .o
  | .a => .b
  | .b => .a

theorem L3.sw_sw (i : L3) : i.sw.sw = i := by cases i <;> rfl

/-- a word and the inner letter -/
abbrev WordD := List L3 × L3

/-- exchange the two types -/
def swD (W : WordD) : WordD := (W.1, W.2.sw)

theorem swD_swD (W : WordD) : swD (swD W) = W := by unfold swD; simp [L3.sw_sw]

/-- the weight of the inner letters -/
def endG (x : R) : St → L3 → L3 → R
  | .z, .o, .o => 1
  | .z, .a, .a => 1
  | .z, .b, .b => 1
  | .lr, .o, .o => 2 * x ^ 2
  | .lr, .a, .a => 2 * x
  | .lr, .b, .b => 2 * x
  | .l, .a, .o => x
  | .l, .b, .o => x
  | .r, .o, .a => x
  | .r, .o, .b => x
  | _, _, _ => 0

/-- the signed weight of the inner letters -/
def endSg : St → L3 → L3 → R
  | .z, .a, .a => 1
  | .z, .b, .b => -1
  | .l, .a, .o => -1
  | .l, .b, .o => 1
  | .r, .o, .a => 1
  | .r, .o, .b => -1
  | _, _, _ => 0

/-- the first transfer matrix of type D -/
def gD (x : R) (s : St) (U W : WordD) : R := wtE (fun t => endG x t U.2 W.2) x s U.1 W.1

/-- the second transfer matrix of type D -/
def sD (s : St) (U W : WordD) : R := wtS (fun t => endSg t U.2 W.2) s U.1 W.1

theorem gD_sw (x : R) (s : St) (U W : WordD) : gD x s (swD U) (swD W) = gD x s U W := by
  unfold gD swD
  have : (fun t => endG x t U.2.sw W.2.sw) = fun t => endG x t U.2 W.2 := by
    funext t
    cases t <;> cases U.2 <;> cases W.2 <;> rfl
  simp only [this]

theorem wtS_neg (e : St → R) (s : St) (u w : List L3) : wtS (fun t => -e t) s u w = -wtS e s u w := by
  induction u generalizing s w with
  | nil => cases w <;> simp [wtS]
  | cons p u ih =>
    cases w with
    | nil => simp [wtS]
    | cons q w =>
      simp only [wtS]
      rcases stepSg s p q with _ | ⟨t, i⟩
      · simp
      · simp [ih]

theorem sD_sw (s : St) (U W : WordD) : (sD s (swD U) (swD W) : R) = -sD s U W := by
  unfold sD swD
  have : (fun t => endSg t U.2.sw W.2.sw) = fun t => -(endSg t U.2 W.2 : R) := by
    funext t
    cases t <;> cases U.2 <;> cases W.2 <;> simp [endSg, L3.sw]
  simp only [this, wtS_neg]

/-- the sum over all words with `n` letters and an inner letter -/
def sumD (n : Nat) (f : WordD → R) : R :=
  sumW n (fun w => f (w, .o)) + sumW n (fun w => f (w, .a)) + sumW n (fun w => f (w, .b))

theorem sumD_congr {n : Nat} {f g : WordD → R} (h : ∀ W : WordD, W.1.length = n → f W = g W) : sumD n f = sumD n g := by
  unfold sumD
  rw [sumW_congr (fun w hw => h (w, .o) hw), sumW_congr (fun w hw => h (w, .a) hw), sumW_congr (fun w hw => h (w, .b) hw)]

theorem sumD_add (n : Nat) (f g : WordD → R) : sumD n (fun w => f w + g w) = sumD n f + sumD n g := by
  unfold sumD
  rw [sumW_add, sumW_add, sumW_add]; ring

theorem sumD_mul (n : Nat) (k : R) (f : WordD → R) : sumD n (fun w => k * f w) = k * sumD n f := by
  unfold sumD
  rw [sumW_mul, sumW_mul, sumW_mul]; ring

theorem sumD_sw (n : Nat) (f : WordD → R) : sumD n (fun W => f (swD W)) = sumD n f := by
  unfold sumD swD
  simp only [L3.sw]
  ring

theorem sumD_succ (n : Nat) (f : WordD → R) : sumD (n + 1) f = sumD n (fun W => f (.o :: W.1, W.2)) +
    sumD n (fun W => f (.a :: W.1, W.2)) + sumD n (fun W => f (.b :: W.1, W.2)) := by
  simp only [sumD, sumW]
  ring

/-- the composition of the first matrix with itself -/
def fGG (x y : R) (U V : WordD) (s t : St) : R := sumD U.1.length (fun W => gD x s U W * gD y t W V)

/-- the second matrix, then the first -/
def fSG (y : R) (U V : WordD) (s t : St) : R := sumD U.1.length (fun W => sD s U W * gD y t W V)

/-- the first matrix, then the second -/
def fGS (y : R) (U V : WordD) (s t : St) : R := sumD U.1.length (fun W => gD y s U W * sD t W V)

theorem fGG_inter (x y : R) {U V : WordD} (hl : U.1.length = V.1.length) (s t : St) :
    (x + y) * x * y * fGG y x U V s t = inter x y (fGG x y U V) s t := by
  have e : ∀ x y : R, fGG x y U V = compE x y (fun s t => endG x s U.2 .o * endG y t .o V.2 + endG x s U.2 .a * endG y t .a V.2 +
      endG x s U.2 .b * endG y t .b V.2) U.1 V.1 := by
    intro x y
    funext s t
    rw [compE_add, compE_add]
    unfold fGG sumD gD
    simp only
    rw [compE_eq _ _ _ _ _ _ hl, compE_eq _ _ _ _ _ _ hl, compE_eq _ _ _ _ _ _ hl]
  rw [e, e]
  apply compE_inter _ _ _ hl
  intro s t
  rcases U with ⟨u, i⟩
  rcases V with ⟨v, j⟩
  cases i <;> cases j <;> cases s <;> cases t <;> simp only [inter, endG] <;> ring

theorem fS_inter (y : R) {U V : WordD} (hl : U.1.length = V.1.length) (s t : St) :
    y * fGS y U V s t = interS y (fSG y U V) s t := by
  have e1 : fSG y U V = compSG y (fun s t => endSg s U.2 .o * endG y t .o V.2 + endSg s U.2 .a * endG y t .a V.2 +
      endSg s U.2 .b * endG y t .b V.2) U.1 V.1 := by
    funext s t
    rw [compSG_add, compSG_add]
    unfold fSG sumD gD sD
    simp only
    rw [compSG_eq _ _ _ _ _ hl, compSG_eq _ _ _ _ _ hl, compSG_eq _ _ _ _ _ hl]
  have e2 : fGS y U V = compGS y (fun s t => endG y s U.2 .o * endSg t .o V.2 + endG y s U.2 .a * endSg t .a V.2 +
      endG y s U.2 .b * endSg t .b V.2) U.1 V.1 := by
    funext s t
    rw [compGS_add, compGS_add]
    unfold fGS sumD gD sD
    simp only
    rw [compGS_eq _ _ _ _ _ hl, compGS_eq _ _ _ _ _ hl, compGS_eq _ _ _ _ _ hl]
  rw [e1, e2]
  apply compS_inter _ _ _ hl
  intro s t
  rcases U with ⟨u, i⟩
  rcases V with ⟨v, j⟩
  cases i <;> cases j <;> cases s <;> cases t <;> simp only [interS, endG, endSg] <;> ring

end

end Verif
