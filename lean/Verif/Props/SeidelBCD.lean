import Verif.Spec.Seidel
import Verif.Proofs.SeidelC
import Verif.Proofs.SeidelD
import Verif.Proofs.WordD2Lab
import Verif.Props.Quadric
import Verif.Props.RingD
/-!
# C107: classes that permute all classes under the quantum product
-/

namespace Verif
open Spec

section
variable {Sp : Space} {pieri : Int → List Int → Except PyErr Poly} {spc : Int → Prop} {cls : List Int → Prop} {B : ℕ}
  {ι : Type*} [DecidableEq ι]

/-- The product with the image of the unit under a map that commutes with the Pieri operators. -/
theorem tw_mult (Z : RingOn Sp pieri spc cls B) {W : Finset ι} {lab : ι → List Int} (σ : ι → ι) (ε : ι → ℕ)
    (hinj : ∀ u ∈ W, ∀ w ∈ W, lab u = lab w → u = w) (hcls : ∀ l, cls l ↔ ∃ u ∈ W, lab u = l) (hσ : ∀ u ∈ W, σ u ∈ W)
    (hT : ∀ p, spc p → ∀ x, lin (twM W lab σ ε) (lin (Z.Y.t p) x) = lin (Z.Y.t p) (lin (twM W lab σ ε) x))
    {u0 u : ι} (h0 : u0 ∈ W) (hl0 : lab u0 = []) (he0 : ε u0 = 0) (hu : u ∈ W) {fuel : ℕ} (hf : B ≤ fuel) :
    gmult Sp pieri fuel (Poly.sym (.S (lab (σ u0)))) (Poly.sym (.S (lab u))) =
      .ok [(List.replicate (ε u) .q ++ [.S (lab (σ u))], 1)] := by
  have c1 : cls (lab (σ u0)) := (hcls _).2 ⟨_, hσ _ h0, rfl⟩
  have c2 : cls (lab u) := (hcls _).2 ⟨_, hu, rfl⟩
  have key := Z.mult hf (wf_sym (.S (lab (σ u0)))) (x := Finsupp.single (lab (σ u0)) 1) (by simp [inq]) (supp_single c1 1)
    (wf_sym (.S (lab u))) (y := Finsupp.single (lab u) 1) (by simp [inq]) (supp_single c2 1)
  have e0 : lin (twM W lab σ ε) (Finsupp.single [] 1) = Finsupp.single (lab (σ u0)) 1 := by
    rw [lin, Finsupp.linearCombination_single, one_smul, ← hl0, twM_lab σ ε hinj h0, he0, pow_zero]
  rw [Z.Y.prod_comm (supp_single c1 1) (supp_single c2 1), ← e0, ← Z.Y.map_eq_prod _ hT (supp_single c2 1), lin,
    Finsupp.linearCombination_single, one_smul, twM_lab σ ε hinj hu, ev_single] at key
  refine returns_mono one_ne_zero (qmono_sorted _ _) ?_
  have e : monoDen (List.replicate (ε u) .q ++ [.S (lab (σ u))]) =
      MvPolynomial.X .q ^ ε u * MvPolynomial.X (.S (lab (σ u))) := by
    simp [monoDen]
  rw [e, map_one, one_mul]
  simpa [inq] using key

end

/-! ### OG(m, 2n+1) -/

theorem topRowB_lab {n k : ℕ} (hk : k < n) {u : List L3} (hu : u ∈ Wd n k) :
    topRowB k (n - k) n (labW u) = (flipE k u, labW (flipW u)) := by
  have hh := head_iff (by omega) hu
  have hu' := mem_Wd.1 hu
  have hp : ∀ {l : List Int} {x : Int}, l.head? = some x → part l 0 = x := by
    intro l x h
    cases l with
    | nil => simp at h
    | cons y l => simpa [part] using h
  cases u with
  | nil => simp at hu'; omega
  | cons p u =>
    have hr := rows_add_cols 0 0 u
    simp only [List.length_cons] at hu'
    unfold topRowB
    cases p
    · have hn : (labW (.o :: u)).head? ≠ some ((n : Int) + k) := fun h => by
        obtain ⟨u', h'⟩ := hh.1 (hp h)
        simp at h'
      have hlen : (labW (.o :: u)).length = n - k := by
        rw [labW_o, List.length_map, shapeW_length]
        simp [colsW] at hu'
        omega
      rw [if_neg hn, if_neg (by omega)]
      rfl
    · have he : labW (.a :: u) = ((n : Int) + k) :: labW u := by
        rw [labW_a]
        simp [colsW] at hu'
        congr 1
        rw [← hu'.1, ← hu'.2]
        push_cast; ring
      rw [he, if_pos (by simp)]
      show _ = (_, labW (.b :: u))
      rw [labW_b]
      rfl
    · have hn : (labW (.b :: u)).head? ≠ some ((n : Int) + k) := fun h => by
        obtain ⟨u', h'⟩ := hh.1 (hp h)
        simp at h'
      have hlen : (labW (.b :: u)).length < n - k := by
        rw [labW_b]
        have h1 : (labW u).length ≤ (shapeW 0 0 u).length := by
          obtain ⟨c, hc⟩ := partClip_append (shapeW 0 0 u)
          unfold labW
          conv_rhs => rw [hc]
          simp
        rw [shapeW_length] at h1
        simp [colsW] at hu'
        omega
      rw [if_neg hn, if_pos hlen]
      show _ = (0, labW (.a :: u))
      rw [labW_b, labW_a]
      simp [colsW] at hu'
      rw [← hu'.1, ← hu'.2]
      congr 2
      push_cast; ring

theorem unitB {n k : ℕ} (hk : k < n) : ∃ u0 ∈ Wd n k, labW u0 = [] ∧ flipE k u0 = 0 ∧ labW (flipW u0) = [(n : Int) + k] := by
  obtain ⟨u0, h0, h1⟩ := (Wd_cls hk.le []).1 (clsBC_nil hk.le)
  have h2 := topRowB_lab hk h0
  rw [h1] at h2
  unfold topRowB at h2
  rw [if_neg (by simp), if_pos (by simp; omega)] at h2
  exact ⟨u0, h0, h1, (congrArg Prod.fst h2).symm, (congrArg Prod.snd h2).symm⟩

/-- **C107**, type B. On `OG(m, 2n+1)` with `0 < m ≤ n` the quantum product of `S[2n-m]` and a class `S[l]` is a power of `q` times
one class: a first part `2n-m` is removed with the factor `q^2` (`q` if `m = n`); otherwise `2n-m` is put in front if `l` has
fewer than `m` parts, and the class is multiplied by `q` if it has `m`. -/
theorem C107_OG_odd (ord : List Int → List Int) {m n : ℕ} (hm : 0 < m) (hmn : m ≤ n) {X : Space}
    (hX : mkOG m (2 * n + 1) = .ok X) {fuel : ℕ} (hf : giamBoundBC m n ≤ fuel) {l : List Int} (hl : BCClass m n l) :
    X.qmult ord fuel (Poly.sym (.S [2 * n - m])) (Poly.sym (.S l)) =
      .ok [(List.replicate (topRowB (n - m) m n l).1 .q ++ [.S (topRowB (n - m) m n l).2], 1)] := by
  obtain ⟨a, b, h, h1, h2, rfl⟩ := ogCase' (by omega) (by omega) hX
  obtain rfl : n = a := by omega
  rw [h2, giamBoundBC_eq h.le] at hf
  rw [h2, bcClass_eq h.le] at hl
  obtain ⟨u, hu, rfl⟩ := (Wd_cls h.le l).1 hl
  obtain ⟨u0, h0, hl0, he0, hs0⟩ := unitB h
  have key : Space.qmult ord ⟨.B, b, n⟩ fuel _ _ = _ := tw_mult (ringQOG ord n b h) flipW (flipE b) Wd_inj (Wd_cls h.le) (fun u => flipW_mem)
    (fun p _ => twM_comm flipW (flipE b) Wd_inj flipW (fun u => flipW_mem) (fun u => flipW_mem) (fun u _ => flipW_flipW u) (fun u _ => flipW_flipW u)
      (MQB b) (fun u hu w hw => MQB_flip p.toNat hu hw)) h0 hl0 he0 hu hf
  rw [hs0] at key
  obtain rfl : b = n - m := by omega
  have e := topRowB_lab h hu
  rw [show n - (n - m) = m by omega] at e
  rw [e, show 2 * (n : Int) - m = n + (n - m : ℕ) by omega, key]

example : mkOG 2 7 = .ok ⟨.B, 1, 3⟩ ∧ BCClass 2 3 [4, 1] ∧ topRowB 1 2 3 [4, 1] = (2, [1]) ∧ topRowB 1 2 3 [3] = (0, [4, 3]) ∧
    topRowB 1 2 3 [2, 1] = (1, [2, 1]) ∧
    (Space.mk .B 1 3).qmult id (giamBoundBC 2 3) (Poly.sym (.S [4])) (Poly.sym (.S [2, 1])) = .ok [([.q, .S [2, 1]], 1)] ∧
    (Space.mk .B 0 2).qmult id (giamBoundBC 2 2) (Poly.sym (.S [2])) (Poly.sym (.S [2, 1])) = .ok [([.q, .S [1]], 1)] := by
  refine ⟨rfl, by decide +kernel, by decide +kernel, by decide +kernel, by decide +kernel, by decide +kernel, by decide +kernel⟩

/-! ### OG(m, 2n+2) -/

theorem clD_ab {v : List L3} : clD (v, .a) = clD (v, .b) := rfl

theorem filter_reduced {l : List Int} (h : ReducedPart l) : l.filter (· ≠ 0) = l := by
  rw [List.filter_eq_self]
  intro x hx
  have := h.2 x hx
  simp; omega

theorem filter_labD (U : WordD) : (labD U).filter (· ≠ 0) = clD U := by
  unfold labD
  rw [List.filter_append, filter_reduced (clD_reduced U)]
  split <;> simp

theorem otherType_labD {n k : ℕ} (hk : 0 < k) {U : WordD} (hU : U ∈ WdD n k) : otherType k (labD U) = labD (swD U) := by
  have hU' := mem_WdD.1 hU
  have hm := mem_clD (U := U) (by omega)
  rw [hU'.2.1] at hm
  have hz := zero_mem_labD U
  unfold otherType
  rcases U with ⟨u, i⟩
  cases i
  · rw [if_neg (by rw [hz]; simp), if_neg]
    · rfl
    · rintro ⟨h, -⟩
      rw [labD_not_b (by simp)] at h
      exact hm.1 h rfl
  · rw [if_neg (by rw [hz]; simp), if_pos ⟨by rw [labD_not_b (by simp)]; exact hm.2 (by simp), hk⟩]
    simp [labD, swD, L3.sw, clD_ab]
  · rw [if_pos (hz.2 rfl), filter_labD]
    simp [labD, swD, L3.sw, clD_ab]

theorem clD_cons_a (u : List L3) (i : L3) : labD (.a :: u, i) = ((u.length : Int) + colsW i.k0 u + 1) :: labD (u, i) := by
  unfold labD clD shD
  simp only [shapeW]
  rw [partClip_cons, if_neg]
  · rfl
  · rintro ⟨_, h⟩
    omega

theorem clD_cons_b (u : List L3) (i : L3) : labD (.b :: u, i) = labD (u, i) := by
  unfold labD clD shD
  simp only [shapeW, partClip_concat_zero]

theorem length_clD_cons_o (u : List L3) (i : L3) : (clD (.o :: u, i)).length = rowsW i.r0 u := by
  unfold clD shD
  simp only [shapeW]
  rw [partClip_of_noTrailing, List.length_map, shapeW_length]
  intro h
  obtain ⟨x, hx, e⟩ := List.mem_map.1 (List.mem_of_getLast? h)
  have := shapeW_nonneg _ _ u x hx
  omega

theorem topRowD_lab {n k : ℕ} (hn : 0 < n) {U : WordD} (hU : U ∈ WdD n k) :
    topRowD k (n + 1 - k) n (labD U) = (flipED k U, labD (flipD U)) := by
  have hh := head_iffD hn hU
  have hU' := mem_WdD.1 hU
  have hp : ∀ {l : List Int} {x : Int}, l.head? = some x → part l 0 = x := by
    intro l x h
    cases l with
    | nil => simp at h
    | cons y l => simpa [part] using h
  rcases U with ⟨_ | ⟨p, u⟩, i⟩
  · simp at hU'; omega
  · have hr := rows_add_cols i.k0 i.r0 u
    have hi := i.k0_add_r0
    unfold colsD at hU'
    simp only [List.length_cons] at hU'
    unfold topRowD
    rw [filter_labD]
    cases p
    · have hn : (labD (.o :: u, i)).head? ≠ some ((n : Int) + k) := fun h => by
        obtain ⟨u', h'⟩ := hh.1 (hp h)
        simp at h'
      have hlen : (clD (.o :: u, i)).length = n + 1 - k := by
        rw [length_clD_cons_o]
        simp [colsW] at hU'
        omega
      rw [if_neg hn, if_neg (by omega), otherType_labD (by simp [colsW] at hU'; omega) hU]
      rfl
    · have he : labD (.a :: u, i) = ((n : Int) + k) :: labD (u, i) := by
        rw [clD_cons_a]
        simp [colsW] at hU'
        congr 1
        rw [← hU'.1, ← hU'.2.1]
        push_cast; ring
      rw [he, if_pos (by simp)]
      show _ = (_, labD (.b :: u, i))
      rw [clD_cons_b]
      rfl
    · have hn : (labD (.b :: u, i)).head? ≠ some ((n : Int) + k) := fun h => by
        obtain ⟨u', h'⟩ := hh.1 (hp h)
        simp at h'
      have hlen : (clD (.b :: u, i)).length < n + 1 - k := by
        have h1 : (clD (.b :: u, i)).length ≤ (shapeW i.k0 i.r0 u).length := by
          unfold clD shD
          simp only [shapeW, partClip_concat_zero]
          obtain ⟨c, hc⟩ := partClip_append (shapeW i.k0 i.r0 u)
          conv_rhs => rw [hc]
          simp
        rw [shapeW_length] at h1
        simp [colsW] at hU'
        omega
      rw [if_neg hn, if_pos hlen]
      show _ = (0, labD (.a :: u, i))
      rw [clD_cons_b, clD_cons_a]
      simp [colsW] at hU'
      rw [← hU'.1, ← hU'.2.1]
      congr 2
      push_cast; ring

theorem unitFlipD {n k : ℕ} (hn : 0 < n) (hk : k ≤ n) :
    ∃ U0 ∈ WdD n k, labD U0 = [] ∧ flipED k U0 = 0 ∧ labD (flipD U0) = [(n : Int) + k] := by
  obtain ⟨U0, h0, h1⟩ := (WdD_cls (by omega) []).1 (clsD_nil (n := n) (k := k) (by omega))
  have h2 := topRowD_lab hn h0
  rw [h1] at h2
  unfold topRowD at h2
  rw [if_neg (by simp), if_pos (by simp; omega)] at h2
  exact ⟨U0, h0, h1, (congrArg Prod.fst h2).symm, (congrArg Prod.snd h2).symm⟩

/-- **C107**, type D. On `OG(m, 2n+2)` with `0 < m ≤ n+1`, `m ≠ n` the quantum product of `S[2n+1-m]` and a class `S[l]` is a power
of `q` times one class: a first part `2n+1-m` is removed with the factor `q^2` (`q` if `m = n+1`); otherwise `2n+1-m` is put in front
if `l` has fewer than `m` parts; if it has `m` parts the factor is `q` and the type changes. -/
theorem C107_OG_even (ord : List Int → List Int) {m n : ℕ} (hn : 0 < n) (hm : 0 < m) (hmn : m ≤ n + 1) (hne : m ≠ n) {X : Space}
    (hX : mkOG m (2 * n + 2) = .ok X) {fuel : ℕ} (hf : giamBoundD m n ≤ fuel) {l : List Int} (hl : DClass m n l) :
    X.qmult ord fuel (Poly.sym (.S [2 * n + 1 - m])) (Poly.sym (.S l)) =
      .ok [(List.replicate (topRowD (n + 1 - m) m n l).1 .q ++ [.S (topRowD (n + 1 - m) m n l).2], 1)] := by
  obtain ⟨a, b, h, hb, h1, h2, rfl⟩ := ogdCase' (by omega) (by omega) (by omega) hX
  obtain rfl : n = a := by omega
  rw [h2, giamBoundD_eq (by omega)] at hf
  rw [h2, dClass_eq (by omega)] at hl
  obtain ⟨U, hU, rfl⟩ := (WdD_cls (by omega) l).1 hl
  obtain ⟨U0, h0, hl0, he0, hs0⟩ := unitFlipD hn h
  have key : Space.qmult ord ⟨.D, b, n⟩ fuel _ _ = _ := tw_mult (ringQD ord n b h hb) flipD (flipED b) WdD_inj (WdD_cls (by omega)) (fun u => flipD_mem)
    (fun p _ => twM_comm flipD (flipED b) WdD_inj flipD (fun u => flipD_mem) (fun u => flipD_mem) (fun u _ => flipD_flipD u) (fun u _ => flipD_flipD u)
      (fun _ => MDg (hQ b) (hQ' b) b p) (p := 0) (fun U hU W hW => by
        rw [← flipF_eq hU, ← flipF_eq hW]
        exact MDg_flip p hn hQ_sq hU hW)) h0 hl0 he0 hU hf
  rw [hs0] at key
  obtain rfl : b = n + 1 - m := by omega
  have e := topRowD_lab hn hU
  rw [show n + 1 - (n + 1 - m) = m by omega] at e
  rw [e, show 2 * (n : Int) + 1 - m = n + (n + 1 - m : ℕ) by omega, key]

example : mkOG 1 6 = .ok ⟨.D, 2, 2⟩ ∧ DClass 1 2 [2, 0] ∧ topRowD 2 1 2 [2, 0] = (1, [2]) ∧ topRowD 2 1 2 [2] = (1, [2, 0]) ∧
    topRowD 2 1 2 [4] = (2, []) ∧ topRowD 0 4 3 [2, 1] = (0, [3, 2, 1]) ∧
    (Space.mk .D 2 2).qmult id (giamBoundD 1 2) (Poly.sym (.S [4])) (Poly.sym (.S [2])) = .ok [([.q, .S [2, 0]], 1)] ∧
    (Space.mk .D 2 2).qmult id (giamBoundD 1 2) (Poly.sym (.S [4])) (Poly.sym (.S [3])) = .ok [([.q, .S [3]], 1)] ∧
    (Space.mk .D 0 3).qmult id (giamBoundD 4 3) (Poly.sym (.S [3])) (Poly.sym (.S [3, 1])) = .ok [([.q, .S [1]], 1)] := by
  refine ⟨rfl, by decide +kernel, by decide +kernel, by decide +kernel, by decide +kernel, by decide +kernel, by decide +kernel,
    by decide +kernel, by decide +kernel⟩

/-! ### IG(m, 2n) -/

/-- the entries of the index of a word that come from the letters `a` -/
def idxA : List L3 → List Int
  | [] => []
  | .a :: u => -(u.length : Int) :: idxA u
  | _ :: u => idxA u

/-- the entries of the index of a word that come from the letters `b` -/
def idxB : List L3 → List Int
  | [] => []
  | .b :: u => idxB u ++ [(u.length : Int) + 1]
  | _ :: u => idxB u

theorem idxW_split (u : List L3) : idxW 0 u = idxA u ++ idxB u := by
  induction u with
  | nil => rfl
  | cons p u ih => cases p <;> simp [idxW, idxA, idxB, ih]

theorem idxA_concat (u : List L3) (p : L3) :
    idxA (u ++ [p]) = (idxA u).map (· - 1) ++ if p = .a then [0] else [] := by
  induction u with
  | nil => cases p <;> simp [idxA]
  | cons r u ih => cases r <;> simp [idxA, ih]; ring

theorem idxB_concat (u : List L3) (p : L3) :
    idxB (u ++ [p]) = (if p = .b then [1] else []) ++ (idxB u).map (· + 1) := by
  induction u with
  | nil => cases p <;> simp [idxB]
  | cons r u ih => cases r <;> simp [idxB, ih]

theorem idxA_rev (u : List L3) : idxA (revW u) = (idxB u).map (fun x : Int => x - u.length) := by
  induction u with
  | nil => rfl
  | cons p u ih =>
    rw [revW_cons, idxA_concat, ih, List.map_map]
    have e : ((fun x : Int => x - 1) ∘ fun x : Int => x - (u.length : Int)) = fun x : Int => x - ((u.length : Int) + 1) := by
      funext x; simp only [Function.comp_apply]; ring
    rw [e]
    cases p <;> simp [idxB, L3.dual]

theorem idxB_rev (u : List L3) : idxB (revW u) = (idxA u).map (fun x : Int => x + u.length) := by
  induction u with
  | nil => rfl
  | cons p u ih =>
    rw [revW_cons, idxB_concat, ih, List.map_map]
    have e : ((fun x : Int => x + 1) ∘ fun x : Int => x + (u.length : Int)) = fun x : Int => x + ((u.length : Int) + 1) := by
      funext x; simp only [Function.comp_apply]; ring
    rw [e]
    cases p <;> simp [idxA, L3.dual]

theorem idxA_le (u : List L3) : ∀ x ∈ idxA u, x ≤ 0 := by
  induction u with
  | nil => simp [idxA]
  | cons p u ih =>
    cases p
    · exact ih
    · intro x hx
      simp only [idxA, List.mem_cons] at hx
      rcases hx with rfl | hx
      · omega
      · exact ih x hx
    · exact ih

theorem idxB_pos (u : List L3) : ∀ x ∈ idxB u, 0 < x := by
  induction u with
  | nil => simp [idxB]
  | cons p u ih =>
    cases p
    · exact ih
    · exact ih
    · intro x hx
      simp only [idxB, List.mem_append, List.mem_singleton] at hx
      rcases hx with hx | rfl
      · exact ih x hx
      · omega

theorem rotIdx_word {n k : ℕ} {u : List L3} (hu : u ∈ Wd n k) :
    rotIdx n (part2indexC (labW u) k n) = part2indexC (labW (revW u)) k n := by
  rw [(part2index_word hu).1, (part2index_word (revW_mem hu)).1, idxW_split, idxW_split, idxA_rev, idxB_rev, (mem_Wd.1 hu).1]
  unfold rotIdx
  have fA : ∀ f : Int → Bool, (∀ x ≤ 0, f (x + n) = false) → ((idxA u).map (fun x : Int => x + n)).filter f = [] := by
    intro f hf
    rw [List.filter_eq_nil_iff]
    intro y hy
    obtain ⟨x, hx, rfl⟩ := List.mem_map.1 hy
    rw [hf x (idxA_le u x hx)]; simp
  have gA : ∀ f : Int → Bool, (∀ x ≤ 0, f (x + n) = true) → ((idxA u).map (fun x : Int => x + n)).filter f = (idxA u).map (fun x : Int => x + n) := by
    intro f hf
    rw [List.filter_eq_self]
    intro y hy
    obtain ⟨x, hx, rfl⟩ := List.mem_map.1 hy
    exact hf x (idxA_le u x hx)
  have fB : ∀ f : Int → Bool, (∀ x > 0, f (x + n) = false) → ((idxB u).map (fun x : Int => x + n)).filter f = [] := by
    intro f hf
    rw [List.filter_eq_nil_iff]
    intro y hy
    obtain ⟨x, hx, rfl⟩ := List.mem_map.1 hy
    rw [hf x (idxB_pos u x hx)]; simp
  have gB : ∀ f : Int → Bool, (∀ x > 0, f (x + n) = true) → ((idxB u).map (fun x : Int => x + n)).filter f = (idxB u).map (fun x : Int => x + n) := by
    intro f hf
    rw [List.filter_eq_self]
    intro y hy
    obtain ⟨x, hx, rfl⟩ := List.mem_map.1 hy
    exact hf x (idxB_pos u x hx)
  rw [List.map_append, List.filter_append, List.filter_append, fA _ (fun x hx => by simp; omega), gB _ (fun x hx => by simp; omega),
    gA _ (fun x hx => by simp; omega), fB _ (fun x hx => by simp; omega), List.nil_append, List.append_nil, List.map_append,
    List.map_map, List.map_map, List.map_map]
  congr 1
  apply List.map_congr_left
  intro x _
  simp only [Function.comp_apply]; ring

theorem cntA_lab {n k : ℕ} {u : List L3} (hu : u ∈ Wd n k) : cntA u = (labW u).countP (fun x => (k : Int) < x) := by
  have h : ∀ (u : List L3) (c : Int), c = colsW 0 u + 1 → u.count .a = (shapeW 0 0 u).countP (fun x => decide (c ≤ x)) := by
    intro u
    induction u with
    | nil => intro c _; rfl
    | cons p u ih =>
      intro c hc
      cases p
      · simp only [colsW] at hc
        push_cast at hc
        rw [List.count_cons_of_ne (by simp), ih (c - 1) (by omega), shapeW, List.countP_map]
        congr 1
        funext x
        simp only [Function.comp_apply]
        congr 1
        exact propext ⟨fun _ => by omega, fun _ => by omega⟩
      · simp only [colsW] at hc
        rw [List.count_cons_self, ih c hc, shapeW, List.countP_cons, if_pos (by simp; omega)]
      · simp only [colsW] at hc
        rw [List.count_cons_of_ne (by simp), ih c hc, shapeW, List.countP_append, List.countP_singleton, if_neg (by simp; omega)]
        rfl
  have h1 := h u (k + 1) (by rw [(mem_Wd.1 hu).2])
  unfold cntA labW
  rw [h1, ← countP_partClip _ _ (by omega)]
  rfl

theorem unitRev {n k : ℕ} (hk : k ≤ n) : ∃ u0 ∈ Wd n k, labW u0 = [] ∧ cntA u0 = 0 ∧ labW (revW u0) = stair k n := by
  obtain ⟨m, rfl⟩ : ∃ m, n = k + m := ⟨n - k, by omega⟩
  refine ⟨List.replicate m .b ++ os k, ?_, ?_, ?_, ?_⟩
  · rw [mem_Wd, colsW_count]
    simp [os, List.count_replicate, Nat.add_comm]
  · rw [labW_bs]
    unfold labW
    rw [shapeW_os']
    rfl
  · unfold cntA
    simp [os, List.count_replicate]
  · have e : revW (List.replicate m .b ++ os k) = os k ++ List.replicate m .a := by
      unfold revW dualW os
      simp [L3.dual]
    have s : ∀ m : ℕ, shapeW 0 0 (List.replicate m .a) = (List.range m).map (fun i : ℕ => (m : Int) - i) := by
      intro m
      induction m with
      | zero => rfl
      | succ m ih =>
        rw [List.replicate_succ, shapeW, ih, List.range_succ_eq_map, List.map_cons, List.map_map]
        have : colsW 0 (List.replicate m L3.a) = 0 := by rw [colsW_count]; simp [List.count_replicate]
        rw [this]
        simp
    rw [e]
    unfold labW stair
    rw [shapeW_os, s, List.map_map, show k + m - k = m by omega, partClip_of_noTrailing]
    · apply List.map_congr_left
      intro i _
      simp only [Function.comp_apply]
      push_cast; ring
    · intro h
      obtain ⟨x, hx, e⟩ := List.mem_map.1 (List.mem_of_getLast? h)
      simp at hx e
      omega

/-- **C107**, type C. On `IG(m, 2n)` the quantum product of the staircase `S[n,n-1,...,n-m+1]` and a class `S[l]` is
`q^d * S[mu]`, where `d` is the number of parts of `l` larger than `n-m` and the Schubert symbol of `mu` is that of `l`, rotated
by `n`. -/
theorem C107_IG (ord : List Int → List Int) {m n : ℕ} {X : Space} (hX : mkIG m (2 * n) = .ok X) {fuel : ℕ}
    (hf : giamBoundBC m n ≤ fuel) {l : List Int} (hl : BCClass m n l) :
    ∃ mu, BCClass m n mu ∧ X.part2index mu = rotIdx n (X.part2index l) ∧ X.index2part (rotIdx n (X.part2index l)) = .ok mu ∧
      X.qmult ord fuel (Poly.sym (.S (stair (n - m) n))) (Poly.sym (.S l)) =
        .ok [(List.replicate (l.countP (fun x => ((n : Int) - m) < x)) .q ++ [.S mu], 1)] := by
  obtain ⟨a, b, h, h1, h2, rfl⟩ := igCase hX
  obtain rfl : n = a := by omega
  rw [h2, giamBoundBC_eq h] at hf
  rw [h2, bcClass_eq h] at hl ⊢
  obtain ⟨u, hu, rfl⟩ := (Wd_cls h l).1 hl
  obtain ⟨u0, h0, hl0, he0, hs0⟩ := unitRev h
  have key : Space.qmult ord ⟨.C, b, n⟩ fuel _ _ = _ := tw_mult (ringQIG ord n b h) revW cntA Wd_inj (Wd_cls h) (fun u => revW_mem)
    (fun p _ => twM_comm revW cntA Wd_inj revW (fun u => revW_mem) (fun u => revW_mem) (fun u _ => revW_revW u) (fun u _ => revW_revW u)
      (MC (Polynomial.C (1 / 2) * Polynomial.X)) (fun u hu w hw => MC_rev p.toNat hu hw)) h0 hl0 he0 hu hf
  have hc : clsBC n b (labW (revW u)) := (Wd_cls h _).2 ⟨_, revW_mem hu, rfl⟩
  have e : (Space.mk .C b n).part2index (labW (revW u)) = rotIdx n ((Space.mk .C b n).part2index (labW u)) := (rotIdx_word hu).symm
  refine ⟨labW (revW u), hc, e, ?_, ?_⟩
  · rw [← e]
    obtain ⟨i1, i2, i3⟩ := (clsBC_eq h _).1 hc
    exact (C09_part_index_part _ _ _ (mkIG_nat n b h) _ i1 i2 i3).2.2
  · rw [hs0, cntA_lab hu] at key
    rw [show n - m = b by omega, key, show (n : Int) - ((n : Int) - b) = b by ring]

example : mkIG 2 6 = .ok ⟨.C, 1, 3⟩ ∧ BCClass 2 3 [4, 3] ∧ stair 1 3 = [3, 2] ∧ (Space.mk .C 1 3).part2index [4, 3] = [1, 2] ∧
    rotIdx 3 [1, 2] = [4, 5] ∧ (Space.mk .C 1 3).index2part [4, 5] = .ok [1, 1] ∧
    (Space.mk .C 1 3).qmult id (giamBoundBC 2 3) (Poly.sym (.S [3, 2])) (Poly.sym (.S [4, 3])) = .ok [([.q, .q, .S [1, 1]], 1)] ∧
    (Space.mk .C 0 2).qmult id (giamBoundBC 2 2) (Poly.sym (.S [2, 1])) (Poly.sym (.S [2, 1])) = .ok [([.q, .q, .S []], 1)] := by
  refine ⟨rfl, by decide +kernel, by decide +kernel, by decide +kernel, by decide +kernel, by decide +kernel, by decide +kernel,
    by decide +kernel⟩

end Verif
