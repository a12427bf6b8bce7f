import Verif.Proofs.Cyl
import Verif.Proofs.QPieriA
import Verif.Proofs.RingAbs
/-!
# The type A Pieri operators as sums over cylindric strips
-/

namespace Verif
open Spec MvPolynomial Cyl

/-- The Schubert classes of `Gr(m, m+k)`. -/
def clsA (m : Nat) (k : Int) (l : List Int) : Prop := ReducedPart l ∧ InRect l m k

variable {m : Nat}

/-- The first `m+1` parts of a list. -/
def vec (m : Nat) (l : List Int) : Fin (m + 1) → ℤ := fun i => part l i

/-- The class of a vector. -/
def lab (f : Fin (m + 1) → ℤ) : List Int := partClip (List.ofFn f)

theorem part_lab_lt (f : Fin (m + 1) → ℤ) (i : Fin (m + 1)) : part (lab f) i = f i := by
  rw [lab, part_partClip, part_of_lt (l := List.ofFn f) (by rw [List.length_ofFn]; exact i.2), List.getElem_ofFn]

theorem part_lab_ge (f : Fin (m + 1) → ℤ) {i : Nat} (h : m + 1 ≤ i) : part (lab f) i = 0 := by
  rw [lab, part_partClip, part_of_ge (by rw [List.length_ofFn]; exact h)]

theorem vec_lab (f : Fin (m + 1) → ℤ) : vec m (lab f) = f := by
  funext i; exact part_lab_lt f i

theorem lab_sum (f : Fin (m + 1) → ℤ) : (lab f).sum = ∑ i, f i := by
  rw [lab, partClip_sum, List.sum_ofFn]

theorem lab_vec {l : List Int} (h : ReducedPart l) (hl : l.length ≤ m + 1) : lab (vec m l) = l := by
  apply eq_of_part_eq (partClip_noTrailing _) h.noTrailing
  intro i
  by_cases hi : i < m + 1
  · exact part_lab_lt (vec m l) ⟨i, hi⟩
  · rw [part_of_ge (l := l) (by omega)]
    exact part_lab_ge _ (by omega)

theorem vec_sum {l : List Int} (h : ReducedPart l) (hl : l.length ≤ m + 1) : ∑ i, vec m l i = l.sum := by
  rw [← lab_sum, lab_vec h hl]

theorem sh_succ (k : ℤ) (f : Fin (m + 1) → ℤ) (i : Fin m) : sh k f i.succ = f i.castSucc := by
  have : i.succ - 1 = i.castSucc := by
    rw [sub_eq_iff_eq_add, Fin.coeSucc_eq_succ]
  simp [sh, this]

theorem sh_zero (k : ℤ) (f : Fin (m + 1) → ℤ) : sh k f 0 = f (Fin.last m) + k := by
  have : (0 : Fin (m + 1)) - 1 = Fin.last m := by
    rw [sub_eq_iff_eq_add, Fin.last_add_one]
  rw [sh, if_pos rfl, this]

theorem dn_castSucc (k : ℤ) (f : Fin (m + 1) → ℤ) (i : Fin m) : dn k f i.castSucc = f i.succ := by
  simp only [dn]
  rw [Fin.coeSucc_eq_succ, if_neg (Fin.succ_ne_zero i), sub_zero]

theorem dn_last (k : ℤ) (f : Fin (m + 1) → ℤ) : dn k f (Fin.last m) = f 0 - k := by
  simp [dn]

/-- Vectors of classes. -/
structure BoxV (k : ℤ) (f : Fin (m + 1) → ℤ) : Prop where
  anti : ∀ i : Fin m, f i.succ ≤ f i.castSucc
  last : 0 ≤ f (Fin.last m)
  first : f 0 ≤ k

theorem BoxV.antitone {k : ℤ} {f : Fin (m + 1) → ℤ} (h : BoxV k f) : Antitone f :=
  Fin.antitone_iff_succ_le.2 h.anti

theorem BoxV.nonneg {k : ℤ} {f : Fin (m + 1) → ℤ} (h : BoxV k f) (i) : 0 ≤ f i :=
  le_trans h.last (h.antitone (Fin.le_last i))

theorem BoxV.le {k : ℤ} {f : Fin (m + 1) → ℤ} (h : BoxV k f) (i) : f i ≤ k :=
  le_trans (h.antitone (Fin.zero_le i)) h.first

theorem clsA_lab {k : ℤ} {f : Fin (m + 1) → ℤ} (h : BoxV k f) : clsA (m + 1) k (lab f) := by
  have hp : IsPartition (List.ofFn f) := by
    rw [isPartition_iff_part]
    intro i
    by_cases hi : i + 1 < m + 1
    · have := h.anti ⟨i, by omega⟩
      rw [part_of_lt (l := List.ofFn f) (by rw [List.length_ofFn]; exact hi),
        part_of_lt (l := List.ofFn f) (by rw [List.length_ofFn]; omega), List.getElem_ofFn, List.getElem_ofFn]
      exact this
    · rw [part_of_ge (l := List.ofFn f) (i := i + 1) (by rw [List.length_ofFn]; omega)]
      by_cases hi' : i < m + 1
      · rw [part_of_lt (l := List.ofFn f) (by rw [List.length_ofFn]; exact hi'), List.getElem_ofFn]
        exact h.nonneg ⟨i, hi'⟩
      · rw [part_of_ge (by rw [List.length_ofFn]; omega)]
  refine ⟨hp.partClip, ?_, ?_⟩
  · have := partClip_length_le (List.ofFn f)
    rw [List.length_ofFn] at this
    exact this
  · intro x hx
    have := (partClip_sublist _).subset hx
    rw [List.mem_ofFn] at this
    obtain ⟨i, rfl⟩ := this
    exact h.le i

theorem boxV_vec {k : ℤ} (hk : 0 ≤ k) {l : List Int} (h : clsA (m + 1) k l) : BoxV k (vec m l) := by
  refine ⟨fun i => ?_, ?_, ?_⟩
  · exact h.1.isPartition.part_anti (by simp)
  · exact h.1.isPartition.part_nonneg _
  · exact InRect.part_le h.2 hk 0

theorem lab_vec' {k : ℤ} {l : List Int} (h : clsA (m + 1) k l) : lab (vec m l) = l := lab_vec h.1 h.2.1

/-! ### strips on box vectors -/

theorem om_box {k p : ℤ} {f g : Fin (m + 1) → ℤ} (hf : BoxV k f) (hg : g ∈ Om k p f) (h0 : g 0 ≤ k) :
    BoxV k g := by
  rw [mem_Om] at hg
  refine ⟨fun i => ?_, le_trans hf.last (hg.1 _), h0⟩
  have h1 := hg.2.1 i.succ
  rw [sh_succ] at h1
  exact le_trans h1 (hg.1 _)

theorem om_rot_box {k p : ℤ} {f g : Fin (m + 1) → ℤ} (hf : BoxV k f) (hg : g ∈ Om k p f) (h0 : k < g 0) :
    BoxV k (rot k g) := by
  rw [mem_Om, le_sh_iff] at hg
  refine ⟨fun i => ?_, ?_, ?_⟩
  · have h1 : dn k g i.succ ≤ f i.succ := hg.2.1 i.succ
    have h2 : f i.succ ≤ g i.succ := hg.1 i.succ
    simp only [rot, dn_castSucc]
    omega
  · simp only [rot, dn_last]; omega
  · have h1 : dn k g 0 ≤ f 0 := hg.2.1 0
    have h2 := hf.first
    simp only [rot]; omega

/-- The class of a strip, with `q` for a removed rim hook. -/
noncomputable def Pi1 (k : ℤ) (g : Fin (m + 1) → ℤ) : LMod :=
  if g 0 ≤ k then Finsupp.single (lab g) 1 else Finsupp.single (lab (rot k g)) Polynomial.X

/-- Quantum Pieri operator. -/
noncomputable def tq (m : Nat) (k : ℤ) (p : Nat) (l : List Int) : LMod :=
  open Classical in if clsA (m + 1) k l then ∑ g ∈ Om k p (vec m l), Pi1 k g else 0

/-- Classical Pieri operator. -/
noncomputable def tc (m : Nat) (k : ℤ) (p : Nat) (l : List Int) : LMod :=
  open Classical in if clsA (m + 1) k l then
    ∑ g ∈ (Om k p (vec m l)).filter (fun g => g 0 ≤ k), Finsupp.single (lab g) 1 else 0

theorem sum_support {ι : Type*} {s : Finset ι} {F : ι → LMod} {Q : List Int → Prop}
    (h : ∀ i ∈ s, ∀ l ∈ (F i).support, Q l) : ∀ l ∈ (∑ i ∈ s, F i).support, Q l := by
  intro l hl
  rw [Finsupp.mem_support_iff, Finsupp.finsetSum_apply] at hl
  obtain ⟨i, hi, hne⟩ := Finset.exists_ne_zero_of_sum_ne_zero hl
  exact h i hi l (Finsupp.mem_support_iff.2 hne)

theorem Pi1_support {k p : ℤ} {f g : Fin (m + 1) → ℤ} (hf : BoxV k f) (hg : g ∈ Om k p f) :
    ∀ l ∈ (Pi1 k g).support, clsA (m + 1) k l := by
  intro l hl
  unfold Pi1 at hl
  split at hl
  · rename_i h
    have := Finset.mem_singleton.1 (Finsupp.support_single_subset hl)
    rw [this]; exact clsA_lab (om_box hf hg h)
  · rename_i h
    have := Finset.mem_singleton.1 (Finsupp.support_single_subset hl)
    rw [this]; exact clsA_lab (om_rot_box hf hg (not_le.1 h))

theorem tq_closed {k : ℤ} (hk : 0 ≤ k) (p : Nat) (l : List Int) :
    ∀ mu ∈ (tq m k p l).support, clsA (m + 1) k mu := by
  unfold tq
  split
  · rename_i h
    exact sum_support (fun g hg => Pi1_support (boxV_vec hk h) hg)
  · simp

theorem tc_closed {k : ℤ} (hk : 0 ≤ k) (p : Nat) (l : List Int) :
    ∀ mu ∈ (tc m k p l).support, clsA (m + 1) k mu := by
  unfold tc
  split
  · rename_i h
    apply sum_support
    intro g hg l hl
    rw [Finset.mem_filter] at hg
    have := Finset.mem_singleton.1 (Finsupp.support_single_subset hl)
    rw [this]; exact clsA_lab (om_box (boxV_vec hk h) hg.1 hg.2)
  · simp

/-! ### The code computes these sums -/

theorem clsSum_finset {L : List (List Int)} (h : L.Nodup) : clsSum L = ∑ l ∈ L.toFinset, X (Sym.S l) := by
  rw [clsSum, List.sum_toFinset _ h]

theorem sum_classical {k : ℤ} (hk : 0 ≤ k) {l : List Int} (hl : clsA (m + 1) k l) (p : Nat) :
    clsSum ((strips k p (pad (m + 1) l)).map partClip) =
      ∑ g ∈ (Om k p (vec m l)).filter (fun g => g 0 ≤ k), X (Sym.S (lab g)) := by
  have hb := Box.pad hk hl.1.isPartition hl.2
  have hlen := hb.len
  have hne : pad (m + 1) l ≠ [] := by intro h; rw [h] at hlen; simp at hlen
  have hnd := clip_strips_nodup (p := p) hne hb.part.1 hb.le
  have hmem := mem_clip_strips (m := m + 1) (by omega) hk hl.1.isPartition hl.2 p
  rw [clsSum_finset hnd]
  symm
  refine Finset.sum_bij' (fun g _ => lab g) (fun mu _ => vec m mu) ?_ ?_ ?_ ?_ ?_
  · intro g hg
    rw [Finset.mem_filter] at hg
    have hB := om_box (boxV_vec hk hl) hg.1 hg.2
    rw [List.mem_toFinset, hmem]
    obtain ⟨h1, h2, h3⟩ := mem_Om.1 hg.1
    refine ⟨(clsA_lab hB).1, (clsA_lab hB).2, ?_, by rw [lab_sum, h3, vec_sum hl.1 hl.2.1]⟩
    intro i
    constructor
    · by_cases hi : i < m + 1
      · rw [part_lab_lt g ⟨i, hi⟩]; exact h1 ⟨i, hi⟩
      · rw [part_of_ge (l := l) (by have := hl.2.1; omega), part_lab_ge _ (by omega)]
    · by_cases hi : i + 1 < m + 1
      · have := h2 (Fin.succ ⟨i, by omega⟩)
        rw [sh_succ] at this
        have h4 := part_lab_lt g (Fin.succ ⟨i, by omega⟩)
        simp only [Fin.val_succ] at h4
        rw [h4]; exact this
      · rw [part_lab_ge _ (by omega)]
        exact hl.1.isPartition.part_nonneg _
  · intro mu hmu
    rw [List.mem_toFinset, hmem] at hmu
    obtain ⟨h1, h2, h3, h4⟩ := hmu
    have hB := boxV_vec (m := m) hk ⟨h1, h2⟩
    rw [Finset.mem_filter, mem_Om]
    refine ⟨⟨fun i => (h3 i).1, fun i => ?_, by rw [vec_sum h1 h2.1, vec_sum hl.1 hl.2.1, h4]⟩, hB.first⟩
    refine Fin.cases ?_ (fun j => ?_) i
    · rw [sh_zero]
      have := hB.first
      have := (boxV_vec (m := m) hk hl).last
      show vec m mu 0 ≤ _
      omega
    · rw [sh_succ]; exact (h3 j).2
  · intro g _; exact vec_lab g
  · intro mu hmu
    rw [List.mem_toFinset, hmem] at hmu
    exact lab_vec hmu.1 hmu.2.1.1
  · intro g _; rfl

theorem sum_quantum {k : ℤ} (hk : 0 ≤ k) {l : List Int} (hl : clsA (m + 1) k l) (p : Nat)
    {N : List (List Int)} (hN : N.Nodup)
    (hmem : ∀ nu, nu ∈ N ↔ Bertram (m + 1) l nu ∧ nu.sum + (m + 1 + k) = l.sum + p) :
    clsSum N = ∑ g ∈ (Om k p (vec m l)).filter (fun g => ¬ g 0 ≤ k), X (Sym.S (lab (rot k g))) := by
  rw [clsSum_finset hN]
  symm
  have hL := boxV_vec hk hl
  refine Finset.sum_bij' (fun g _ => lab (rot k g)) (fun mu _ => unrot k (vec m mu)) ?_ ?_ ?_ ?_ ?_
  · intro g hg
    rw [Finset.mem_filter, not_le] at hg
    have hB := om_rot_box hL hg.1 hg.2
    have hc := clsA_lab hB
    rw [List.mem_toFinset, hmem]
    obtain ⟨h1, h2, h3⟩ := mem_Om.1 hg.1
    refine ⟨⟨hc.1, hc.2.1, ?_⟩, ?_⟩
    · intro i hi
      rw [part_lab_lt (rot k g) ⟨i, hi⟩]
      rw [le_sh_iff] at h2
      refine ⟨?_, fun hi' => ?_⟩
      · have := h2 ⟨i, hi⟩
        simp only [rot]
        exact sub_le_sub_right this 1
      · have := h1 (Fin.succ ⟨i, by omega⟩)
        have h4 := dn_castSucc k g ⟨i, by omega⟩
        simp only [rot]
        rw [show (⟨i, hi⟩ : Fin (m + 1)) = Fin.castSucc ⟨i, by omega⟩ from rfl, h4]
        exact sub_le_sub_right this 1
    · rw [lab_sum, sum_rot, h3, vec_sum hl.1 hl.2.1]; ring
  · intro nu hnu
    rw [List.mem_toFinset, hmem] at hnu
    obtain ⟨⟨h1, h2, h3⟩, h4⟩ := hnu
    have hge := fun i => h1.isPartition.part_nonneg i
    rw [Finset.mem_filter, not_le, ← rot_mem_Om, rot_unrot, mem_Om, sh_rot]
    refine ⟨⟨?_, ?_, ?_⟩, ?_⟩
    · intro i
      refine Fin.lastCases ?_ (fun j => ?_) i
      · simp only [rot, dn_last]
        have := hL.first
        have := hge (Fin.last m)
        simp only [vec] at *
        omega
      · simp only [rot, dn_castSucc, vec]
        exact (h3 j.castSucc (by simp)).2 (by simp)
    · intro i
      have := (h3 i i.2).1
      simp only [rot, dn_sh, vec]
      exact this
    · rw [vec_sum h1 h2, sum_rot, vec_sum hl.1 hl.2.1]; push_cast; linarith
    · simp only [unrot, sh_zero]
      have := hge (Fin.last m)
      simp only [vec] at *
      omega
  · intro g _; rw [vec_lab, unrot_rot]
  · intro nu hnu
    rw [List.mem_toFinset, hmem] at hnu
    rw [rot_unrot]; exact lab_vec hnu.1.1 hnu.1.2.1
  · intro g _; rfl

theorem pieriA_ret {k n : ℤ} (hk : 0 ≤ k) (hn : n = m + 1 + k) {l : List Int} (hl : clsA (m + 1) k l) (p : Nat) :
    Returns (pieriA p l k n) (ev (tc m k p l)) := by
  have h := pieriA_value (m := m + 1) (n := n) (by omega) hk (by push_cast; omega) hl.1.isPartition hl.2 p
  rw [sum_classical hk hl] at h
  unfold tc
  rw [if_pos hl, map_sum]
  simpa [inq] using h

theorem qpieriA_ret {k n : ℤ} (hk : 1 ≤ k) (hn : n = m + 1 + k) {l : List Int} (hl : clsA (m + 1) k l) (p : Nat)
    (hp : 1 ≤ p) (hpk : (p : ℤ) ≤ k) : Returns (qpieriA p l k n) (ev (tq m k p l)) := by
  obtain ⟨N, hN, hmem, h⟩ := qpieriA_value (m := m + 1) (n := n) (by omega) hk (by push_cast; omega)
    hl.1.isPartition hl.2 p hp hpk
  rw [sum_classical (by omega) hl, sum_quantum (by omega) hl p hN (by
    intro nu; rw [hmem, hn])] at h
  unfold tq
  rw [if_pos hl, map_sum, ← Finset.sum_filter_add_sum_filter_not _ (fun g => g 0 ≤ k)]
  convert h using 2
  · apply Finset.sum_congr rfl
    intro g hg
    rw [Finset.mem_filter] at hg
    rw [Pi1, if_pos hg.2]
    simp [inq]
  · rw [Finset.mul_sum]
    apply Finset.sum_congr rfl
    intro g hg
    rw [Finset.mem_filter] at hg
    rw [Pi1, if_neg hg.2]
    simp [inq]

/-! ### Commutation -/

theorem tq_lab {k : ℤ} {f : Fin (m + 1) → ℤ} (hf : BoxV k f) (p : Nat) :
    tq m k p (lab f) = ∑ g ∈ Om k p f, Pi1 k g := by
  rw [tq, if_pos (clsA_lab hf), vec_lab]

/-- class of a double strip -/
noncomputable def Pi2 (k : ℤ) (g : Fin (m + 1) → ℤ) : LMod :=
  if g 0 ≤ k then Finsupp.single (lab g) 1 else (Polynomial.X : Polynomial ℚ) • Pi1 k (rot k g)

theorem lin_Pi1 {k : ℤ} {p : ℤ} {f g : Fin (m + 1) → ℤ} (hf : BoxV k f) (hg : g ∈ Om k p f) (b : Nat) :
    lin (tq m k b) (Pi1 k g) = ∑ h ∈ Om k b g, Pi2 k h := by
  by_cases h0 : g 0 ≤ k
  · rw [Pi1, if_pos h0, lin, Finsupp.linearCombination_single, one_smul, tq_lab (om_box hf hg h0)]
    apply Finset.sum_congr rfl
    intro h hh
    unfold Pi1 Pi2
    split
    · rfl
    · rename_i h1
      have h2 : rot k h 0 ≤ k := by
        rw [mem_Om, le_sh_iff] at hh
        have : dn k h 0 ≤ g 0 := hh.2.1 0
        simp only [rot]; omega
      rw [Pi1, if_pos h2]
      simp
  · rw [Pi1, if_neg h0, lin, Finsupp.linearCombination_single, tq_lab (om_rot_box hf hg (not_le.1 h0)),
      sum_Om_rot, Finset.smul_sum]
    apply Finset.sum_congr rfl
    intro h hh
    rw [Pi2, if_neg]
    rw [mem_Om] at hh
    have : g 0 ≤ h 0 := hh.1 0
    omega

theorem tq_comm {k : ℤ} (hk : 0 ≤ k) (a b : Nat) (l : List Int) :
    lin (tq m k a) (tq m k b l) = lin (tq m k b) (tq m k a l) := by
  by_cases hl : clsA (m + 1) k l
  · have key : ∀ a b : Nat, lin (tq m k a) (tq m k b l) =
        ∑ g ∈ Om k b (vec m l), ∑ h ∈ Om k a g, Pi2 k h := by
      intro a b
      conv_lhs => rw [tq.eq_1 m k b, if_pos hl]
      rw [map_sum]
      exact Finset.sum_congr rfl (fun g hg => lin_Pi1 (boxV_vec hk hl) hg a)
    rw [key, key]
    exact Om_comm k b a _ _
  · have : ∀ a : Nat, tq m k a l = 0 := fun a => by rw [tq, if_neg hl]
    rw [this, this, map_zero, map_zero]

/-! ### Setting `q = 0` -/

/-- `q ↦ 0`. -/
noncomputable def q0 : LMod →ₗ[ℚ] LMod :=
  Finsupp.mapRange.linearMap
    ((Algebra.linearMap ℚ (Polynomial ℚ)).comp (Polynomial.lcoeff ℚ 0))

theorem q0_apply (x : LMod) (l : List Int) : q0 x l = Polynomial.C ((x l).coeff 0) := by
  simp [q0]

theorem q0_single (l : List Int) (a : Polynomial ℚ) :
    q0 (Finsupp.single l a) = Finsupp.single l (Polynomial.C (a.coeff 0)) := by
  simp [q0]

theorem q0_smul (a : Polynomial ℚ) (x : LMod) : q0 (a • x) = Polynomial.C (a.coeff 0) • q0 x := by
  ext l : 1
  simp [q0_apply, Polynomial.mul_coeff_zero]

theorem q0_tq {k : ℤ} (p : Nat) (l : List Int) : q0 (tq m k p l) = tc m k p l := by
  unfold tq tc
  split
  · rw [map_sum, Finset.sum_filter]
    apply Finset.sum_congr rfl
    intro g _
    unfold Pi1
    split
    · rw [q0_single]; simp
    · rw [q0_single]; simp
  · simp

theorem q0_tc {k : ℤ} (p : Nat) (l : List Int) : q0 (tc m k p l) = tc m k p l := by
  unfold tc
  split
  · rw [map_sum]
    apply Finset.sum_congr rfl
    intro g _
    rw [q0_single]; simp
  · simp

theorem q0_lin {t t' : List Int → LMod} (h : ∀ l, q0 (t l) = t' l) (x : LMod) :
    q0 (lin t x) = lin t' (q0 x) := by
  induction x using Finsupp.induction_linear with
  | zero => simp
  | add x y hx hy => rw [map_add, map_add, hx, hy, map_add, map_add]
  | single l a =>
    rw [lin, Finsupp.linearCombination_single, q0_smul, h, q0_single, lin, Finsupp.linearCombination_single]

theorem tc_comm {k : ℤ} (hk : 0 ≤ k) (a b : Nat) (l : List Int) :
    lin (tc m k a) (tc m k b l) = lin (tc m k b) (tc m k a l) := by
  rw [← q0_tq b l, ← q0_tq a l, ← q0_lin (q0_tq a), ← q0_lin (q0_tq b), tq_comm hk]

/-! ### Giambelli step -/

/-- measure for the Giambelli recursion -/
def measA (k : ℤ) (l : List Int) : Nat := (l.sum * (k + 1) + k - part l 0).toNat

theorem reduced_tail {p : Int} {l : List Int} (h : ReducedPart (p :: l)) : ReducedPart l :=
  ⟨(List.pairwise_cons.1 h.1).2, fun x hx => h.2 x (List.mem_cons_of_mem _ hx)⟩

theorem part_le_sum {l : List Int} (h : IsPartition l) (i : Nat) : part l i ≤ l.sum := by
  have := sum_nonneg_aux h i
  exact this
where
  sum_nonneg_aux {l : List Int} (h : IsPartition l) (i : Nat) : part l i ≤ l.sum := by
    induction l generalizing i with
    | nil => simp
    | cons x l ih =>
      have hl : IsPartition l := ⟨(List.pairwise_cons.1 h.1).2, fun y hy => h.2 y (List.mem_cons_of_mem _ hy)⟩
      have hx := h.2 x (by simp)
      have hs := List.sum_nonneg hl.2
      rw [List.sum_cons]
      cases i with
      | zero => simp; omega
      | succ i => have := ih hl i; rw [part_cons_succ]; omega

theorem stepA {k : ℤ} {p : Int} {l : List Int} (h : clsA (m + 1) k (p :: l)) :
    1 ≤ p ∧ p ≤ k ∧ clsA (m + 1) k l ∧ measA k l < measA k (p :: l) ∧
    (∀ g ∈ Om k p.toNat (vec m l), g 0 ≤ k) ∧
    ∀ g ∈ Om k p.toNat (vec m l), g ≠ vec m (p :: l) → clsA (m + 1) k (lab g) ∧
      measA k (lab g) < measA k (p :: l) := by
  have h1 : 0 < p := h.1.2 p (by simp)
  have h2 : p ≤ k := h.2.2 p (by simp)
  have hr := reduced_tail h.1
  have hlen : l.length ≤ m := by have := h.2.1; simp at this; omega
  have hl : clsA (m + 1) k l := ⟨hr, by omega, fun x hx => h.2.2 x (by simp [hx])⟩
  have hs := List.sum_nonneg hr.isPartition.2
  have hB := boxV_vec (m := m) (by omega) hl
  have hlast : vec m l (Fin.last m) = 0 := by
    simp only [vec]; exact part_of_ge (by simpa using hlen)
  have hp : ((p.toNat : Nat) : ℤ) = p := by omega
  have hlk : part l 0 ≤ k := hB.first
  have hl0 : 0 ≤ part l 0 := hr.isPartition.part_nonneg 0
  have hle0 : part l 0 ≤ l.sum := part_le_sum hr.isPartition 0
  have hms : measA k l < measA k (p :: l) := by
    unfold measA
    have : (p :: l).sum * (k + 1) = p * (k + 1) + l.sum * (k + 1) := by rw [List.sum_cons]; ring
    rw [this, part_cons_zero]
    have h5 : 0 ≤ l.sum * (k + 1) := mul_nonneg hs (by omega)
    have h6 : k + 1 ≤ p * (k + 1) := by nlinarith
    have h7 : p * (k + 1) = p * k + p := by ring
    have h8 : k ≤ p * k := by nlinarith
    omega
  have hgk : ∀ g ∈ Om k p.toNat (vec m l), g 0 ≤ k := by
    intro g hg
    have : g 0 ≤ sh k (vec m l) 0 := (mem_Om.1 hg).2.1 0
    rw [sh_zero, hlast] at this
    omega
  refine ⟨h1, h2, hl, hms, hgk, ?_⟩
  intro g hg hne
  have hgB := om_box hB hg (hgk g hg)
  refine ⟨clsA_lab hgB, ?_⟩
  obtain ⟨g1, g2, g3⟩ := mem_Om.1 hg
  rw [hp] at g3
  rw [Fin.sum_univ_succ, Fin.sum_univ_castSucc (f := vec m l), hlast] at g3
  have hle : ∀ i : Fin m, g i.succ ≤ vec m l i.castSucc := fun i => by
    have := g2 i.succ; rwa [sh_succ] at this
  have hsum : ∑ i : Fin m, g i.succ ≤ ∑ i : Fin m, vec m l i.castSucc := Finset.sum_le_sum (fun i _ => hle i)
  have hg0 : p < g 0 := by
    by_contra hcon
    have heq : ∑ i : Fin m, g i.succ = ∑ i : Fin m, vec m l i.castSucc := by omega
    have hall := (Finset.sum_eq_sum_iff_of_le (fun i _ => hle i)).1 heq
    apply hne
    funext i
    refine Fin.cases ?_ (fun j => ?_) i
    · show g 0 = part (p :: l) 0
      rw [part_cons_zero]; omega
    · rw [hall j (Finset.mem_univ _)]
      simp [vec]
  have hgs : (lab g).sum = p + l.sum := by
    rw [lab_sum, Fin.sum_univ_succ, g3, ← vec_sum hr hl.2.1, Fin.sum_univ_castSucc (f := vec m l), hlast]
    ring
  unfold measA
  rw [hgs, List.sum_cons, part_cons_zero, show part (lab g) 0 = g 0 from part_lab_lt g 0]
  have hk0 : g 0 ≤ k := hgk g hg
  have h5 : 0 ≤ (p + l.sum) * (k + 1) := mul_nonneg (by omega) (by omega)
  omega

theorem vec_mem_Om {k : ℤ} {p : Int} {l : List Int} (h : clsA (m + 1) k (p :: l)) :
    vec m (p :: l) ∈ Om k p.toNat (vec m l) := by
  have h1 : 0 < p := h.1.2 p (by simp)
  have h2 : p ≤ k := h.2.2 p (by simp)
  have hr := reduced_tail h.1
  have hlen : l.length ≤ m := by have := h.2.1; simp at this; omega
  rw [mem_Om]
  refine ⟨fun i => ?_, fun i => ?_, ?_⟩
  · simp only [vec]
    cases hi : (i : Nat) with
    | zero => 
      rw [part_cons_zero]
      cases l with
      | nil => simp; omega
      | cons x l => simpa using (List.pairwise_cons.1 h.1.1).1 x (by simp)
    | succ j => rw [part_cons_succ]; exact hr.isPartition.part_anti (by omega)
  · refine Fin.cases ?_ (fun j => ?_) i
    · rw [sh_zero]
      have : vec m l (Fin.last m) = 0 := by simp only [vec]; exact part_of_ge (by simpa using hlen)
      rw [this]
      show part (p :: l) 0 ≤ _
      rw [part_cons_zero]; omega
    · rw [sh_succ]; simp [vec]
  · rw [vec_sum h.1 h.2.1, vec_sum hr (by omega), List.sum_cons]; omega

theorem tc_eq_of_small {k : ℤ} {l : List Int} {p : Nat} (hl : clsA (m + 1) k l)
    (hg : ∀ g ∈ Om k p (vec m l), g 0 ≤ k) :
    tc m k p l = ∑ g ∈ Om k p (vec m l), Finsupp.single (lab g) 1 := by
  rw [tc, if_pos hl, Finset.filter_true_of_mem hg]

theorem tq_eq_of_small {k : ℤ} {l : List Int} {p : Nat} (hl : clsA (m + 1) k l)
    (hg : ∀ g ∈ Om k p (vec m l), g 0 ≤ k) : tq m k p l = tc m k p l := by
  rw [tc_eq_of_small hl hg, tq, if_pos hl]
  apply Finset.sum_congr rfl
  intro g h
  rw [Pi1, if_pos (hg g h)]

theorem tc_step {k : ℤ} (p : Int) (l : List Int) (h : clsA (m + 1) k (p :: l)) :
    ∀ mu ∈ (tc m k p.toNat l - Finsupp.single (p :: l) 1).support,
      clsA (m + 1) k mu ∧ measA k mu < measA k (p :: l) := by
  classical
  obtain ⟨h1, h2, h3, h4, h5, h6⟩ := stepA h
  rw [tc_eq_of_small h3 h5, ← Finset.sum_erase_add _ _ (vec_mem_Om h), lab_vec' h, add_sub_cancel_right]
  apply sum_support
  intro g hg l' hl'
  rw [Finset.mem_erase] at hg
  have := Finset.mem_singleton.1 (Finsupp.support_single_subset hl')
  rw [this]
  exact h6 g hg.2 hg.1

/-- The classical Pieri system of `Gr(m+1, n)`. -/
noncomputable def sysC (m : Nat) {k n : ℤ} (hk : 0 ≤ k) (hn : n = m + 1 + k) :
    GSys (fun i l => pieriA i l k n) k.toNat (clsA (m + 1) k) where
  t := tc m k
  closed := tc_closed hk
  ret p l _ _ hl := pieriA_ret hk hn hl p
  comm a b l _ _ _ _ := tc_comm hk a b l
  meas := measA k
  red l hl := hl.1
  step p l hl := by
    obtain ⟨h1, h2, h3, h4, h5, h6⟩ := stepA hl
    exact ⟨h1, by omega, h3, h4, tc_step p l hl⟩

/-- The quantum Pieri system of `Gr(m+1, n)`. -/
noncomputable def sysQ (m : Nat) {k n : ℤ} (hk : 0 ≤ k) (hn : n = m + 1 + k) :
    GSys (fun i l => qpieriA i l k n) k.toNat (clsA (m + 1) k) where
  t := tq m k
  closed := tq_closed hk
  ret p l h1 h2 hl := qpieriA_ret (by omega) hn hl p h1 (by omega)
  comm a b l _ _ _ _ := tq_comm hk a b l
  meas := measA k
  red l hl := hl.1
  step p l hl := by
    obtain ⟨h1, h2, h3, h4, h5, h6⟩ := stepA hl
    refine ⟨h1, by omega, h3, h4, ?_⟩
    rw [tq_eq_of_small h3 h5]
    exact tc_step p l hl

theorem measA_lt {k : ℤ} (hk : 0 ≤ k) {l : List Int} (hl : clsA (m + 1) k l) :
    measA k l < (m + 1) * (k.toNat * (k.toNat + 1)) + k.toNat + 1 := by
  have hB := boxV_vec hk hl
  have h1 : l.sum ≤ (m + 1) * k := by
    rw [← vec_sum hl.1 hl.2.1]
    calc ∑ i, vec m l i ≤ ∑ _i : Fin (m + 1), k := Finset.sum_le_sum (fun i _ => hB.le i)
      _ = (m + 1) * k := by simp
  have h2 := hl.1.isPartition.part_nonneg 0
  unfold measA
  obtain ⟨k, rfl⟩ := Int.eq_ofNat_of_zero_le hk
  simp only [Int.toNat_natCast]
  have h3 : l.sum * ((k : ℤ) + 1) ≤ (m + 1) * k * (k + 1) := by nlinarith
  have h4 : ((m + 1 : ℕ) * (k * (k + 1)) + k + 1 : ℕ) = ((m + 1) * k * (k + 1) + k + 1 : ℤ) := by push_cast; ring
  omega

end Verif
