import Verif.Proofs.PieriA
import Verif.Proofs.Poly
import Verif.Proofs.IndexA
/-! # Value of `pieriA` and `qpieriA` as sums over horizontal strips -/

namespace Verif
open Spec MvPolynomial

/-- value of a list of classes -/
noncomputable def clsSum (L : List (List Int)) : P := (L.map (fun l => X (Sym.S l))).sum

@[simp] theorem clsSum_nil : clsSum [] = 0 := rfl
@[simp] theorem clsSum_cons (l : List Int) (L : List (List Int)) :
    clsSum (l :: L) = X (Sym.S l) + clsSum L := by simp [clsSum]

theorem pieriLoopA_runs {inner outer : List Int} {step : List Int → Option (List Int)} {mu : List Int}
    {L : List (List Int)} (r : Runs step mu L) (h : ∀ u ∈ L, pieriItrA u inner outer = step u)
    (fuel : Nat) (hf : L.length < fuel) (res : Poly) (hres : WF res) :
    Returns (pieriLoopA inner outer fuel (some mu) res) (clsSum (L.map partClip) + den res) := by
  induction r generalizing fuel res with
  | @last x hx =>
    obtain ⟨f, rfl⟩ : ∃ f, fuel = f + 2 := ⟨fuel - 2, by simp at hf; omega⟩
    have h1 := h x (by simp)
    refine ⟨_, ?_, wf_add (wf_sym (.S (partClip x))).sorted hres, ?_⟩
    · simp only [pieriLoopA, h1, hx]
    · rw [den_add, den_sym]; simp
  | @cons x y L hx r ih =>
    obtain ⟨f, rfl⟩ : ∃ f, fuel = f + 1 := ⟨fuel - 1, by simp at hf; omega⟩
    have h1 := h x (by simp)
    obtain ⟨w, hw, hw', hw''⟩ := ih (fun u hu => h u (by simp [hu])) f (by simp at hf; omega)
      (Poly.add (Poly.sym (.S (partClip x))) res) (wf_add (wf_sym (.S (partClip x))).sorted hres)
    refine ⟨w, ?_, hw', ?_⟩
    · simp only [pieriLoopA, h1, hx, hw]
    · rw [hw'', den_add, den_sym, List.map_cons, clsSum_cons]; ring

/-- the bounds of a horizontal strip on `lam` with first part at most `c` -/
def stripB (c : Int) (lam : List Int) : Bnd := List.zip lam (c :: lam.dropLast)

/-- horizontal strips of size `p` on `lam`, same number of entries, first entry at most `c` -/
def strips (c : Int) (p : Nat) (lam : List Int) : List (List Int) := enumS (stripB c lam) p

theorem stripB_fst (c : Int) {lam : List Int} (h : lam ≠ []) : (stripB c lam).map Prod.fst = lam := by
  unfold stripB
  rw [List.map_fst_zip]
  simp
  have := List.length_pos_of_ne_nil h
  omega

theorem stripB_snd (c : Int) {lam : List Int} (h : lam ≠ []) :
    (stripB c lam).map Prod.snd = c :: lam.dropLast := by
  unfold stripB
  rw [List.map_snd_zip]
  simp
  have := List.length_pos_of_ne_nil h
  omega

theorem stripB_cons (c x : Int) (lam : List Int) : stripB c (x :: lam) = (x, c) :: stripB x lam := by
  cases lam with
  | nil => rfl
  | cons y lam => simp [stripB]

theorem stripB_length (c : Int) (lam : List Int) : (stripB c lam).length = lam.length := by
  induction lam generalizing c with
  | nil => rfl
  | cons x lam ih => rw [stripB_cons]; simp [ih]

theorem stripB_chain {c : Int} {lam : List Int} (hd : lam.Pairwise (· ≥ ·)) (hc : ∀ x ∈ lam, x ≤ c) :
    ChainOK c (stripB c lam) := by
  induction lam generalizing c with
  | nil => trivial
  | cons x lam ih =>
    rw [stripB_cons]
    obtain ⟨h1, h2⟩ := List.pairwise_cons.1 hd
    exact ⟨le_refl _, hc x (by simp), ih h2 h1⟩

theorem stripB_btw (c : Int) (lam mu : List Int) :
    Btw (stripB c lam) mu ↔ mu.length = lam.length ∧ (∀ i < lam.length, part lam i ≤ part mu i) ∧
      (∀ i, i + 1 < lam.length → part mu (i + 1) ≤ part lam i) ∧ (lam ≠ [] → part mu 0 ≤ c) := by
  induction lam generalizing c mu with
  | nil =>
    simp only [stripB, List.zip_nil_left, Btw, List.forall₂_nil_left_iff]
    constructor
    · rintro rfl; simp
    · rintro ⟨h, _⟩; simpa using h
  | cons x lam ih =>
    rw [stripB_cons]
    constructor
    · intro h
      cases h with
      | @cons _ y _ mu h1 h2 =>
        obtain ⟨e1, e2, e3, e4⟩ := (ih x mu).1 h2
        simp at h1
        refine ⟨by simp [e1], ?_, ?_, fun _ => h1.2⟩
        · intro i hi
          cases i with
          | zero => exact h1.1
          | succ i => exact e2 i (by simpa using hi)
        · intro i hi
          cases i with
          | zero =>
            simp only [part_cons_succ, part_cons_zero]
            exact e4 (by rintro rfl; simp at hi)
          | succ i => exact e3 i (by simpa using hi)
    · rintro ⟨e1, e2, e3, e4⟩
      cases mu with
      | nil => simp at e1
      | cons y mu =>
        refine List.Forall₂.cons ⟨e2 0 (by simp), e4 (by simp)⟩ ((ih x mu).2 ⟨by simpa using e1, ?_, ?_, ?_⟩)
        · intro i hi; exact e2 (i + 1) (by simpa using hi)
        · intro i hi; exact e3 (i + 1) (by simpa using hi)
        · intro hne
          exact e3 0 (by simpa using List.length_pos_of_ne_nil hne)

theorem mem_strips {c : Int} {lam : List Int} (hne : lam ≠ []) (hd : lam.Pairwise (· ≥ ·))
    (hc : ∀ x ∈ lam, x ≤ c) (p : Nat) (mu : List Int) :
    mu ∈ strips c p lam ↔ mu.length = lam.length ∧ (∀ i < lam.length, part lam i ≤ part mu i) ∧
      (∀ i, i + 1 < lam.length → part mu (i + 1) ≤ part lam i) ∧ part mu 0 ≤ c ∧
      mu.sum = lam.sum + p := by
  unfold strips
  rw [mem_enumS (stripB_chain hd hc).valid, stripB_btw, exc, stripB_fst c hne]
  constructor
  · rintro ⟨⟨h1, h2, h3, h4⟩, h5⟩; exact ⟨h1, h2, h3, h4 hne, by omega⟩
  · rintro ⟨h1, h2, h3, h4, h5⟩; exact ⟨⟨h1, h2, h3, fun _ => h4⟩, by omega⟩

theorem strips_nodup (c : Int) (p : Nat) (lam : List Int) : (strips c p lam).Nodup := enumS_nodup _ _

/-- `pieriA` on a padded partition. -/
theorem pieriA_strips {k n : Int} {lam inner : List Int} (p : Nat)
    (hin : inner = lam ++ rep 0 (n - k - lam.length)) (hne : inner ≠ []) (hd : inner.Pairwise (· ≥ ·))
    (hk : ∀ x ∈ inner, x ≤ k) :
    Returns (pieriA p lam k n) (clsSum ((strips k p inner).map partClip)) := by
  unfold pieriA
  simp only [← hin]
  have hc := stripB_chain hd hk
  have hf := stripB_fst k hne
  have hs := stripB_snd k hne
  have hbne : stripB k inner ≠ [] := by
    intro h; rw [h] at hf; simp at hf; exact hne hf
  have hfill := pieriFillA_zero (stripB k inner) inner hbne k (stripB_length k inner).symm hc p (by omega)
  rw [hf, hs] at hfill
  rw [hfill]
  have hfuel : (strips k p inner).length < pieriFuelA inner (k :: inner.dropLast) := by
    unfold pieriFuelA
    rcases enumS_length_le (stripB k inner) p with h | h
    · exact Nat.lt_succ_of_le h
    · exact absurd hc.valid h
  by_cases hp : (p : Int) ≤ capSum (stripB k inner)
  · rw [if_pos hp]
    have := pieriLoopA_runs (inner := inner) (outer := k :: inner.dropLast)
      (stepS_runs hc.valid p hp) (by
        intro u hu
        have := pieriItrA_eq k (stripB k inner) u hbne hc ((mem_enumS hc.valid _ _).1 hu).1
        rwa [hf, hs] at this) _ hfuel [] wf_nil
    simpa [strips] using this
  · rw [if_neg hp]
    have he : strips k p inner = [] := enumS_empty hc.valid (by omega)
    rw [he]
    refine ⟨[], ?_, wf_nil, by simp⟩
    unfold pieriFuelA
    rfl

/-! ### Padding -/

/-- `l` padded with zeros to `m` entries -/
def pad (m : Nat) (l : List Int) : List Int := l ++ List.replicate (m - l.length) 0

theorem pad_length {m : Nat} {l : List Int} (h : l.length ≤ m) : (pad m l).length = m := by
  simp [pad]; omega

@[simp] theorem part_pad (m : Nat) (l : List Int) (i : Nat) : part (pad m l) i = part l i :=
  part_append_zeros l _ i

@[simp] theorem pad_sum (m : Nat) (l : List Int) : (pad m l).sum = l.sum := by simp [pad]

theorem partClip_pad (m : Nat) (l : List Int) : partClip (pad m l) = partClip l := by
  rw [partClip_eq_iff]; intro i; simp

theorem ext_part {l l' : List Int} (hl : l.length = l'.length) (h : ∀ i < l.length, part l i = part l' i) :
    l = l' := by
  apply List.ext_getElem hl
  intro i h1 h2
  have := h i h1
  rwa [part_of_lt h1, part_of_lt h2] at this

theorem pad_partClip {m : Nat} {l : List Int} (h : l.length = m) : pad m (partClip l) = l := by
  apply ext_part
  · rw [pad_length (by have := partClip_length_le l; omega), h]
  · intro i _; rw [part_pad, part_partClip]

theorem pad_pairwise {m : Nat} {l : List Int} (h : IsPartition l) : IsPartition (pad m l) := by
  rw [isPartition_iff_part] at *
  intro i; simpa using h i

theorem pad_le {m : Nat} {l : List Int} {k : Int} (hk : 0 ≤ k) (h : ∀ x ∈ l, x ≤ k) :
    ∀ x ∈ pad m l, x ≤ k := by
  intro x hx
  rcases List.mem_append.1 hx with hx | hx
  · exact h x hx
  · rw [(List.mem_replicate.1 hx).2]; exact hk

/-- In-range partitions: facts used everywhere. -/
structure Box (m : Nat) (k : Int) (w : List Int) : Prop where
  len : w.length = m
  part : IsPartition w
  le : ∀ x ∈ w, x ≤ k

theorem Box.pad {m : Nat} {k : Int} {l : List Int} (hk : 0 ≤ k) (hl : IsPartition l) (hr : InRect l m k) :
    Box m k (pad m l) := ⟨pad_length hr.1, pad_pairwise hl, pad_le hk hr.2⟩

theorem Box.clip {m : Nat} {k : Int} {w : List Int} (h : Box m k w) :
    ReducedPart (partClip w) ∧ InRect (partClip w) m k :=
  ⟨h.part.partClip, by have := partClip_length_le w; have := h.len; omega,
    fun x hx => h.le x ((partClip_sublist w).mem hx)⟩

theorem rep_pad (m : Nat) (k n : Int) (hn : n = m + k) (l : List Int) :
    l ++ rep 0 (n - k - l.length) = pad m l := by
  unfold pad rep
  congr 2
  omega

theorem strips_box {m : Nat} {k : Int} {w mu : List Int} (hm : 1 ≤ m) (h : Box m k w) {p : Nat}
    (hmu : mu ∈ strips k p w) : Box m k mu := by
  have hne : w ≠ [] := by rintro rfl; have := h.len; simp at this; omega
  rw [mem_strips hne h.part.1 h.le] at hmu
  obtain ⟨h1, h2, h3, h4, h5⟩ := hmu
  have hw := h.len
  have hp : IsPartition mu := by
    rw [isPartition_iff_part]
    intro i
    by_cases hi : i + 1 < w.length
    · exact le_trans (h3 i hi) (h2 i (by omega))
    · rw [part_of_ge (by omega)]
      by_cases hi' : i < w.length
      · exact le_trans (h.part.part_nonneg i) (h2 i hi')
      · rw [part_of_ge (by omega)]
  refine ⟨by omega, hp, ?_⟩
  rw [forall_mem_iff_part]
  intro j _
  exact le_trans (hp.part_anti (Nat.zero_le j)) h4

theorem mem_clip_strips {m : Nat} {k : Int} {lam : List Int} (hm : 1 ≤ m) (hk : 0 ≤ k)
    (hl : IsPartition lam) (hr : InRect lam m k) (p : Nat) (mu : List Int) :
    mu ∈ (strips k p (pad m lam)).map partClip ↔
      ReducedPart mu ∧ InRect mu m k ∧ HorizontalStrip lam mu ∧ mu.sum = lam.sum + p := by
  have hb := Box.pad hk hl hr
  have hlen := hb.len
  have hne : pad m lam ≠ [] := by intro h; rw [h] at hlen; simp at hlen; omega
  rw [List.mem_map]
  constructor
  · rintro ⟨w, hw, rfl⟩
    have hbw := strips_box hm hb hw
    rw [mem_strips hne hb.part.1 hb.le] at hw
    obtain ⟨h1, h2, h3, h4, h5⟩ := hw
    refine ⟨hbw.clip.1, hbw.clip.2, ?_, by rw [partClip_sum, h5, pad_sum]⟩
    intro i
    rw [part_partClip, part_partClip]
    constructor
    · by_cases hi : i < m
      · simpa using h2 i (by omega)
      · rw [part_of_ge (by have := hr.1; omega)]; exact hbw.part.part_nonneg i
    · by_cases hi : i + 1 < m
      · simpa using h3 i (by omega)
      · rw [part_of_ge (by have := hbw.len; omega)]; exact hl.part_nonneg i
  · rintro ⟨h1, h2, h3, h4⟩
    refine ⟨pad m mu, ?_, ?_⟩
    · rw [mem_strips hne hb.part.1 hb.le]
      refine ⟨by rw [pad_length h2.1, hlen], ?_, ?_, ?_, by simp [h4]⟩
      · intro i _; simpa using (h3 i).1
      · intro i _; simpa using (h3 i).2
      · simpa using InRect.part_le h2 hk 0
    · rw [partClip_pad, partClip_of_noTrailing h1.noTrailing]

theorem clip_strips_nodup {c : Int} {p : Nat} {w : List Int} (hne : w ≠ []) (hd : w.Pairwise (· ≥ ·))
    (hc : ∀ x ∈ w, x ≤ c) : ((strips c p w).map partClip).Nodup := by
  rw [List.nodup_map_iff_inj_on (strips_nodup c p w)]
  intro x hx y hy h
  rw [mem_strips hne hd hc] at hx hy
  rw [← pad_partClip hx.1, ← pad_partClip hy.1, h]

/-- `pieriA` on a class. -/
theorem pieriA_value {m : Nat} {k n : Int} {lam : List Int} (hm : 1 ≤ m) (hk : 0 ≤ k) (hn : n = m + k)
    (hl : IsPartition lam) (hr : InRect lam m k) (p : Nat) :
    Returns (pieriA p lam k n) (clsSum ((strips k p (pad m lam)).map partClip)) := by
  have hb := Box.pad hk hl hr
  have hlen := hb.len
  exact pieriA_strips p (rep_pad m k n hn lam).symm (by intro h; rw [h] at hlen; simp at hlen; omega)
    hb.part.1 hb.le

end Verif
