import Verif.Props.BruhatQ
import Verif.Props.BruhatQO
import Verif.Props.DualBC
import Verif.Proofs.DualQA
/-!
# C149: the largest of the smallest powers of q
-/

namespace Verif
open Spec

theorem part_staircase {a b : ℕ} (h : b ≤ a) {i : ℕ} (hi : i < a - b) : part (dlBC a b []) i = a + b - i := by
  rw [(pointClass_BC h).1]
  simp only [Space.pointClass, pyRange, List.map_map]
  unfold part
  rw [List.getD_eq_getElem _ _ (by simp; omega)]
  simp

theorem bc_rows {a k : ℕ} (h : k ≤ a) {l : List Int} (hl : clsBC a k l) : l.length ≤ a - k := by
  rw [← bcClass_eq h] at hl
  have := hl.2.2.1
  omega

theorem topLeQ_rows {k : Int} (hk : 0 ≤ k) {d : ℕ} {l nu : List Int} (h : l.length ≤ d) : topLeQ d k l nu := by
  intro i hi
  rw [part_of_ge (by omega)] at hi
  omega

theorem not_topLeQ_pt {a k d : ℕ} (h : k ≤ a) (hd : d < a - k) : ¬ topLeQ d k (dlBC a k []) [] := by
  intro h1
  have e := part_staircase h hd
  have := h1 0 (by rw [zero_add, e]; omega)
  rw [zero_add, e, part_of_ge (by simp)] at this
  omega

/-- **C149**, type C: every quantum product of two classes of `IG(m,2n)` has a term with `q^e` for some `e` up to `m`, and the square of the class of a
point has only terms with `q^e` for `e` at least `m`. -/
theorem C149_IG (ord : List Int → List Int) {m n : Int} {X : Space} (hX : mkIG m (2 * n) = .ok X) {fuel : ℕ} (hf : giamBoundBC m n ≤ fuel) :
    (∀ l mu, BCClass m n l → BCClass m n mu → ∃ w, X.qmult ord fuel (Poly.sym (.S l)) (Poly.sym (.S mu)) = .ok w ∧
      ∃ e : ℕ, e ≤ m ∧ ∃ nu, coeffOf (List.replicate e .q ++ [.S nu]) w ≠ 0) ∧
    ∃ w, X.qmult ord fuel (Poly.sym (.S X.pointClass)) (Poly.sym (.S X.pointClass)) = .ok w ∧
      ∀ (e : ℕ) nu, coeffOf (List.replicate e .q ++ [.S nu]) w ≠ 0 → m ≤ e := by
  obtain ⟨a, k, h, rfl, rfl, rfl⟩ := igCase hX
  constructor
  · intro l mu hl hm
    obtain ⟨l', mu', w, _, _, h3, h4, _⟩ := C146_smallest_power ord hX hf hl hm
    rw [bcClass_eq h] at hl hm
    refine ⟨w, h3, ?_⟩
    obtain ⟨e, he, nu, hnu⟩ := (h4 (a - k)).2 ⟨topLeQ_rows (by omega) (bc_rows h hl), topLeQ_rows (by omega) (bc_rows h hm)⟩
    exact ⟨e, by omega, nu, hnu⟩
  · have hp : clsBC a k (dlBC a k []) := dlBC_cls h _ (clsBC_nil h)
    rw [← (pointClass_BC h).1]
    obtain ⟨l', mu', w, _, h2, h3, h4, _⟩ := C146_smallest_power ord hX hf (l := dlBC a k []) (mu := dlBC a k []) (by rw [bcClass_eq h]; exact hp)
      (by rw [bcClass_eq h]; exact hp)
    rw [(dualize_dlBC h _ hp).1, dlBC_dlBC h _ (clsBC_nil h)] at h2
    obtain rfl := Except.ok.inj h2
    refine ⟨w, h3, fun e nu hnu => ?_⟩
    have h5 := ((h4 e).1 ⟨e, le_rfl, nu, hnu⟩).1
    rw [show (a : ℤ) - (a - k) = k by ring] at h5
    by_contra hc
    exact not_topLeQ_pt h (by omega) h5

/-- **C149**, type B with `m < n`: on `OG(m,2n+1)` the number is `m` for even `m`, and `m + 1` for odd `m`. -/
theorem C149_OG (ord : List Int → List Int) {m n : Int} (h0 : 0 < m) (hmn : m < n) {X : Space} (hX : mkOG m (2 * n + 1) = .ok X) {fuel : ℕ}
    (hf : giamBoundBC m n ≤ fuel) :
    (∀ l mu, BCClass m n l → BCClass m n mu → ∃ w, X.qmult ord fuel (Poly.sym (.S l)) (Poly.sym (.S mu)) = .ok w ∧
      ∃ e : ℕ, e ≤ m + m % 2 ∧ ∃ nu, coeffOf (List.replicate e .q ++ [.S nu]) w ≠ 0) ∧
    ∃ w, X.qmult ord fuel (Poly.sym (.S X.pointClass)) (Poly.sym (.S X.pointClass)) = .ok w ∧
      ∀ (e : ℕ) nu, coeffOf (List.replicate e .q ++ [.S nu]) w ≠ 0 → m + m % 2 ≤ e := by
  obtain ⟨a, k, h, rfl, rfl, rfl⟩ := ogCase' h0 hmn.le hX
  constructor
  · intro l mu hl hm
    obtain ⟨l', mu', w, _, _, h3, h4, _⟩ := C148_smallest_power ord h0 hmn hX hf hl hm
    rw [bcClass_eq h.le] at hl hm
    refine ⟨w, h3, ?_⟩
    have r1 := bc_rows h.le hl
    have r2 := bc_rows h.le hm
    obtain ⟨e, he, nu, hnu⟩ := (h4 ((a - k) + (a - k) % 2)).2 ⟨topLeQ_rows (by omega) (by omega), topLeQ_rows (by omega) (by omega),
      fun ho => by rw [Nat.odd_iff] at ho; omega⟩
    exact ⟨e, by omega, nu, hnu⟩
  · have hp : clsBC a k (dlBC a k []) := dlBC_cls h.le _ (clsBC_nil h.le)
    rw [← (pointClass_BC h.le).2]
    obtain ⟨l', mu', w, h1, h2, h3, h4, _⟩ := C148_smallest_power ord h0 hmn hX hf (l := dlBC a k []) (mu := dlBC a k [])
      (by rw [bcClass_eq h.le]; exact hp) (by rw [bcClass_eq h.le]; exact hp)
    rw [(dualize_dlBC h.le _ hp).2, dlBC_dlBC h.le _ (clsBC_nil h.le)] at h1 h2
    obtain rfl := Except.ok.inj h1
    obtain rfl := Except.ok.inj h2
    refine ⟨w, h3, fun e nu hnu => ?_⟩
    obtain ⟨h5, _, h6⟩ := (h4 e).1 ⟨e, le_rfl, nu, hnu⟩
    rw [show (a : ℤ) - (a - k) = k by ring] at h5 h6
    by_contra hc
    by_cases he : e < a - k
    · exact not_topLeQ_pt h.le he h5
    · refine h6 (by rw [Nat.odd_iff]; omega) ?_
      have hr : rowsAbove (2 * k : ℤ) (dlBC a k []) = a - k := by
        refine rowsAbove_eq (by omega) (fun i => ?_)
        by_cases hi : i < a - k
        · rw [part_staircase h.le hi]
          omega
        · rw [part_of_ge (by have := bc_rows h.le hp; omega)]
          omega
      have h0' : rowsAbove (2 * k : ℤ) [] = 0 := rfl
      exact ⟨2 * k, by omega, by omega, by rw [hr, h0']; omega, by rw [hr, h0']; omega, by rw [hr, h0']; omega⟩

/-- **C149**, the spaces `OG(n,2n+1)`: the number is half of `n`, rounded up. -/
theorem C149_OG_max (ord : List Int → List Int) {n : Int} (hn : 0 < n) {X : Space} (hX : mkOG n (2 * n + 1) = .ok X) {fuel : ℕ}
    (hf : giamBoundBC n n ≤ fuel) :
    (∀ l mu, BCClass n n l → BCClass n n mu → ∃ w, X.qmult ord fuel (Poly.sym (.S l)) (Poly.sym (.S mu)) = .ok w ∧
      ∃ e : ℕ, e ≤ (n + 1) / 2 ∧ ∃ nu, coeffOf (List.replicate e .q ++ [.S nu]) w ≠ 0) ∧
    ∃ w, X.qmult ord fuel (Poly.sym (.S X.pointClass)) (Poly.sym (.S X.pointClass)) = .ok w ∧
      ∀ (e : ℕ) nu, coeffOf (List.replicate e .q ++ [.S nu]) w ≠ 0 → (n + 1) / 2 ≤ e := by
  obtain ⟨a, k, h, rfl, hk, rfl⟩ := ogCase' hn le_rfl hX
  obtain rfl : k = 0 := by omega
  have e1 := bcClass_eq (Nat.zero_le a)
  simp only [Nat.cast_zero, sub_zero] at e1
  constructor
  · intro l mu hl hm
    obtain ⟨mu', w, h2, h3, h4, _⟩ := C147_OG_odd ord hn hX hf hl hm
    rw [e1] at hl hm
    have r1 := bc_rows h.le hl
    rw [(dualize_dlBC h.le _ hm).2] at h2
    obtain rfl := Except.ok.inj h2
    obtain ⟨e, he, nu, hnu⟩ := (h4 ((a + 1) / 2)).2 (fun i => by
      rw [part_of_ge (by omega)]
      exact (dlBC_cls h.le mu hm).2.isPart.part_nonneg i)
    exact ⟨w, h3, e, by omega, nu, hnu⟩
  · have hp : clsBC a 0 (dlBC a 0 []) := dlBC_cls h.le _ (clsBC_nil h.le)
    have hpt := (pointClass_BC h.le).2
    simp only [Nat.cast_zero] at hpt ⊢
    rw [← hpt]
    obtain ⟨mu', w, h2, h3, h4, _⟩ := C147_OG_odd ord hn hX hf (l := dlBC a 0 []) (mu := dlBC a 0 []) (by rw [e1]; exact hp) (by rw [e1]; exact hp)
    rw [(dualize_dlBC h.le _ hp).2, dlBC_dlBC h.le _ (clsBC_nil h.le)] at h2
    obtain rfl := Except.ok.inj h2
    refine ⟨w, h3, fun e nu hnu => ?_⟩
    have h5 := (h4 e).1 ⟨e, le_rfl, nu, hnu⟩ 0
    by_contra hc
    rw [zero_add, part_staircase h.le (by omega), part_of_ge (by simp)] at h5
    omega

/-- **C149**, type A: on `Gr(m,n)` the number is the smaller one of `m` and `n - m`. -/
theorem C149_Gr {m : ℕ} {n : ℤ} {X : Space} (hm : 1 ≤ m) (hX : mkGr m n = .ok X) {fuel : ℕ} (hf : giamBound m n ≤ fuel) :
    (∀ l mu, GrClass m n l → GrClass m n mu → ∃ w, Gr.qmult X fuel (Poly.sym (.S l)) (Poly.sym (.S mu)) = .ok w ∧
      ∃ e : ℕ, (e : ℤ) ≤ min (m : ℤ) (n - m) ∧ ∃ nu, coeffOf (List.replicate e .q ++ [.S nu]) w ≠ 0) ∧
    ∃ w, Gr.qmult X fuel (Poly.sym (.S X.pointClass)) (Poly.sym (.S X.pointClass)) = .ok w ∧
      ∀ (e : ℕ) nu, coeffOf (List.replicate e .q ++ [.S nu]) w ≠ 0 → min (m : ℤ) (n - m) ≤ (e : ℤ) := by
  obtain ⟨m, rfl⟩ : ∃ m', m = m' + 1 := ⟨m - 1, by omega⟩
  obtain ⟨hX', h0, h1⟩ := mkGr_ok hX
  constructor
  · intro l mu hl hmu
    obtain ⟨w, mu', g1, g2, g3, _⟩ := C144_smallest_power hm hX hf hl hmu
    obtain ⟨_, d1, d2, _⟩ := C12_dualize_A _ _ X hX mu hmu.1 (by simpa using hmu.2)
    rw [g2] at d1
    obtain rfl := Except.ok.inj d1
    have hin : InsideQ (min (m + 1) (n - (m + 1 : ℕ)).toNat) l mu' := by
      intro i
      have hn := d2.isPartition.part_nonneg i
      rcases le_total (m + 1) (n - (m + 1 : ℕ)).toNat with hc | hc
      · rw [min_eq_left hc, part_of_ge (by have := hl.2.1; omega)]
        omega
      · rw [min_eq_right hc]
        have : part l (i + (n - (m + 1 : ℕ)).toNat) ≤ n - (m + 1 : ℕ) := by
          by_cases hi : i + (n - (m + 1 : ℕ)).toNat < l.length
          · rw [part_of_lt hi]; exact hl.2.2 _ (List.getElem_mem hi)
          · rw [part_of_ge (by omega)]; omega
        omega
    obtain ⟨e, he, nu, hnu⟩ := (g3 _).2 hin
    exact ⟨w, g1, e, by omega, nu, hnu⟩
  · have hp : GrClass (m + 1) n X.pointClass := by
      have := C37_point_A _ n X hX
      exact ⟨this.1, by simpa using this.2.1⟩
    obtain ⟨w, mu', g1, g2, g3, _⟩ := C144_smallest_power hm hX hf hp hp
    rw [dualize_dualC hX hp, pointClass_A hX, dualC_dualC (grClass_nil (m := m + 1) (n := n))] at g2
    obtain rfl := Except.ok.inj g2
    refine ⟨w, g1, fun e nu hnu => ?_⟩
    have h5 := (g3 e).1 ⟨e, le_rfl, nu, hnu⟩ 0
    by_contra hc
    have e1 : part X.pointClass e = n - (m + 1 : ℕ) := by
      subst hX'
      simp only [Space.pointClass]
      rw [if_pos (by omega)]
      unfold part rep
      rw [List.getD_eq_getElem _ _ (by simp; omega)]
      simp
    rw [zero_add, e1, part_of_ge (by simp)] at h5
    omega

/-- on `IG(2,6)` and `OG(2,7)`, where `m = 2`, and on the quadric `OG(1,7)`: the squares of the classes of the points -/
example : mkIG 2 (2 * 3) = .ok ⟨.C, 1, 3⟩ ∧ (Space.mk .C 1 3).pointClass = [4, 3] ∧
    (Space.mk .C 1 3).qmult id 60 (Poly.sym (.S [4, 3])) (Poly.sym (.S [4, 3])) = .ok [([.q, .q, .S [3, 1]], 1)] ∧
    mkOG 2 (2 * 3 + 1) = .ok ⟨.B, 1, 3⟩ ∧ (Space.mk .B 1 3).pointClass = [4, 3] ∧
    (Space.mk .B 1 3).qmult id 60 (Poly.sym (.S [4, 3])) (Poly.sym (.S [4, 3])) = .ok [([.q, .q, .S [4, 2]], 2)] ∧
    mkOG 1 (2 * 3 + 1) = .ok ⟨.B, 2, 3⟩ ∧ (Space.mk .B 2 3).pointClass = [5] ∧
    (Space.mk .B 2 3).qmult id 60 (Poly.sym (.S [5])) (Poly.sym (.S [5])) = .ok [([.q, .q, .S []], 1)] := by decide +kernel

/-- on `OG(3,7)` and on `Gr(2,5)`: the squares of the classes of the points -/
example : mkOG 3 (2 * 3 + 1) = .ok ⟨.B, 0, 3⟩ ∧ (Space.mk .B 0 3).pointClass = [3, 2, 1] ∧
    (Space.mk .B 0 3).qmult id 90 (Poly.sym (.S [3, 2, 1])) (Poly.sym (.S [3, 2, 1])) = .ok [([.q, .q, .S []], 1)] ∧
    mkGr 2 5 = .ok ⟨.A, 3, 5⟩ ∧ (Space.mk .A 3 5).pointClass = [3, 3] ∧
    Gr.qmult ⟨.A, 3, 5⟩ 28 (Poly.sym (.S [3, 3])) (Poly.sym (.S [3, 3])) = .ok [([.q, .q, .S [1, 1]], 1)] := by decide +kernel

end Verif
