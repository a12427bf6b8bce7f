import Verif.Props.BruhatQO
/-!
# C150: the smallest powers of q on IG(m,2n) and OG(m,2n+1)
-/

namespace Verif
open Spec

/-- the product `w` has a term with `q^e` for some `e` up to `d` -/
def Spec.HasQ (d : ℕ) (w : Poly) : Prop := ∃ e ≤ d, ∃ nu, coeffOf (List.replicate e .q ++ [.S nu]) w ≠ 0

theorem topLeQ_succ {d : ℕ} {k : Int} {l nu : List Int} (hl : IsPartition l) (h : topLeQ d k l nu) : topLeQ (d + 1) k l nu := by
  intro i hi
  have h1 : part l (i + (d + 1)) ≤ part l (i + d) := hl.part_anti (by omega)
  exact h1.trans (h i (by omega))

/-- **C150**, `m < n`: for even `d` the products of the same two classes on `IG(m,2n)` and `OG(m,2n+1)` have terms with `q^e`, `e ≤ d`, at the same time.
For every `d`, such terms on `OG(m,2n+1)` imply such terms on `IG(m,2n)`, and these imply terms on `OG(m,2n+1)` with `e ≤ d + 1`. -/
theorem C150_compare (ord ord' : List Int → List Int) {m n : Int} (h0 : 0 < m) (hmn : m < n) {X Y : Space} (hX : mkIG m (2 * n) = .ok X)
    (hY : mkOG m (2 * n + 1) = .ok Y) {fuel : ℕ} (hf : giamBoundBC m n ≤ fuel) {l mu : List Int} (hl : BCClass m n l) (hm : BCClass m n mu) :
    ∃ w v, X.qmult ord fuel (Poly.sym (.S l)) (Poly.sym (.S mu)) = .ok w ∧ Y.qmult ord' fuel (Poly.sym (.S l)) (Poly.sym (.S mu)) = .ok v ∧
      (∀ d, Even d → (HasQ d v ↔ HasQ d w)) ∧ ∀ d, (HasQ d v → HasQ d w) ∧ (HasQ d w → HasQ (d + 1) v) := by
  obtain ⟨l', mu', w, a1, a2, a3, a4, _⟩ := C146_smallest_power ord hX hf hl hm
  obtain ⟨l'', mu'', v, b1, b2, b3, b4, _⟩ := C148_smallest_power ord' h0 hmn hY hf hl hm
  have hlp : IsPartition l := hl.1.isPartition
  have hmp : IsPartition mu := hm.1.isPartition
  obtain ⟨a, k, h, rfl, rfl, rfl⟩ := ogCase' h0 hmn.le hY
  obtain ⟨a', k', h', e1, e2, rfl⟩ := igCase hX
  obtain rfl : a = a' := by omega
  obtain rfl : k = k' := by omega
  rw [bcClass_eq h.le] at hl hm
  rw [(dualize_dlBC h.le l hl).1] at a1
  rw [(dualize_dlBC h.le mu hm).1] at a2
  rw [(dualize_dlBC h.le l hl).2] at b1
  rw [(dualize_dlBC h.le mu hm).2] at b2
  obtain rfl := Except.ok.inj a1
  obtain rfl := Except.ok.inj a2
  obtain rfl := Except.ok.inj b1
  obtain rfl := Except.ok.inj b2
  have he : ∀ d, Even d → (HasQ d v ↔ HasQ d w) := by
    intro d hd
    unfold HasQ
    rw [a4 d, b4 d]
    constructor
    · exact fun g => ⟨g.1, g.2.1⟩
    · exact fun g => ⟨g.1, g.2, fun ho => absurd hd (Nat.not_even_iff_odd.2 ho)⟩
  refine ⟨w, v, a3, b3, he, fun d => ⟨fun g => ?_, fun g => ?_⟩⟩
  · have := (b4 d).1 g
    exact (a4 d).2 ⟨this.1, this.2.1⟩
  · rcases Nat.even_or_odd d with hd | hd
    · obtain ⟨e, h1, h2⟩ := (he d hd).2 g
      exact ⟨e, by omega, h2⟩
    · obtain ⟨g1, g2⟩ := (a4 d).1 g
      exact (he (d + 1) hd.add_one).2 ((a4 (d + 1)).2 ⟨topLeQ_succ hlp g1, topLeQ_succ hmp g2⟩)

/-- **C150**, `m = n`: terms with `q^e`, `e ≤ d`, on `OG(n,2n+1)` correspond to terms with `q^e`, `e ≤ 2*d`, on `IG(n,2n)`. -/
theorem C150_compare_max (ord ord' : List Int → List Int) {n : Int} (hn : 0 < n) {X Y : Space} (hX : mkIG n (2 * n) = .ok X)
    (hY : mkOG n (2 * n + 1) = .ok Y) {fuel : ℕ} (hf : giamBoundBC n n ≤ fuel) {l mu : List Int} (hl : BCClass n n l) (hm : BCClass n n mu) :
    ∃ w v, X.qmult ord fuel (Poly.sym (.S l)) (Poly.sym (.S mu)) = .ok w ∧ Y.qmult ord' fuel (Poly.sym (.S l)) (Poly.sym (.S mu)) = .ok v ∧
      ∀ d, HasQ d v ↔ HasQ (2 * d) w := by
  obtain ⟨mu', w, a2, a3, a4, _⟩ := C147_IG ord hX hf hl hm
  obtain ⟨mu'', v, b2, b3, b4, _⟩ := C147_OG_odd ord' hn hY hf hl hm
  obtain ⟨a, k, h, rfl, hk, rfl⟩ := ogCase' hn le_rfl hY
  obtain ⟨a', k', h', e1, e2, rfl⟩ := igCase hX
  obtain rfl : a = a' := by omega
  obtain rfl : k = k' := by omega
  obtain rfl : k = 0 := by omega
  have e1 := bcClass_eq (Nat.zero_le a)
  simp only [Nat.cast_zero, sub_zero] at e1
  rw [e1] at hm
  rw [(dualize_dlBC h.le mu hm).1] at a2
  rw [(dualize_dlBC h.le mu hm).2] at b2
  obtain rfl := Except.ok.inj a2
  obtain rfl := Except.ok.inj b2
  exact ⟨w, v, a3, b3, fun d => (b4 d).trans (a4 (2 * d)).symm⟩

/-- the classes `S[3]`, `S[4,3]` on `IG(2,6)` and `OG(2,7)`: the powers `q` and `q^2` -/
example : mkIG 2 (2 * 3) = .ok ⟨.C, 1, 3⟩ ∧ mkOG 2 (2 * 3 + 1) = .ok ⟨.B, 1, 3⟩ ∧ giamBoundBC 2 3 ≤ 60 ∧ BCClass 2 3 [3] ∧ BCClass 2 3 [4, 3] ∧
    (Space.mk .C 1 3).qmult id 60 (Poly.sym (.S [3])) (Poly.sym (.S [4, 3])) = .ok [([.q, .S [3, 2]], 1), ([.q, .S [4, 1]], 1)] ∧
    (Space.mk .B 1 3).qmult id 60 (Poly.sym (.S [3])) (Poly.sym (.S [4, 3])) = .ok [([.q, .q, .S [2]], 2)] := by decide +kernel

/-- the classes `S[3,2]`, `S[3,2,1]` on `IG(3,6)` and `OG(3,7)`: the powers `q^2` and `q` -/
example : mkIG 3 (2 * 3) = .ok ⟨.C, 0, 3⟩ ∧ mkOG 3 (2 * 3 + 1) = .ok ⟨.B, 0, 3⟩ ∧ giamBoundBC 3 3 ≤ 60 ∧ BCClass 3 3 [3, 2] ∧ BCClass 3 3 [3, 2, 1] ∧
    (Space.mk .C 0 3).qmult id 60 (Poly.sym (.S [3, 2])) (Poly.sym (.S [3, 2, 1])) = .ok [([.q, .q, .S [3]], 1)] ∧
    (Space.mk .B 0 3).qmult id 60 (Poly.sym (.S [3, 2])) (Poly.sym (.S [3, 2, 1])) = .ok [([.q, .S [3, 2]], 1)] := by decide +kernel

end Verif
