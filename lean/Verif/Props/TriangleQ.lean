import Verif.Props.PointQ
import Verif.Props.PowersBC
/-!
# C151: the smallest powers of q satisfy the triangle inequality
-/

namespace Verif
open Spec

theorem topLeQ_trans {d e : ℕ} {k : Int} {a b c : List Int} (h1 : topLeQ d k a b) (h2 : topLeQ e k b c) : topLeQ (d + e) k a c := by
  intro i hi
  have h3 := h1 (i + e)
  rw [show i + e + d = i + (d + e) by omega] at h3
  have h4 := h3 hi
  exact h4.trans (h2 i (by omega))

/-- **C151**, `Gr(m,n)`: if `S[l]` times the dual of `S[nu]` has a term with `q^i`, `i ≤ d`, and `S[nu]*S[mu]` one with `q^i`, `i ≤ e`, then
`S[l]*S[mu]` has one with `q^i`, `i ≤ d + e`. -/
theorem C151_Gr {m : ℕ} {n : ℤ} {X : Space} (hm : 1 ≤ m) (hX : mkGr m n = .ok X) {fuel : ℕ} (hf : giamBound m n ≤ fuel)
    {l nu mu : List Int} (hl : GrClass m n l) (hn : GrClass m n nu) (hmu : GrClass m n mu) :
    ∃ nu' w1 w2 w3, X.dualize nu = .ok nu' ∧ Gr.qmult X fuel (Poly.sym (.S l)) (Poly.sym (.S nu')) = .ok w1 ∧
      Gr.qmult X fuel (Poly.sym (.S nu)) (Poly.sym (.S mu)) = .ok w2 ∧ Gr.qmult X fuel (Poly.sym (.S l)) (Poly.sym (.S mu)) = .ok w3 ∧
      ∀ d e, HasQ d w1 → HasQ e w2 → HasQ (d + e) w3 := by
  obtain ⟨nu', d1, d2, d3, _, d5, _⟩ := C12_dualize_A _ _ X hX nu hn.1 (by simpa using hn.2)
  have hn' : GrClass m n nu' := ⟨d2, by simpa using d3⟩
  obtain ⟨w1, x1, a1, a2, a3, _⟩ := C144_smallest_power hm hX hf hl hn'
  obtain ⟨w2, x2, b1, b2, b3, _⟩ := C144_smallest_power hm hX hf hn hmu
  obtain ⟨w3, x3, c1, c2, c3, _⟩ := C144_smallest_power hm hX hf hl hmu
  rw [d5] at a2
  rw [b2] at c2
  obtain rfl := Except.ok.inj a2
  obtain rfl := Except.ok.inj c2
  exact ⟨nu', w1, w2, w3, d1, a1, b1, c1, fun d e h1 h2 => (c3 _).2 (insideQ_trans d e _ _ _ ((a3 d).1 h1) ((b3 e).1 h2))⟩

/-- **C151**, `IG(m,2n)`. -/
theorem C151_IG (ord : List Int → List Int) {m n : Int} {X : Space} (hX : mkIG m (2 * n) = .ok X) {fuel : ℕ} (hf : giamBoundBC m n ≤ fuel)
    {l nu mu : List Int} (hl : BCClass m n l) (hn : BCClass m n nu) (hmu : BCClass m n mu) :
    ∃ nu' w1 w2 w3, X.dualize nu = .ok nu' ∧ X.qmult ord fuel (Poly.sym (.S l)) (Poly.sym (.S nu')) = .ok w1 ∧
      X.qmult ord fuel (Poly.sym (.S nu)) (Poly.sym (.S mu)) = .ok w2 ∧ X.qmult ord fuel (Poly.sym (.S l)) (Poly.sym (.S mu)) = .ok w3 ∧
      ∀ d e, HasQ d w1 → HasQ e w2 → HasQ (d + e) w3 := by
  obtain ⟨a, k, h, rfl, rfl, rfl⟩ := igCase hX
  have hn0 := hn
  rw [bcClass_eq h] at hn0
  have hn' : BCClass ((a : ℤ) - k) a (dlBC a k nu) := by rw [bcClass_eq h]; exact dlBC_cls h nu hn0
  have e1 := (dualize_dlBC h nu hn0).1
  have e2 := (dualize_dlBC h _ (dlBC_cls h nu hn0)).1
  rw [dlBC_dlBC h nu hn0] at e2
  obtain ⟨y1, x1, w1, a1, a2, a3, a4, _⟩ := C146_smallest_power ord hX hf hl hn'
  obtain ⟨y2, x2, w2, b1, b2, b3, b4, _⟩ := C146_smallest_power ord hX hf hn hmu
  obtain ⟨y3, x3, w3, c1, c2, c3, c4, _⟩ := C146_smallest_power ord hX hf hl hmu
  rw [e2] at a2
  rw [e1] at b1
  rw [a1] at c1
  rw [b2] at c2
  obtain rfl := Except.ok.inj a2
  obtain rfl := Except.ok.inj b1
  obtain rfl := Except.ok.inj c1
  obtain rfl := Except.ok.inj c2
  refine ⟨_, w1, w2, w3, e1, a3, b3, c3, fun d e h1 h2 => (c4 _).2 ?_⟩
  obtain ⟨f1, f2⟩ := (a4 d).1 h1
  obtain ⟨g1, g2⟩ := (b4 e).1 h2
  refine ⟨topLeQ_trans f1 g1, ?_⟩
  rw [add_comm]
  exact topLeQ_trans g2 f2

/-- **C151**, `OG(m,2n+1)`. -/
theorem C151_OG (ord : List Int → List Int) {m n : Int} (h0 : 0 < m) (hmn : m ≤ n) {X : Space} (hX : mkOG m (2 * n + 1) = .ok X) {fuel : ℕ}
    (hf : giamBoundBC m n ≤ fuel) {l nu mu : List Int} (hl : BCClass m n l) (hn : BCClass m n nu) (hmu : BCClass m n mu) :
    ∃ nu' w1 w2 w3, X.dualize nu = .ok nu' ∧ X.qmult ord fuel (Poly.sym (.S l)) (Poly.sym (.S nu')) = .ok w1 ∧
      X.qmult ord fuel (Poly.sym (.S nu)) (Poly.sym (.S mu)) = .ok w2 ∧ X.qmult ord fuel (Poly.sym (.S l)) (Poly.sym (.S mu)) = .ok w3 ∧
      ∀ d e, HasQ d w1 → HasQ e w2 → HasQ (d + e) w3 := by
  rcases hmn.lt_or_eq with hlt | rfl
  · obtain ⟨a, k, h, rfl, rfl, rfl⟩ := ogCase' h0 hmn hX
    have hn0 := hn
    have hl0 := hl
    have hm0 := hmu
    rw [bcClass_eq h.le] at hn0 hl0 hm0
    have hn' : BCClass ((a : ℤ) - k) a (dlBC a k nu) := by rw [bcClass_eq h.le]; exact dlBC_cls h.le nu hn0
    have e1 := (dualize_dlBC h.le nu hn0).2
    have e2 := (dualize_dlBC h.le _ (dlBC_cls h.le nu hn0)).2
    rw [dlBC_dlBC h.le nu hn0] at e2
    obtain ⟨y1, x1, w1, a1, a2, a3, a4, _⟩ := C148_smallest_power ord h0 hlt hX hf hl hn'
    obtain ⟨y2, x2, w2, b1, b2, b3, b4, _⟩ := C148_smallest_power ord h0 hlt hX hf hn hmu
    obtain ⟨y3, x3, w3, c1, c2, c3, c4, _⟩ := C148_smallest_power ord h0 hlt hX hf hl hmu
    rw [e2] at a2
    rw [e1] at b1
    rw [(dualize_dlBC h.le l hl0).2] at a1 c1
    rw [(dualize_dlBC h.le mu hm0).2] at b2 c2
    obtain rfl := Except.ok.inj a1
    obtain rfl := Except.ok.inj a2
    obtain rfl := Except.ok.inj b1
    obtain rfl := Except.ok.inj b2
    obtain rfl := Except.ok.inj c1
    obtain rfl := Except.ok.inj c2
    refine ⟨_, w1, w2, w3, e1, a3, b3, c3, fun d e h1 h2 => (c4 _).2 ?_⟩
    have f := (a4 d).1 h1
    have g := (b4 e).1 h2
    rw [show (a : ℤ) - (a - k) = k by ring] at f g ⊢
    have hmd := dlBC_cls h.le mu hm0
    have f' := (leB_iff h.le hl0 hn0).2 f
    have g' : leB a k e nu (dlBC a k mu) := (leB_iff h.le hn0 hmd).2 (by rw [dlBC_dlBC h.le mu hm0]; exact g)
    have := (leB_iff h.le hl0 hmd).1 (leB_trans d e _ _ _ f' g')
    rwa [dlBC_dlBC h.le mu hm0] at this
  · obtain ⟨nu', d1, d2, d3, d4, d5, _⟩ := C12_dualize_B m m le_rfl X hX nu hn.1 hn.2.1 hn.2.2
    have hn' : BCClass m m nu' := ⟨d2, d3, d4⟩
    obtain ⟨x1, w1, a1, a2, a3, _⟩ := C147_OG_odd ord h0 hX hf hl hn'
    obtain ⟨x2, w2, b1, b2, b3, _⟩ := C147_OG_odd ord h0 hX hf hn hmu
    obtain ⟨x3, w3, c1, c2, c3, _⟩ := C147_OG_odd ord h0 hX hf hl hmu
    rw [d5] at a1
    rw [b1] at c1
    obtain rfl := Except.ok.inj a1
    obtain rfl := Except.ok.inj c1
    refine ⟨nu', w1, w2, w3, d1, a2, b2, c2, fun d e h1 h2 => (c3 _).2 fun i => ?_⟩
    have f := (a3 d).1 h1 (i + 2 * e)
    have g := (b3 e).1 h2 i
    rw [show i + 2 * e + 2 * d = i + 2 * (d + e) by ring] at f
    exact f.trans g

/-- **C151**, `OG(n+1,2n+2)`. -/
theorem C151_OG_even (ord : List Int → List Int) {n : Int} (h0 : 0 < n) {X : Space} (hX : mkOG (n + 1) (2 * n + 2) = .ok X) {fuel : ℕ}
    (hf : giamBoundBC n n ≤ fuel) (hf' : giamBoundD (n + 1) n ≤ fuel) {l nu mu : List Int} (hl : DClass (n + 1) n l) (hn : DClass (n + 1) n nu)
    (hmu : DClass (n + 1) n mu) :
    ∃ nu' w1 w2 w3, X.dualize nu = .ok nu' ∧ X.qmult ord fuel (Poly.sym (.S l)) (Poly.sym (.S nu')) = .ok w1 ∧
      X.qmult ord fuel (Poly.sym (.S nu)) (Poly.sym (.S mu)) = .ok w2 ∧ X.qmult ord fuel (Poly.sym (.S l)) (Poly.sym (.S mu)) = .ok w3 ∧
      ∀ d e, HasQ d w1 → HasQ e w2 → HasQ (d + e) w3 := by
  obtain ⟨nu', d1, d2, d5, _⟩ := C12_dualize_D (n + 1) n le_rfl X hX nu hn
  obtain ⟨x1, w1, a1, a2, a3, _⟩ := C147_OG_even ord h0 hX hf hf' hl (mu := nu') d2
  obtain ⟨x2, w2, b1, b2, b3, _⟩ := C147_OG_even ord h0 hX hf hf' hn hmu
  obtain ⟨x3, w3, c1, c2, c3, _⟩ := C147_OG_even ord h0 hX hf hf' hl hmu
  rw [d5] at a1
  rw [b1] at c1
  obtain rfl := Except.ok.inj a1
  obtain rfl := Except.ok.inj c1
  refine ⟨nu', w1, w2, w3, d1, a2, b2, c2, fun d e h1 h2 => (c3 _).2 fun i => ?_⟩
  have f := (a3 d).1 h1 (i + 2 * e)
  have g := (b3 e).1 h2 i
  rw [show i + 2 * e + 2 * d = i + 2 * (d + e) by ring] at f
  exact f.trans g

/-- on `Gr(2,4)`: the powers `q`, `q` and `q^2` -/
example : mkGr 2 4 = .ok ⟨.A, 2, 4⟩ ∧ giamBound 2 4 ≤ 28 ∧ (Space.mk .A 2 4).dualize [1] = .ok [2, 1] ∧
    Gr.qmult ⟨.A, 2, 4⟩ 28 (Poly.sym (.S [2, 2])) (Poly.sym (.S [2, 1])) = .ok [([.q, .S [2, 1]], 1)] ∧
    Gr.qmult ⟨.A, 2, 4⟩ 28 (Poly.sym (.S [1])) (Poly.sym (.S [2, 2])) = .ok [([.q, .S [1]], 1)] ∧
    Gr.qmult ⟨.A, 2, 4⟩ 28 (Poly.sym (.S [2, 2])) (Poly.sym (.S [2, 2])) = .ok [([.q, .q, .S []], 1)] := by decide +kernel

/-- on `IG(2,6)`: the powers `q`, `q` and `q^2` -/
example : mkIG 2 (2 * 3) = .ok ⟨.C, 1, 3⟩ ∧ giamBoundBC 2 3 ≤ 60 ∧ BCClass 2 3 [4, 3] ∧ BCClass 2 3 [4] ∧ (Space.mk .C 1 3).dualize [4] = .ok [3] ∧
    (Space.mk .C 1 3).qmult id 60 (Poly.sym (.S [4, 3])) (Poly.sym (.S [3])) = .ok [([.q, .S [3, 2]], 1), ([.q, .S [4, 1]], 1)] ∧
    (Space.mk .C 1 3).qmult id 60 (Poly.sym (.S [4])) (Poly.sym (.S [4, 3])) = .ok [([.q, .S [4, 2]], 1)] ∧
    (Space.mk .C 1 3).qmult id 60 (Poly.sym (.S [4, 3])) (Poly.sym (.S [4, 3])) = .ok [([.q, .q, .S [3, 1]], 1)] := by decide +kernel

/-- on `OG(2,7)`: the powers `q^2`, `q` and `q^2` -/
example : mkOG 2 (2 * 3 + 1) = .ok ⟨.B, 1, 3⟩ ∧ BCClass 2 3 [4, 3] ∧ BCClass 2 3 [2] ∧ (Space.mk .B 1 3).dualize [2] = .ok [4, 1] ∧
    (Space.mk .B 1 3).qmult id 60 (Poly.sym (.S [4, 3])) (Poly.sym (.S [4, 1])) = .ok [([.q, .q, .S [4]], 2), ([.q, .q, .S [3, 1]], 1)] ∧
    (Space.mk .B 1 3).qmult id 60 (Poly.sym (.S [2])) (Poly.sym (.S [4, 3])) = .ok [([.q, .S [3, 2]], 1), ([.q, .q, .S [1]], 1)] ∧
    (Space.mk .B 1 3).qmult id 60 (Poly.sym (.S [4, 3])) (Poly.sym (.S [4, 3])) = .ok [([.q, .q, .S [4, 2]], 2)] := by decide +kernel

/-- on `OG(3,7)` and `OG(4,8)`: the powers `q`, `q` and `q^2` -/
example : mkOG 3 (2 * 3 + 1) = .ok ⟨.B, 0, 3⟩ ∧ mkOG (3 + 1) (2 * 3 + 2) = .ok ⟨.D, 0, 3⟩ ∧ giamBoundBC 3 3 ≤ 90 ∧ giamBoundD (3 + 1) 3 ≤ 90 ∧
    BCClass 3 3 [3, 2, 1] ∧ BCClass 3 3 [3] ∧ DClass (3 + 1) 3 [3, 2, 1] ∧ DClass (3 + 1) 3 [3] ∧
    ∀ X ∈ [Space.mk .B 0 3, Space.mk .D 0 3], X.dualize [3] = .ok [2, 1] ∧
      X.qmult id 90 (Poly.sym (.S [3, 2, 1])) (Poly.sym (.S [2, 1])) = .ok [([.q, .S [3]], 1)] ∧
      X.qmult id 90 (Poly.sym (.S [3])) (Poly.sym (.S [3, 2, 1])) = .ok [([.q, .S [2, 1]], 1)] ∧
      X.qmult id 90 (Poly.sym (.S [3, 2, 1])) (Poly.sym (.S [3, 2, 1])) = .ok [([.q, .q, .S []], 1)] := by decide +kernel

end Verif
