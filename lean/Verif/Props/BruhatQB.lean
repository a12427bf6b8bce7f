import Verif.Proofs.BruhatQB
import Verif.Props.BruhatQC
import Verif.Props.CompareBD
import Verif.Props.DualD
import Verif.Props.Pfaff
/-!
# C147: the smallest power of q in the quantum products of IG(n,2n), OG(n,2n+1) and OG(n+1,2n+2)
-/

namespace Verif
open Spec

/-- **C147**, type C: the quantum product of two classes `S[l]`, `S[mu]` of `IG(n,2n)` has a term with `q^e` for some `e` up to `d` exactly if `l`
without its first `d` rows is inside the dual of `mu`. -/
theorem C147_IG (ord : List Int → List Int) {n : Int} {X : Space} (hX : mkIG n (2 * n) = .ok X) {fuel : ℕ}
    (hf : giamBoundBC n n ≤ fuel) {l mu : List Int} (hl : BCClass n n l) (hm : BCClass n n mu) :
    ∃ mu' w, X.dualize mu = .ok mu' ∧ X.qmult ord fuel (Poly.sym (.S l)) (Poly.sym (.S mu)) = .ok w ∧
      (∀ d, (∃ e ≤ d, ∃ nu, coeffOf (List.replicate e .q ++ [.S nu]) w ≠ 0) ↔ InsideR d l mu') ∧
      ∀ d nu, coeffOf (List.replicate d .q ++ [.S nu]) w ≠ 0 → BCClass n n nu ∧ InsideR d l nu ∧ InsideR d mu nu := by
  obtain ⟨l', mu', w, h1, h2, h3, h4, h5⟩ := C146_smallest_power ord hX hf hl hm
  obtain ⟨a, k, h, rfl, hk, rfl⟩ := igCase hX
  obtain rfl : k = 0 := by omega
  have e1 := bcClass_eq (Nat.zero_le a)
  simp only [Nat.cast_zero, sub_zero] at e1
  rw [e1] at hl hm
  rw [e1] at h5
  rw [(dualize_dlBC h l hl).1] at h1
  rw [(dualize_dlBC h mu hm).1] at h2
  obtain rfl := Except.ok.inj h1
  obtain rfl := Except.ok.inj h2
  rw [e1]
  refine ⟨_, w, (dualize_dlBC h mu hm).1, h3, fun d => ?_, fun d nu hnu => ?_⟩
  · have := leC_iff (d := d) h hl (dlBC_cls h mu hm)
    rw [dlBC_dlBC h mu hm] at this
    rw [h4 d, sub_self, ← leC_zero hl (dlBC_cls h mu hm), this]
    rfl
  · obtain ⟨c, nu', f1, f2, f3, f4, f5⟩ := h5 d nu hnu
    rw [(dualize_dlBC h nu c).1] at f1
    obtain rfl := Except.ok.inj f1
    rw [sub_self] at f2 f3 f4 f5
    exact ⟨c, (leC_zero hl c).1 ((leC_iff h hl c).2 ⟨f2, f3⟩), (leC_zero hm c).1 ((leC_iff h hm c).2 ⟨f4, f5⟩)⟩

/-- **C147**, type B: on `OG(n,2n+1)` two rows are removed for each power of `q`. -/
theorem C147_OG_odd (ord : List Int → List Int) {n : Int} (hn : 0 < n) {X : Space} (hX : mkOG n (2 * n + 1) = .ok X) {fuel : ℕ}
    (hf : giamBoundBC n n ≤ fuel) {l mu : List Int} (hl : BCClass n n l) (hm : BCClass n n mu) :
    ∃ mu' w, X.dualize mu = .ok mu' ∧ X.qmult ord fuel (Poly.sym (.S l)) (Poly.sym (.S mu)) = .ok w ∧
      (∀ d, (∃ e ≤ d, ∃ nu, coeffOf (List.replicate e .q ++ [.S nu]) w ≠ 0) ↔ InsideR (2 * d) l mu') ∧
      ∀ d nu, coeffOf (List.replicate d .q ++ [.S nu]) w ≠ 0 → BCClass n n nu ∧ InsideR (2 * d) l nu ∧ InsideR (2 * d) mu nu := by
  obtain ⟨a, k, h, rfl, hk, rfl⟩ := ogCase' hn le_rfl hX
  obtain rfl : k = 0 := by omega
  have e1 := bcClass_eq (Nat.zero_le a)
  have e2 := giamBoundBC_eq (Nat.zero_le a)
  simp only [Nat.cast_zero, sub_zero] at e1 e2
  rw [e1] at hl hm ⊢
  rw [e2] at hf
  have hp := by
    have e1 : ∀ p, (ringQOG ord a 0 h).Y.t p = tM (Wd a 0) labW (MQB 0) p.toNat := fun _ => rfl
    exact prodQ_B (ringQOG ord a 0 h).Y e1 hl hm
  have hs : ∀ l : List Int, den (Poly.sym (.S l)) = ev (Finsupp.single l 1) := by
    intro l
    rw [den_sym, ev_single]
    simp [inq]
  obtain ⟨w, g1, g2, g3⟩ := (ringQOG ord a 0 h).mult hf (wf_sym _) (hs l) (supp_single hl 1) (wf_sym _) (hs mu) (supp_single hm 1)
  have hc : ∀ d nu, coeffOf (List.replicate d .q ++ [.S nu]) w =
      ((ringQOG ord a 0 h).Y.prod (Finsupp.single l 1) (Finsupp.single mu 1) nu).coeff d := by
    intro d nu
    have := coeffOf_den g2 (qmono_sorted d nu)
    rw [g3, expo_qmono, coeff_ev] at this
    exact this
  refine ⟨dlBC a 0 mu, w, (dualize_dlBC h.le mu hm).2, g1, fun d => ?_, fun d nu hnu => hp.2 d nu (by rwa [hc] at hnu)⟩
  rw [← hp.1 d]
  simp only [hc]

theorem dlD_max {n : ℕ} {l : List Int} (hl : clsBC n 0 l) : dlD n 0 l = dlBC n 0 l := by
  obtain ⟨u, hu, rfl⟩ := (Wd_cls (Nat.zero_le n) l).1 hl
  have hU := mem_WdD_a.2 hu
  rw [dlBC_labW (Nat.zero_le n) hu, ← labD_max hu, dlD_labD (Nat.zero_le _) hU, ← labD_max (dualW_mem hu)]
  congr 1
  have h2 := (mem_WdD.1 (dualD_mem hU)).2.2 rfl
  have h1 : (dualD (u, .a)).1 = dualW u := by
    unfold dualD
    rw [if_neg (by rw [(mem_WdD.1 hU).2.1]; decide)]
    rfl
  exact Prod.ext h1 h2

/-- **C147**, type D: the same on `OG(n+1,2n+2)`. -/
theorem C147_OG_even (ord : List Int → List Int) {n : Int} (hn : 0 < n) {X : Space} (hX : mkOG (n + 1) (2 * n + 2) = .ok X) {fuel : ℕ}
    (hf : giamBoundBC n n ≤ fuel) (hf' : giamBoundD (n + 1) n ≤ fuel) {l mu : List Int} (hl : DClass (n + 1) n l) (hm : DClass (n + 1) n mu) :
    ∃ mu' w, X.dualize mu = .ok mu' ∧ X.qmult ord fuel (Poly.sym (.S l)) (Poly.sym (.S mu)) = .ok w ∧
      (∀ d, (∃ e ≤ d, ∃ nu, coeffOf (List.replicate e .q ++ [.S nu]) w ≠ 0) ↔ InsideR (2 * d) l mu') ∧
      ∀ d nu, coeffOf (List.replicate d .q ++ [.S nu]) w ≠ 0 → DClass (n + 1) n nu ∧ InsideR (2 * d) l nu ∧ InsideR (2 * d) mu nu := by
  rw [← C87_classes hn.le] at hl hm
  obtain ⟨Y, hY⟩ : ∃ Y, mkOG n (2 * n + 1) = .ok Y := by
    unfold mkOG
    rw [if_neg (by omega), if_pos (by omega)]
    exact ⟨_, rfl⟩
  have hlc : ∀ l, BCClass n n l → LinComb (BCClass n n) (Poly.sym (.S l)) := fun l hl =>
    ⟨wf_sym _, fun t ht => ⟨0, l, by simp [Poly.sym] at ht; simp [ht], hl⟩⟩
  obtain ⟨w, w', h1, h2, h3⟩ := C87_qmult ord ord hn hY hX hf hf' (hlc l hl) (hlc mu hm)
  obtain ⟨mu', v, g1, g2, g3, g4⟩ := C147_OG_odd ord hn hY hf hl hm
  rw [h1] at g2
  obtain rfl := Except.ok.inj g2
  have hc : ∀ mm, coeffOf mm w' = coeffOf mm w := fun mm => (coeffOf_perm h3 mm).symm
  refine ⟨mu', w', ?_, h2, fun d => ?_, fun d nu h => ?_⟩
  · obtain ⟨a, k, h, rfl, hk, rfl⟩ := ogCase' hn le_rfl hY
    obtain ⟨a', b', h', hb1, f1, f2, rfl⟩ := ogdCase' (by omega) le_rfl (by omega) hX
    obtain rfl : a = a' := by omega
    obtain rfl : k = 0 := by omega
    obtain rfl : b' = 0 := by omega
    have e1 := bcClass_eq (Nat.zero_le a)
    simp only [Nat.cast_zero, sub_zero] at e1
    rw [e1] at hl hm
    rw [(dualize_dlBC h.le mu hm).2] at g1
    obtain rfl := Except.ok.inj g1
    rw [dualize_dlD (Nat.zero_le _) mu ((cls_BD mu).1 hm), dlD_max hm]
  · rw [← g3 d]
    simp only [hc]
  · rw [← C87_classes hn.le]
    exact g4 d nu (by rwa [hc] at h)

/-- on `IG(3,6)`: `S[3,2]*S[2,1]` begins with `q`, since `[3,2]` is not inside the dual `[3]` of `[2,1]`, but `[2]` is -/
example : mkIG 3 (2 * 3) = .ok ⟨.C, 0, 3⟩ ∧ giamBoundBC 3 3 ≤ 60 ∧ BCClass 3 3 [3, 2] ∧ BCClass 3 3 [2, 1] ∧
    (Space.mk .C 0 3).dualize [2, 1] = .ok [3] ∧
    (Space.mk .C 0 3).qmult id 60 (Poly.sym (.S [3, 2])) (Poly.sym (.S [2, 1])) = .ok [([.q, .S [3, 1]], 1), ([.q, .q, .S []], 1)] ∧
    ¬ InsideR 0 [3, 2] [3] ∧ InsideR 1 [3, 2] [3] := by
  refine ⟨by decide, by decide +kernel, by decide +kernel, by decide +kernel, by decide +kernel, by decide +kernel,
    fun h => absurd (h 1) (by decide), fun i => ?_⟩
  rcases i with _ | i
  · decide
  · rw [part_of_ge (by simp), part_of_ge (by simp)]

/-- on `OG(3,7)` and `OG(4,8)`: the point `S[3,2,1]` times itself is `q^2`; without its first two rows it is not inside the class `S[]` dual to it -/
example : mkOG 3 (2 * 3 + 1) = .ok ⟨.B, 0, 3⟩ ∧ mkOG (3 + 1) (2 * 3 + 2) = .ok ⟨.D, 0, 3⟩ ∧ giamBoundBC 3 3 ≤ 90 ∧ giamBoundD (3 + 1) 3 ≤ 90 ∧
    BCClass 3 3 [3, 2, 1] ∧ DClass (3 + 1) 3 [3, 2, 1] ∧ (Space.mk .B 0 3).dualize [3, 2, 1] = .ok [] ∧ (Space.mk .D 0 3).dualize [3, 2, 1] = .ok [] ∧
    (Space.mk .B 0 3).qmult id 90 (Poly.sym (.S [3, 2, 1])) (Poly.sym (.S [3, 2, 1])) = .ok [([.q, .q, .S []], 1)] ∧
    (Space.mk .D 0 3).qmult id 90 (Poly.sym (.S [3, 2, 1])) (Poly.sym (.S [3, 2, 1])) = .ok [([.q, .q, .S []], 1)] ∧
    ¬ InsideR (2 * 1) [3, 2, 1] [] ∧ InsideR (2 * 2) [3, 2, 1] [] := by
  refine ⟨by decide, by decide, by decide +kernel, by decide +kernel, by decide +kernel, by decide +kernel, by decide +kernel, by decide +kernel,
    by decide +kernel, by decide +kernel, fun h => absurd (h 0) (by decide), fun i => ?_⟩
  rw [part_of_ge (by simp), part_of_ge (by simp)]

end Verif
