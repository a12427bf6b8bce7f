import Verif.Proofs.RingBC
import Verif.Proofs.WordQB
import Verif.Proofs.WordDual
/-!
# The quantum ring of `OG(m, 2n+1)`
-/

namespace Verif
open Spec MvPolynomial

section
variable (n k : Nat) (hk : k < n)

include hk

theorem retQOG (ord : List Int → List Int) {p : Nat} (h1 : 1 ≤ p) (h2 : p ≤ n + k) {l : List Int} (hl : clsBC n k l) :
    Returns (Space.qpieri ord ⟨.B, k, n⟩ p (Poly.sym (.S l))) (ev ((sysQOG n k hk).t p l)) := by
  have := (sysQOG n k hk).apply_pieri h1 h2 (wf_sym (.S l)) (x := Finsupp.single l 1) (by simp [inq]) (single_cls hl)
  rw [lin_single_one] at this
  exact this

theorem homQOG {p : Nat} (h1 : 1 ≤ p) (h2 : p ≤ n + k) (l : List Int) :
    HomX (Space.mk .B k n).degreeQ (p + l.sum) ((sysQOG n k hk).t p l) := by
  by_cases hl : clsBC n k l
  · obtain ⟨a, b, c⟩ := (clsBC_eq hk.le l).1 hl
    obtain ⟨w, e1, e2⟩ := C34_qpieri_OG_partial id _ n p (by omega) (by omega) _ (mkOG_nat n k hk.le) l a b c
    refine homX_of_ret (retQOG n k hk id h1 h2 hl) ⟨w, e1, ?_⟩
    intro t ht
    obtain ⟨d, nu, e, _, _, _, hs⟩ := e2 t ht
    exact ⟨d, nu, e, by rw [hs, add_comm]⟩
  · rw [show (sysQOG n k hk).t p l = 0 from sys_nonclass hk.le _ p hl]; exact HomX.zero _

theorem intQOG {p : Nat} (h1 : 1 ≤ p) (h2 : p ≤ n + k) (l : List Int) : IntX ((sysQOG n k hk).t p l) := by
  by_cases hl : clsBC n k l
  · obtain ⟨w, e1, e2⟩ := qpieriB_ret p hl.2 hl.1 (by omega) (by omega) (by omega)
    have hw := ret_qB n k hk p hl
    obtain ⟨w', e1', _, hd⟩ := hw
    rw [e1] at e1'
    cases e1'
    obtain ⟨w2, e3, h4, h5⟩ := retQOG n k hk id h1 h2 hl
    refine intX_of_ret (retQOG n k hk id h1 h2 hl) ⟨w2, e3, int_of_pow n k hk.le ?_⟩
    intro t ht
    have hp := perm_of_den_eq e2.1 h4 (hd.trans h5.symm)
    obtain ⟨qs, x, c, hT, rfl⟩ := (e2.2 t).1 (hp.mem_iff.2 ht)
    rcases hT with ⟨_, _, _, _, _, e, _, h⟩ | ⟨_, _, _, ⟨_, _, _, _, e, _, h⟩, _⟩ | ⟨_, _, _, _, _, _, e, _, h⟩ <;>
      exact ⟨e, h⟩
  · rw [show (sysQOG n k hk).t p l = 0 from sys_nonclass hk.le _ p hl]; exact IntX.zero

theorem q0_QOG (p : Nat) (l : List Int) : q0 ((sysQOG n k hk).t p l) = (sysOG n k hk.le).t p l := by
  by_cases hl : clsBC n k l
  · obtain ⟨u, hu, rfl⟩ := (Wd_cls hk.le l).1 hl
    show q0 (tM (Wd n k) labW (MQB k) p (labW u)) = tM (Wd n k) labW (MB k) p (labW u)
    rw [tM_lab _ Wd_inj p hu, tM_lab _ Wd_inj p hu, map_sum]
    apply Finset.sum_congr rfl
    intro w hw
    rw [q0_single, MQB_eq p hu hw, MB_eq p hu hw]
    unfold scB
    by_cases h0 : k = 0 <;> simp [h0]
  · rw [show (sysOG n k hk.le).t p l = 0 from sys_nonclass hk.le _ p hl, show (sysQOG n k hk).t p l = 0 from sys_nonclass hk.le _ p hl, map_zero]

end

theorem opQ_b {R : Type*} [CommRing R] (c h h' x : R) {u w : List L3} (hl : (L3.b :: u).length = w.length) :
    opQ c h h' x (.b :: u) w = opW c 0 x (.b :: u) w := by
  cases w with
  | nil => simp at hl
  | cons q w => cases q <;> simp [opQ, opW, wt, step]

theorem unitQOG (n k : Nat) (hk : k < n) (p : Nat) : (sysQOG n k hk).t p [] = (sysOG n k hk.le).t p [] := by
  obtain ⟨u, hu, he⟩ := (Wd_cls hk.le []).1 (clsBC_nil hk.le)
  show tM (Wd n k) labW (MQB k) p [] = tM (Wd n k) labW (MB k) p []
  rw [← he, tM_lab _ Wd_inj p hu, tM_lab _ Wd_inj p hu]
  apply Finset.sum_congr rfl
  intro w hw
  rw [mem_Wd] at hu hw
  congr 1
  cases u with
  | nil => simp at hu; omega
  | cons q u =>
    cases q
    · rw [labW_o] at he
      have := shapeW_length 0 0 u
      have := rows_add_cols 0 0 u
      have := congrArg List.length he
      simp [colsW] at hu this
      simp [this] at *
      omega
    · rw [labW_a] at he; simp at he
    · unfold MQB MB
      rw [opQ_b _ _ _ _ (by omega), map_zero]
      rfl

/-- the quantum ring of `OG(n-k, 2n+1)` -/
noncomputable def ringQOG (ord : List Int → List Int) (n k : Nat) (hk : k < n) :
    RingOn ⟨.B, k, n⟩ (Space.qpieriFn ord ⟨.B, k, n⟩) (stdSpc (n + k)) (clsBC n k) (boundBC n k) where
  Y := (sysQOG n k hk).toGiam k
  fuel _ hl := measBC_lt_bound hk.le hl
  spec p h := spec_std (by simp) (n + k) p h
  nil := clsBC_nil hk.le
  unit p h hc := by
    have := (ringOG n k hk.le).unit p h hc
    rw [← this]
    exact unitQOG n k hk p.toNat

theorem opQ_dual {R : Type*} [CommRing R] (c h h' x : R) (u w : List L3) :
    opQ c h h' x (dualW w) (dualW u) = opQ c h h' x u w := by
  cases u with
  | nil => cases w with
    | nil => rfl
    | cons q w => cases q <;> rfl
  | cons p u =>
    cases w with
    | nil => cases p <;> rfl
    | cons q w =>
      have e : ∀ s, wt c x s (dualW w) (dualW u) = wt c x s.dual u w := fun s => by
        have := wt_dual c x s.dual u w
        cases s <;> exact this
      have d : ∀ (p : L3) (u : List L3), dualW (p :: u) = p.dual :: dualW u := fun _ _ => rfl
      rw [d, d]
      cases p <;> cases q <;> simp only [L3.dual, opQ, e, St.dual]

theorem MQB_dual (k p : Nat) (u w : List L3) : MQB k p (dualW w) (dualW u) = MQB k p u w := by
  unfold MQB; rw [opQ_dual]

end Verif
