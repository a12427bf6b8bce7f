import Verif.Proofs.TwoSym
/-!
# Degrees and integrality of the quantum products of `OG(n, 2n+2)` with two parameters
-/

namespace Verif
open Spec MvPolynomial

/-- the monomial of a power of each parameter -/
def Spec.parMono (a b c : Nat) : Mono := List.replicate a Sym.q ++ List.replicate b Sym.q1 ++ List.replicate c Sym.q2

namespace TwoProd

theorem parMono_par (a b c : Nat) : ∀ s ∈ parMono a b c, s ∈ parSet := by
  intro s hs
  unfold parMono at hs
  simp only [List.mem_append, List.mem_replicate] at hs
  rcases hs with (⟨_, rfl⟩ | ⟨_, rfl⟩) | ⟨_, rfl⟩
  · exact Or.inl rfl
  · exact Or.inr (Or.inl rfl)
  · exact Or.inr (Or.inr rfl)

theorem parMono_sorted (a b c : Nat) : MSorted (parMono a b c) := by
  unfold MSorted parMono
  rw [List.pairwise_append, List.pairwise_append]
  refine ⟨⟨?_, ?_, ?_⟩, ?_, ?_⟩
  · rw [List.pairwise_replicate]; right; simp [Sym.code, listLt]
  · rw [List.pairwise_replicate]; right; simp [Sym.code, listLt]
  · intro x hx y hy
    rw [List.eq_of_mem_replicate hx, List.eq_of_mem_replicate hy]; simp [Sym.code, listLt]
  · rw [List.pairwise_replicate]; right; simp [Sym.code, listLt]
  · intro x hx y hy
    rw [List.eq_of_mem_replicate hy]
    rcases List.mem_append.1 hx with h | h <;> rw [List.eq_of_mem_replicate h] <;> simp [Sym.code, listLt]

theorem expo_append (a b : Mono) : expo (a ++ b) = expo a + expo b := by
  unfold expo
  rw [← Multiset.coe_add, map_add]

theorem expo_single (s : Sym) : expo [s] = Finsupp.single s 1 := by
  unfold expo
  rw [Multiset.coe_singleton, Multiset.toFinsupp_singleton]

theorem expo_apply (m : Mono) (s : Sym) : expo m s = m.count s := by
  unfold expo
  rw [Multiset.toFinsupp_apply, Multiset.coe_count]

theorem parMono_count (a b c : Nat) : (parMono a b c).count .q = a ∧ (parMono a b c).count .q1 = b ∧ (parMono a b c).count .q2 = c ∧
    ∀ l, (parMono a b c).count (.S l) = 0 := by
  unfold parMono
  refine ⟨?_, ?_, ?_, fun l => ?_⟩ <;> simp [List.count_append, List.count_replicate]

theorem expo_par {e : Sym →₀ ℕ} (he : ∀ s ∈ e.support, s ∈ parSet) : expo (parMono (e .q) (e .q1) (e .q2)) = e := by
  obtain ⟨h1, h2, h3, h4⟩ := parMono_count (e .q) (e .q1) (e .q2)
  ext s
  rw [expo_apply]
  cases s with
  | q => exact h1
  | q1 => exact h2
  | q2 => exact h3
  | S l =>
    rw [h4]
    by_contra h
    rcases he (.S l) (Finsupp.mem_support_iff.2 (fun h' => h h'.symm)) with h | h | h <;> cases h

section
variable {n : Nat}

theorem coeff_ev2 (f : WordD → P) {W : WordD} (hW : W ∈ WdD n 1) {m : Mono} (hm : ∀ s ∈ m, s ∈ parSet) :
    coeff (expo (m ++ [.S (labD W)])) (ev2 n f) = coeff (expo m) (f W) := by
  classical
  unfold ev2
  rw [coeff_sum, Finset.sum_eq_single W, expo_append, expo_single, coeff_mul_X]
  · intro U hU h
    rw [coeff_mul_X', if_neg]
    rw [Finsupp.mem_support_iff, expo_apply, not_not, List.count_eq_zero]
    intro h'
    rcases List.mem_append.1 h' with h' | h'
    · rcases hm _ h' with h | h | h <;> cases h
    · have : labD U = labD W := by simpa using h'
      exact h (WdD_inj U hU W hW this)
  · exact fun h => absurd hW h

theorem par_append_sorted (a b c : Nat) (l : List Int) : MSorted (parMono a b c ++ [.S l]) :=
  par_sorted (parMono_par a b c) (parMono_sorted a b c) l

theorem coeffOf_ev2 {w : Poly} (hw : WF w) {f : WordD → P} (hd : den w = ev2 n f) {W : WordD} (hW : W ∈ WdD n 1) (a b c : Nat) :
    coeffOf (parMono a b c ++ [.S (labD W)]) w = coeff (expo (parMono a b c)) (f W) := by
  rw [coeffOf_den hw (par_append_sorted a b c _), hd, coeff_ev2 f hW (parMono_par a b c)]

/-- homogeneous of degree `d` and with integers as coefficients, where `q1` and `q2` have degree `n+1` and `q` does not occur -/
def Good (n : Nat) (d : Int) (a : P) : Prop :=
  ∀ e, coeff e a ≠ 0 → e .q = 0 ∧ ((e .q1 + e .q2 : Nat) : Int) * (n + 1) = d ∧ ∃ z : ℤ, coeff e a = z

theorem Good.int {d : Int} {a : P} (h : Good n d a) (e : Sym →₀ ℕ) : ∃ z : ℤ, coeff e a = z := by
  by_cases h0 : coeff e a = 0
  · exact ⟨0, by rw [h0]; simp⟩
  · exact (h e h0).2.2

theorem good_zero (d : Int) : Good n d 0 := fun e h => absurd (coeff_zero e) h

theorem good_one : Good n 0 1 := by
  intro e h
  rw [coeff_one] at h ⊢
  by_cases h0 : 0 = e
  · subst h0; exact ⟨by simp, by simp, 1, by simp⟩
  · rw [if_neg h0] at h; exact absurd rfl h

theorem Good.add {d : Int} {a b : P} (ha : Good n d a) (hb : Good n d b) : Good n d (a + b) := by
  intro e h
  obtain ⟨x, hx⟩ := ha.int e
  obtain ⟨y, hy⟩ := hb.int e
  rw [coeff_add] at h
  have : coeff e a ≠ 0 ∨ coeff e b ≠ 0 := by
    by_contra hc
    rw [not_or, not_not, not_not] at hc
    rw [hc.1, hc.2, add_zero] at h
    exact h rfl
  refine ⟨?_, ?_, x + y, by rw [coeff_add, hx, hy]; push_cast; ring⟩
  · rcases this with h | h
    · exact (ha e h).1
    · exact (hb e h).1
  · rcases this with h | h
    · exact (ha e h).2.1
    · exact (hb e h).2.1

theorem Good.neg {d : Int} {a : P} (ha : Good n d a) : Good n d (-a) := by
  intro e h
  rw [coeff_neg] at h ⊢
  obtain ⟨h1, h2, z, hz⟩ := ha e (fun h0 => h (by rw [h0, neg_zero]))
  exact ⟨h1, h2, -z, by rw [hz]; push_cast; rfl⟩

theorem Good.sub {d : Int} {a b : P} (ha : Good n d a) (hb : Good n d b) : Good n d (a - b) := by
  rw [sub_eq_add_neg]; exact ha.add hb.neg

theorem Good.sum {ι : Type*} {d : Int} (s : Finset ι) {F : ι → P} (h : ∀ i ∈ s, Good n d (F i)) : Good n d (∑ i ∈ s, F i) :=
  Finset.sum_induction F (Good n d) (fun _ _ ha hb => ha.add hb) (good_zero d) h

theorem Good.mul {d d' : Int} {a b : P} (ha : Good n d a) (hb : Good n d' b) : Good n (d + d') (a * b) := by
  classical
  intro e h
  rw [coeff_mul] at h ⊢
  refine ⟨?_, ?_, ?_⟩
  · obtain ⟨x, hx, h1⟩ := Finset.exists_ne_zero_of_sum_ne_zero h
    rw [Finset.mem_antidiagonal] at hx
    rw [← hx, Finsupp.add_apply, (ha _ (left_ne_zero_of_mul h1)).1, (hb _ (right_ne_zero_of_mul h1)).1]
  · obtain ⟨x, hx, h1⟩ := Finset.exists_ne_zero_of_sum_ne_zero h
    rw [Finset.mem_antidiagonal] at hx
    rw [← hx, Finsupp.add_apply, Finsupp.add_apply, ← (ha _ (left_ne_zero_of_mul h1)).2.1, ← (hb _ (right_ne_zero_of_mul h1)).2.1]
    push_cast; ring
  · refine Finset.sum_induction _ (fun c : ℚ => ∃ z : ℤ, c = z) ?_ ⟨0, by simp⟩ ?_
    · rintro _ _ ⟨x, rfl⟩ ⟨y, rfl⟩; exact ⟨x + y, by push_cast; rfl⟩
    · intro x _
      obtain ⟨u, hu⟩ := ha.int x.1
      obtain ⟨v, hv⟩ := hb.int x.2
      exact ⟨u * v, by rw [hu, hv]; push_cast; rfl⟩

theorem oddD_int (p : Int) {n : Nat} {U W : WordD} (hU : U ∈ WdD n 1) (hW : W ∈ WdD n 1) : ∃ z : ℤ, oddD p U W = z := by
  unfold oddD
  split
  · split
    · split
      · exact ⟨1, by simp⟩
      · exact ⟨0, by simp⟩
    · rename_i h
      refine cfD_int (n := n) (k := 0) (by omega) (fun _ => by omega) ?_ ?_
      · rw [mem_WdD]; exact ⟨by rw [fillB_length]; exact (mem_WdD.1 hU).1, colsD_fillB _, fun _ => rfl⟩
      · rw [mem_WdD]; exact ⟨by rw [fillA_length]; exact (mem_WdD.1 hW).1, colsD_fillA _, fun _ => rfl⟩
  · exact ⟨0, by simp⟩

theorem M2_int (p : Int) (hn : 1 ≤ n) {U W : WordD} (hU : U ∈ WdD n 1) (hW : W ∈ WdD n 1) (e : Sym →₀ ℕ) : ∃ z : ℤ, coeff e (M2 p U W) = z := by
  have key : M2 p U W ∈ (map (Int.castRingHom ℚ) : MvPolynomial Sym ℤ →+* P).range := by
    rw [M2_eq p hn hU hW]
    have hc : ∀ c : ℚ, (∃ z : ℤ, c = z) → (C c : P) ∈ (map (Int.castRingHom ℚ) : MvPolynomial Sym ℤ →+* P).range := by
      rintro _ ⟨z, rfl⟩
      exact ⟨C z, by simp⟩
    have hX : ∀ s, (X s : P) ∈ (map (Int.castRingHom ℚ) : MvPolynomial Sym ℤ →+* P).range := fun s => ⟨X s, by simp⟩
    have hq : ∀ i j, qw (X .q1 : P) (X .q2) i j ∈ (map (Int.castRingHom ℚ) : MvPolynomial Sym ℤ →+* P).range := by
      intro i j
      cases i <;> cases j <;> simp only [qw, qOf] <;> first | exact hX _ | exact zero_mem _
    refine add_mem (add_mem (hc _ (cfD_int (by omega) (by omega) hU hW)) (mul_mem (hq _ _) (hc _ (oddD_int p hU hW)))) ?_
    exact mul_mem (mul_mem (hX _) (hX _)) (hc _ (q2D_int (by omega) (by omega) hU hW))
  obtain ⟨g, hg⟩ := key
  exact ⟨coeff e g, by rw [← hg, coeff_map]; simp⟩

theorem M2_good (hn : 1 ≤ n) {p : Int} (hp : -1 ≤ p) {U W : WordD} (hU : U ∈ WdD n 1) (hW : W ∈ WdD n 1) :
    Good n ((labD U).sum + p.natAbs - (labD W).sum) (M2 p U W) := by
  intro e he
  refine ⟨?_, ?_, M2_int p hn hU hW e⟩
  all_goals
    have hpar : ∀ s ∈ e.support, s ∈ parSet := by
      intro s hs
      exact mem_supported.1 (M2_par p hn hU hW) (by
        rw [Finset.mem_coe, mem_vars_iff_mem_support]
        exact ⟨e, mem_support_iff.2 he, hs⟩)
    obtain ⟨w, h1, h2, h3⟩ := retQ2 (ord := id) (fun _ _ => rfl) hn hp hU
    have hcls : ClsD 1 n (labD U).sum (labD U) := by
      obtain ⟨ht, hb⟩ := clsD_typed (by omega) (lab_cls hU)
      exact cls_of_typed (k := 1) (m := n) (c := n + 1) (by push_cast; omega) (by push_cast; rfl) (by omega) (by simpa using ht)
    obtain ⟨w', h1', h2'⟩ := qpieriD_all_one (ord := id) (fun _ _ => rfl) p hcls (by omega)
    rw [h1] at h1'
    cases h1'
    have hc : coeff (expo (parMono (e .q) (e .q1) (e .q2) ++ [.S (labD W)])) (den w) ≠ 0 := by
      rw [h3, show row2 n p U = ev2 n (M2 p U) from rfl, coeff_ev2 _ hW (parMono_par _ _ _), expo_par hpar]
      exact he
    have hmem := mem_of_coeff_ne h2 (par_append_sorted _ _ _ _) hc
    obtain ⟨qs, nu, e1, e2, e3⟩ := h2'.2 _ (List.mem_map.2 ⟨_, hmem, rfl⟩)
    have e1' := List.append_inj' e1 rfl
    have e4 : labD W = nu := by simpa using e1'.2
    obtain ⟨c1, c2, c3, -⟩ := parMono_count (e .q) (e .q1) (e .q2)
    rw [e1'.1] at c1 c2 c3
    obtain ⟨-, hs⟩ := typed_of_cls (k := 1) (m := n) (c := n + 1) (by push_cast; omega) (by push_cast; rfl) e3
    rw [← e4] at hs
  · rcases e2 with rfl | rfl | rfl | rfl <;> simpa using c1.symm
  · rcases e2 with rfl | rfl | rfl | rfl <;> simp at c2 c3 <;> rw [← c2, ← c3] <;> simp at hs ⊢ <;> linarith

/-- vectors that are homogeneous of degree `d` -/
def HomV (n : Nat) (d : Int) (f : WordD → P) : Prop := ∀ W ∈ WdD n 1, Good n (d - (labD W).sum) (f W)

theorem HomV.T2 (hn : 1 ≤ n) {p : Int} (hp : -1 ≤ p) {d : Int} {f : WordD → P} (h : HomV n d f) : HomV n (d + p.natAbs) (T2 n p f) := by
  intro W hW
  rw [T2_apply, if_pos hW]
  refine Good.sum _ (fun U hU => ?_)
  have := (h U hU).mul (M2_good hn hp hU hW)
  rwa [show d - (labD U).sum + ((labD U).sum + p.natAbs - (labD W).sum) = d + p.natAbs - (labD W).sum by ring] at this

theorem homV_bas {U : WordD} (hU : U ∈ WdD n 1) : HomV n (labD U).sum (bas n (labD U)) := by
  intro W _
  rw [bas_apply hU]
  split
  · rename_i h
    rw [h, sub_self]
    exact good_one
  · exact good_zero _

theorem homV_G (hn : 1 ≤ n) : ∀ l, clsD n 1 l → ∀ d f, HomV n d f → HomV n (d + l.sum) (act2 hn (G n l) f) := by
  refine (sysD n 1 (by omega)).G_induction (Q := fun l => ∀ d f, HomV n d f → HomV n (d + l.sum) (act2 hn (G n l) f)) ?_ ?_
  · intro _ d f h; rw [G, GiamSys.G_nil]; simpa using h
  · intro l hl h0 h1 htl ih ihr d f hf
    obtain ⟨V, hV, eV⟩ := (WdD_cls (by omega) _).1 htl
    have hdeg := (sysD n 1 (by omega)).deg l hl h0
    have hp : -1 ≤ hdK (1 : Nat) l := by
      rcases h1 with h1 | h1 <;> push_cast at h1 <;> push_cast <;> omega
    have hs : (num2spec (hdK (1 : Nat) l)).sum = (hdK (1 : Nat) l).natAbs := (num2spec_natAbs (spcD_nz _ h1)).1
    have hrest : ∀ mu, clsD n 1 mu → Good n (l.sum - mu.sum) (inq ((sysD n 1 (by omega)).rest l mu)) := by
      intro mu hmu
      obtain ⟨M, hM, rfl⟩ := (WdD_cls (by omega) _).1 hmu
      have e1 := congrFun (T2_lead hn hl h0) M
      rw [← eV, T2_apply, if_pos hM, Finset.sum_eq_single V, bas_apply hV, if_pos rfl, one_mul] at e1
      · have e2 : vecL n (tDD 0 0 n 1 (hdK (1 : Nat) l) (labD V)) M = inq (tDD 0 0 n 1 (hdK (1 : Nat) l) (labD V) (labD M)) := vec_apply _ hM
        rw [e2] at e1
        have e3 : (sysD n 1 (by omega)).rest l (labD M) = tDD 0 0 n 1 (hdK (1 : Nat) l) (labD V) (labD M) - if l = labD M then 1 else 0 := by
          rw [GiamSys.rest, Finsupp.sub_apply, Finsupp.single_apply, eV]; rfl
        rw [e3, show inq (_ - _) = inq _ - inq _ from map_sub _ _ _, ← e1]
        refine Good.sub ?_ ?_
        · have := M2_good hn hp hV hM
          rwa [eV, show (tlK (1 : Nat) l).sum + ((hdK (1 : Nat) l).natAbs : Int) = l.sum by rw [← hs, ← hdeg]; ring] at this
        · split
          · rename_i h
            rw [← h, sub_self, show inq 1 = 1 from map_one _]
            exact good_one
          · rw [show inq 0 = 0 from map_zero _]
            exact good_zero _
      · intro U hU h
        rw [bas_apply hV, if_neg h, zero_mul]
      · exact fun h => absurd hV h
    rw [G, GiamSys.G_cons _ hl h0, map_sub, LinearMap.sub_apply, map_mul, Module.End.mul_apply, act2_special hn h1, subst_ev_eq, map_sum,
      LinearMap.sum_apply]
    intro W hW
    rw [Pi.sub_apply, Finset.sum_apply]
    refine Good.sub ?_ (Good.sum _ (fun mu hmu => ?_))
    · have := (ih d f hf).T2 hn hp W hW
      rwa [show d + (tlK (1 : Nat) l).sum + ((hdK (1 : Nat) l).natAbs : Int) = d + l.sum by rw [← hs, ← hdeg]; ring] at this
    · rw [map_mul, Module.End.mul_apply, act2_inq, Pi.smul_apply, smul_eq_mul]
      have := (hrest mu (ihr mu hmu).1).mul ((ihr mu hmu).2 d f hf W hW)
      rwa [show l.sum - mu.sum + (d + mu.sum - (labD W).sum) = d + l.sum - (labD W).sum by ring] at this

theorem str_good (hn : 1 ≤ n) {U V W : WordD} (hU : U ∈ WdD n 1) (hV : V ∈ WdD n 1) (hW : W ∈ WdD n 1) :
    Good n ((labD U).sum + (labD V).sum - (labD W).sum) (str hn U V W) := by
  have := homV_G hn _ (lab_cls hU) _ _ (homV_bas hV) W hW
  rwa [add_comm (labD V).sum] at this

/-- the product of two classes -/
theorem qmult_cls {ord : List Int → List Int} (ho : Ascending ord) (hn : 1 ≤ n) {fuel : Nat} (hf : boundD n 1 ≤ fuel) {U V : WordD}
    (hU : U ∈ WdD n 1) (hV : V ∈ WdD n 1) :
    Returns ((Space.mk .D ((1 : Nat) : Int) n).qmult ord fuel (Poly.sym (.S (labD U))) (Poly.sym (.S (labD V)))) (ev2 n (str hn U V)) := by
  have hl : ∀ l, clsD n 1 l → LinComb2 (clsD n 1) (Poly.sym (.S l)) := by
    intro l hl
    refine ⟨wf_sym _, fun t ht => ⟨[], l, ?_, by simp, hl⟩⟩
    rw [List.mem_singleton.1 ht]; rfl
  have hs : ∀ l, clsD n 1 l → ∀ mu ∈ (Finsupp.single l (1 : Polynomial ℚ)).support, clsD n 1 mu := by
    intro l hl mu hmu
    rw [Finset.mem_singleton.1 (Finsupp.support_single_subset hmu)]; exact hl
  have he : ∀ l, den (Poly.sym (.S l)) = ev (Finsupp.single l 1) := fun l => by rw [den_sym, ev_single]; simp [inq]
  have h := qmult_returns ho hn hf (hl _ (lab_cls hU)) (he _) (hs _ (lab_cls hU)) (wf_sym (.S (labD V)))
    (f := bas n (labD V)) (by rw [he, ← ev2_vecL hn (hs _ (lab_cls hV)), vecL_single]) (bas_par _)
  have e : act2 hn (GL n (Finsupp.single (labD U) 1)) (bas n (labD V)) = str hn U V := by
    funext W
    unfold str
    exact congrFun (act2_det hn (by rw [act_GL hn (hs _ (lab_cls hU)), vecL_single, act_G hn _ (lab_cls hU)]) (vec_nrm _)) W
  rwa [e] at h

/-- the coefficients with the parameters exchanged -/
theorem coeff_rq (f : P) (a b c : Nat) : coeff (expo (parMono a c b)) (rq f) = coeff (expo (parMono a b c)) f := by
  have hinj : Function.Injective sq := by
    intro x y h
    cases x <;> cases y <;> simp [sq] at h ⊢ <;> exact h
  have hm : ∀ m : Mono, (expo m).mapDomain sq = expo (m.map sq) := by
    intro m
    induction m with
    | nil => simp [expo]
    | cons s m ih =>
      rw [show s :: m = [s] ++ m from rfl, List.map_append, expo_append, expo_append, Finsupp.mapDomain_add, ih, expo_single, Finsupp.mapDomain_single,
        List.map_singleton, expo_single]
  have e : expo (parMono a c b) = (expo (parMono a b c)).mapDomain sq := by
    rw [hm]
    unfold expo
    congr 1
    rw [Multiset.coe_eq_coe]
    unfold parMono
    simp only [List.map_append, List.map_replicate, sq]
    rw [List.append_assoc, List.append_assoc]
    exact List.Perm.append_left _ List.perm_append_comm
  rw [e]
  unfold rq
  exact coeff_rename_mapDomain sq hinj f _

theorem str_par (hn : 1 ≤ n) (U V : WordD) : Par n (str hn U V) := act2_par hn _ (bas_par _)

end

end TwoProd
end Verif
