import Verif.Spec.Memo
import Mathlib.Data.List.Forall2
/-!
# Property C29: memoisation is transparent
-/

namespace Verif
open Spec Memo

variable {K V E : Type}

/-! ## Plain evaluation is deterministic -/

theorem evalBody_mono {f g : K → Option (Except E V)} (h : ∀ k r, f k = some r → g k = some r)
    (p : Prog K V E) (r : Except E V) (hp : evalBody f p = some r) : evalBody g p = some r := by
  induction p with
  | ret r' => exact hp
  | call k c ih =>
    simp only [evalBody] at hp ⊢
    cases hf : f k with
    | none => rw [hf] at hp; simp at hp
    | some r' =>
      rw [hf] at hp
      rw [h k r' hf]
      exact ih r' hp

theorem plain_succ (body : K → Prog K V E) (n : Nat) : ∀ k r, plain body n k = some r →
    plain body (n + 1) k = some r := by
  induction n with
  | zero => intro k r h; simp [plain] at h
  | succ n ih =>
    intro k r h
    exact evalBody_mono ih _ _ h

theorem plain_mono (body : K → Prog K V E) {n m : Nat} (hnm : n ≤ m) {k : K} {r : Except E V}
    (h : plain body n k = some r) : plain body m k = some r := by
  induction m with
  | zero => have : n = 0 := by omega
            subst this; exact h
  | succ m ih =>
    by_cases hn : n = m + 1
    · subst hn; exact h
    · exact plain_succ body m k r (ih (by omega))

theorem outcome_unique {body : K → Prog K V E} {k : K} {r r' : Except E V} (h : Outcome body k r)
    (h' : Outcome body k r') : r = r' := by
  obtain ⟨n, hn⟩ := h
  obtain ⟨m, hm⟩ := h'
  have h1 := plain_mono body (Nat.le_max_left n m) hn
  have h2 := plain_mono body (Nat.le_max_right n m) hm
  rw [h1] at h2
  exact Option.some.inj h2

/-- Evaluation of a body from the outcomes of the calls. -/
inductive BodyOutcome (body : K → Prog K V E) : Prog K V E → Except E V → Prop
  | ret (r) : BodyOutcome body (.ret r) r
  | call {k c r s} : Outcome body k r → BodyOutcome body (c r) s → BodyOutcome body (.call k c) s

theorem evalBody_of_bodyOutcome {body : K → Prog K V E} {p : Prog K V E} {r : Except E V}
    (h : BodyOutcome body p r) : ∃ N, evalBody (plain body N) p = some r := by
  induction h with
  | ret r => exact ⟨0, rfl⟩
  | @call k c r s h1 _ ih =>
    obtain ⟨n, hn⟩ := h1
    obtain ⟨m, hm⟩ := ih
    refine ⟨max n m, ?_⟩
    simp only [evalBody, plain_mono body (Nat.le_max_left n m) hn]
    exact evalBody_mono (fun k r h => plain_mono body (Nat.le_max_right n m) h) _ _ hm

theorem outcome_of_body {body : K → Prog K V E} {k : K} {r : Except E V}
    (h : BodyOutcome body (body k) r) : Outcome body k r := by
  obtain ⟨N, hN⟩ := evalBody_of_bodyOutcome h
  exact ⟨N + 1, hN⟩

variable [DecidableEq K]

/-! ## The cache invariant -/

/-- Every stored value is the outcome of its key, no key is stored twice, and the size bound holds. -/
structure CacheOk (body : K → Prog K V E) (maxsize : Option Nat) (st : Cache K V) : Prop where
  right : ∀ p ∈ st, Outcome body p.1 (.ok p.2)
  nodup : (st.map Prod.fst).Nodup
  bound : ∀ n, maxsize = some n → st.length ≤ n

theorem find_some {k : K} {v : V} {st : Cache K V} (h : find k st = some v) : (k, v) ∈ st := by
  induction st with
  | nil => simp [find] at h
  | cons p st ih =>
    obtain ⟨k', v'⟩ := p
    simp only [find] at h
    split at h
    · rename_i e; subst e
      have := Option.some.inj h
      subst this; simp
    · exact List.mem_cons_of_mem _ (ih h)

theorem find_none {k : K} {st : Cache K V} (h : find k st = none) : k ∉ st.map Prod.fst := by
  induction st with
  | nil => simp
  | cons p st ih =>
    obtain ⟨k', v'⟩ := p
    simp only [find] at h
    split at h
    · simp at h
    · rename_i e
      simp only [List.map_cons, List.mem_cons, not_or]
      exact ⟨e, ih h⟩

theorem touch_ok {body : K → Prog K V E} {maxsize : Option Nat} {st : Cache K V} {k : K} {v : V}
    (h : CacheOk body maxsize st) (hv : Outcome body k (.ok v)) (hm : (k, v) ∈ st ∨ maxsize = none) :
    CacheOk body maxsize (touch k v st) := by
  refine ⟨?_, ?_, ?_⟩
  · intro p hp
    rcases List.mem_cons.1 hp with rfl | hp
    · exact hv
    · exact h.right p (List.mem_filter.1 hp).1
  · simp only [touch, List.map_cons, List.nodup_cons]
    constructor
    · rw [List.mem_map]
      rintro ⟨p, hp, he⟩
      have := (List.mem_filter.1 hp).2
      simp [he] at this
    · exact h.nodup.sublist (List.filter_sublist.map _)
  · intro n hn
    rcases hm with hm | hm
    · have hb := h.bound n hn
      have : (st.filter (fun p => decide (p.1 ≠ k))).length < st.length := by
        rw [List.length_filter_lt_length_iff_exists]
        exact ⟨(k, v), hm, by simp⟩
      simp only [touch, List.length_cons]; omega
    · rw [hm] at hn; simp at hn

theorem store_ok {body : K → Prog K V E} {maxsize : Option Nat} {st : Cache K V} {k : K} {v : V}
    (h : CacheOk body maxsize st) (h0 : maxsize ≠ some 0) (hv : Outcome body k (.ok v)) :
    CacheOk body maxsize (store maxsize k v st) := by
  unfold store
  cases maxsize with
  | none => exact touch_ok h hv (Or.inr rfl)
  | some n =>
    cases hf : find k st with
    | some v' => exact h
    | none =>
      have hk := find_none hf
      have hn : n ≠ 0 := fun e => h0 (by rw [e])
      simp only
      split
      · rename_i hlt
        refine ⟨?_, ?_, ?_⟩
        · intro p hp
          rcases List.mem_cons.1 hp with rfl | hp
          · exact hv
          · exact h.right p hp
        · simp only [List.map_cons, List.nodup_cons]
          exact ⟨hk, h.nodup⟩
        · intro m hm
          have := Option.some.inj hm
          simp only [List.length_cons]; omega
      · rename_i hlt
        have hsub : st.dropLast.Sublist st := List.dropLast_sublist _
        refine ⟨?_, ?_, ?_⟩
        · intro p hp
          rcases List.mem_cons.1 hp with rfl | hp
          · exact hv
          · exact h.right p (hsub.mem hp)
        · simp only [List.map_cons, List.nodup_cons]
          exact ⟨fun hm => hk ((hsub.map _).mem hm), h.nodup.sublist (hsub.map _)⟩
        · intro m hm
          have e := Option.some.inj hm
          have := h.bound n rfl
          simp only [List.length_cons, List.length_dropLast]; omega

theorem run_ok {body : K → Prog K V E} {maxsize : Option Nat}
    (f : Cache K V → K → Option (Except E V × Cache K V))
    (hf : ∀ st k r st', CacheOk body maxsize st → f st k = some (r, st') →
      Outcome body k r ∧ CacheOk body maxsize st')
    (p : Prog K V E) : ∀ st r st', CacheOk body maxsize st → p.run f st = some (r, st') →
      BodyOutcome body p r ∧ CacheOk body maxsize st' := by
  induction p with
  | ret r =>
    intro st r' st' h he
    simp only [Prog.run, Option.some.injEq, Prod.mk.injEq] at he
    obtain ⟨rfl, rfl⟩ := he
    exact ⟨.ret _, h⟩
  | call k c ih =>
    intro st r' st' h he
    simp only [Prog.run] at he
    cases hc : f st k with
    | none => rw [hc] at he; simp at he
    | some q =>
      obtain ⟨r1, st1⟩ := q
      rw [hc] at he
      obtain ⟨h1, h2⟩ := hf st k r1 st1 h hc
      obtain ⟨h3, h4⟩ := ih r1 st1 r' st' h2 he
      exact ⟨.call h1 h3, h4⟩

/-- C29: whatever a cached call returns or raises is the outcome of the function itself, and the
cache stays correct, duplicate free and within `maxsize`. -/
theorem C29_sound (body : K → Prog K V E) (maxsize : Option Nat) (fuel : Nat) :
    ∀ (st : Cache K V) (k : K) (r : Except E V) (st' : Cache K V), CacheOk body maxsize st →
    cached body maxsize fuel st k = some (r, st') → Outcome body k r ∧ CacheOk body maxsize st' := by
  induction fuel with
  | zero => intro st k r st' _ h; simp [cached] at h
  | succ fuel ih =>
    intro st k r st' hok h
    have hrun := run_ok (body := body) (maxsize := maxsize) (cached body maxsize fuel) ih (body k)
    by_cases h0 : maxsize = some 0
    · subst h0
      simp only [cached] at h
      obtain ⟨h1, h2⟩ := hrun st r st' hok h
      exact ⟨outcome_of_body h1, h2⟩
    · have key : (match find k st with
          | some v => some (.ok v, if maxsize = none then st else touch k v st)
          | none =>
            match (body k).run (cached body maxsize fuel) st with
            | none => none
            | some (.error e, st') => some (.error e, st')
            | some (.ok v, st') => some (.ok v, store maxsize k v st')) = some (r, st') := by
        rw [← h]
        match maxsize, h0 with
        | none, _ => rfl
        | some 0, h0 => exact absurd rfl h0
        | some (n + 1), _ => rfl
      cases hf : find k st with
      | some v =>
        rw [hf] at key
        simp only [Option.some.injEq, Prod.mk.injEq] at key
        obtain ⟨rfl, rfl⟩ := key
        have hm := find_some hf
        have hv := hok.right _ hm
        refine ⟨hv, ?_⟩
        split
        · exact hok
        · exact touch_ok hok hv (Or.inl hm)
      | none =>
        rw [hf] at key
        simp only at key
        cases hb : (body k).run (cached body maxsize fuel) st with
        | none => rw [hb] at key; simp at key
        | some q =>
          obtain ⟨r1, st1⟩ := q
          rw [hb] at key
          obtain ⟨h1, h2⟩ := hrun st r1 st1 hok hb
          have ho := outcome_of_body h1
          cases r1 with
          | error e =>
            simp only [Option.some.injEq, Prod.mk.injEq] at key
            obtain ⟨rfl, rfl⟩ := key
            exact ⟨ho, h2⟩
          | ok v =>
            simp only [Option.some.injEq, Prod.mk.injEq] at key
            obtain ⟨rfl, rfl⟩ := key
            exact ⟨ho, store_ok h2 h0 ho⟩

/-- C29: the cache never makes a terminating call diverge: recursion depth `n` is enough if it is
enough without cache. -/
theorem C29_terminates (body : K → Prog K V E) (maxsize : Option Nat) (n : Nat) :
    ∀ (st : Cache K V) (k : K) (r : Except E V), CacheOk body maxsize st → plain body n k = some r →
    ∃ st', cached body maxsize n st k = some (r, st') := by
  induction n with
  | zero => intro st k r _ h; simp [plain] at h
  | succ n ih =>
    intro st k r hok h
    have hrun : ∀ (p : Prog K V E) (st : Cache K V) (r : Except E V), CacheOk body maxsize st →
        evalBody (plain body n) p = some r → ∃ st', p.run (cached body maxsize n) st = some (r, st') := by
      intro p
      induction p with
      | ret r' =>
        intro st r _ h
        have := Option.some.inj h
        subst this
        exact ⟨st, rfl⟩
      | call k' c ihp =>
        intro st r hok h
        simp only [evalBody] at h
        cases hc : plain body n k' with
        | none => rw [hc] at h; simp at h
        | some r1 =>
          rw [hc] at h
          obtain ⟨st1, h1⟩ := ih st k' r1 hok hc
          have hok1 := (C29_sound body maxsize n st k' r1 st1 hok h1).2
          obtain ⟨st2, h2⟩ := ihp r1 st1 r hok1 h
          exact ⟨st2, by simp only [Prog.run, h1, h2]⟩
    obtain ⟨st1, h1⟩ := hrun (body k) st r hok h
    have step : ∃ st', (match find k st with
          | some v => some (.ok v, if maxsize = none then st else touch k v st)
          | none =>
            match (body k).run (cached body maxsize n) st with
            | none => none
            | some (.error e, st') => some (.error e, st')
            | some (.ok v, st') => some (.ok v, store maxsize k v st')) = some (r, st') := by
      cases hf : find k st with
      | some v =>
        have hv := hok.right _ (find_some hf)
        have := outcome_unique hv ⟨n + 1, h⟩
        rw [← this]
        exact ⟨_, rfl⟩
      | none =>
        simp only [h1]
        cases r with
        | error e => exact ⟨_, rfl⟩
        | ok v => exact ⟨_, rfl⟩
    match maxsize, hrun, h1, step with
    | none, _, _, step => exact step
    | some 0, _, h1, _ => exact ⟨st1, h1⟩
    | some (m + 1), _, _, step => exact step

/-! ## The wrappers and whole histories -/

/-- What the wrapper should do on `a`: `TypeError` when a cache is in use and a converted argument cannot be
hashed, else the outcome of the function on the converted arguments. -/
def WrapOutcome {V : Type} (conv : Args → Args) (body : Args → Prog Args V PyErr) (maxsize : Option Nat)
    (a : Args) (r : Except PyErr V) : Prop :=
  if maxsize ≠ some 0 ∧ (conv a).hashable = false then r = .error .typeError else Outcome body (conv a) r

/-- C29: for every history of calls, starting from the empty cache, with every `maxsize`, each call
has the outcome of the wrapped function on the converted arguments. `conv` is `convFun` for
`hashable_lru_cache` and `convMethod` for `hashable_lru_cache_method`. -/
theorem C29_history {V : Type} (conv : Args → Args) (body : Args → Prog Args V PyErr) (maxsize : Option Nat)
    (fuel : Nat) (calls : List Args) (res : List (Except PyErr V)) (st : Cache Args V)
    (h : history (wrapped conv body maxsize fuel) [] calls = some (res, st)) :
    List.Forall₂ (WrapOutcome conv body maxsize) calls res ∧ CacheOk body maxsize st := by
  have gen : ∀ calls st0 res st, CacheOk body maxsize st0 →
      history (wrapped conv body maxsize fuel) st0 calls = some (res, st) →
      List.Forall₂ (WrapOutcome conv body maxsize) calls res ∧ CacheOk body maxsize st := by
    intro calls
    induction calls with
    | nil =>
      intro st0 res st hok h
      simp only [history, Option.some.injEq, Prod.mk.injEq] at h
      obtain ⟨rfl, rfl⟩ := h
      exact ⟨.nil, hok⟩
    | cons a calls ih =>
      intro st0 res st hok h
      simp only [history] at h
      cases hw : wrapped conv body maxsize fuel st0 a with
      | none => rw [hw] at h; simp at h
      | some q =>
        obtain ⟨v, st1⟩ := q
        rw [hw] at h
        have h1 : WrapOutcome conv body maxsize a v ∧ CacheOk body maxsize st1 := by
          unfold wrapped at hw
          unfold WrapOutcome
          split at hw
          · rename_i hc
            simp only [Option.some.injEq, Prod.mk.injEq] at hw
            obtain ⟨rfl, rfl⟩ := hw
            rw [if_pos hc]
            exact ⟨rfl, hok⟩
          · rename_i hc
            rw [if_neg hc]
            exact C29_sound body maxsize fuel _ _ _ _ hok hw
        simp only at h
        cases hh : history (wrapped conv body maxsize fuel) st1 calls with
        | none => rw [hh] at h; simp at h
        | some q =>
          obtain ⟨vs, st2⟩ := q
          rw [hh] at h
          simp only [Option.some.injEq, Prod.mk.injEq] at h
          obtain ⟨rfl, rfl⟩ := h
          obtain ⟨h2, h3⟩ := ih st1 vs st2 h1.2 hh
          exact ⟨.cons h1.1 h2, h3⟩
  exact gen calls [] res st ⟨by simp, by simp, by simp⟩ h

/-- C29: a list argument and the tuple with the same entries are the same call. -/
theorem C29_list_tuple (l : List Val) (r : List Val) (kw : List (String × Val)) :
    convFun ⟨.list l :: r, kw⟩ = convFun ⟨.tuple l :: r, kw⟩ ∧
    ∀ s, convMethod ⟨s :: .list l :: r, kw⟩ = convMethod ⟨s :: .tuple l :: r, kw⟩ := by
  constructor
  · rfl
  · intro s; rfl

/-- C29: the same for keyword arguments. -/
theorem C29_list_tuple_kw (r : List Val) (kw kw' : List (String × Val)) (nm : String) (l : List Val) :
    convFun ⟨r, kw ++ (nm, .list l) :: kw'⟩ = convFun ⟨r, kw ++ (nm, .tuple l) :: kw'⟩ ∧
    convMethod ⟨r, kw ++ (nm, .list l) :: kw'⟩ = convMethod ⟨r, kw ++ (nm, .tuple l) :: kw'⟩ := by
  simp [convFun, convMethod, Val.conv]

/-- a value that can be hashed, or a list of such values -/
def Spec.ListOrHashable (v : Val) : Prop := v.hashable = true ∨ ∃ l, v = .list l ∧ ∀ x ∈ l, x.hashable = true

theorem hashables_iff (l : List Val) : Val.hashables l = true ↔ ∀ x ∈ l, x.hashable = true := by
  induction l with
  | nil => simp [Val.hashables]
  | cons a l ih => simp [Val.hashables, ih]

theorem conv_hashable {v : Val} (h : Spec.ListOrHashable v) : v.conv.hashable = true := by
  rcases h with h | ⟨l, rfl, h⟩
  · cases v with
    | list l => simp [Val.hashable] at h
    | _ => exact h
  · simp only [Val.conv, Val.hashable]
    exact (hashables_iff l).2 h

/-- C29: lists are accepted wherever an argument stands, by position or by keyword: the wrapper raises nothing of its own and calls
the cached function with the same arguments, tuples in the place of lists. -/
theorem C29_accepts {V : Type} (body : Args → Prog Args V PyErr) (maxsize : Option Nat) (fuel : Nat) (st : Cache Args V) (a : Args)
    (h1 : ∀ v ∈ a.pos, Spec.ListOrHashable v) (h2 : ∀ p ∈ a.kw, Spec.ListOrHashable p.2) :
    wrapped convFun body maxsize fuel st a = cached body maxsize fuel st (convFun a) ∧
    (convFun a).pos.length = a.pos.length ∧ (convFun a).kw.map Prod.fst = a.kw.map Prod.fst ∧
    ∀ s : Val, s.hashable = true → wrapped convMethod body maxsize fuel st ⟨s :: a.pos, a.kw⟩ =
      cached body maxsize fuel st ⟨s :: (convFun a).pos, (convFun a).kw⟩ := by
  have hp : Val.hashables (a.pos.map Val.conv) = true := by
    rw [hashables_iff]
    intro x hx
    obtain ⟨v, hv, rfl⟩ := List.mem_map.1 hx
    exact conv_hashable (h1 v hv)
  have hk : Val.hashables ((a.kw.map (fun p => (p.1, p.2.conv))).map Prod.snd) = true := by
    rw [hashables_iff]
    intro x hx
    simp only [List.map_map, List.mem_map, Function.comp] at hx
    obtain ⟨v, hv, rfl⟩ := hx
    exact conv_hashable (h2 v hv)
  refine ⟨?_, by simp [convFun], by simp [convFun, List.map_map, Function.comp_def], fun s hs => ?_⟩
  · unfold wrapped
    rw [if_neg]
    simp only [convFun, Args.hashable, hp, hk]
    simp
  · unfold wrapped
    rw [if_neg]
    · rfl
    · simp only [convMethod, Args.hashable, Val.hashables, hs, hp, hk]
      simp

/-- C29: different spaces (`self` objects) never share entries. -/
theorem C29_self_kept (s s' : Val) (r : List Val) (kw : List (String × Val))
    (h : convMethod ⟨s :: r, kw⟩ = convMethod ⟨s' :: r, kw⟩) : s = s' := by
  simp only [convMethod, Args.mk.injEq, List.cons.injEq, and_true] at h
  exact h

/-- C29, error branch: only the outermost lists are converted; a list of lists raises `TypeError`. -/
theorem C29_nested_list_raises {V : Type} (body : Args → Prog Args V PyErr) (fuel : Nat) (st : Cache Args V)
    (l m : List Val) :
    wrapped convFun body none fuel st ⟨[.list (.list l :: m)], []⟩ = some (.error .typeError, st) := by
  simp [wrapped, convFun, Val.conv, Args.hashable, Val.hashables, Val.hashable]

/-- a list, or a tuple with a list at some depth: Python cannot hash it -/
inductive Spec.HoldsList : Val → Prop
  | list (l : List Val) : Spec.HoldsList (.list l)
  | tuple {l : List Val} {v : Val} : v ∈ l → Spec.HoldsList v → Spec.HoldsList (.tuple l)

/-- an argument that cannot be hashed even after a list has become a tuple -/
def Spec.Deep (v : Val) : Prop := ∃ l, (v = .list l ∨ v = .tuple l) ∧ ∃ w ∈ l, Spec.HoldsList w

mutual
theorem hashable_iff : (v : Val) → (v.hashable = false ↔ Spec.HoldsList v)
  | .int _ => ⟨fun h => by simp [Val.hashable] at h, fun h => by cases h⟩
  | .obj _ => ⟨fun h => by simp [Val.hashable] at h, fun h => by cases h⟩
  | .list l => ⟨fun _ => .list l, fun _ => rfl⟩
  | .tuple l => by
    rw [Val.hashable, hashables_false l]
    constructor
    · rintro ⟨v, hv, h⟩
      exact .tuple hv h
    · intro h
      cases h with
      | tuple hv h => exact ⟨_, hv, h⟩
theorem hashables_false : (l : List Val) → (Val.hashables l = false ↔ ∃ v ∈ l, Spec.HoldsList v)
  | [] => by simp [Val.hashables]
  | a :: l => by
    rw [Val.hashables, Bool.and_eq_false_iff, hashable_iff a, hashables_false l]
    simp
end

theorem deep_iff (v : Val) : Spec.HoldsList v.conv ↔ Spec.Deep v := by
  unfold Spec.Deep
  cases v with
  | int a => exact ⟨fun h => (by cases h), fun ⟨l, h, _⟩ => (by simp at h)⟩
  | obj a => exact ⟨fun h => (by cases h), fun ⟨l, h, _⟩ => (by simp at h)⟩
  | list l =>
    refine ⟨fun h => ?_, fun ⟨l', h, w, hw, h'⟩ => ?_⟩
    · cases h with
      | tuple hv h => exact ⟨l, .inl rfl, _, hv, h⟩
    · simp at h
      subst h
      exact .tuple hw h'
  | tuple l =>
    refine ⟨fun h => ?_, fun ⟨l', h, w, hw, h'⟩ => ?_⟩
    · cases h with
      | tuple hv h => exact ⟨l, .inr rfl, _, hv, h⟩
    · simp at h
      subst h
      exact .tuple hw h'

/-- C29, error branch: with a cache in use the wrapper raises `TypeError` before the call exactly if one of the arguments, by position
or by keyword, is a list or a tuple in which a list remains; then the cache is unchanged. Otherwise, and with `maxsize=0`, the cached
function is called. For the method wrapper the first argument, `self`, may not be or hold a list itself. -/
theorem C29_raises_iff {V : Type} (body : Args → Prog Args V PyErr) (maxsize : Option Nat) (fuel : Nat) (st : Cache Args V) (a : Args) :
    ((maxsize ≠ some 0 ∧ ((∃ v ∈ a.pos, Spec.Deep v) ∨ ∃ p ∈ a.kw, Spec.Deep p.2)) →
      wrapped convFun body maxsize fuel st a = some (.error .typeError, st)) ∧
    (¬ (maxsize ≠ some 0 ∧ ((∃ v ∈ a.pos, Spec.Deep v) ∨ ∃ p ∈ a.kw, Spec.Deep p.2)) →
      wrapped convFun body maxsize fuel st a = cached body maxsize fuel st (convFun a)) ∧
    ∀ s : Val, ((maxsize ≠ some 0 ∧ (Spec.HoldsList s ∨ (∃ v ∈ a.pos, Spec.Deep v) ∨ ∃ p ∈ a.kw, Spec.Deep p.2)) →
      wrapped convMethod body maxsize fuel st ⟨s :: a.pos, a.kw⟩ = some (.error .typeError, st)) ∧
    (¬ (maxsize ≠ some 0 ∧ (Spec.HoldsList s ∨ (∃ v ∈ a.pos, Spec.Deep v) ∨ ∃ p ∈ a.kw, Spec.Deep p.2)) →
      wrapped convMethod body maxsize fuel st ⟨s :: a.pos, a.kw⟩ = cached body maxsize fuel st ⟨s :: (convFun a).pos, (convFun a).kw⟩) := by
  have hp : Val.hashables (a.pos.map Val.conv) = false ↔ ∃ v ∈ a.pos, Spec.Deep v := by
    rw [hashables_false]
    simp only [List.mem_map, exists_exists_and_eq_and, deep_iff]
  have hk : Val.hashables ((a.kw.map (fun p => (p.1, p.2.conv))).map Prod.snd) = false ↔ ∃ p ∈ a.kw, Spec.Deep p.2 := by
    rw [hashables_false]
    simp only [List.map_map, List.mem_map, Function.comp, exists_exists_and_eq_and, deep_iff]
  have e1 : (convFun a).hashable = false ↔ ((∃ v ∈ a.pos, Spec.Deep v) ∨ ∃ p ∈ a.kw, Spec.Deep p.2) := by
    rw [← hp, ← hk, Args.hashable, Bool.and_eq_false_iff]
    rfl
  have e2 : ∀ s : Val, (convMethod ⟨s :: a.pos, a.kw⟩).hashable = false ↔
      (Spec.HoldsList s ∨ (∃ v ∈ a.pos, Spec.Deep v) ∨ ∃ p ∈ a.kw, Spec.Deep p.2) := by
    intro s
    rw [← hp, ← hk, ← hashable_iff, Args.hashable, Bool.and_eq_false_iff]
    simp only [convMethod, Val.hashables, Bool.and_eq_false_iff]
    rw [or_assoc]
  refine ⟨fun h => ?_, fun h => ?_, fun s => ⟨fun h => ?_, fun h => ?_⟩⟩
  · unfold wrapped
    rw [if_pos ⟨h.1, e1.2 h.2⟩]
  · unfold wrapped
    rw [if_neg (fun h' => h ⟨h'.1, e1.1 h'.2⟩)]
  · unfold wrapped
    rw [if_pos ⟨h.1, (e2 s).2 h.2⟩]
  · unfold wrapped
    rw [if_neg (fun h' => h ⟨h'.1, (e2 s).1 h'.2⟩)]
    rfl

/-- a keyword argument that is a list of lists -/
example : Spec.Deep (.list [.list [.int 1]]) ∧ ¬ Spec.Deep (.list [.int 1]) ∧
    wrapped convFun (fun _ => (.ret (.ok 1) : Prog Args Int PyErr)) none 5 [] ⟨[], [("x", .list [.list [.int 1]])]⟩ = some (.error .typeError, []) := by
  refine ⟨⟨_, .inl rfl, _, List.mem_singleton_self _, .list _⟩, ?_, rfl⟩
  rintro ⟨l, h, w, hw, h'⟩
  simp at h
  subst h
  rw [List.mem_singleton.1 hw] at h'
  cases h'

/-- The recursive doubling function through a cache of size 2: values right, cache of size 2. -/
def exBody : Args → Prog Args Int PyErr
  | ⟨[.int 0], _⟩ => .ret (.ok 1)
  | ⟨[.int i], kw⟩ => .call ⟨[.int (i - 1)], kw⟩ (fun r => .ret (match r with
    | .ok v => .ok (2 * v)
    | .error e => .error e))
  | _ => .ret (.error .typeError)

example : (history (wrapped convFun exBody (some 2) 20) [] [⟨[.int 3], []⟩, ⟨[.int 1], []⟩]).map
    (fun p => (p.1, p.2.length)) = some ([.ok 8, .ok 2], 2) := by rfl

end Verif
