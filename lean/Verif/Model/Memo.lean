import Verif.Py.Basic
/-!
# Model of `schubertpy/utils/hash.py` and of CPython's `functools.lru_cache`

The wrapped function may call itself through the cache (as `giambelli_rec_inner` does), so it is modelled
by a program that asks for the results of further calls.  Counters (`cache_info`) are not modelled.
-/

namespace Verif.Memo

/-- The argument values that occur: ints, lists, tuples and other objects (`self`, functions), which hash
and compare by identity. -/
inductive Val where
  | int (i : Int)
  | obj (id : Nat)
  | list (l : List Val)
  | tuple (l : List Val)

mutual
/-- Python equality on these values. -/
def Val.dec : (a b : Val) → Decidable (a = b)
  | .int i, .int j => if h : i = j then isTrue (by rw [h]) else isFalse (fun e => h (by injection e))
  | .obj i, .obj j => if h : i = j then isTrue (by rw [h]) else isFalse (fun e => h (by injection e))
  | .list l, .list m =>
    match Val.decs l m with
    | isTrue h => isTrue (by rw [h])
    | isFalse h => isFalse (fun e => h (by injection e))
  | .tuple l, .tuple m =>
    match Val.decs l m with
    | isTrue h => isTrue (by rw [h])
    | isFalse h => isFalse (fun e => h (by injection e))
  | .int _, .obj _ => isFalse (by simp)
  | .int _, .list _ => isFalse (by simp)
  | .int _, .tuple _ => isFalse (by simp)
  | .obj _, .int _ => isFalse (by simp)
  | .obj _, .list _ => isFalse (by simp)
  | .obj _, .tuple _ => isFalse (by simp)
  | .list _, .int _ => isFalse (by simp)
  | .list _, .obj _ => isFalse (by simp)
  | .list _, .tuple _ => isFalse (by simp)
  | .tuple _, .int _ => isFalse (by simp)
  | .tuple _, .obj _ => isFalse (by simp)
  | .tuple _, .list _ => isFalse (by simp)
/-- Entry by entry. -/
def Val.decs : (l m : List Val) → Decidable (l = m)
  | [], [] => isTrue rfl
  | a :: l, b :: m =>
    match Val.dec a b, Val.decs l m with
    | isTrue h, isTrue h' => isTrue (by rw [h, h'])
    | isFalse h, _ => isFalse (fun e => h (by injection e))
    | _, isFalse h => isFalse (fun e => h (by injection e))
  | [], _ :: _ => isFalse (by simp)
  | _ :: _, [] => isFalse (by simp)
end

instance : DecidableEq Val := Val.dec

mutual
/-- `hash(v)` does not raise: lists are unhashable, tuples hash their entries. -/
def Val.hashable : Val → Bool
  | .int _ => true
  | .obj _ => true
  | .list _ => false
  | .tuple l => Val.hashables l
/-- All entries are hashable. -/
def Val.hashables : List Val → Bool
  | [] => true
  | a :: l => Val.hashable a && Val.hashables l
end

/-- `tuple(arg) if isinstance(arg, list) else arg` (hash.py:11-12, 31, 36). -/
def Val.conv : Val → Val
  | .list l => .tuple l
  | v => v

/-- Positional and keyword arguments of a call. -/
structure Args where
  pos : List Val
  kw : List (String × Val)
  deriving DecidableEq

/-- The wrapper of `hashable_lru_cache` (hash.py:8-14). -/
def convFun (a : Args) : Args := ⟨a.pos.map Val.conv, a.kw.map (fun p => (p.1, p.2.conv))⟩

/-- The wrapper of `hashable_lru_cache_method` (hash.py:24-38): the first positional argument, `self`, is
left alone. -/
def convMethod (a : Args) : Args :=
  ⟨match a.pos with
    | [] => []
    | s :: r => s :: r.map Val.conv, a.kw.map (fun p => (p.1, p.2.conv))⟩

/-- The key built by `lru_cache` can be hashed. -/
def Args.hashable (a : Args) : Bool := Val.hashables a.pos && Val.hashables (a.kw.map Prod.snd)

/-- Body of a wrapped function: it returns a value, raises, or calls itself through the cache and goes on
with the outcome. -/
inductive Prog (K V E : Type) where
  | ret (r : Except E V)
  | call (k : K) (cont : Except E V → Prog K V E)

variable {K V E : Type}

/-- Runs a body, calls being answered by `f` with state passing. -/
def Prog.run {σ : Type} (f : σ → K → Option (Except E V × σ)) : σ → Prog K V E → Option (Except E V × σ)
  | s, .ret r => some (r, s)
  | s, .call k c =>
    match f s k with
    | none => none
    | some (r, s') => (c r).run f s'

variable [DecidableEq K]

/-- Cache contents, most recently used entry first. -/
abbrev Cache (K V : Type) := List (K × V)

/-- Dictionary lookup. -/
def find (k : K) : Cache K V → Option V
  | [] => none
  | (k', v) :: r => if k = k' then some v else find k r

/-- Moving an entry to the most recently used place. -/
def touch (k : K) (v : V) (st : Cache K V) : Cache K V :=
  (k, v) :: st.filter (fun p => decide (p.1 ≠ k))

/-- Storing the result of a miss. `none`: unbounded (a plain dictionary); `some n`: at most `n` entries,
the least recently used one is dropped. If the key has been stored by a nested call meanwhile, a bounded cache
is left as it is. -/
def store (maxsize : Option Nat) (k : K) (v : V) (st : Cache K V) : Cache K V :=
  match maxsize with
  | none => touch k v st
  | some n =>
    match find k st with
    | some _ => st
    | none => if st.length < n then (k, v) :: st else (k, v) :: st.dropLast

/-- One call of the cached function; the `Nat` bounds the depth of nested calls. With `maxsize = 0` the function
is just called. Exceptions are not stored. -/
def cached (body : K → Prog K V E) (maxsize : Option Nat) :
    Nat → Cache K V → K → Option (Except E V × Cache K V)
  | 0, _, _ => none
  | f + 1, st, k =>
    match maxsize with
    | some 0 => (body k).run (cached body maxsize f) st
    | _ =>
      match find k st with
      | some v => some (.ok v, if maxsize = none then st else touch k v st)
      | none =>
        match (body k).run (cached body maxsize f) st with
        | none => none
        | some (.error e, st') => some (.error e, st')
        | some (.ok v, st') => some (.ok v, store maxsize k v st')

/-- The call of the wrapper: arguments are converted; unhashable keys raise `TypeError`, except with
`maxsize = 0`, where no key is built. -/
def wrapped {V : Type} (conv : Args → Args) (body : Args → Prog Args V PyErr) (maxsize : Option Nat)
    (fuel : Nat) (st : Cache Args V) (a : Args) : Option (Except PyErr V × Cache Args V) :=
  if maxsize ≠ some 0 ∧ (conv a).hashable = false then some (.error .typeError, st)
  else cached body maxsize fuel st (conv a)

/-- A history of calls, with the results in order. -/
def history {σ A R : Type} (step : σ → A → Option (R × σ)) : σ → List A → Option (List R × σ)
  | st, [] => some ([], st)
  | st, a :: r =>
    match step st a with
    | none => none
    | some (v, st') =>
      match history step st' r with
      | none => none
      | some (vs, st'') => some (v :: vs, st'')

end Verif.Memo
