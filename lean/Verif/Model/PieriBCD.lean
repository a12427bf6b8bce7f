import Verif.Model.PieriA
import Verif.Model.SpaceMaps
import Mathlib.Data.List.Sort
/-!
# Model of the Pieri rules of types B, C, D

`qcalc.py` lines 362-584 (`calc_comps`, `count_ones`, `count_comps`, `pieri_set`, `_pieri_fill`, `_pieri_itr`,
`_part_star`, `_part_tilde`), `isotropic_grassmannian.py` lines 146-160, `orthogonal_grassmannian.py` lines 212-366.

All indices that the loops use are in range for the inputs the library passes (classes of the space), so indexing
is total with default `0`. `k` is a `Nat`: every constructor of types B, C, D gives `k ≥ 0` except the
degenerate orthogonal ones of C31.
-/

namespace Verif

/-! ### `pieri_set` -/

/-- `while b+1 <= lbot and bot[b]+(b+1)-1 > t: b += 1` (qcalc.py:443-444, 481-482); `c` bounds the rounds
(`lbot - b` are enough). Here `t = top[i]+k-(i+1)-d`. -/
def shiftRow (bot : List Int) (t : Int) : Nat → Nat → Nat
  | 0, b => b
  | c + 1, b => if at' bot b + b > t then shiftRow bot t c (b + 1) else b

/-- The loop `for i in range(k)` that refines `inner` (qcalc.py:441-448); `c` more rounds, round `i`. -/
def innerLoop (top bot : List Int) (lbot k : Nat) (d : Int) : Nat → Nat → Nat → List Int → List Int
  | 0, _, _, inner => inner
  | c + 1, i, b, inner =>
    let t := at' top i + k - (i + 1) - d
    let b := shiftRow bot t (lbot - b) b
    let v := if t + 2 - (b + 1) ≤ 0 then max (at' top i) (at' inner i)
      else max (at' bot b + b + (i + 1) - k + d) (at' inner i)
    innerLoop top bot lbot k d c (i + 1) b (inner.set i v)

/-- `while b1+1 < len(outbot) and bot[b1]+(b1+1)-1 <= t: ...` (qcalc.py:489-492); `u = top1[i]+k-(i+1)-d`. -/
def outLoop (bot : List Int) (t u : Int) : Nat → Nat → List Int → List Int
  | 0, _, out => out
  | c + 1, b1, out =>
    if b1 + 1 < out.length ∧ at' bot b1 + b1 ≤ t then
      outLoop bot t u c (b1 + 1) (out.set (b1 + 1) (min (at' out (b1 + 1)) (u - (b1 + 1))))
    else out

/-- The loop `for i in range(k)` for the bounds of the bottom partition (qcalc.py:479-492);
`none` is `inbot = False`. -/
def botLoop (top top1 bot : List Int) (lbot k : Nat) (d : Int) : Nat → Nat → Nat → List Int → List Int →
    Option (List Int × List Int)
  | 0, _, _, inb, out => some (inb, out)
  | c + 1, i, b, inb, out =>
    let t := at' top i + k - (i + 1) - d
    let u := at' top1 i + k - (i + 1) - d
    let b := shiftRow bot t (lbot - b) b
    if at' top1 i < at' top i then
      if b + 1 > inb.length then none
      else
        let inb := inb.set b (max (at' inb b) (t - (b + 1) + 2))
        botLoop top top1 bot lbot k d c (i + 1) b inb (outLoop bot t u out.length b out)
    else botLoop top top1 bot lbot k d c (i + 1) b inb (outLoop bot t u out.length b out)

/-- `while rr <= len(lam)` of `_pieri_fill` (qcalc.py:536-540), 0-based row `rr`. -/
def fillLoop (inner outer : List Int) : Nat → Nat → Int → List Int → List Int × Int
  | 0, _, pp, res => (res, pp)
  | c + 1, rr, pp, res =>
    let x := min (min (at' outer rr) (at' inner rr + pp)) (at' res (rr - 1) - 1)
    fillLoop inner outer c (rr + 1) (pp - x + at' inner rr) (res.set rr x)

/-- `_pieri_fill` (qcalc.py:522-545) with 0-based row (`r - 1`). -/
def pieriFill (lam inner outer : List Int) (row : Nat) (p : Int) : Option (List Int) :=
  if lam.length = 0 then some lam
  else
    let r :=
      if row = 0 then
        let x := min (at' outer 0) (at' inner 0 + p)
        fillLoop inner outer (lam.length - 1) 1 (p - x + at' inner 0) (lam.set 0 x)
      else fillLoop inner outer (lam.length - row) row p lam
    if r.2 > 0 then none else some r.1

/-- The `for r in range(len(lam)-1, 0, -1)` loop of `_pieri_itr` (qcalc.py:554-561); the argument is Python's `r`. -/
def itrLoop (lam inner outer : List Int) : Nat → Int → Option (List Int)
  | 0, _ => none
  | r + 1, p =>
    if at' lam r > at' inner r then
      match pieriFill (lam.set r (at' lam r - 1)) inner outer (r + 1) (p + 1) with
      | some l => some l
      | none => itrLoop lam inner outer r (p + at' lam r - at' inner r)
    else itrLoop lam inner outer r p

/-- `_pieri_itr` (qcalc.py:548-563). -/
def pieriItr (lam inner outer : List Int) : Option (List Int) :=
  if lam.length = 0 then none
  else itrLoop lam inner outer (lam.length - 1) (last' lam - last' inner)

/-- `while isinstance(bot1, list)` (qcalc.py:507-514): the shapes glued from `top1` and the bottom partitions. -/
def botIter (k : Nat) (top1c inbot outbot : List Int) : Nat → Option (List Int) → List (List Int) →
    Except PyErr (List (List Int))
  | 0, _, _ => .error .outOfFuel
  | _ + 1, none, res => .ok res
  | f + 1, some bot1, res =>
    let v := if k = 0 then partClip bot1
      else
        let j := min top1c.length bot1.length
        (List.range j).map (fun i => at' top1c i + at' bot1 i) ++ top1c.drop j
    botIter k top1c inbot outbot f (pieriItr bot1 inbot outbot) (res ++ [v])

/-- The body of the `while isinstance(top_1, list)` loop (qcalc.py:456-514) for one `top1`: the shapes it adds. -/
def pieriBody (p : Int) (top bot : List Int) (lbot k : Nat) (rows cols d : Int) (top1 : List Int) :
    Except PyErr (List (List Int)) :=
  let p1 := p + top.sum - top1.sum
  if p1 < 0 then .ok []
  else
    let top1k := if k = 0 then rows else at' top1 (k - 1)
    let inbot := bot.take lbot ++ (if lbot < top1k then [0] else [])
    let outbot := if lbot = 0 then (if top1k > 0 then [cols - k] else [])
      else (cols - k) :: (bot.take (lbot - 1) ++ (if lbot < top1k then [at' bot (lbot - 1)] else []))
    match botLoop top top1 bot lbot k d k 0 0 inbot outbot with
    | none => .ok []
    | some (inbot, outbot) =>
      let j := bot.sum
      if outbot.sum - j < p1 then .ok []
      else
        let p1 := p1 - inbot.sum + j
        if p1 < 0 then .ok []
        else botIter k (partConj top1) inbot outbot (pieriFuelA inbot outbot) (pieriFill inbot inbot outbot 0 p1) []

/-- `while isinstance(top_1, list)` (qcalc.py:452-514). -/
def topIter (body : List Int → Except PyErr (List (List Int))) (inner outer : List Int) :
    Nat → Option (List Int) → List (List Int) → Except PyErr (List (List Int))
  | 0, _, _ => .error .outOfFuel
  | _ + 1, none, res => .ok res
  | f + 1, some top1, res => do
    let vs ← body top1
    topIter body inner outer f (partItrBetween top1 inner outer) (res ++ vs)

/-- The partition pair of `lam` as `pieri_set` uses it (qcalc.py:428-433): `top` of length `k` and `bot` with a
final zero. -/
def splitTop (lam : List Int) (k : Nat) : List Int :=
  let t := partConj (lam.map (fun x => min x k))
  t ++ rep 0 (k - t.length)

/-- See `splitTop`. -/
def splitBot (lam : List Int) (k : Nat) : List Int := partClip (lam.map (fun x => max 0 (x - k))) ++ [0]

/-- `inner` and `outer` (qcalc.py:435-448). -/
def topOuter (top : List Int) (k : Nat) (rows : Int) : List Int :=
  (List.range k).map (fun j => min rows (at' top j + 1))

/-- See `topOuter`. -/
def topInner (top bot : List Int) (lbot k : Nat) (d : Int) : List Int :=
  let inner := if k = 0 then []
    else (List.range (top.length - 1)).map (fun j => max (lbot : Int) (at' top (j + 1))) ++ [(lbot : Int)]
  innerLoop top bot lbot k d k 0 0 inner

/-- `pieri_set(p, lam, k, n, d)` (qcalc.py:421-519). The Python set is a list without repetitions; the result is
sorted in decreasing lexicographic order. -/
def pieriSet (p : Int) (lam : List Int) (k : Nat) (n d : Int) : Except PyErr (List (List Int)) := do
  let rows := n + d - k
  let cols := n + k
  let top := splitTop lam k
  let bot := splitBot lam k
  let lbot := bot.length - 1
  let outer := topOuter top k rows
  let inner := topInner top bot lbot k d
  let res ← topIter (pieriBody p top bot lbot k rows cols d) inner outer (pieriFuelA inner outer) (some outer) []
  .ok (res.dedup.insertionSort (fun a b => listLt a b = false))

/-! ### `count_comps` -/

/-- `comps[j] = v`, with Python's negative indices (they occur only for `d ≥ 2`, which the library never
passes; an index below `-len(comps)` or beyond the end would raise `IndexError` and is ignored here). -/
def setIdx (comps : List Int) (j v : Int) : List Int :=
  if 0 ≤ j then comps.set j.toNat v
  else if 0 ≤ j + comps.length then comps.set (j + comps.length).toNat v else comps

/-- `comps[j] = v` for `j` in `range(a, b)`. -/
def setRange (comps : List Int) (a b v : Int) : List Int :=
  (pyRange a b).foldl (fun c j => setIdx c j v) comps

/-- `for i in range(lb2)` (qcalc.py:369-371). -/
def markLoop (bot1 bot2 : List Int) : Nat → Nat → List Int → List Int
  | 0, _, comps => comps
  | c + 1, i, comps => markLoop bot1 bot2 c (i + 1) (setRange comps (at' bot1 i) (at' bot2 i) 1)

/-- `while b+1 < lb2 and bot1[b]+(b+1)-1 > t: b += 1` (qcalc.py:376-377). -/
def shiftComp (bot1 : List Int) (t : Int) (lb2 : Nat) : Nat → Nat → Nat
  | 0, b => b
  | c + 1, b => if b + 1 < lb2 ∧ at' bot1 b + b > t then shiftComp bot1 t lb2 c (b + 1) else b

/-- `for i in range(k)` (qcalc.py:374-386). -/
def eraseLoop (top1 bot1 top2 bot2 : List Int) (lb2 k : Nat) (d : Int) : Nat → Nat → Nat → List Int → List Int
  | 0, _, _, comps => comps
  | c + 1, i, b, comps =>
    if at' top2 i ≤ at' top1 i then
      let b := shiftComp bot1 (at' top1 i + k - (i + 1) - d) lb2 lb2 b
      let minj := at' top2 i + k - (i + 1) - (b + 1) + 2 - d
      let maxj := min (at' top1 i + k - (i + 1) - (b + 1) + 2 - d) (at' bot2 0)
      eraseLoop top1 bot1 top2 bot2 lb2 k d c (i + 1) b (setRange comps (minj - 1) maxj (-1))
    else eraseLoop top1 bot1 top2 bot2 lb2 k d c (i + 1) b comps

/-- `calc_comps` (qcalc.py:362-387). -/
def calcComps (top1 bot1 top2 bot2 : List Int) (lb2 k : Nat) (d : Int) : List Int :=
  eraseLoop top1 bot1 top2 bot2 lb2 k d k 0 0 (markLoop bot1 bot2 lb2 0 (rep 0 (at' bot2 0)))

/-- `count_ones` (qcalc.py:389-397); `incomp` is the loop variable. -/
def countOnes : Bool → List Int → Nat
  | _, [] => 0
  | incomp, c :: cs => (if c = 1 ∧ incomp = false then 1 else 0) + countOnes (decide (c = 1)) cs

/-- `count_comps(lam1, lam2, skipfirst, k, d)` (qcalc.py:399-414). -/
def countComps (lam1 lam2 : List Int) (skipfirst : Bool) (k : Nat) (d : Int) : Nat :=
  let bot2 := partClip (lam2.map (fun x => max 0 (x - k)))
  if bot2.length = 0 then 0
  else
    countOnes skipfirst (calcComps (splitTop lam1 k) (splitBot lam1 k) (splitTop lam2 k) bot2 bot2.length k d)

/-! ### The Pieri rules -/

/-- `_part_tilde` (qcalc.py:571-584). `lam[0]` of the empty list (`rows = 0`) would raise `IndexError`;
the callers have `rows ≥ 2`. -/
def partTilde (lam : List Int) (rows cols : Int) : Poly :=
  if (partLen lam : Int) ≠ rows ∨ (lam.length > 0 ∧ at' lam 0 > cols) then []
  else
    let r := rows + at' lam 0 - cols
    if r ≤ 0 then []
    else if r < rows ∧ (lam.length : Int) > r ∧ at' lam r.toNat > 1 then []
    else Poly.sym (.S ((lam.take r.toNat).drop 1 ++ (if lam.length > 0 ∧ last' lam = 0 then [0] else [])))

/-- `2 ** e` (a `float` in Python when `e < 0`; property C33 shows that this does not happen). -/
def pow2 (e : Int) : Rat := if 0 ≤ e then 2 ^ e.toNat else 1 / 2 ^ (-e).toNat

/-- `result += coef(x)` for all `x` of a list. -/
def sumPoly (f : List Int → Poly) (l : List (List Int)) : Poly := l.foldl (fun acc x => Poly.add acc (f x)) []

/-- `pieriC_inner(i, lam, k, n)` (isotropic_grassmannian.py:146-153). -/
def pieriC (i : Int) (lam : List Int) (k : Nat) (n : Int) : Except PyErr Poly := do
  let s ← pieriSet i lam k n 0
  .ok (sumPoly (fun x => Poly.scale (pow2 (countComps lam x true k 0)) (Poly.sym (.S x))) s)

/-- `qpieriC_inner(i, lam, k, n)` (isotropic_grassmannian.py:156-160). -/
def qpieriC (i : Int) (lam : List Int) (k : Nat) (n : Int) : Except PyErr Poly := do
  let r ← pieriC i lam k n
  let w ← pieriC i lam k (n + 1)
  let z ← Poly.apply (fun x => .ok (partStar x (n + k + 1))) w
  .ok (Poly.add r (Poly.mul (Poly.scale (1 / 2) (Poly.sym .q)) z))

/-- `pieriB_inner(p, lam, k, n)` (orthogonal_grassmannian.py:212-221). -/
def pieriB (p : Int) (lam : List Int) (k : Nat) (n : Int) : Except PyErr Poly := do
  let b : Int := if p ≤ k then 0 else 1
  let s ← pieriSet p lam k n 0
  .ok (sumPoly (fun x => Poly.scale (pow2 (countComps lam x false k 0 - b)) (Poly.sym (.S x))) s)

/-- `qpieriB_inner(p, lam, k, n)` (orthogonal_grassmannian.py:223-242). For `m = n - k = 0` and `lam = []` the
test `lam[n-k-1] > 0` raises `IndexError`. -/
def qpieriB (p : Int) (lam : List Int) (k : Nat) (n : Int) : Except PyErr Poly := do
  let res ← pieriB p lam k n
  if k = 0 then
    if lam.length > 0 ∧ at' lam 0 = n + k then do
      let w ← pieriB p lam.tail k n
      let z ← Poly.apply (fun x => .ok (partStar x (n + k))) w
      .ok (Poly.add res (Poly.mul (Poly.sym .q) z))
    else .ok res
  else if lam.length = 0 ∧ n = k then .error .indexError
  else do
    let res ←
      if (lam.length : Int) = n - k ∧ at' lam (lam.length - 1) > 0 then do
        let w ← pieriB p lam k (n + 1)
        let z ← Poly.apply (fun x => .ok (partTilde x (n - k + 1) (n + k))) w
        .ok (Poly.add res (Poly.mul (Poly.sym .q) z))
      else .ok res
    if lam.length > 0 ∧ at' lam 0 = n + k then do
      let w ← pieriB p lam.tail k n
      let z ← Poly.apply (fun x => .ok (partStar x (n + k))) w
      .ok (Poly.add res (Poly.mul (Poly.pow (Poly.sym .q) 2) z))
    else .ok res

/-- `tlam` (orthogonal_grassmannian.py:252). -/
def typeOf (lam : List Int) (k : Int) : Int := if k ∉ lam then 0 else if last' lam = 0 then 2 else 1

/-- The loop `for i in range(len(mu) - 1, -1, -1)` of `_dcoef` (orthogonal_grassmannian.py:280-284);
the first argument is Python's `i + 1`. -/
def tieLoop (lam mu : List Int) (k : Int) : Nat → Int → Int → Int
  | 0, h, _ => h
  | i + 1, h, pmu =>
    let lami := at' lam i
    let h := if lami < min (at' mu i) k then h - (min (at' mu i) k - max pmu lami) else h
    tieLoop lam mu k i h (at' mu i)

/-- `_dcoef(p, lam, mu, tlam, k, n)` (orthogonal_grassmannian.py:265-295). -/
def dcoef (p : Int) (lam mu : List Int) (tlam : Int) (k : Nat) : Poly :=
  let cc : Int := countComps lam mu false k 1 - (if (p.natAbs : Int) < k then 0 else 1)
  if 0 ≤ cc then
    Poly.scale (pow2 cc)
      (if (k : Int) ∉ mu ∨ tlam = 1 then Poly.sym (.S mu)
       else if tlam = 2 then Poly.sym (.S (mu ++ [0]))
       else Poly.add (Poly.sym (.S mu)) (Poly.sym (.S (mu ++ [0]))))
  else
    let h := tieLoop lam mu k mu.length (k + tlam + (if p < 0 then 1 else 0)) 0 % 2
    if tlam = 0 ∧ (k : Int) ∈ mu then (if h = 0 then Poly.sym (.S mu) else Poly.sym (.S (mu ++ [0])))
    else if h = 0 then []
    else if tlam = 2 ∧ (k : Int) ∈ mu then Poly.sym (.S (mu ++ [0]))
    else Poly.sym (.S mu)

/-- `pieriD_inner(p, lam, k, n)` (orthogonal_grassmannian.py:247-263). -/
def pieriD (p : Int) (lam : List Int) (k : Nat) (n : Int) : Except PyErr Poly := do
  let s ← pieriSet p.natAbs lam k n 1
  .ok (sumPoly (fun mu => dcoef p lam mu (typeOf lam k) k) s)

/-- `_toSchurFromIntnMu` (orthogonal_grassmannian.py:298-300): `list(intn - set(mu))[::-1]`. The order in which
Python iterates over a set is unspecified; `ord` is that order. -/
def complMu (ord : List Int → List Int) (n : Int) (mu : List Int) : List Int :=
  (ord ((pyRange 1 (n + 1)).filter (fun x => decide (x ∉ mu)))).reverse

/-- `Schur([x+1 for x in mu] + [1]*(n-len(mu)))` (orthogonal_grassmannian.py:338). -/
def liftMu (n : Int) (mu : List Int) : List Int := mu.map (· + 1) ++ rep 1 (n - mu.length)

/-- The branch `k == 1` with `len(lam) >= n and lam[n-1] > 0` (orthogonal_grassmannian.py:321-348): the summand
`self.dualize(res1)`. -/
def qpieriD1 (ord : List Int → List Int) (p : Int) (lam : List Int) (n : Int) : Except PyErr Poly := do
  let lb := partClip (lam.map (fun x => max (x - 1) 0))
  let cprd ← if p.natAbs > 1 then pieriD (p.natAbs - 1) lb 0 n else .ok (Poly.sym (.S lb))
  let cprd ← Poly.apply (fun mu => .ok (Poly.sym (.S (complMu ord n mu)))) cprd
  let a ← if last' lam > 0 ∧ p > 0 then do
      let z ← Poly.apply (fun mu => .ok (Poly.sym (.S (liftMu n mu)))) cprd
      .ok (Poly.mul (Poly.sym .q1) z)
    else .ok []
  let b ← if (last' lam = 0 ∨ (1 : Int) ∉ lam) ∧ (p = -1 ∨ p > 1) then do
      let z ← Poly.apply (fun mu => .ok (Poly.sym (.S (liftMu n mu ++ [0])))) cprd
      .ok (Poly.mul (Poly.sym .q2) z)
    else .ok []
  Poly.apply (fun mu => do let r ← (Space.mk .D 1 n).dualize mu; .ok (Poly.sym (.S r))) (Poly.add a b)

/-- `qpieriD_inner(p, lam, k, n)` (orthogonal_grassmannian.py:302-366). For `m = n + 1 - k = 0` and `lam = []` the tests
`lam[n-1] > 0` (line 321) and `lam[n+1-k-1] > 0` (line 356) raise `IndexError`; for other `lam` these negative
indices are not modelled (`lam` is then not a class). -/
def qpieriD (ord : List Int → List Int) (p : Int) (lam : List Int) (k : Nat) (n : Int) : Except PyErr Poly := do
  let res ← pieriD p lam k n
  if k = 0 then
    if lam.length > 0 ∧ at' lam 0 = n + k then do
      let w ← pieriD p lam.tail k n
      let z ← Poly.apply (fun x => .ok (partStar x (n + k))) w
      .ok (Poly.add res (Poly.mul (Poly.sym .q) z))
    else .ok res
  else if lam.length = 0 ∧ n + 1 = k then .error .indexError
  else if k = 1 then do
    let res ←
      if (lam.length : Int) ≥ n ∧ at' lam (n - 1).toNat > 0 then do
        let z ← qpieriD1 ord p lam n
        .ok (Poly.add res z)
      else .ok res
    if lam.length > 0 ∧ at' lam 0 = n + k then do
      let w ← pieriD p lam.tail k n
      let z ← Poly.apply (fun x => .ok (partStar x (n + k))) w
      .ok (Poly.add res (Poly.mul (Poly.mul (Poly.sym .q1) (Poly.sym .q2)) z))
    else .ok res
  else do
    let res ←
      if (lam.length : Int) ≥ n + 1 - k ∧ at' lam (n - k).toNat > 0 then do
        let w ← pieriD p lam k (n + 1)
        let z ← Poly.apply (fun x => .ok (partTilde x (n - k + 2) (n + k))) w
        let y ← Poly.apply (fun x => .ok (Poly.sym (.S (typeSwap x k)))) z
        .ok (Poly.add res (Poly.mul (Poly.sym .q) y))
      else .ok res
    if lam.length > 0 ∧ at' lam 0 = n + k then do
      let w ← pieriD p lam.tail k n
      let z ← Poly.apply (fun x => .ok (partStar x (n + k))) w
      .ok (Poly.add res (Poly.mul (Poly.pow (Poly.sym .q) 2) z))
    else .ok res

end Verif
