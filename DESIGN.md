# Formal model of schubertpy in Lean 4

Source under study: `/repo` (package `schubertpy`, Python).  The code was read as
text only; nothing in `/repo` was run or changed.

## Layout

| Path | Contents |
|---|---|
| `lean/Verif/Py/` | Python list semantics that the code leans on (slices, negative indices, `[x]*n`, lexicographic list order, string translation) |
| `lean/Verif/Model/` | the model, one file per source file; each definition cites file and lines |
| `lean/Verif/Spec/` | specifications written without looking at the model: partitions, k-strict, horizontal strips, transposes, isotropic index sets, tableaux, Bertram's rule, ... `Spec/Dec` only makes these predicates decidable, so that the examples beside the theorems can be checked by `decide`. |
| `lean/Verif/Proofs/` | helper lemmas |
| `lean/Verif/Props/` | the property theorems (named in `MANIFEST.json`), each next to `example`s showing a non-trivial case of the hypotheses |
| `lean/Verif/Tests/` | evaluation of the model on expected outputs taken from the repository's own unit tests (fidelity checks, not proofs) |

## Modelling conventions

* Python `int` is `Int`; partitions, index sets are `List Int`; list lengths are `Nat`.
* Exceptions are values: functions that can raise return `Except PyErr _`.
  Functions that raise only on unreachable inputs and whose raise is irrelevant to the
  properties use total indexing with default `0`; each such spot says so.
* `while` loops that are not obviously terminating are modelled with a fuel argument
  and theorems state `exists N, forall fuel >= N, ... = some ...` (termination included), or by
  structural recursion when Python's loop is a bounded `for`.
* sympy expressions: what the library uses of sympy is (a) `+ - * **` and `expand` on
  polynomials in symbols with rational coefficients, (b) `free_symbols`, `subs(v,0)`, `str`.
  They are modelled by an explicit polynomial data type with normal form (sum of
  coefficient x commutative monomial), and related to Mathlib's `MvPolynomial`.  That sympy
  implements polynomial arithmetic is trusted.
* Floats: `2**(-1)` and `(-1)**(-1)` are Python floats. They are modelled as the rational they
  equal; theorems say where a negative exponent can occur.

## Trusted base

* The Lean 4.33 kernel and the Mathlib definitions used in statements.
* Axioms: every theorem named in the manifest depends on a subset of `propext`,
  `Classical.choice`, `Quot.sound` (checked with `#print axioms` and by `vcheck`). No axioms are added;
  no `sorry`, `native_decide`, `bv_decide`.
* The correspondence of the hand-written model with the Python text (comments cite lines),
  cross-checked by evaluating the model on the repository's expected unit-test outputs (`Tests/Spaces`,
  `Tests/Functions`: 235 cases) and on the table `brute_force/testcase.csv` written by the Maple original (all 4368
  quantum products agree; `Tests/Csv` keeps a sample).
* sympy (arithmetic, `expand`; that its printer and `parse_expr` behave on polynomials as modelled in `Model/LcText`), `ast.literal_eval`, `csv`, CPython semantics.

## What is modelled

`partition.py` (all), `utils/kstrict.py` (all), `utils/hash.py` (all), `utils/const.py`,
`qcalc.py` lines 57-788 (all pure functions and the module-level interface), `schur.py` (symbol/text conversion, ordering,
`unique_schur_list`, operators on `Schur`, `print_partition`, LaTeX text), `lc.py` (constructor, text form, arithmetic, `apply`, `apply2`,
`schur_expansion`, and the inspection functions `__len__`, `is_operator`, `list_schur_oprands`, `has_part_zero_padding`, `is_valid`
on n-ary trees),
`abstract_grassmannian.py`, `grassmannian.py`, `isotropic_grassmannian.py`,
`orthogonal_grassmannian.py`, `mult_table.py`, `csv_bijection.py`, `utils/mix.py`; helpers of
`testcases/brute_force/test_zclass_csv_threaded.py` and `scripts/coverage_badges.py` (`Model/Scripts`).

Not modelled: plotting, PNG export, the layout of pandas tables, matplotlib, timing of caches, file-system
errors, `scripts/`, the Maple original `qcalc.mpl` (used only to understand intent).

## Per-property plan

(Status of each property is in `MANIFEST.json`; this table says what is modelled and how it is proved.)

| Id | Property | Modelled / how proved |
|---|---|---|
| C01 | Clipping removes exactly the trailing zeros | `part_clip` as drop-trailing-zeros loop; induction on the reversed list. |
| C02 | Conjugation is the transpose and an involution | `part_conj` loop as written; spec = count of parts >= j; sizes by double counting. |
| C03 | Partition accepts exactly the partitions | `is_valid_part` loop; iff with `List.Pairwise (>=)` and non-negativity; constructor as `Except`. |
| C04 | all_kstrict enumerates the k-strict partitions of a rectangle, once each | `_first_kstrict`, `_itr_kstrict`, `all_kstrict` with fuel; the iteration is shown to be predecessor in lexicographic order on the k-strict lists, hence complete and duplicate-free. |
| C05 | Schubert classes of Gr(m,n) | `part_gen` recursion; membership iff contained partition; count by a lattice-path recursion. m = 0 is refuted by a witness (the code returns []). |
| C06 | Schubert classes of IG(m,2n) and OG(m,2n+1) | C04 + sorting model. |
| C07 | Schubert classes of OG(m,2n+2) | C04 + doubling step of the D branch. |
| C08 | Type A: partitions and index sets are in bijection | closed forms of both maps; round trip both ways. |
| C09 | Type C: partitions and isotropic index sets are in bijection | key lemma: l_i+l_j <= 2k+j-i iff p_i+p_j > 2n+1; then counting. |
| C10 | Type B: partitions and isotropic index sets are in bijection | as C09 with the shift at n+1. |
| C11 | Type D: typed partitions and isotropic index sets are in bijection | as C09 with the parity of the type. |
| C12 | Dualizing is an involution that complements codimension | index sets are reversed and complemented; codimension sums via the round-trip maps. |
| C13 | Partition pairs: part2pair and pair2part are inverse | conjugation identity + list surgery, error branch explicit. |
| C14 | type_swap and miami_swap are degree-preserving involutions | case analysis on membership of k and last entry. |
| C15 | Type A classical Pieri rule | `pieri_fillA`/`pieri_itrA` loops with fuel = enumeration of a bounded-box fibre in descending lexicographic order. |
| C16 | Type A quantum Pieri rule | C15 for (k-1), plus `part_star`; re-indexing to Bertram's form. |
| C17 | apply_lc is linear and does not depend on how the expression is written | polynomial denotation; `apply` is an algebra substitution. |
| C18 | act/qact is a ring action | `act_lc` with explicit fuel; Pieri operators as operators on functions on shapes (`Proofs/Cyl`, `Proofs/RingA`); classical and quantum Pieri commute by one cylindric Bender-Knuth reflection; `Proofs/RingAbs` proves the ring facts for an abstract system of commuting operators. |
| C19 | Giambelli terminates and inverts toS | Recursion measured by an explicit function of the shape (`measA`), so the fuel bound is explicit; inversion from the abstract system. |
| C20 | Classical product is commutative, associative and unital (type A) | abstract Pieri-system theorem instantiated. |
| C21 | Quantum product is commutative, associative and unital (type A) | same with quantum operators. |
| C22 | Setting q = 0 in the quantum product gives the classical product (type A) | specialisation homomorphism q -> 0. |
| C23 | Products are homogeneous (type A) | Homogeneity predicates on vectors and on polynomials in special classes, carried through act and Giambelli (`HomX`, `HomT`). |
| C24 | Quantum Giambelli equals classical Giambelli (type A) | lam0 has fewer than m rows, so no quantum term. |
| C25 | Poincare duality (type A) | Pieri operators are self-adjoint under box complement; the pairing with the point class follows. |
| C26 | The rim-hook product agrees with the quantum product | Refuted: `C26_refuted` evaluates the model on Gr(3,6), S[3,3]*S[3,2,1] (kernel `decide`). The positive part is proved for all inputs: a class that loses at most one hook gets the right sign and the right class (`rmRimHook_value`), hence the `q^0` and `q^1` coefficients agree and the products agree if fewer than `2n` boxes are involved. |
| C27 | remove_rim_hooks contract | Loop with fuel, measure = size; hooks described as chains of top-row rim hooks (`Spec/RimHook`), result is the first shape of the chain that fits. |
| C28 | skew_partition_height counts the occupied rows | loop model; induction. |
| C29 | Memoisation is transparent | Cached functions as programs that may call themselves through the cache (`Prog`); LRU store as list; invariant: every stored value is what the plain body returns. |
| C30 | Schubert symbols survive the trip through text | Character-level model of `str`, `translate`, `isidentifier`, sympy `Symbol` parse and `ast.literal_eval`; printer/parser round trip by mutual induction on nested values. |
| C31 | Constructors establish the type invariants and clone reproduces the space | constructors as `Except`; clone refuted for C, B, D. |
| C32 | Pieri terms in types B, C, D are k-strict, in range and of the right degree | `pieri_set` as nested loops with fuel; membership characterised by column heights and row excesses (`Proofs/PieriShape`), then `pieri` at user level. |
| C33 | Pieri coefficients in types B and C are positive integers | Closed form of `count_comps`; a lower bound for it by exhibiting a free column when `p > k`. Type D (tie breaking) as well. |
| C34 | Quantum Pieri terms in types B, C, D are homogeneous | Every branch of `qpieriB/C/D_inner`: predicates on the terms of an expression (`All`, `RetAll`) pushed through `apply_lc`, `part_star`, `part_tilde`, `type_swap`, `dualize`. Refuted for the point spaces OG(0,N) (IndexError) and, in type D with k = 1, for an iteration order of sets that is not increasing (`C34_set_order`). |
| C35 | Quantum Pieri coefficients in type C are integers | The starred column always contains a free column, so `count_comps >= 1` for p <= n+k. |
| C36 | Schur polynomials | The recursion is shown to sum over fillings by adding one box at a time (first row that contains the largest entry); symmetry by branching twice and reflecting the middle shape. |
| C37 | Generators and point class are Schubert classes; the point class is the unique top class | direct. |
| C38 | Multiplication tables | Tables as lists of lists; dimensions, entries, symmetry and unit row from C20/C21. |
| C39 | schur_expansion loses nothing | Classification of terms as the code sees them (number, symbol, product, other); stable sort by partition. |
| C40 | unique_schur_list sorts and deduplicates | set + sorted model. |
| C41 | CSV comparison is set equality | Rows normalised by an arbitrary function, sets as lists without repetition. |
| C42 | Special classes: spec2num and num2spec are inverse | direct with error branches. |
| C43 | Pieri relation of types B, C, D | `pieri_set` = the relation of Buch, Kresch and Tamvakis, stated with boxes and diagonals in `Spec/PieriBCD`. |
| C44 | Multiplying by S[0]-strips and by the unit | from C15. |
| C45 | ASCII diagrams are rectangular | Rows as character lists; width and box count of every row; drawing of a whole linear combination. |
| C46 | Arithmetic on linear combinations is polynomial arithmetic | denotation in MvPolynomial. |
| C47 | Structure constants are integers (type A) | Giambelli polynomials and Pieri operators preserve integrality (`IntX`). |
| C48 | Pieri coefficients of types B and C count connected components | `Spec/PieriBCD` defines the set of unmentioned boxes and a `SimpleGraph` on it; `Proofs/Components` shows that the runs counted by `count_comps` are its components. |
| C49 | Pieri rule of type D with types and tie breaking | structure `CoefD` states the coefficient; `_dcoef` is analysed in `Proofs/PieriDExact` (tie loop = number of columns that do not grow). |
| C50 | Quantum Pieri rules of types B, C, D, term by term | `Proofs/QTerms` describes expressions by their exact terms and pushes this through `+`, `q*` and `apply_lc` of an injective partial map; `_part_star`, `_part_tilde`, `type_swap` are such maps. For OG(n,2n+2) (type D, k = 1) the q1 and q2 terms are computed by complement, lift and dualize: `Proofs/DualLift` computes the index list of the lifted complement, dualizes it and converts back, which turns the first row of mu into a column and exchanges the types; needs sets iterated in increasing order. |
| C51 | act and qact are ring actions (types B and C) | classes of types B, C are coded by words of n letters in {o,a,b}; a Pieri operator is a product of local transfer matrices (`Proofs/Word`), which commute (`Proofs/WordSys`); `Proofs/WordC` identifies this with the model's Pieri rules; `Proofs/RingGen`, `RingOps` turn any commuting Pieri system into the laws of `act`. |
| C52 | giambelli inverts the action (types B and C) | measure decreasing in `giambelli_rec_inner`; the depth bound `giamBoundBC` is explicit. |
| C53 | Products of types B and C are associative and commutative | laws of `Spec/RingLaws`, from C51 and C52. |
| C54 | Bilinear, extend the Pieri rule (types B and C) | as C53. |
| C55 | Classical limit of the quantum product of IG(m,2n) | as C53. |
| C56 | Products of types B and C are graded | as C53, from homogeneity of the Pieri rules (C32, C34). |
| C57 | Structure constants of types B and C are integers | as C53; the inner recursion multiplies by integers only. |
| C58 | Poincare duality (types B and C) | `Proofs/WordDual`: exchanging the letters a and b of a word is the code's `dualize` (index lists are read off words), and the transfer matrix is symmetric for it; `GiamSys.dual_coeff` derives the pairing by the Giambelli recursion. |
| C59 | Number of Schubert classes (types B and C) | classes are in bijection with words with n-m letters o (`Proofs/WordBij`), which are counted by induction. |
| C60 | Quantum action and Giambelli polynomials of OG(m,2n+1) | `Proofs/WordQB`: the two kinds of quantum terms of `qpieriB` only change the first letter of a word and then follow the classical transfer matrix (`opQ`); commutation follows from the intertwiner of the classical matrix (`compQ_comm`); `tilde_iff`, `cons_iff` identify `part_tilde` and `part_star` with words; `ret_qB` is the link with the code. |
| C61 | Quantum ring of OG(m,2n+1) | `RingOn` of `Proofs/RingOps` instantiated with `sysQOG`. |
| C62 | Grading, classical limit and integrality of the quantum ring of OG(m,2n+1) | transported from the Pieri operators through the Giambelli recursion. |
| C63 | Quantum Poincare duality of OG(m,2n+1) | `opQ_dual`, as for C58. |
| C64 | Ring action on OG(m,2n+2) | `Proofs/WordD*`: a class is a word in three letters plus an inner letter for the type; the Pieri operator is a sum of a generating-function matrix `gD` and a sign matrix `sD` for the tie breaking, the quantum terms change first letters (`opG`, `opS`); `MDg_comm` gives commutation, `retDD`/`retQD` the link with the code. |
| C65 | Giambelli polynomials of OG(m,2n+2) | `stepDD`: the first row (with its type) times the rest is the class plus smaller ones, by `giam_split` and `coefD_lead`. |
| C66 | Ring structure of OG(m,2n+2) | `RingOn` of `Proofs/RingOps` instantiated with `sysD` and `sysQD`. Outside the claim: m = n (two parameters q1, q2), where a product that contains q1 cannot be multiplied again. |
| C67 | Grading, classical limit and integrality of the rings of OG(m,2n+2) | transported from the Pieri operators (`homD`, `homQD`, `intD`, `intQD`, `q0_QD`) through the Giambelli recursion. |
| C68 | Poincare duality of OG(m,2n+2) | `Proofs/WordDDual`: the dual word exchanges the outer letters and, for odd `k`, the types; `MDg` is symmetric (`MDg_dualD`; the sign matrix picks up `(-1)^k`), and the index list of a class is read off its word (`relD_shapeW`, `dualizeIndex_word`). |
| C69 | Number of Schubert classes of OG(m,2n+2) | bijection of the classes with words with an inner letter (`WdD`), which are counted (`card_WdD_zero`, `card_WdD_succ`). |
| C70 | The rim hook rule for the quantum product of Gr(m,n) | `Proofs/Alt`, `AltQ`, `AltP`, `AltA`, `RimA`: cylindric strips are alternating sums (`sum_strip`, `sum_wind`, `sum_cyl`), so the quantum Pieri operators act on alternating functions with period `n` up to `(-1)^m q`; Jacobi's bialternants turn the classical product into a product of alternating polynomials (`Psi_prod_exact`), and the reduction `Dq` modulo `n` is a module map (`rim_hook`). Removing a hook subtracts `n` from the first entry and sorts by a cycle (`Dq_hook`, `Dq_nohook`). |
| C71 | Jacobi's formula for SchurPol | `Proofs/Jacobi`: row operations and expansion along the last column give the branching rule of alternants (`altW_branch`), which is the one of tableau sums (`branch`). |
| C72 | Value of SchurPol at 1, ..., 1 | `Props/Jacobi`: C71 at `x_j = t^j`, both determinants are of Vandermonde type (`vander_eval`), divide by powers of `1 - t` and put `t = 1`. |
| C73 | The classical product of Gr(m,n) is multiplication of Schur polynomials | `Props/SchurRing`: C71 in the polynomial ring identifies the quotients of alternants of `Psi_prod_exact` with `SchurPol`; evaluation is a ring map. |
| C74 | Structure constants of Gr(m,n) do not depend on n | `Props/SchurRing`: `Psi_prod` on both spaces modulo the alternants that are cut off (`prod_stable`). |
| C75 | dualize on whole expressions | `Props/DualLc`: `apply_lc` is a substitution (`apply_spec`), with C12 for the single classes. |
| C76 | Littlewood-Richardson rule on Gr(m,n) | `Proofs/LRPat`: tableaux as interlacing patterns, reflection of a pattern in its last bad column; `Proofs/LRTab`: tableaux and patterns correspond; `Proofs/LR`: a Schur polynomial times an alternant is a sum over all tableaux, the bad ones cancel in pairs; `Props/LR`: with `Psi_prod`. |
| C77 | Classical products on Gr(m,n) are positive | `Props/LR`: bilinearity and C76 (`natCoeffs_iff`, `lr_prod`). |
| C78 | Quantum Poincare duality on Gr(m,n) | the quantum Pieri operators are adjoint for the dual basis (Proofs/DualQA: unrot inverts rot on cylindric loops), hence all of the ring is; pairing with the unit |
| C79 | Structure constants are symmetric under duality on all spaces | adjointness of the Pieri operators extends to all elements of the ring (RingOn.gsym) |
| C80 | Cyclic symmetry of the quantum ring of Gr(m,n) | the quantum Pieri operator of the full row is a permutation up to powers of q; the column is its inverse up to q; associativity |
| C81 | Symplectic and odd orthogonal structure constants differ by powers of two | S[l] -> 2^e(l) S[l] carries the Pieri operators of type C to multiples of those of type B (Props/CompareBC); a linear map that intertwines the special operators is a ring homomorphism (Proofs/RingHom) |
| C82 | type_swap is an automorphism of the rings of OG(m,2n+2) | exchanging the type letter of a word commutes with the Pieri matrices up to the sign of the special number (Props/SwapD); ring homomorphism criterion of Proofs/RingHom |
| C83 | is_valid recognises linear combinations | n-ary trees Model/Tree with the predicate as written; denotation in MvPolynomial, total degree; Poly rendered as tree |
| C84 | has_part_zero_padding and list_schur_oprands see every Schubert symbol | mutual induction on trees and argument lists; part_clip by C01 |
| C85 | Mixed arithmetic of Schur objects, linear combinations, numbers and expressions | operators with Python's dispatch (Model/SchurOps); case analysis over operand kinds |
| C86 | Printed and LaTeX diagrams show the partition | lines as character lists (Model/Pictures); decimal texts are injective (C30), coordinates split at the letter m |
| C87 | The two families of maximal orthogonal Grassmannians give the same rings | transfer matrices of types B and D coincide on words without skipped coordinates; ring homomorphisms from intertwined special operators (Proofs/RingHom) |
| C88 | Transposing diagrams identifies the rings of Gr(m,n) and Gr(n-m,n) | column operators on the cylinder commute with the row operators (Proofs/Column), so they are multiplications (GiamSys.operator_prod); they match the transposed row operators (Proofs/Transpose); GiamSys.hom |
| C89 | Quantum and classical Pieri rule for columns | coefficients of the column operator (Ecol_coeff) at the classes, Ecol applied to S[] is S[1^p] |
| C90 | The module-level interface of qcalc without a space | Model/Globals follows lines 590-788; induction over the loop of act_lc |
| C91 | Products of a row and a column, relations of the quantum ring of Gr(m,n) | Pieri rule for columns (C89) evaluated at a row; telescoping sum of hooks |
| C92 | The relations between special classes in the rings of IG(m,2n) and OG(m,2n+1) | degree bound for the product of the transfer matrices at x and -x (opW_rel, opQ_rel), carried over by tM2_rel and relation_BC |
| C93 | The functions that step to the next partition | the runs used for the Pieri rules are in descending order (enumB_desc, flat_desc), stepsDown_of_runs |
| C94 | The text of a linear combination is read back as the same polynomial | parser = grammar in both directions (parses_of_means, sound_all); tokens of printed terms (bodyText_spec, tailText_spec) |
| C95 | The constructor of LinearCombination | C94 and isValidPart_iff |
| C96 | is_operator and len describe the shape of an expanded expression | terms of an expanded expression = support of the polynomial (support_card) |
| C97 | to_polinomial_str removes trailing zeros from its object | the pop loop as written, compared with part_clip (C01) |
| C98 | The text of a space shows its constructor and determines it | decimal texts are injective and contain no separator |
| C99 | The relations between special classes in the rings of OG(m,2n+2) | products of the transfer matrices of type D at x and -x: the degree is at most 2k apart from the top quantum term (opG_rel) and the coefficient of degree 2k is the square of the second operator (opG_lead) |
| C100 | The quantum ring of OG(n,2n+2) with its two parameters | words with an inner letter as states of a transfer matrix with the two parameters; the row of the matrix is the result of qpieriD (retQ2), the matrices commute (op2G_comm, op2S_comm, M2_comm) |
| C101 | giambelli on Gr(m,n) is the determinant of Jacobi and Trudi | multiplying the determinant by h(p) adds the strips of size p (generating functions and column operations, JD_pieri); the Giambelli recursion then has the determinant as solution (G_JT) |
| C102 | Presentation of the classical and quantum ring of Gr(m,n) | modulo the relations the special classes satisfy a linear recurrence of length m+1, so determinants with m+1 rows vanish and the Pieri rule holds modulo the ideal (pieri_mod; qpieri_mod continues the sequence with period n); conversely the relations act as zero by unrolling hooks (act_elem) |
| C103 | Products on projective spaces and odd quadrics in closed form | the classes are the words with one letter a or b; the entries of the Pieri operators between them are computed in closed form (Proofs/Quadric.lean), and the ring structure (C19-C21, C55, C60) turns products into operators |
| C104 | Presentations of the rings of IG(n,2n), OG(n,2n+1) and OG(n+1,2n+2) | the relations act as zero by C92/C99; conversely they reduce every polynomial to a combination of the 2^n square-free monomials, as many as there are classes, and these span the module, so they are independent (Orzech property; Proofs/PresMax.lean) |
| C105 | Powers of the class of a hyperplane count standard tableaux | type A: the coefficient of an alternant in h_1^r times an alternant (Proofs/Degree.lean), a determinant of inverse factorials, which is a Vandermonde determinant for mu=[]; maximal isotropic: the recursion over one removed box, solved by an identity from Lagrange interpolation at the points v(v-1) (Proofs/DegreeBC.lean) |
| C106 | Products on Gr(2,n) in closed form | alternants in two variables; the first terms of the quantum sum cancel in pairs under the reflection of the affine Weyl group (Proofs/TwoRow.lean) |
| C107 | Classes that permute all classes under the quantum product (types B, C, D) | the Pieri matrices on words are invariant, up to powers of q, under flipping the first letter (B, D) and under reversing and dualising the word (C); a map that commutes with all Pieri operators is the product with the image of the unit (Proofs/SeidelW.lean, SeidelC.lean, SeidelD.lean) |
| C108 | Products of special classes on Gr(m,n) count semistandard tableaux | the coefficient of a Pieri operator is the indicator of a horizontal strip; removing the largest entry from tableaux gives the same recursion (branching rule of C58), read off as coefficients of monomials (Proofs/Kostka.lean) |
| C109 | Products on the even quadrics OG(1,2n+2) | closed form of the two transfer matrices of type D on words with a single row (Proofs/QuadricD.lean), compared entry by entry with the table Spec.quadTerms (Proofs/QuadricD2.lean); the row of the point class by commutativity |
| C110 | Products of two special classes on IG(m,2n) and OG(m,2n+1) | the Pieri relation from a one-row class is solved explicitly (Proofs/RowRow.lean: the free columns form at most two runs); coefficients from C48 and C50, the step from pieri to mult from C54 and C61 |
| C111 | Giambelli polynomials of two rows on IG(m,2n) and OG(m,2n+1) | Buch-Kresch-Tamvakis raising operators for two rows; the polynomials of all classes with two rows are determined by the products of C110 (Proofs/Giam2.lean) |
| C112 | Quantum products on OG(n,2n+2) with its two parameters | the products in the Giambelli recursion have no quantum terms (qpieri_small), so every class is its classical Giambelli polynomial applied to the unit under the quantum action of C100 (TwoProd.act_G); for the error, Giambelli polynomials are linearly independent over the parameters (G_indep), so q1 and q2 survive in qgiambelli(x) and act_lc meets them (actLoop_par) |
| C113 | Quantum Poincare duality of OG(n,2n+2) | the matrix of a special class is symmetric under the dual word with the same parameter (TwoProd.M2_dualD), so the action is self-adjoint for the pairing with the dual word (pr_act2); with the action on the unit (act_G) this gives both statements |
| C114 | type_swap with q1 and q2 exchanged is an automorphism of the quantum ring of OG(n,2n+2) | the matrix of a special class with types and parameters exchanged is that of the exchanged special class (TwoProd.M2_sw); the exchanged operator of a Giambelli polynomial agrees with that of the exchanged class on the unit, hence everywhere (act2_det) |
| C115 | Degrees and integrality of the quantum products of OG(n,2n+2) | entries of the matrix of a special class are homogeneous by the terms of qpieri (qpieriD_all_one) and integral by the closed form M2_eq; homogeneous integral vectors are preserved by the action of Giambelli polynomials (TwoProd.homV_G) |
| C116 | The class S[n+1] permutes the classes of OG(n,2n+2) | exchanging the first letters a and b of a word, and the types of the words that begin with o, multiplies the matrices of all special classes by a ratio of parameters (TwoProd.M2_flip), so it commutes with the action up to these factors (twist_act2) |
| C117 | The staircases permute the classes of OG(m,2n+2) | a word of a class is read backwards with letters a and b exchanged, its first and inner letters exchanged (Spin.spin); the weights at the two ends form a finite table, checked in SpinChk.lean, and the weights between them are those of the type C words (NG_rev, NS_rev); the matrices of all special classes are multiplied by ratios of powers of q, or of q1 and q2 (spD_M, M2_spin). spinIdx_word and spinExp_word translate to Schubert symbols |
| C118 | qmult on Gr(m,n) is multiplication of Schur polynomials at roots of q | rim_hook_lin writes qmult as the product on Gr(m,2n-1) followed by reduction of alternants modulo n; at values with x^n = (-1)^(m-1) q the alternants satisfy the same periodicity (altR_shift, altR_expand), so the reduction does not change the value (aeval_redq); the product on Gr(m,2n-1) is multiplication of Schur polynomials (Sp_prod) |
| C119 | The formula of Vafa and Intriligator for the coefficients of qmult on Gr(m,n) | C118 without the condition that the values differ, multiplied by the alternant (prod_roots); the sums of powers of the roots vanish (pow_sum_zero), hence alternants at all tuples are orthogonal (alt_orth); C23 leaves one power of q (only_degree) |
| C120 | No quantum product of classes of Gr(m,n) vanishes; the quantum dimension is multiplicative | C118 at the complex numbers exp(i*pi*(2j-m+1)/n), whose alternants are products of sines (altR_exp, by the determinant of Vandermonde); the values are real and positive |
| C121 | No quantum product of classes vanishes, types B, C and D | at q=1 the sum of the Pieri matrices on words has non-negative entries and leads from any word to any other (WordConn: letters a and b can be exchanged, and o with a letter beside it); its Perron vector (Perron.lean, proved there) is a common eigenvector of all Pieri operators because they commute with the sum, hence of all products (PosHom) |
| C122 | Repeated Pieri products have positive coefficients; repeated quantum Pieri products do not vanish | coefficients of one Pieri product are positive integers (C15, C16, C33, C35, C50); polynomials with natural coefficients form a subsemiring closed under substitution (NatCoef.lean); non-vanishing from the positive homomorphisms of C120 and C121 |
| C123 | Structure constants in types B, C and D are symmetric under the classes that permute all classes | associativity s*(l*mu) = (s*l)*mu in the module of linear combinations, the permutation of C107 and C117 is injective (words), then comparison of the coefficients of X^d*a = X^e*b |
| C124 | Structure constants of OG(n,2n+2) with q1 and q2 are symmetric under the classes that permute all classes | the operators of the Giambelli polynomials commute with the permutation of the words up to the factor q1^a*q2^b (str_shift), then comparison of coefficients at monomials in q1 and q2 |
| C125 | No quantum product on OG(n,2n+2) with q1 and q2 vanishes | at q1 = q2 = 1 the operators of the special classes are those of the matrix opG at 1, which is irreducible and non-negative; the Perron eigenvector of C121 gives the homomorphism |
| C126 | Helpers of the table test and of the coverage badges | the threads are left out (results in order of the batches) and the comparison of a row is a parameter; int() of a text for digits with optional minus |
| C127 | Expansions of a class along a row on the maximal isotropic Grassmannians (Pfaffian formula) | transfer matrices of Proofs/Pfaff.lean: the operator of a Pieri product on words of two letters is compared with the removal of a letter; type D by C87 |
| C128 | The products on the maximal isotropic Grassmannians are products of values of Q-tilde polynomials | the Giambelli polynomials of the code and the presentation C104 give a ring homomorphism; its values on classes are the Pfaffians by the row expansions behind C127 (Proofs/QTilde.lean) |
| C129 | Formula of Vafa and Intriligator for the quantum products on the maximal isotropic Grassmannians | C128 gives a ring homomorphism for each choice of signs; there are as many as classes and they differ on the special classes; linear independence of characters, the symmetry C79 and the duality C12 give orthogonality, the grading picks the power of q (Proofs/Frobenius.lean, Proofs/SignPoints.lean) |
| C130 | Quantum products on IG(n,2n) up to the first power of q are classical products on IG(n+1,2n+2) | both products are read off in the ring of IG(n+1,2n+2) given by generators and relations (C104, C128), where the classes are independent; q goes to 2*S[n+1], whose square is 0 (Proofs/Universal.lean, Proofs/QTildeTop.lean) |
| C131 | Quantum products on OG(n+1,2n+3) and OG(n+2,2n+4) are quantum products on IG(n,2n) | the universal point of the quantum ring of IG(n,2n) is a point of the quantum ring of OG(n+1,2n+3) with e_(n+1) = q/2 and parameter q^2/16; values by C128, independence of classes by C104 (Proofs/Universal.lean) |
| C132 | The call graph of the example script is the one of the last definition opened before each call | Model/CallGraph.lean visits a reduced syntax tree with the state of CodeAnalyzer. Spec/CallGraph.lean lists definitions and calls in the order of the text. The visit is a fold over this list (`visit_seen`), and an invariant over the fold gives the edges and nodes. `glob`, `ast.parse` and the drawing are left out. |
| C133 | Presentations of the rings of IG(m,2m+2k) and OG(m,2m+2k+1), k >= 1 | Spec/PresBC.lean has the relations. The determinants vanish because the alternating sums of rows times columns telescope on words (Proofs/ColWord.lean, ColRing.lean). The quadratic relations come from C92. The quotient by the relations is spanned by 2^m * choose(m+k, m) elements, as many as there are classes: square-free products of the duals of the determinants over a subring that satisfies the relations of Gr(m, m+k) (Proofs/PresAlg.lean, PresSpanBC.lean). So the map onto the classes is injective (Orzech property, Proofs/PresBC.lean). The quantum case is lifted from the classical one by induction on the degree (Proofs/PresLift.lean). |
| C134 | Determinants of special classes multiply by the columns S[1,...,1] on IG(m,2m+2k) and OG(m,2m+2k+1) | The alternating sums of rows times columns vanish (`col_opW`, `col_opQ`), hence the columns satisfy Newton's identities (`act_ee`). |
| C135 | Presentations of the rings of OG(m,2m+2k), k >= 1 (quantum: k >= 2) | Spec/PresD.lean has the relations. Proofs/ColWordD.lean and ColRingD.lean: alternating sums of rows times columns on words with types. Proofs/PresAlgD.lean, PresSpanD.lean, PresD.lean: the quotient by the relations is spanned by as many elements as there are classes; the half with the factor S[k]-S[k,0] is counted separately. The quantum case is lifted by PresLift.lean. |
| C136 | Determinants of special classes multiply by the columns S[1,...,1] on OG(m,2m+2k), k >= 1 | `col_D` (Proofs/ColRingD.lean), `col_D1` (Proofs/ColOneD.lean) for k = 1. |
| C137 | Presentation of the quantum ring of OG(m,2m+2) with its two parameters | Spec/PresD.lean has the relations (`presQ2`). Proofs/TwoRel.lean: the products in the relations have no terms with q1, q2 except for the longest columns. Proofs/TwoPres.lean: modulo the relations every polynomial is a combination of the Giambelli polynomials with coefficients in q, q1, q2 (induction on the degree, from the classical presentation). |
| C138 | Quantum multiplication by S[1,...,1] + S[1,...,1,0] on OG(m,2m+2) is a determinant | `act2_ee` (Proofs/TwoRel.lean). |
| C139 | Classical structure constants of IG(m,2m+2k), OG(m,2m+2k+1), OG(m,2m+2k) do not depend on m | Proofs/StableBC.lean: the word of a class of the smaller space begins with the letter `b` on the larger one, and the transfer matrices do not lead to such a word from any other; `keep` (forget the other classes) commutes with the special operators, so it is a map of rings (`GiamSys.hom`). |
| C140 | The two maps from OG(n,2n+2) to OG(n+1,2n+2) give homomorphisms of the classical rings | Proofs/SpinPull.lean: on words the first letter `a` becomes `o` (`phiU`); the transfer matrix of OG(n,2n+2) on images is the one of OG(n,2n+1) corrected by the signed matrix (`gD_phiU`), so twice a special class goes to G_p + (S[1]-S[1,0]) times the image of twice the previous one (`fSpin_succ`); then `GiamSys.hom`. The second map by C82. |
| C141 | Vanishing of products on IG(m,2n) and OG(m,2n+1), and the classes that occur in them | Proofs/Bruhat.lean: order of the words (`leW`), every Pieri step goes up (`okW_le`), and between two comparable words there is always a Pieri step from the lower or to the upper end (`walk_step`); Proofs/BruhatRing.lean: supports of products (`prod_closed`), composites of special classes with positive coefficients (`reach`), `prod_ne_iff` by the pairing; Proofs/BruhatBC.lean: translation to parts (`leBC_iff`). |
| C142 | Vanishing of products on OG(m,2n+2), and the classes that occur in them | Proofs/BruhatDW.lean: order of the prefixes (`leP`), obstruction `badP`, a word with inner letter `o` between (`mid_exists`, `mid_not_bad`), last letters; Proofs/BruhatD.lean: translation to parts (`leD_labD`), one Pieri step from the lower or to the upper end for compatible inner letters (`compat_step`); Proofs/BruhatDRing.lean: chains of Pieri steps (`rtD_iff`), terms of the special classes (`stepD_cf`, `cf_stepD`), `bruhatD_prod`. |
| C143 | Vanishing of products on Gr(m,n), and the classes that occur in them | Proofs/BruhatA.lean: between two partitions, one inside the other, there is a horizontal strip toward the larger one (`strip_toward`), positivity of the Pieri steps, `bruhatA_prod`. |
| C144 | The smallest power of q in a quantum product on Gr(m,n) | Proofs/BruhatQ.lean: relation graded by the power of q (`InQ`, `prod_inQ`, `support_leQ`), chains of quantum Pieri steps with nonnegative coefficients (`reachQ`), `prod_leQ`; for type A the steps toward a larger class (`leQ_step0`) and the removal of the first row and column (`leQ_step1`). |
| C145 | The powers of q in a quantum product on Gr(m,n) | Proofs/PowersQ.lean: `q^d*S[nu]` as the loop `unrot^d nu` on a cylinder (`unrotN_vec`), a class with r rows has degree r in the special classes and moves a loop by at most r rows (`upTo_prod`), every loop between f and f moved by j rows is reached by j special classes (`reachN`), products of m special classes have no q (`powers_iff`). |
| C146 | The smallest power of q in a quantum product on IG(m,2n) | Proofs/BruhatQC.lean: the q-terms are walks of the transfer matrix beginning in the state lr; the order of the words with a start d (`leW d d`), a step at the lower or at the upper end lowers the sum or the power of q (`walk_stepQ`), the step with q belongs to a special class unless it is the identity (`runW_bound`, `okW_sumQ`). Generic part in Proofs/BruhatQ.lean, with steps at both ends. |
| C147 | The smallest power of q in a quantum product on the maximal isotropic Grassmannians | Proofs/BruhatQB.lean: words without the letter o; a term with q moves the first letter a to b and begins in the state lr after it, so that the order of the words is shifted by 2 (`walk_stepB`). Type C from C146, type D from type B by C87. |
| C148 | The smallest power of q in a quantum product on OG(m,2n+1) for m < n | Proofs/BruhatQO.lean: the terms with q change the first letters of the words (`frontQ`); the order for q^d is the order of the words shifted by d, and for odd d there must be no pair of prefixes without the letter o that differ by exactly d letters (`leO`, `badW`). A step at the lower or the upper end is found by induction on the words (`low_step`, `lowS_step`). |
| C149 | The largest of the smallest powers of q | Props/PointQ.lean, from C144, C146, C147 and C148. For odd m on OG(m,2n+1) the classes of two points clash at t = 2k. |
| C150 | The smallest powers of q on IG(m,2n) and OG(m,2n+1) | Props/PowersBC.lean, from C146, C147 and C148. |
| C151 | The smallest powers of q satisfy the triangle inequality | Props/TriangleQ.lean, from C144, C146, C147 and C148; for OG(m,2n+1), m < n, the relation of C148 is transitive (`leB_trans`). |

## Disagreements between code and expected behaviour

(Collected while reading; each is turned into a theorem about the model.)

* `qmult_rh` applies one global sign `(-1)^(height-kp)` although the documentation (and the rim-hook
  theorem) require one factor `kp` per removed hook; wrong once two hooks are removed (e.g. Gr(3,6)).
* `Grassmannian(0,n).schub_classes()` returns `[]`; the space is a point and has the class `S[]`.
* `part2index(list)` in every class calls a module-level function whose `_type` is `None` and always raises.
* `type_swap(list, k)` recurses with a missing argument and always raises TypeError.
* `clone()` passes `(n-k, n)`, which are constructor arguments only in type A.
* `OrthogonalGrassmannian(m, n)` does not check `m <= n/2`; `OG(3,5)` has `k = -1`.
* `qpieri` with k == 1 and full column returns `q*S[]` for every i.
* `Schur([-1]).symbol()` does not survive the round trip.
* `pieri(i, S[])` on `Gr(0,n)` returns `S[]` for every `i` (should be 0 for `i >= 1`); `qpieri` there raises IndexError.
* `lc - 3` returns a bare sympy expression while `lc + 3` returns a `LinearCombination`.
* `apply_lc` leaves constants alone, so `pieri(i, 1) = 1` although `S[]` is the unit and `pieri(i, S[]) = S[i]`.
* In `qmult_rh`, `(-1) ** (height - kp)` with a negative exponent is a Python float (`-1.0`), so coefficients of
  the result may be floats `1.0`/`-1.0`. The model uses the rational they equal.
* `remove_rim_hooks` removes one hook even if the partition already fits, and looks only for hooks that start
  in the top row (`C27_removes_though_in_range`, `C27_misses_lower_hooks`).
* `SchurPol` passes `S.copy()` to each recursive call, so its memo table never has an effect.
* `SchurPol` drops trailing zeros with `pop` on the list it is given, so it changes the caller's list;
  `to_polinomial_str` thereby turns the class `S[1,0]` of OG(2,6) into `S[1]` (`C97_refuted`).
* `giambelli_rec_inner` is cached with the freshly created function `pieri` in the key; the cache never hits
  across two calls of `giambelli_rec`.
* A nested list argument makes a cached function raise TypeError (unhashable), `C29_nested_list_raises`.
* `_schur_expansion` tests `self.expr` instead of `expr`: a bare `q` or a power inside a sum leads to endless recursion
  (`C39_other`). A single term returns a tuple instead of a list and ignores `include_q`. Rational constants are
  truncated by `int`.
* `embed_partition` with a width smaller than the first part produces rows of different lengths; the empty partition
  raises IndexError, and `draw_ascii_partition` raises ValueError on `S[]` (`C45_refuted`).
* `_toSchurFromIntnMu` reverses the iteration order of a Python set and expects a decreasing list. CPython keeps small
  sets in a table of eight slots, so `{4,6,7,8}` is read `8,4,6,7`; in OG(8,18) `qpieri(2, S[5,4,3,2,1,1,1,1])` then
  contains `q1*S[5,3,2,1,-3,1,1,1,0]` (`C34_set_order`).
* `qpieri` on the point spaces `OG(0,N)` raises IndexError (`C34_qpieri_OG_point`, `C34_qpieri_OGeven_point`).
* `qpieri(n+k+1, ..)` on `IG` returns coefficients 1/2 (example after `C35_qpieri_IG_integral`).
* In type D with k = 0 the special class of degree 0 is excluded by the tie breaking rule: `pieri(0, x)` returns 0.
* `lc + Schur(..)` raises ValueError while `Schur(..) + lc` works.
* `OG.part2pair`/`pair2part` on a bare list raise TypeError.
* `pieriA_inner` with negative `i` returns a sum of classes smaller than the argument instead of raising.
* Products `qmult` whose first factor contains `q1` or `q2` (type D, k = 1) raise ValueError in `spec2num`, so `qmult` is
  not associative there (`C66_refuted_two_parameters`).
* `pieri_set` drops one guard of the Maple original; harmless, as C43 shows.
* `Schur(..) + LinearCombination(0)` and `Schur(..) * LinearCombination(0)` raise ValueError because the expression 0 is
  falsy; `Schur - x` and `x - Schur` always raise TypeError (`C85_asymmetry`, `C85_minus_returns`).
* `is_valid` rejects every expression with a term `q*S[..]`, so results of `qmult` are in general not "valid" linear combinations
  (`C83_lincomb`); on unexpanded trees it rejects `2*3*S[1]` but accepts `2*(3*S[1])` (`C83_shape`).
* `has_part_zero_padding` reports the classes of type 2 of OG(m,2n+2), whose trailing zero is not padding (`C84_typeD`).
* `test_zclass_csv_threaded.py` looks at the first 7000 rows of its table only (`C126_refuted_all_rows`), and the table it opens,
  `results.csv`, is not in the repository (the file there is `testcase.csv`, 4368 rows, no row of type A, so `test_2_threaded` would check nothing).
* `coverage_badges.py` can show "70% > 70%" in red or green (`C126_refuted_blue`).
* The examples in `docs/pieri_type*_examples.md` ("actual outputs") agree with the model (`Tests/Docs.lean`) except for four:
  `pieriB_inner(1,[1],1,2)` is `2*S[2]`, not `0`; `IG(1,4).qpieri(1,S[1])` is `S[2]`, not `S[2] + S[]*q/2` (not homogeneous);
  `OG(1,6).pieri(1,S[1])` and `.qpieri(1,S[1])` are `S[2] + S[2,0]`, not `S[1,1]` (which is not a class of this quadric).
* `test_pieri_examples.py` imports `pieriA_inner`, `pieriB_inner`, ..., `_dcoef` from `qcalc`, which does not define them (ImportError).
* `docs/bruhat.md` gives `l(u) + l(u^-1 w) = l(w)` as a condition equivalent to `u <= w`; that is the weak order.
* `schubertsage/conversion.py` passes the bound method `schur.partition` instead of its value (read only, not modelled).
* The module-level functions `pieri`, `act`, `mult`, ... of `qcalc.py` (lines 660-790) depend on globals that nothing sets; the
  default `fail_no_type` takes no arguments but is called with four, so they raise TypeError instead of the intended ValueError.
- Module-level `giambelli`, `mult`, `toS`, `qgiambelli`, `qtoS` of `qcalc.py` call `giambelli_rec`, which is not defined in that
  module: `NameError` on every argument. Module-level `pieri`, `act` keep the placeholder `fail_no_type`, so they raise on every
  Schubert symbol; `act` on arguments without symbols treats one-row classes as 1 (C90).
- `part_gen(lam)` is not the list of partitions contained in `lam`: it continues with everything lexicographically smaller, so
  `part_gen([3,1])` contains `[2,2]` (C93). For rectangles, the only use in the library, both agree. `part_gen([])` is `[]`.
- `CodeAnalyzer` of `example/graph.py` never restores `current_function`: calls after an inner function belong to the inner function, calls
  outside of functions to the last function read, also across files (`C132_inner`).
