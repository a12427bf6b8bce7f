{"id": "C01", "title": "Clipping removes exactly the trailing zeros", "statement": "part_clip(l) is the unique list c with no trailing zero such that l = c followed by zeros; clipping twice is clipping once, and two lists clip to the same list iff they agree as zero-padded sequences.", "quantifier": "every list of integers", "why_tests_cant": "lists of every length; a test samples a few", "anchors": ["schubertpy/partition.py:part_clip"]}
{"id": "C02", "title": "Conjugation is the transpose and an involution", "statement": "For a partition l (weakly decreasing, non-negative) part_conj(l) has as its j-th entry the number of parts of l that are at least j, is again a partition of the same size, and part_conj(part_conj(l)) = part_clip(l).", "quantifier": "every weakly decreasing list of non-negative integers", "why_tests_cant": "infinitely many partitions", "anchors": ["schubertpy/qcalc.py:part_conj"]}
{"id": "C03", "title": "Partition accepts exactly the partitions", "statement": "Partition(l) succeeds iff l is a list of non-negative integers in weakly decreasing order; otherwise it raises ValueError.", "quantifier": "every list of integers", "why_tests_cant": "every list", "anchors": ["schubertpy/partition.py:is_valid_part", "schubertpy/partition.py:Partition.__init__"]}
{"id": "C04", "title": "all_kstrict enumerates the k-strict partitions of a rectangle, once each", "statement": "all_kstrict(k, rows, cols) terminates and returns, without repetition, exactly the clipped weakly decreasing lists with at most rows parts, parts at most cols, and no part greater than k repeated.", "quantifier": "every k, rows, cols with 0 <= k <= cols and 0 <= rows", "why_tests_cant": "the iteration is correct for every rectangle or it silently loses Schubert classes in a larger one", "anchors": ["schubertpy/utils/kstrict.py:all_kstrict", "schubertpy/utils/kstrict.py:_itr_kstrict", "schubertpy/utils/kstrict.py:_first_kstrict"]}
{"id": "C05", "title": "Schubert classes of Gr(m,n)", "statement": "Grassmannian(m,n).schub_classes() is a strictly increasing (hence duplicate-free) list whose members are exactly the partitions inside the m x (n-m) rectangle; it has binomial(n,m) entries.", "quantifier": "every m, n with 0 <= m <= n", "why_tests_cant": "all sizes; the count is a closed formula", "anchors": ["schubertpy/grassmannian.py:Grassmannian.schub_classes", "schubertpy/qcalc.py:part_gen", "schubertpy/qcalc.py:part_itr"]}
{"id": "C06", "title": "Schubert classes of IG(m,2n) and OG(m,2n+1)", "statement": "schub_classes() of the symplectic and odd orthogonal Grassmannians is a strictly increasing list whose members are exactly the k-strict partitions (k = n-m) inside the (n-k) x (n+k) rectangle.", "quantifier": "every 0 <= m <= n", "why_tests_cant": "all sizes", "anchors": ["schubertpy/isotropic_grassmannian.py:IsotropicGrassmannian.schub_classes", "schubertpy/orthogonal_grassmannian.py:OrthogonalGrassmannian.schub_classes"]}
{"id": "C07", "title": "Schubert classes of OG(m,2n+2)", "statement": "schub_classes() of the even orthogonal Grassmannian is a strictly increasing list whose members are the k-strict partitions inside the (n+1-k) x (n+k) rectangle, those containing the part k appearing exactly twice: bare, and followed by a single 0.", "quantifier": "every 0 <= m <= n+1", "why_tests_cant": "all sizes", "anchors": ["schubertpy/orthogonal_grassmannian.py:OrthogonalGrassmannian.schub_classes"]}
{"id": "C08", "title": "Type A: partitions and index sets are in bijection", "statement": "In Gr(m,n), part2index of a Schubert class is a strictly increasing list of m numbers in 1..n, index2part(part2index(x)) = x for every class x, and part2index(index2part(I)) = I for every such index list I.", "quantifier": "every m <= n, every class, every index list", "why_tests_cant": "all sizes", "anchors": ["schubertpy/qcalc.py:part2indexA_inner", "schubertpy/qcalc.py:index2partA_inner", "schubertpy/grassmannian.py:Grassmannian.part2index"]}
{"id": "C09", "title": "Type C: partitions and isotropic index sets are in bijection", "statement": "In IG(m,2n), part2index of a class is a strictly increasing list of m numbers in 1..2n no two of which sum to 2n+1, and index2part and part2index are inverse to one another between classes and such lists.", "quantifier": "every m <= n, every class, every isotropic index list", "why_tests_cant": "all sizes", "anchors": ["schubertpy/qcalc.py:part2indexC_inner", "schubertpy/qcalc.py:index2partC_inner"]}
{"id": "C10", "title": "Type B: partitions and isotropic index sets are in bijection", "statement": "In OG(m,2n+1), part2index of a class is a strictly increasing list of m numbers in 1..2n+1, none equal to n+1 and no two summing to 2n+2, and index2part and part2index are inverse to one another.", "quantifier": "every m <= n, every class, every isotropic index list", "why_tests_cant": "all sizes", "anchors": ["schubertpy/qcalc.py:part2indexB_inner", "schubertpy/qcalc.py:index2partB_inner"]}
{"id": "C11", "title": "Type D: typed partitions and isotropic index sets are in bijection", "statement": "In OG(m,2n+2), part2index of a class (with its type) is a strictly increasing list of m numbers in 1..2n+2 no two of which sum to 2n+3, and index2part(part2index(x)) = x including the type marker.", "quantifier": "every m <= n+1, every class, every isotropic index list", "why_tests_cant": "all sizes and the parity rule for types", "anchors": ["schubertpy/qcalc.py:part2indexD_inner", "schubertpy/qcalc.py:index2partD_inner"]}
{"id": "C12", "title": "Dualizing is an involution that complements codimension", "statement": "dualize(dualize(x)) = x for every Schubert class x; the codimensions of x and dualize(x) add up to the dimension of the space; dualize(S[]) is the point class; in type A the dual of (l_1..l_m) is (k-l_m,..,k-l_1).", "quantifier": "every space of types A, B, C, D and every class of it", "why_tests_cant": "all sizes", "anchors": ["schubertpy/qcalc.py:dualize_index_inner", "schubertpy/grassmannian.py:Grassmannian.dualize", "schubertpy/isotropic_grassmannian.py:IsotropicGrassmannian.dualize", "schubertpy/orthogonal_grassmannian.py:OrthogonalGrassmannian.dualize"]}
{"id": "C13", "title": "Partition pairs: part2pair and pair2part are inverse", "statement": "pair2part(part2pair(l)) = l for every k-strict partition l (with or without the type-D trailing 0), and pair2part raises IndexError exactly when the bottom partition has more rows than the top allows.", "quantifier": "every k and every k-strict partition", "why_tests_cant": "all sizes", "anchors": ["schubertpy/qcalc.py:part2pair_inner", "schubertpy/qcalc.py:pair2part_inner"]}
{"id": "C14", "title": "type_swap and miami_swap are degree-preserving involutions", "statement": "On the Schubert classes of OG(m,2n+2), type_swap exchanges the two classes of each partition with a part k and fixes all others, miami_swap does so exactly when the number of parts greater than k is odd; each map is its own inverse, preserves codimension and maps classes to classes.", "quantifier": "every k >= 1 and every class", "why_tests_cant": "all sizes", "anchors": ["schubertpy/qcalc.py:type_swap_inner", "schubertpy/abstract_grassmannian.py:AbstractGrassmannian.static_miami_swap_inner", "schubertpy/orthogonal_grassmannian.py:OrthogonalGrassmannian.schub_type"]}
{"id": "C15", "title": "Type A classical Pieri rule", "statement": "pieri(p, S[l]) in Gr(m,n) is the sum, each with coefficient exactly 1, of the S[mu] with mu in the m x (n-m) rectangle, mu/l a horizontal strip (mu_1 >= l_1 >= mu_2 >= l_2 >= ...) of size p.", "quantifier": "every 1 <= m <= n, p >= 0, every class l", "why_tests_cant": "the fill/iterate loop must visit every strip once for every shape", "anchors": ["schubertpy/grassmannian.py:Grassmannian.pieriA_inner", "schubertpy/qcalc.py:_pieri_fillA", "schubertpy/qcalc.py:_pieri_itrA"]}
{"id": "C16", "title": "Type A quantum Pieri rule", "statement": "qpieri(p, S[l]) is the classical Pieri sum plus q times the sum of S[nu] with l_1-1 >= nu_1 >= l_2-1 >= nu_2 >= ... >= l_m-1 >= nu_m >= 0 and |nu| = |l|+p-n (Bertram's rule).", "quantifier": "every 1 <= m < n, 1 <= p <= n-m, every class l", "why_tests_cant": "all sizes", "anchors": ["schubertpy/grassmannian.py:Grassmannian.qpieriA_inner", "schubertpy/qcalc.py:_part_star"]}
{"id": "C17", "title": "apply_lc is linear and does not depend on how the expression is written", "statement": "apply_lc(f, e) depends only on the polynomial that e denotes, is additive, commutes with multiplication by numbers and by q, and replaces each Schubert symbol by f of its partition.", "quantifier": "every expression built from numbers, q and Schubert symbols with +, *, ^ and every f", "why_tests_cant": "all expression trees", "anchors": ["schubertpy/qcalc.py:apply_lc", "schubertpy/lc.py:LinearCombination.apply"]}
{"id": "C18", "title": "act/qact is a ring action", "statement": "act(e*f, x) = act(e, act(f, x)), act(e+f, x) = act(e,x)+act(f,x), act(1,x) = x; in particular the order in which act eliminates the variables of e (alphabetical by symbol) does not matter.", "quantifier": "every polynomial e, f in the special classes S[1..k] and q, every linear combination x of Schubert classes of Gr(m,n), classical and quantum", "why_tests_cant": "the order of elimination is fixed by string sorting; independence of order is a statement about all polynomials", "anchors": ["schubertpy/abstract_grassmannian.py:AbstractGrassmannian.act_lc", "schubertpy/abstract_grassmannian.py:AbstractGrassmannian.act", "schubertpy/abstract_grassmannian.py:AbstractGrassmannian.qact"]}
{"id": "C19", "title": "Giambelli terminates and inverts toS", "statement": "For every Schubert class l of Gr(m,n), giambelli(S[l]) terminates without exception, is a polynomial in the special classes only, and toS(S[l]) = S[l] (likewise qgiambelli/qtoS).", "quantifier": "every class of every Gr(m,n), 1 <= m <= n", "why_tests_cant": "termination of a recursion over all shapes", "anchors": ["schubertpy/abstract_grassmannian.py:AbstractGrassmannian.giambelli_rec_inner", "schubertpy/abstract_grassmannian.py:AbstractGrassmannian.giambelli_rec", "schubertpy/abstract_grassmannian.py:AbstractGrassmannian.toS", "schubertpy/abstract_grassmannian.py:AbstractGrassmannian.qtoS"]}
{"id": "C20", "title": "Classical product is commutative, associative and unital (type A)", "statement": "In Gr(m,n): mult(a,b) = mult(b,a), mult(mult(a,b),c) = mult(a,mult(b,c)), mult(S[],a) = a = mult(a,S[]), mult is bilinear, and mult(S[p],S[l]) = pieri(p,S[l]).", "quantifier": "every 1 <= m <= n and all linear combinations a, b, c of Schubert classes", "why_tests_cant": "algebraic laws over all elements; the implementation treats its two arguments completely differently", "anchors": ["schubertpy/abstract_grassmannian.py:AbstractGrassmannian.mult"]}
{"id": "C21", "title": "Quantum product is commutative, associative and unital (type A)", "statement": "In Gr(m,n), 1 <= m < n: qmult(a,b) = qmult(b,a), qmult(qmult(a,b),c) = qmult(a,qmult(b,c)), qmult(S[],a) = a, bilinear over Q[q], and qmult(S[p],S[l]) = qpieri(p,S[l]).", "quantifier": "every 1 <= m < n and all linear combinations a, b, c", "why_tests_cant": "algebraic laws over all elements", "anchors": ["schubertpy/abstract_grassmannian.py:AbstractGrassmannian.qmult"]}
{"id": "C22", "title": "Setting q = 0 in the quantum product gives the classical product (type A)", "statement": "The q-free part of qmult(a,b) is mult(a,b), and of qpieri(p,a) is pieri(p,a), for q-free a, b.", "quantifier": "every 1 <= m < n, all classes", "why_tests_cant": "all elements", "anchors": ["schubertpy/abstract_grassmannian.py:AbstractGrassmannian.qmult", "schubertpy/abstract_grassmannian.py:AbstractGrassmannian.mult", "schubertpy/grassmannian.py:Grassmannian.qpieriA_inner"]}
{"id": "C23", "title": "Products are homogeneous (type A)", "statement": "Every term c*q^d*S[nu] of qmult(S[l],S[mu]) in Gr(m,n) satisfies |nu| + d*degree_q() = |l|+|mu| and nu is a Schubert class of Gr(m,n); same for mult with d = 0.", "quantifier": "every 1 <= m < n, all pairs of classes", "why_tests_cant": "all pairs", "anchors": ["schubertpy/abstract_grassmannian.py:AbstractGrassmannian.qmult", "schubertpy/grassmannian.py:Grassmannian.degree_q"]}
{"id": "C24", "title": "Quantum Giambelli equals classical Giambelli (type A)", "statement": "qgiambelli(S[l]) = giambelli(S[l]) for every class of Gr(m,n) (no q-corrections ever appear).", "quantifier": "every class of every Gr(m,n)", "why_tests_cant": "all classes", "anchors": ["schubertpy/abstract_grassmannian.py:AbstractGrassmannian.qgiambelli", "schubertpy/abstract_grassmannian.py:AbstractGrassmannian.giambelli"]}
{"id": "C25", "title": "Poincare duality (type A)", "statement": "The coefficient of the point class in mult(S[l],S[mu]) is 1 if mu = dualize(l) and 0 otherwise.", "quantifier": "every pair of classes of every Gr(m,n), 1 <= m <= n", "why_tests_cant": "all pairs of classes", "anchors": ["schubertpy/abstract_grassmannian.py:AbstractGrassmannian.mult", "schubertpy/grassmannian.py:Grassmannian.dualize", "schubertpy/grassmannian.py:Grassmannian.point_class"]}
{"id": "C26", "title": "The rim-hook product agrees with the quantum product", "statement": "qmult_rh(a,b) = qmult(a,b) for all Schubert classes a, b of Gr(m,n).", "quantifier": "every pair of classes of every Gr(m,n)", "why_tests_cant": "the two algorithms agree on the small spaces that are tested; the sign rule for several hooks is only exercised in larger ones", "anchors": ["schubertpy/grassmannian.py:Grassmannian.qmult_rh", "schubertpy/partition.py:Partition.remove_rim_hooks"]}
{"id": "C27", "title": "remove_rim_hooks contract", "statement": "remove_rim_hooks(n, (r,c)) terminates on every partition; when it reports q > 0 hooks and a partition x, x is a partition inside the r x c grid contained in the input, obtained by removing q rim hooks of size n, so |x| = |input| - q*n.", "quantifier": "every partition, every positive rim size, every grid", "why_tests_cant": "termination of an unbounded while loop; all shapes", "anchors": ["schubertpy/partition.py:Partition.remove_rim_hooks"]}
{"id": "C28", "title": "skew_partition_height counts the occupied rows", "statement": "skew_partition_height(l, mu) raises ValueError iff l is nonempty and not contained in mu; otherwise it is the number of rows i with mu_i > l_i (for partitions mu without zero rows).", "quantifier": "all pairs of partitions", "why_tests_cant": "all pairs", "anchors": ["schubertpy/partition.py:skew_partition_height"]}
{"id": "C29", "title": "Memoisation is transparent", "statement": "A function or method wrapped by hashable_lru_cache / hashable_lru_cache_method returns, on every call of every call history and with every maxsize (including None and 0), the value the wrapped pure function would return on the tuple-converted arguments; the cache never holds more than maxsize entries or two entries for one key.", "quantifier": "every call history, every maxsize, every pure function", "why_tests_cant": "all histories and evictions", "anchors": ["schubertpy/utils/hash.py:hashable_lru_cache", "schubertpy/utils/hash.py:hashable_lru_cache_method"]}
{"id": "C30", "title": "Schubert symbols survive the trip through text", "statement": "toSchur(Schur(p).symbol()) = Schur(p) for every list p of non-negative integers (and for every pair of such lists), and different p give different symbols; parsing the printed form S[...] gives the symbol back.", "quantifier": "every list of non-negative integers", "why_tests_cant": "all lists; every result of apply_lc goes through this conversion", "anchors": ["schubertpy/schur.py:Schur.symbol", "schubertpy/schur.py:toSchur", "schubertpy/utils/const.py:encode", "schubertpy/utils/const.py:decode"]}
{"id": "C31", "title": "Constructors establish the type invariants and clone reproduces the space", "statement": "Each constructor raises exactly on the documented bad arguments; otherwise 0 <= k <= n (n+1 in type D) and get_type_data reports the constructor's own arguments back; clone() returns an object with the same type data.", "quantifier": "all integer arguments", "why_tests_cant": "all arguments", "anchors": ["schubertpy/grassmannian.py:Grassmannian.__init__", "schubertpy/isotropic_grassmannian.py:IsotropicGrassmannian.__init__", "schubertpy/orthogonal_grassmannian.py:OrthogonalGrassmannian.__init__", "schubertpy/abstract_grassmannian.py:AbstractGrassmannian.clone"]}
{"id": "C32", "title": "Pieri terms in types B, C, D are k-strict, in range and of the right degree", "statement": "Every mu produced by the Pieri product of S[p] with a class l in types B, C, D is a k-strict partition inside the space's rectangle with |mu| = |l| + p, and each mu is produced once.", "quantifier": "every k, n, class l and p >= 0", "why_tests_cant": "all shapes", "anchors": ["schubertpy/qcalc.py:pieri_set", "schubertpy/qcalc.py:_pieri_fill", "schubertpy/qcalc.py:_pieri_itr", "schubertpy/qcalc.py:part_itr_between"]}
{"id": "C33", "title": "Pieri coefficients in types B and C are positive integers", "statement": "All coefficients of pieri(p, S[l]) are positive integers (powers of two): in type B the exponent never becomes negative.", "quantifier": "every k, n, class l, 1 <= p <= n+k", "why_tests_cant": "a negative exponent silently produces a float 0.5", "anchors": ["schubertpy/orthogonal_grassmannian.py:OrthogonalGrassmannian.pieriB_inner", "schubertpy/isotropic_grassmannian.py:IsotropicGrassmannian.pieriC_inner", "schubertpy/qcalc.py:count_comps"]}
{"id": "C34", "title": "Quantum Pieri terms in types B, C, D are homogeneous", "statement": "Every term c*q^d*S[nu] of qpieri(p,S[l]) satisfies |nu| + d*degree_q() = |l| + p and nu is a Schubert class of the same space.", "quantifier": "every space of types B, C, D, every class and every p", "why_tests_cant": "all shapes", "anchors": ["schubertpy/isotropic_grassmannian.py:IsotropicGrassmannian.qpieriC_inner", "schubertpy/orthogonal_grassmannian.py:OrthogonalGrassmannian.qpieriB_inner", "schubertpy/orthogonal_grassmannian.py:OrthogonalGrassmannian.qpieriD_inner", "schubertpy/qcalc.py:_part_tilde"]}
{"id": "C35", "title": "Quantum Pieri coefficients in type C are integers", "statement": "Although qpieriC multiplies by q/2, every coefficient of qpieri(p,S[l]) in IG(m,2n) is an integer.", "quantifier": "every m <= n, class l, 1 <= p <= n+k", "why_tests_cant": "all shapes", "anchors": ["schubertpy/isotropic_grassmannian.py:IsotropicGrassmannian.qpieriC_inner"]}
{"id": "C36", "title": "Schur polynomials", "statement": "Schur(l).to_polinomial_str(n) (SchurPol(n,l)) is the generating function of semistandard tableaux of shape l with entries in 1..n; it is homogeneous of degree |l|, symmetric in its variables, and 0 iff l has more than n parts.", "quantifier": "every partition l and n >= 1", "why_tests_cant": "all shapes and numbers of variables", "anchors": ["schubertpy/utils/mix.py:SchurPol", "schubertpy/schur.py:Schur.to_polinomial_str"]}
{"id": "C37", "title": "Generators and point class are Schubert classes; the point class is the unique top class", "statement": "Every element of generators() is a Schubert class, point_class() is a Schubert class, and its codimension (the dimension of the space) is attained by no other class and exceeded by none.", "quantifier": "every space of types A, B, C, D", "why_tests_cant": "all sizes", "anchors": ["schubertpy/grassmannian.py:Grassmannian.generators", "schubertpy/grassmannian.py:Grassmannian.point_class", "schubertpy/isotropic_grassmannian.py:IsotropicGrassmannian.point_class", "schubertpy/orthogonal_grassmannian.py:OrthogonalGrassmannian.point_class"]}
{"id": "C38", "title": "Multiplication tables", "statement": "MultTable(gr) and QMultTable(gr) have one row and one column per Schubert class, entry (i,j) is the product of class i and class j, the table is symmetric (type A), and the row of S[] lists the classes.", "quantifier": "every Gr(m,n) with 1 <= m < n", "why_tests_cant": "all sizes", "anchors": ["schubertpy/mult_table.py:AbstractMultTable.__init__"]}
{"id": "C39", "title": "schur_expansion loses nothing", "statement": "For an expanded sum of q-monomials times Schubert symbols, the pairs returned by schur_expansion() re-sum to the expression, sorted by partition; with include_q=False exactly the q-free terms are kept.", "quantifier": "every expanded linear combination with at least two terms", "why_tests_cant": "all expressions", "anchors": ["schubertpy/lc.py:LinearCombination.schur_expansion", "schubertpy/lc.py:LinearCombination._schur_expansion"]}
{"id": "C40", "title": "unique_schur_list sorts and deduplicates", "statement": "unique_schur_list(xs) is strictly increasing in the order of Schur, has the same members as xs, and depends only on the set of members; equal Schur objects hash equally.", "quantifier": "every list of Schur objects", "why_tests_cant": "all lists", "anchors": ["schubertpy/schur.py:unique_schur_list", "schubertpy/schur.py:Schur.__lt__"]}
{"id": "C41", "title": "CSV comparison is set equality", "statement": "check_bijection_with_permutation(f,g) is True iff the two files have the same set of normalised rows; it is reflexive, symmetric, transitive and insensitive to row order, duplicates, blank rows and rows shorter than three fields.", "quantifier": "every pair of files", "why_tests_cant": "all files", "anchors": ["schubertpy/csv_bijection.py:check_bijection_with_permutation", "schubertpy/csv_bijection.py:_read_csv_transformed"]}
{"id": "C42", "title": "Special classes: spec2num and num2spec are inverse", "statement": "spec2num(num2spec(p)) = p for p > 0 in every type and for p < 0 in type D; spec2num raises ValueError exactly on symbols that are not special classes.", "quantifier": "every nonzero p, every type", "why_tests_cant": "all p", "anchors": ["schubertpy/abstract_grassmannian.py:AbstractGrassmannian.spec2num", "schubertpy/abstract_grassmannian.py:AbstractGrassmannian.num2spec"]}
{"id": "C43", "title": "Pieri relation of types B, C, D", "statement": "The set of mu produced by the type B/C Pieri rule is exactly the set of k-strict mu in the rectangle with l -> mu in the sense of Buch-Kresch-Tamvakis (remove a vertical strip from the first k columns, add a horizontal strip, with the k-relatedness conditions) and |mu| = |l|+p.", "quantifier": "every k, n, class l and p", "why_tests_cant": "all shapes", "anchors": ["schubertpy/qcalc.py:pieri_set"]}
{"id": "C44", "title": "Multiplying by S[0]-strips and by the unit", "statement": "pieri(0, x) = x, and pieri(p, S[]) = S[p] for 1 <= p <= k in type A; pieri(p, x) = 0 for p > n-m columns.", "quantifier": "every Gr(m,n), 1 <= m", "why_tests_cant": "all sizes", "anchors": ["schubertpy/grassmannian.py:Grassmannian.pieriA_inner"]}
{"id": "C45", "title": "ASCII diagrams are rectangular", "statement": "partition_to_ascii and embed_partition return rows of equal width, with exactly l_i boxes in row i.", "quantifier": "every partition and every target size", "why_tests_cant": "all shapes", "anchors": ["schubertpy/utils/mix.py:partition_to_ascii", "schubertpy/utils/mix.py:embed_partition", "schubertpy/utils/mix.py:embed_str"]}
{"id": "C46", "title": "Arithmetic on linear combinations is polynomial arithmetic", "statement": "LinearCombination +, -, *, ** denote sum, difference, product and power of the polynomials; + and * are commutative and associative and the reflected operators agree with the direct ones.", "quantifier": "all linear combinations and integer scalars", "why_tests_cant": "all expressions", "anchors": ["schubertpy/lc.py:LinearCombination.__add__", "schubertpy/lc.py:LinearCombination.__mul__", "schubertpy/lc.py:LinearCombination.__rsub__"]}
{"id": "C47", "title": "Structure constants are integers (type A)", "statement": "Every coefficient of mult(S[l],S[mu]) and of qmult(S[l],S[mu]) is an integer, although the arithmetic is done with sympy rationals.", "quantifier": "every pair of classes of every Gr(m,n), 1 <= m <= n", "why_tests_cant": "all sizes", "anchors": ["schubertpy/abstract_grassmannian.py:AbstractGrassmannian.mult", "schubertpy/abstract_grassmannian.py:AbstractGrassmannian.qmult"]}
{"id": "C48", "title": "Pieri coefficients of types B and C count connected components", "statement": "count_comps(l, mu, skipfirst, k, d) is the number of connected components of the set of boxes of BKT that are not mentioned in the Pieri conditions for l -> mu (without the component touching column k if skipfirst); the terms of pieri(p,S[l]) are exactly 2^N*S[mu] over l -> mu with |mu| = |l| + p, where N is that number in type C, and the number of all components, minus 1 if p > k, in type B.", "quantifier": "every k, n, class l and p", "why_tests_cant": "all shapes; the bit-string computation of components is compared with graph components", "anchors": ["schubertpy/qcalc.py:count_comps", "schubertpy/qcalc.py:calc_comps", "schubertpy/isotropic_grassmannian.py:IsotropicGrassmannian.pieriC_inner", "schubertpy/orthogonal_grassmannian.py:OrthogonalGrassmannian.pieriB_inner"]}
{"id": "C49", "title": "Pieri rule of type D with types and tie breaking", "statement": "The terms of pieri(p,S[l]) on OG(m,2n+2) are exactly c*S[mu] for typed k-strict mu with l -> mu, |mu| = |l|+|p|, types not adding up to 3, where c = 2^N for |p| < k, 2^(N-1) for |p| > k, and for |p| = k: 2^(N-1) if N > 0, and if N = 0 the coefficient is 1 exactly when the parity of h + max(type) selects p (p = k) or the second special class (p = -k).", "quantifier": "every even orthogonal Grassmannian, every class l and every p", "why_tests_cant": "all shapes and types", "anchors": ["schubertpy/orthogonal_grassmannian.py:OrthogonalGrassmannian.pieriD_inner", "schubertpy/orthogonal_grassmannian.py:OrthogonalGrassmannian._dcoef"]}
{"id": "C50", "title": "Quantum Pieri rules of types B, C, D, term by term", "statement": "The terms of qpieri(p,S[l]) are exactly those of the quantum Pieri rules of Buch, Kresch and Tamvakis: the classical terms, in type C 2^(N-1)*q*S[nu] for l -> (n+k+1,nu), in types B and D the terms q*S[nu~] (opposite type in type D) from the product in the rectangle with one more row and column and the terms with the top power of q from the product with l without its first row; for OG(n,2n+2), c*q1*S[y] and c*q2*S[y'] where y, y' come from a term c*S[mu] of the product with l without its first column by turning the first row of mu into a column.", "quantifier": "every space of types B, C, D with m >= 1, every class l and every p (in type C p <= n+k)", "why_tests_cant": "all shapes", "anchors": ["schubertpy/isotropic_grassmannian.py:IsotropicGrassmannian.qpieriC_inner", "schubertpy/orthogonal_grassmannian.py:OrthogonalGrassmannian.qpieriB_inner", "schubertpy/orthogonal_grassmannian.py:OrthogonalGrassmannian.qpieriD_inner", "schubertpy/qcalc.py:_part_star", "schubertpy/qcalc.py:_part_tilde"]}
{"id": "C51", "title": "act and qact are ring actions (types B and C)", "statement": "On IG(m,2n) (classical and quantum) and OG(m,2n+1) (classical), act is additive in both arguments, act(e*f,x) = act(e,act(f,x)), act(1,x) = x, results are linear combinations of classes, and act(S[p],x) = pieri(p,x) for every special class.", "quantifier": "all polynomials e, f in q and the special classes, all linear combinations of classes, every m <= n", "why_tests_cant": "all sizes and expressions; commutation of Pieri operators is a theorem, not a check", "anchors": ["schubertpy/abstract_grassmannian.py:AbstractGrassmannian.act", "schubertpy/abstract_grassmannian.py:AbstractGrassmannian.qact", "schubertpy/abstract_grassmannian.py:AbstractGrassmannian.act_lc"]}
{"id": "C52", "title": "giambelli inverts the action (types B and C)", "statement": "On IG(m,2n) (classical and quantum) and OG(m,2n+1) (classical), giambelli(x) terminates, is a polynomial in q and the special classes, and act(giambelli(x), S[]) = x; so toS and qtoS are the identity on linear combinations of classes.", "quantifier": "all linear combinations of classes, every m <= n", "why_tests_cant": "termination and correctness of the recursion for all sizes", "anchors": ["schubertpy/abstract_grassmannian.py:AbstractGrassmannian.giambelli", "schubertpy/abstract_grassmannian.py:AbstractGrassmannian.giambelli_rec_inner", "schubertpy/abstract_grassmannian.py:AbstractGrassmannian.qgiambelli", "schubertpy/abstract_grassmannian.py:AbstractGrassmannian.toS"]}
{"id": "C53", "title": "Products of types B and C are associative and commutative", "statement": "mult on IG(m,2n) and OG(m,2n+1) and qmult on IG(m,2n) are closed, commutative and associative products with unit S[].", "quantifier": "all linear combinations of classes, every m <= n", "why_tests_cant": "all triples in all spaces", "anchors": ["schubertpy/abstract_grassmannian.py:AbstractGrassmannian.mult", "schubertpy/abstract_grassmannian.py:AbstractGrassmannian.qmult"]}
{"id": "C54", "title": "Products of types B and C are bilinear and extend the Pieri rule", "statement": "mult and qmult are linear over Q[q], and mult(S[p],x) = pieri(p,x), qmult(S[p],x) = qpieri(p,x) for every special class, on IG(m,2n) (and mult on OG(m,2n+1)).", "quantifier": "all linear combinations of classes, every 1 <= m <= n", "why_tests_cant": "all sizes", "anchors": ["schubertpy/abstract_grassmannian.py:AbstractGrassmannian.mult", "schubertpy/abstract_grassmannian.py:AbstractGrassmannian.qmult"]}
{"id": "C55", "title": "Classical limit of the quantum product of IG(m,2n)", "statement": "For expressions without q, the terms without q of qmult(a,b) are exactly mult(a,b).", "quantifier": "all linear combinations of classes without q, every m <= n", "why_tests_cant": "all sizes", "anchors": ["schubertpy/abstract_grassmannian.py:AbstractGrassmannian.qmult", "schubertpy/isotropic_grassmannian.py:IsotropicGrassmannian.qpieriC_inner"]}
{"id": "C56", "title": "Products of types B and C are graded", "statement": "The terms q^d*S[nu] of the product of S[l] and S[mu] satisfy |nu| + d*degree_q = |l|+|mu|; classical products have d = 0.", "quantifier": "all pairs of classes, every m <= n", "why_tests_cant": "all sizes", "anchors": ["schubertpy/abstract_grassmannian.py:AbstractGrassmannian.mult", "schubertpy/abstract_grassmannian.py:AbstractGrassmannian.qmult", "schubertpy/isotropic_grassmannian.py:IsotropicGrassmannian.degree_q"]}
{"id": "C57", "title": "Structure constants of types B and C are integers", "statement": "Every coefficient of mult(S[l],S[mu]) on IG(m,2n) and OG(m,2n+1) and of qmult(S[l],S[mu]) on IG(m,2n) is an integer, although the quantum Pieri rule has a factor 1/2.", "quantifier": "all pairs of classes, every m <= n", "why_tests_cant": "all sizes", "anchors": ["schubertpy/abstract_grassmannian.py:AbstractGrassmannian.mult", "schubertpy/abstract_grassmannian.py:AbstractGrassmannian.qmult"]}
{"id": "C58", "title": "Poincare duality (types B and C)", "statement": "The coefficient of the point class in mult(S[l],S[mu]) on IG(m,2n) and OG(m,2n+1) is 1 if mu = dualize(l) and 0 otherwise; in qmult(S[l],S[mu]) on IG(m,2n) moreover no multiple q^d*S[pt] with d > 0 occurs.", "quantifier": "every pair of classes, every m <= n", "why_tests_cant": "all pairs of classes in all spaces", "anchors": ["schubertpy/abstract_grassmannian.py:AbstractGrassmannian.mult", "schubertpy/abstract_grassmannian.py:AbstractGrassmannian.qmult", "schubertpy/isotropic_grassmannian.py:IsotropicGrassmannian.dualize", "schubertpy/orthogonal_grassmannian.py:OrthogonalGrassmannian.dualize"]}
{"id": "C59", "title": "Number of Schubert classes (types B and C)", "statement": "schub_classes() of IG(m,2n) and of OG(m,2n+1) has exactly 2^m * binomial(n,m) elements, without repetition.", "quantifier": "every 0 <= m <= n", "why_tests_cant": "all sizes", "anchors": ["schubertpy/abstract_grassmannian.py:AbstractGrassmannian.schub_classes", "schubertpy/utils/kstrict.py:all_kstrict"]}
{"id": "C60", "title": "Quantum action and Giambelli polynomials of OG(m,2n+1)", "statement": "On OG(m,2n+1), m >= 1, qact is a ring action of the polynomials in q and S[1..2n-m] on linear combinations of classes, S[p] acts by qpieri, and qgiambelli returns a polynomial in the special classes whose action on S[] gives back the argument (qtoS is the identity).", "quantifier": "every 1 <= m <= n, every polynomial in special classes, every linear combination of classes", "why_tests_cant": "all spaces and all polynomials", "anchors": ["schubertpy/abstract_grassmannian.py:AbstractGrassmannian.qact", "schubertpy/abstract_grassmannian.py:AbstractGrassmannian.qgiambelli", "schubertpy/abstract_grassmannian.py:AbstractGrassmannian.qtoS", "schubertpy/orthogonal_grassmannian.py:OrthogonalGrassmannian.qpieriB_inner"]}
{"id": "C61", "title": "Quantum ring of OG(m,2n+1)", "statement": "qmult on OG(m,2n+1), m >= 1, is closed, commutative, associative, bilinear, has unit S[], and multiplication by S[p] is qpieri(p,.).", "quantifier": "every 1 <= m <= n, all linear combinations of classes", "why_tests_cant": "associativity quantifies over all triples in all spaces", "anchors": ["schubertpy/abstract_grassmannian.py:AbstractGrassmannian.qmult", "schubertpy/abstract_grassmannian.py:AbstractGrassmannian.qgiambelli", "schubertpy/orthogonal_grassmannian.py:OrthogonalGrassmannian.qpieriB_inner"]}
{"id": "C62", "title": "Grading, classical limit and integrality of the quantum ring of OG(m,2n+1)", "statement": "qmult of two classes on OG(m,2n+1) is homogeneous when q has degree degree_q, has integer coefficients, and its terms without q are mult of the two classes.", "quantifier": "every 1 <= m <= n, every pair of classes", "why_tests_cant": "all pairs in all spaces", "anchors": ["schubertpy/abstract_grassmannian.py:AbstractGrassmannian.qmult", "schubertpy/abstract_grassmannian.py:AbstractGrassmannian.mult", "schubertpy/orthogonal_grassmannian.py:OrthogonalGrassmannian.get_type_data"]}
{"id": "C63", "title": "Quantum Poincare duality of OG(m,2n+1)", "statement": "In qmult(S[l],S[mu]) on OG(m,2n+1) the term q^d*S[pt] has coefficient 1 if d = 0 and mu = dualize(l), and 0 otherwise.", "quantifier": "every 1 <= m <= n, every pair of classes, every d", "why_tests_cant": "all pairs in all spaces", "anchors": ["schubertpy/abstract_grassmannian.py:AbstractGrassmannian.qmult", "schubertpy/orthogonal_grassmannian.py:OrthogonalGrassmannian.dualize"]}
{"id": "C64", "title": "Ring action on OG(m,2n+2)", "statement": "On OG(m,2n+2), act is a ring action of the polynomials in q and the special classes S[1..2n+1-m], S[k,0] (k = n+1-m) on linear combinations of classes; S[p] acts by pieri(p,.) and S[k,0] by pieri(-k,.). The same holds for qact and qpieri when 0 < m and m != n.", "quantifier": "every 0 <= m <= n+1 (quantum: 1 <= m, m != n), every polynomial in special classes, every linear combination of classes", "why_tests_cant": "all spaces and all polynomials; the classical type D Pieri rule has tie breaking and two classes of degree k, so commutation is not visible in small cases", "anchors": ["schubertpy/abstract_grassmannian.py:AbstractGrassmannian.act", "schubertpy/abstract_grassmannian.py:AbstractGrassmannian.qact", "schubertpy/orthogonal_grassmannian.py:OrthogonalGrassmannian.pieriD_inner", "schubertpy/orthogonal_grassmannian.py:OrthogonalGrassmannian.qpieriD_inner", "schubertpy/abstract_grassmannian.py:AbstractGrassmannian.spec2num"]}
{"id": "C65", "title": "Giambelli polynomials of OG(m,2n+2)", "statement": "giambelli on OG(m,2n+2) returns a polynomial in the special classes whose action on S[] gives back the argument, and toS is the identity on linear combinations of classes; the same for qgiambelli and qtoS when 0 < m and m != n.", "quantifier": "every 0 <= m <= n+1 (quantum: 1 <= m, m != n), every linear combination of classes", "why_tests_cant": "termination and correctness of the recursion for every class of every space", "anchors": ["schubertpy/abstract_grassmannian.py:AbstractGrassmannian.giambelli", "schubertpy/abstract_grassmannian.py:AbstractGrassmannian.qgiambelli", "schubertpy/abstract_grassmannian.py:AbstractGrassmannian.toS", "schubertpy/abstract_grassmannian.py:AbstractGrassmannian.qtoS"]}
{"id": "C66", "title": "Ring structure of OG(m,2n+2)", "statement": "mult on OG(m,2n+2) is closed, commutative, associative, bilinear, has unit S[], and multiplication by a special class is the Pieri rule; the same for qmult when 0 < m and m != n.", "quantifier": "every 0 <= m <= n+1 (quantum: 1 <= m, m != n), all linear combinations of classes", "why_tests_cant": "associativity quantifies over all triples in all spaces", "anchors": ["schubertpy/abstract_grassmannian.py:AbstractGrassmannian.mult", "schubertpy/abstract_grassmannian.py:AbstractGrassmannian.qmult", "schubertpy/orthogonal_grassmannian.py:OrthogonalGrassmannian.pieriD_inner", "schubertpy/orthogonal_grassmannian.py:OrthogonalGrassmannian.qpieriD_inner"]}
{"id": "C67", "title": "Grading, classical limit and integrality of the rings of OG(m,2n+2)", "statement": "mult of two classes on OG(m,2n+2) is homogeneous without q and has integer coefficients; for 0 < m, m != n, qmult is homogeneous when q has degree degree_q, has integer coefficients, and its terms without q are mult.", "quantifier": "every 0 <= m <= n+1 (quantum: 1 <= m, m != n), every pair of classes", "why_tests_cant": "all pairs in all spaces", "anchors": ["schubertpy/abstract_grassmannian.py:AbstractGrassmannian.qmult", "schubertpy/abstract_grassmannian.py:AbstractGrassmannian.mult", "schubertpy/orthogonal_grassmannian.py:OrthogonalGrassmannian.get_type_data"]}
{"id": "C68", "title": "Poincare duality of OG(m,2n+2)", "statement": "On OG(m,2n+2), for classes l and mu, the coefficient of the point class in mult(S[l], S[mu]) is 1 if mu = dualize(l) and 0 otherwise; for 0 < m and m != n the same holds for qmult, and no positive power of q occurs with the point class.", "quantifier": "every 0 <= m <= n+1 (quantum: 1 <= m, m != n), every pair of classes", "why_tests_cant": "all pairs of classes in all spaces; the type of the dual class depends on the parities of n and k", "anchors": ["schubertpy/abstract_grassmannian.py:AbstractGrassmannian.mult", "schubertpy/abstract_grassmannian.py:AbstractGrassmannian.qmult", "schubertpy/orthogonal_grassmannian.py:OrthogonalGrassmannian.dualize", "schubertpy/orthogonal_grassmannian.py:OrthogonalGrassmannian.get_type_data"]}
{"id": "C69", "title": "Number of Schubert classes of OG(m,2n+2)", "statement": "schub_classes of OG(m,2n+2) returns a list without repetitions with 2^m * binomial(n+1,m) entries if m <= n, and 2^n entries if m = n+1.", "quantifier": "every 0 <= m <= n+1, n >= 0", "why_tests_cant": "the count for all spaces", "anchors": ["schubertpy/orthogonal_grassmannian.py:OrthogonalGrassmannian.schub_classes"]}
{"id": "C70", "title": "The rim hook rule for the quantum product of Gr(m,n)", "statement": "qmult(a, b) on Gr(m,n) equals the result of taking mult(a, b) on Gr(m,2n-1) and replacing every class by its reduction: a shape inside the m x (n-m) grid stays; any other shape loses the rim hook of n boxes that starts in its first row, with a factor q and the sign (-1)^(m - number of rows of this hook), and becomes zero if there is no such hook. The reduction of a partition exists and is unique.", "quantifier": "every 1 <= m <= n, all linear combinations a, b of classes with coefficients in Q[q]", "why_tests_cant": "two independent algorithms for an infinite family of rings; the code's own rim hook product is only right for at most one hook (C26)", "anchors": ["schubertpy/abstract_grassmannian.py:AbstractGrassmannian.qmult", "schubertpy/abstract_grassmannian.py:AbstractGrassmannian.mult"]}
{"id": "C71", "title": "Jacobi's formula for SchurPol", "statement": "SchurPol(n, l), multiplied with the determinant with entries x_j^(n-i), is the determinant with entries x_j^(l_i+n-i), at all values of the variables in every commutative ring; as a polynomial it is the only quotient of the two determinants.", "quantifier": "every n >= 1, every partition l with at most n parts, all values of the variables", "why_tests_cant": "all shapes and numbers of variables; the code computes the polynomial by a recursion on rows and never sees a determinant", "anchors": ["schubertpy/utils/mix.py:SchurPol"]}
{"id": "C72", "title": "Value of SchurPol at 1, ..., 1", "statement": "With all variables equal to 1, SchurPol(n, l) is the number v of semistandard tableaux, and v * prod_{i<j<=n} (j - i) = prod_{i<j<=n} (l_i - l_j + j - i).", "quantifier": "every n >= 1 and every partition l with at most n parts", "why_tests_cant": "all shapes; a product formula for the result of a recursion", "anchors": ["schubertpy/utils/mix.py:SchurPol"]}
{"id": "C73", "title": "The classical product of Gr(m,n) is multiplication of Schur polynomials", "statement": "If a and b are combinations of classes with at most A and at most B columns and A + B <= n - m, then putting SchurPol(m, l) for every class S[l] (at any values of the variables, and any value for q) turns mult(a, b) into the product of the values of a and b.", "quantifier": "every 1 <= m <= n, all linear combinations a, b as described, all values of the variables in any commutative Q-algebra", "why_tests_cant": "ties two unrelated algorithms of the package, for all inputs", "anchors": ["schubertpy/abstract_grassmannian.py:AbstractGrassmannian.mult", "schubertpy/utils/mix.py:SchurPol"]}
{"id": "C74", "title": "Structure constants of Gr(m,n) do not depend on n", "statement": "For n <= n' and combinations a, b of classes of Gr(m,n), mult(a, b) on Gr(m,n) and mult(a, b) on Gr(m,n') have the same coefficient at every class of Gr(m,n).", "quantifier": "every 1 <= m <= n <= n', all linear combinations a, b of classes of Gr(m,n)", "why_tests_cant": "relates infinitely many spaces", "anchors": ["schubertpy/abstract_grassmannian.py:AbstractGrassmannian.mult"]}
{"id": "C75", "title": "dualize on whole expressions", "statement": "dualize(p) replaces every class in the expanded expression p by its dual class and changes nothing else; all classes of the result are classes of the space, and dualize(dualize(p)) has the same terms as p.", "quantifier": "all four families of spaces (OG(m,2n+1) with m <= n, OG(m,2n+2) with m <= n+1), every expanded expression in classes of the space, q, q1, q2", "why_tests_cant": "all expressions on all spaces", "anchors": ["schubertpy/grassmannian.py:Grassmannian.dualize", "schubertpy/isotropic_grassmannian.py:IsotropicGrassmannian.dualize", "schubertpy/orthogonal_grassmannian.py:OrthogonalGrassmannian.dualize"]}
{"id": "C76", "title": "Littlewood-Richardson rule on Gr(m,n)", "statement": "The coefficient of S[nu] in mult(S[l], S[mu]) is the number of semistandard tableaux T of shape mu with entries in 1..m such that for every c the sequence l + (content of the columns of T from c on) is non-increasing, and l + (content of T) = nu. No power of q occurs.", "quantifier": "every 1 <= m <= n, all classes l, mu, nu of Gr(m,n)", "why_tests_cant": "all triples of classes on all spaces; the code multiplies by Giambelli determinants with signs and never lists tableaux", "anchors": ["schubertpy/abstract_grassmannian.py:AbstractGrassmannian.mult", "schubertpy/abstract_grassmannian.py:AbstractGrassmannian.giambelli", "schubertpy/grassmannian.py:Grassmannian.pieriA_inner"]}
{"id": "C77", "title": "Classical products on Gr(m,n) are positive", "statement": "If all coefficients of a and b are natural numbers then mult(a, b) returns a combination of classes whose coefficients are natural numbers.", "quantifier": "every 1 <= m <= n, all linear combinations a, b of classes of Gr(m,n) with natural coefficients (powers of q allowed)", "why_tests_cant": "all inputs; the computation goes through determinants with signs", "anchors": ["schubertpy/abstract_grassmannian.py:AbstractGrassmannian.mult", "schubertpy/abstract_grassmannian.py:AbstractGrassmannian.giambelli"]}
{"id": "C78", "title": "Quantum Poincare duality on Gr(m,n)", "statement": "On Gr(m,n), for classes S[l] and S[mu], the coefficient of q^d times the point class in qmult(S[l],S[mu]) is 1 if S[mu]=dualize(S[l]) and d=0, and 0 otherwise: the quantum product has no quantum correction in the pairing, and a power of q never multiplies the point class.", "quantifier": "for all m>=1, n and all classes l, mu of Gr(m,n), all d", "why_tests_cant": "needs the quantum product of all pairs of classes on all Grassmannians; samples only show a few spaces", "anchors": ["schubertpy/abstract_grassmannian.py:AbstractGrassmannian.qmult", "schubertpy/abstract_grassmannian.py:AbstractGrassmannian.dualize"]}
{"id": "C79", "title": "Structure constants are symmetric under duality on all spaces", "statement": "If dualize(S[l])=S[l'] and dualize(S[nu])=S[nu'], the coefficient of q^d S[nu] in S[l]*S[mu] equals the coefficient of q^d S[l'] in S[mu]*S[nu']; with commutativity this is the full S3-symmetry of the (Gromov-Witten) structure constants. Holds for mult and qmult on Gr(m,n), IG(m,2n), OG(m,2n+1) and OG(m,2n+2).", "quantifier": "for all spaces of the four families (quantum OG(m,2n+2): m != n) and all classes l, mu, nu, all d", "why_tests_cant": "a symmetry over triples of classes on infinitely many spaces; sampling cannot establish it and a wrong pieri coefficient may show up only in one space", "anchors": ["schubertpy/abstract_grassmannian.py:AbstractGrassmannian.mult", "schubertpy/abstract_grassmannian.py:AbstractGrassmannian.qmult", "schubertpy/abstract_grassmannian.py:AbstractGrassmannian.dualize"]}
{"id": "C80", "title": "Cyclic symmetry of the quantum ring of Gr(m,n)", "statement": "In the quantum ring of Gr(m,n), 1<=m<n, qmult(S[n-m],S[l]) is exactly one term: S[n-m,l] if l has fewer than m parts, q S[l-1^m] otherwise; qmult(S[1^m],S[l]) is S[l+1^m] if l_1<n-m and q S[l_2,...,l_m] otherwise. Replacing S[l] and S[nu] by these products leaves the coefficient of S[nu] in S[l]*S[mu] unchanged up to the evident shift of the power of q.", "quantifier": "for all 1<=m<n and all classes l, mu, nu of Gr(m,n), all powers of q", "why_tests_cant": "the symmetry has order n and relates products of different q-degrees; a finite test covers a few spaces only", "anchors": ["schubertpy/abstract_grassmannian.py:AbstractGrassmannian.qmult", "schubertpy/grassmannian.py:Grassmannian.qpieriA_inner"]}
{"id": "C81", "title": "Symplectic and odd orthogonal structure constants differ by powers of two", "statement": "For 0<=m<=n the classes of IG(m,2n) and OG(m,2n+1) have the same labels. Let e(l) be the number of parts of l larger than n-m. The coefficient c of S[nu] in S[l]*S[mu] on IG(m,2n) and the coefficient b on OG(m,2n+1) satisfy c*2^e(nu) = b*2^(e(l)+e(mu)).", "quantifier": "for all 0<=m<=n, and all classes l, mu, nu", "why_tests_cant": "relates the pieri rules, special-class normalisations and giambelli of two different classes of the library on infinitely many spaces", "anchors": ["schubertpy/isotropic_grassmannian.py:IsotropicGrassmannian", "schubertpy/orthogonal_grassmannian.py:OrthogonalGrassmannian", "schubertpy/abstract_grassmannian.py:AbstractGrassmannian.mult"]}
{"id": "C82", "title": "type_swap is an automorphism of the rings of OG(m,2n+2)", "statement": "On OG(m,2n+2), type_swap maps classes to classes, is an involution, and the coefficient of q^d S[type_swap(nu)] in S[type_swap(l)]*S[type_swap(mu)] equals the coefficient of q^d S[nu] in S[l]*S[mu], for mult and qmult.", "quantifier": "for all n>=0, m<=n+1 (quantum: 0<m, m != n) and all classes l, mu, nu, all d", "why_tests_cant": "the two types are treated by asymmetric code (trailing zero, negative special numbers); a slip would break the symmetry in spaces or at classes no sample reaches", "anchors": ["schubertpy/abstract_grassmannian.py:AbstractGrassmannian.mult", "schubertpy/abstract_grassmannian.py:AbstractGrassmannian.qmult", "schubertpy/abstract_grassmannian.py:AbstractGrassmannian.type_swap"]}
{"id": "C83", "title": "is_valid recognises linear combinations", "statement": "What LinearCombination.is_valid accepts is a polynomial of total degree at most one in the symbols (q included); on expanded expressions it accepts exactly these. A linear combination of Schubert classes is accepted exactly if it contains no q, so every classical product of two classes is accepted on all spaces and a quantum product with a q-term is not.", "quantifier": "for all sympy expression trees (soundness), all expanded polynomials (exactness), all spaces of the four families and all pairs of classes", "why_tests_cant": "the recursion is over arbitrary nested expressions; tests see a handful of shapes", "anchors": ["schubertpy/lc.py:LinearCombination.is_valid", "schubertpy/abstract_grassmannian.py:AbstractGrassmannian.mult"]}
{"id": "C84", "title": "has_part_zero_padding and list_schur_oprands see every Schubert symbol", "statement": "has_part_zero_padding is true exactly if some Schubert symbol occurring anywhere in the expression ends with a zero; the nested list of list_schur_oprands contains all Schubert symbols of the expression from left to right; on an expanded expression these are the symbols of its terms. Hence combinations of classes of types A, B, C are never reported as padded, and on OG(m,2n+2) exactly those containing a class of type 2 are, although these are in normal form. len counts the terms of a sum.", "quantifier": "for all expression trees; all linear combinations of classes", "why_tests_cant": "arbitrary nesting depth", "anchors": ["schubertpy/lc.py:LinearCombination.has_part_zero_padding", "schubertpy/lc.py:LinearCombination.list_schur_oprands", "schubertpy/lc.py:LinearCombination.__len__", "schubertpy/schur.py:Schur.has_part_zero_padding"]}
{"id": "C85", "title": "Mixed arithmetic of Schur objects, linear combinations, numbers and expressions", "statement": "Whenever a+b, a*b, a-b or a**n with operands among numbers, sympy expressions, Schur objects and LinearCombinations returns, the result stands for the sum, product, difference or power of the polynomials. + and * return exactly unless a LinearCombination stands before a Schur, a Schur before the LinearCombination 0, or an operand is foreign; - raises whenever a Schur is involved. If both orders return they agree.", "quantifier": "for all operands", "why_tests_cant": "the dispatch between direct and reflected methods has 25 operand combinations and value-dependent branches (a zero combination is falsy)", "anchors": ["schubertpy/schur.py:Schur.__add__", "schubertpy/schur.py:Schur.__mul__", "schubertpy/schur.py:Schur.__pow__", "schubertpy/lc.py:LinearCombination.__add__", "schubertpy/lc.py:LinearCombination.__rsub__"]}
{"id": "C86", "title": "Printed and LaTeX diagrams show the partition", "statement": "The box lines of latex() and latex_standalone() are exactly the boxes of the diagram, each once, box (i,x) at (5x mm, -5i mm); their number is the size of the partition and they determine its rows. print_partition, Partition.draw and yd print different texts for different lists of non-negative numbers. A row of r boxes is printed by yd and Partition.draw as r times [], by print_partition as r times [ ], one line per row.", "quantifier": "for all lists of non-negative integers", "why_tests_cant": "all shapes; a swapped coordinate or an off-by-one row is invisible on symmetric samples", "anchors": ["schubertpy/schur.py:Schur.latex", "schubertpy/schur.py:Schur._generate_tikzpicture", "schubertpy/schur.py:Schur.print_partition", "schubertpy/partition.py:Partition.draw", "schubertpy/utils/mix.py:yd"]}
{"id": "C87", "title": "The two families of maximal orthogonal Grassmannians give the same rings", "statement": "OG(n,2n+1) (formulas of type B) and OG(n+1,2n+2) (formulas of type D) have the same classes, the strict partitions with parts at most n, and mult and qmult return the same linear combinations on both.", "quantifier": "for all n (n > 0 for qmult), all pairs of linear combinations of classes", "why_tests_cant": "two separate implementations (countcompB/pieriB/qpieriB and the typed countcomps/pieriD/qpieriD) must agree on every input", "anchors": ["schubertpy/abstract_grassmannian.py:AbstractGrassmannian.mult", "schubertpy/abstract_grassmannian.py:AbstractGrassmannian.qmult", "schubertpy/orthogonal_grassmannian.py:OrthogonalGrassmannian.pieriB_inner", "schubertpy/orthogonal_grassmannian.py:OrthogonalGrassmannian.pieriD_inner", "schubertpy/orthogonal_grassmannian.py:OrthogonalGrassmannian.qpieriB_inner", "schubertpy/orthogonal_grassmannian.py:OrthogonalGrassmannian.qpieriD_inner"]}
{"id": "C88", "title": "Transposing diagrams identifies the rings of Gr(m,n) and Gr(n-m,n)", "statement": "For 1 <= m < n the products (mult and qmult) of two classes on Gr(m,n) and of the conjugate partitions on Gr(n-m,n) have the same coefficients at conjugate classes, in every power of q.", "quantifier": "for all 1 <= m < n, all pairs of classes, all classes of the result and all powers of q", "why_tests_cant": "the algorithm (Giambelli expansion in rows) is not symmetric under transposition; the symmetry relates runs on different spaces", "anchors": ["schubertpy/abstract_grassmannian.py:AbstractGrassmannian.mult", "schubertpy/abstract_grassmannian.py:AbstractGrassmannian.qmult", "schubertpy/grassmannian.py:Grassmannian.qpieriA_inner", "schubertpy/qcalc.py:part_conj"]}
{"id": "C89", "title": "Quantum and classical Pieri rule for columns", "statement": "On Gr(m,n), 1 <= m < n, the product of S[1,...,1] (p <= m ones) with a class S[l] has coefficient 1 at the classes obtained by adding a vertical strip of p boxes and, in qmult, coefficient 1 at q*S[nu] when the first row of l is full and nu arises from the other rows by removing at most one box per row with |nu| = |l| + p - n; all other coefficients are 0.", "quantifier": "for all 1 <= m < n, all p <= m, all classes l, nu and all powers of q", "why_tests_cant": "the code has no rule for columns; it expands S[1,...,1] by determinantal recursion with cancelling signs", "anchors": ["schubertpy/abstract_grassmannian.py:AbstractGrassmannian.mult", "schubertpy/abstract_grassmannian.py:AbstractGrassmannian.qmult", "schubertpy/abstract_grassmannian.py:AbstractGrassmannian.giambelli_rec_inner"]}
{"id": "C90", "title": "The module-level interface of qcalc without a space", "statement": "The module-level functions of qcalc.py (with no Grassmannian chosen): pieri, qpieri and part2pair raise TypeError when a Schubert symbol occurs and return expressions without Schubert symbols unchanged; act and qact, for a second argument with Schubert symbols, return the product when the first is a polynomial in q and raise otherwise, and for a second argument without Schubert symbols treat one-row symbols as 1 and raise on other symbols; giambelli, qgiambelli, mult, toS, qtoS, part2index, index2part, schub_type always raise (NameError for the first five, ValueError for the last three).", "quantifier": "for all linear combinations and polynomials", "why_tests_cant": "an existing call of these functions on symbols only shows one exception; the property says for which inputs a value is returned and which value", "anchors": ["schubertpy/qcalc.py:spec2num", "schubertpy/qcalc.py:act_lc", "schubertpy/qcalc.py:pieri", "schubertpy/qcalc.py:qpieri", "schubertpy/qcalc.py:act", "schubertpy/qcalc.py:giambelli", "schubertpy/qcalc.py:part2pair", "schubertpy/qcalc.py:part2index", "schubertpy/qcalc.py:schub_type"]}
{"id": "C91", "title": "Products of a row and a column, relations of the quantum ring of Gr(m,n)", "statement": "In Gr(m,n), 1<=i<=m, 1<=j<=n-m: qmult(S[1^i],S[j]) is the sum of the hooks S[j,1^i] (if i<m) and S[j+1,1^(i-1)] (if j<n-m), plus q if i=m and j=n-m. For r>=1 the alternating sum over i of (-1)^i qmult(S[1^i],S[r-i]) is 0, except that it is (-1)^m q for r=n.", "quantifier": "for all m, n, i, j, r", "why_tests_cant": "the relation involves all products of a given degree at once and the coefficient of q appears only in the single degree n", "anchors": ["schubertpy/abstract_grassmannian.py:AbstractGrassmannian.qmult", "schubertpy/grassmannian.py:Grassmannian.qpieriA_inner", "schubertpy/grassmannian.py:Grassmannian.pieriA_inner"]}
{"id": "C92", "title": "The relations between special classes in the rings of IG(m,2n) and OG(m,2n+1)", "statement": "k=n-m, K=n+k, k<r<=K, sums over i>=1 with r+i<=K and i<=r. IG(m,2n): S[r]^2 + 2*sum (-1)^i S[r+i]*S[r-i] is 0 for mult and, for qmult, (-1)^(K-r) q S[2r-K-1] if 2r>K and 0 otherwise. OG(m,2n+1): S[r]^2 + sum (-1)^i c(r-i) S[r+i]*S[r-i] with c(p)=1 for p<=k and 2 for p>k is 0 for mult and, for qmult, 0 for r<K and q^2 (q if k=0) for r=K.", "quantifier": "for all m, n, r", "why_tests_cant": "the cancellations take place between products of different classes; a wrong factor two or a lost quantum term in a single Pieri product would break them for larger n only", "anchors": ["schubertpy/abstract_grassmannian.py:AbstractGrassmannian.mult", "schubertpy/abstract_grassmannian.py:AbstractGrassmannian.qmult", "schubertpy/isotropic_grassmannian.py:IsotropicGrassmannian.pieriC_inner", "schubertpy/isotropic_grassmannian.py:IsotropicGrassmannian.qpieriC_inner", "schubertpy/orthogonal_grassmannian.py:OrthogonalGrassmannian.pieriB_inner", "schubertpy/orthogonal_grassmannian.py:OrthogonalGrassmannian.qpieriB_inner"]}
{"id": "C93", "title": "The functions that step to the next partition", "statement": "In the lexicographic order: part_itr returns the next smaller partition with the same number of (possibly zero) parts, _itr_kstrict the next smaller k-strict partition, part_itr_between the next smaller decreasing list between two decreasing lists, _pieri_itrA the next smaller list with the same sum between two interlacing lists, _pieri_itr the next smaller strictly decreasing list with the same sum between a strictly decreasing list and a list above it. Each returns None (or []) exactly at the smallest one. part_gen(lam) lists all partitions with as many parts as lam that are at most lam in this order, each once and in descending order.", "quantifier": "for all partitions, bounds and sums", "why_tests_cant": "a step that skips an element only loses a term in products where that element occurs; the sets grow exponentially", "anchors": ["schubertpy/qcalc.py:part_gen", "schubertpy/qcalc.py:part_itr", "schubertpy/qcalc.py:part_itr_between", "schubertpy/qcalc.py:_pieri_itrA", "schubertpy/qcalc.py:_pieri_itr", "schubertpy/utils/kstrict.py:_itr_kstrict"]}
{"id": "C94", "title": "The text of a linear combination is read back as the same polynomial", "statement": "Reading a text made of numbers, q, q1, q2, S[...], +, -, *, /, ^ and parentheses gives the polynomial that Python's grammar assigns to it (left-associative sums and products, powers before signs), and the grammar assigns at most one. The text str(lc) of a polynomial with rational coefficients, in whatever order its terms and factors are printed, is read by LinearCombination(...) as the same polynomial; so the last line of apply, LinearCombination(str(new_expr)), does not change the result.", "quantifier": "for all token lists, all polynomials and all orders of terms and factors", "why_tests_cant": "the translation tables, the two replacements of ^ and **, signs, fractions and powers interact; tests see a handful of small integer combinations, never fractions or powers", "anchors": ["schubertpy/lc.py:LinearCombination.__init__", "schubertpy/lc.py:LinearCombination.__str__", "schubertpy/lc.py:LinearCombination.apply", "schubertpy/lc.py:LinearCombination.apply2"]}
{"id": "C95", "title": "The constructor of LinearCombination", "statement": "LinearCombination(l) for a list of ints is the Schubert symbol S[l] if l is a partition and raises ValueError otherwise. LinearCombination(Schur(l)) and LinearCombination(str(Schur(l))) are S[l] for every list of non-negative ints. LinearCombination(str(lc)) has the value of lc. Numbers, expressions and LinearCombinations are taken over unchanged; any other type raises ValueError.", "quantifier": "for all lists of ints and all polynomials", "why_tests_cant": "the accepted lists are infinitely many and the error branch depends on every entry", "anchors": ["schubertpy/lc.py:LinearCombination.__init__", "schubertpy/partition.py:is_valid_part"]}
{"id": "C96", "title": "is_operator and len describe the shape of an expanded expression", "statement": "For an expanded polynomial: is_operator('+') holds iff it has at least two terms; is_operator('*') iff it is a single term with at least two factors (a coefficient other than 1 counts as one factor, a power of a symbol as one); is_operator('^') iff it is a power of a single symbol with exponent at least two. Any other operator raises ValueError. len is the number of terms of a sum and the number of factors of a single term, at least one.", "quantifier": "for all polynomials", "why_tests_cant": "the answers depend on how sympy stores degenerate sums and products (one term, coefficient 1, exponent 1)", "anchors": ["schubertpy/lc.py:LinearCombination.is_operator", "schubertpy/lc.py:LinearCombination.__len__"]}
{"id": "C97", "title": "to_polinomial_str removes trailing zeros from its object", "statement": "Schur(p).to_polinomial_str(n) with n >= 1 changes the partition stored in the object: its trailing zeros are removed, whether the call returns or raises; with n < 1 it raises ValueError and changes nothing. The object is unchanged iff p has no trailing zero; further calls give the same polynomials and change nothing more. In particular the class S[1,0] of OG(2,6) becomes S[1].", "quantifier": "for all lists p and all n", "why_tests_cant": "the side effect is invisible in the returned value; it shows only if the object is used again, and only for partitions with trailing zeros", "anchors": ["schubertpy/utils/mix.py:__drop_trailing_zeros__", "schubertpy/schur.py:Schur.to_polinomial_str"]}
{"id": "C98", "title": "The text of a space shows its constructor and determines it", "statement": "str of a space contains the constructor call Gr(m,n), IG(m,n) or OG(m,n) with the arguments it was created with, and two spaces with the same text have the same type, k and n.", "quantifier": "for all arguments of the constructors", "why_tests_cant": "the arguments are recomputed from k and n by four formulas", "anchors": ["schubertpy/grassmannian.py:Grassmannian.__str__", "schubertpy/isotropic_grassmannian.py:IsotropicGrassmannian.__str__", "schubertpy/orthogonal_grassmannian.py:OrthogonalGrassmannian.__str__"]}
{"id": "C99", "title": "The relations between special classes in the rings of OG(m,2n+2)", "statement": "k=n+1-m, K=2n+1-m. For k<r<=K the sum S[r]^2 + sum over i>=1 with r+i<=K, i<=r of (-1)^i S[r+i]*c(r-i), where c(p)=S[p] for p<k, c(k)=S[k]+S[k,0] (S[] if k=0) and c(p)=2S[p] for p>k, is 0 for mult and, for qmult with m!=n, 0 for r<K and q^2 (q if k=0) for r=K. For k>=1 also S[k]*S[k,0] + sum over i=1..k of (-1)^i S[k+i]*S[k-i] is 0 for mult and, if m<n, for qmult.", "quantifier": "for all m, n, r", "why_tests_cant": "the relations involve both classes of degree k and all factors of the Pieri rule; a wrong sign or a class of the wrong type cancels in small cases", "anchors": ["schubertpy/abstract_grassmannian.py:AbstractGrassmannian.mult", "schubertpy/abstract_grassmannian.py:AbstractGrassmannian.qmult", "schubertpy/orthogonal_grassmannian.py:OrthogonalGrassmannian.pieriD_inner", "schubertpy/orthogonal_grassmannian.py:OrthogonalGrassmannian.qpieriD_inner"]}
{"id": "C100", "title": "The quantum ring of OG(n,2n+2) with its two parameters", "statement": "On OG(n,2n+2), n>=1, the operators qpieri(p,.) for p>=-1 map linear combinations of classes with coefficients in q, q1, q2 to such combinations and commute with one another. qact is a ring action of the polynomials in q and the special classes S[1..n+1], S[1,0] on these combinations, linear in q, q1, q2, in which S[p] acts by qpieri(p,.) and S[1,0] by qpieri(-1,.).", "quantifier": "for all n>=1, all p, a, b >= -1, all polynomials in special classes and all linear combinations", "why_tests_cant": "the terms with q1 and q2 come from separate branches (the complement of the first row, the type of the class); commutativity couples all three branches and both types", "anchors": ["schubertpy/abstract_grassmannian.py:AbstractGrassmannian.qpieri", "schubertpy/abstract_grassmannian.py:AbstractGrassmannian.qact", "schubertpy/abstract_grassmannian.py:AbstractGrassmannian.act_lc", "schubertpy/orthogonal_grassmannian.py:OrthogonalGrassmannian.qpieriD_inner"]}
{"id": "C101", "title": "giambelli on Gr(m,n) is the determinant of Jacobi and Trudi", "statement": "On Gr(m,n), giambelli(S[l]) and qgiambelli(S[l]) are both the determinant det(h(l_i - i + j)) of size len(l), where h(0)=1, h(p)=S[p] for 1<=p<=n-m, and h(p)=0 otherwise; on linear combinations every class is replaced by its determinant.", "quantifier": "for all m>=1, n>=m, all classes l and all linear combinations", "why_tests_cant": "the code never forms a determinant: it solves for S[l] by a recursion through the Pieri rule whose depth and branching depend on l; a sign or a dropped term would show only for some shapes", "anchors": ["schubertpy/abstract_grassmannian.py:AbstractGrassmannian.giambelli", "schubertpy/abstract_grassmannian.py:AbstractGrassmannian.giambelli_rec", "schubertpy/abstract_grassmannian.py:AbstractGrassmannian.giambelli_rec_inner", "schubertpy/abstract_grassmannian.py:AbstractGrassmannian.qgiambelli"]}
{"id": "C102", "title": "Presentation of the classical and quantum ring of Gr(m,n)", "statement": "For polynomials e, f in q and the special classes of Gr(m,n): act(e,S[]) = act(f,S[]) if and only if e - f lies in the ideal generated by the determinants of j ones det(h(1-i+j)), m < j <= n. For qact the same holds with the last relation (j=n) replaced by det + (-1)^(n-m) q. If so, e and f act in the same way on every linear combination.", "quantifier": "for all m>=1, n>=m, all polynomials e, f in q and the special classes, all linear combinations", "why_tests_cant": "an if-and-only-if over all polynomials: a test can show that a relation holds, never that there are no others", "anchors": ["schubertpy/abstract_grassmannian.py:AbstractGrassmannian.act", "schubertpy/abstract_grassmannian.py:AbstractGrassmannian.qact", "schubertpy/abstract_grassmannian.py:AbstractGrassmannian.act_lc", "schubertpy/grassmannian.py:Grassmannian.qpieriA_inner"]}
{"id": "C103", "title": "Products on projective spaces and odd quadrics in closed form", "statement": "On Gr(1,N) and on IG(1,2n) with N=2n: qmult(S[i],S[j]) is S[i+j] if i+j<N and q*S[i+j-N] otherwise; mult gives S[i+j] or 0. On the quadric OG(1,2n+1) of dimension K=2n-1, with e(p)=1 for p<n and 2 otherwise: mult(S[i],S[j]) = e(i+j)/(e(i)e(j)) S[i+j] or 0; for n>=2, qmult is the same for i+j<K, S[K]+q for i+j=K, 4e(w)/(e(i)e(j)) q S[w] with w=i+j-K for i,j<K<i+j, and S[i]*S[K]=q*S[i], S[K]^2=q^2.", "quantifier": "for all n, all i, j (i,j>=1 for the quantum quadric), all sufficient recursion depths", "why_tests_cant": "the formula covers every n and every pair of degrees; the terms with q appear only past the dimension, which differs from space to space", "anchors": ["schubertpy/abstract_grassmannian.py:AbstractGrassmannian.mult", "schubertpy/abstract_grassmannian.py:AbstractGrassmannian.qmult", "schubertpy/grassmannian.py:Grassmannian.qpieriA_inner"]}
{"id": "C104", "title": "Presentations of the rings of IG(n,2n), OG(n,2n+1) and OG(n+1,2n+2)", "statement": "Two polynomials e, f in S[1],...,S[n] (and q) act alike on S[] - equivalently on every linear combination of classes - exactly when e - f lies in the ideal generated by the relations of degree 2r, 1<=r<=n. For act on IG(n,2n): S[r]^2+2*sum_{i=1..r}(-1)^i S[r+i]*S[r-i]; for qact the same minus (-1)^(n-r)*q*S[2r-n-1]. For act on OG(n,2n+1) and OG(n+1,2n+2): S[r]^2+2*sum_{i=1..r-1}(-1)^i S[r+i]*S[r-i]+(-1)^r*S[2r]; for qact the same, minus q for r=n.", "quantifier": "for all n>=1, all polynomials e, f in the special classes with rational coefficients, all linear combinations", "why_tests_cant": "an ideal membership over infinitely many polynomials in both directions, for every n", "anchors": ["schubertpy/abstract_grassmannian.py:AbstractGrassmannian.act", "schubertpy/abstract_grassmannian.py:AbstractGrassmannian.qact", "schubertpy/isotropic_grassmannian.py:IsotropicGrassmannian.qpieriC_inner"]}
{"id": "C105", "title": "Powers of the class of a hyperplane count standard tableaux", "statement": "On Gr(m,n), the coefficient of S[lam] in act(S[1]^r, S[mu]) is the number of standard tableaux of shape lam/mu (Aitken's determinant r!*det(1/(lam_i-mu_j-i+j)!)) when |lam|=|mu|+r and 0 otherwise; for mu=[] it is r!*prod_{i<j}(l_i-l_j)/prod l_i! with l_i=lam_i+m-1-i, and the top power is (mk)!*prod_{i<m} i!/(k+i)! times the class of a point (k=n-m). On OG(n,2n+1) and OG(n+1,2n+2), the coefficient of S[lam] in act(S[1]^r, S[]) is r!*prod 1/lam_i!*prod_{i<j}(lam_i-lam_j)/(lam_i+lam_j) when |lam|=r and 0 otherwise; on IG(n,2n) it is 2^(r-length(lam)) times that. The top powers (r=n(n+1)/2) are r!*prod_{i<n} i!/(2i+1)!, on IG(n,2n) times 2^(n(n-1)/2), times the class of a point.", "quantifier": "for all m<n, all partitions mu, lam and all r>=0 on Gr(m,n); for all n>=1, all strict partitions and all r>=0 on the maximal isotropic ones", "why_tests_cant": "the numbers of tableaux grow factorially and the statement is for every space and every power", "anchors": ["schubertpy/abstract_grassmannian.py:AbstractGrassmannian.act", "schubertpy/grassmannian.py:Grassmannian.pieriA_inner", "schubertpy/isotropic_grassmannian.py:IsotropicGrassmannian.pieriC_inner", "schubertpy/orthogonal_grassmannian.py:OrthogonalGrassmannian.pieriB_inner"]}
{"id": "C106", "title": "Products on Gr(2,n) in closed form", "statement": "On Gr(2,n) with k=n-2, for k>=a>=b>=0 and k>=c>=d>=0: mult(S[a,b],S[c,d]) is the sum over 0<=t<=min(a-b,c-d) with a+c-t<=k of S[a+c-t,b+d+t], each with coefficient 1. qmult(S[a,b],S[c,d]) is the sum over max(0,(a-b)+(c-d)-k)<=t<=min(a-b,c-d), with x=a+c-t and y=b+d+t, of S[x,y] if x<=k, of q*S[y-1,x+1-n] if x>k and y<n, and of q^2*S[x-n,y-n] if y>=n, each with coefficient 1 and no two equal.", "quantifier": "for all n, and all pairs of partitions in the 2 by n-2 rectangle", "why_tests_cant": "a test compares single products; the closed form covers every pair of classes on every Gr(2,n)", "anchors": ["schubertpy/abstract_grassmannian.py:AbstractGrassmannian.mult", "schubertpy/abstract_grassmannian.py:AbstractGrassmannian.qmult", "schubertpy/grassmannian.py:Grassmannian.pieriA_inner", "schubertpy/grassmannian.py:Grassmannian.qpieriA_inner"]}
{"id": "C107", "title": "Classes that permute all classes under the quantum product (types B, C, D)", "statement": "(B) On OG(m,2n+1), 0<m<=n, qmult(S[2n-m],S[l]) is a single term: if l begins with 2n-m it is q^2*S[l without that part] (q instead of q^2 if m=n); otherwise, if l has fewer than m parts, it is S[2n-m,l]; otherwise it is q*S[l]. (D) On OG(m,2n+2), 0<m<=n+1, m!=n, n>0, qmult(S[2n+1-m],S[l]) is given by the same rule with 2n+1-m, and in the last case the result is q times the class of the other type. (C) On IG(m,2n), qmult(S[n,n-1,...,n-m+1],S[l]) is q^d*S[mu], where d is the number of parts of l larger than n-m and part2index(mu) is part2index(l) rotated by n: entries above n come first, reduced by n, then the others, increased by n.", "quantifier": "for all m, n in the stated ranges and all classes l", "why_tests_cant": "a test multiplies single pairs of classes; the rule covers the product with every class on every space", "anchors": ["schubertpy/abstract_grassmannian.py:AbstractGrassmannian.qmult", "schubertpy/orthogonal_grassmannian.py:OrthogonalGrassmannian.qpieriB_inner", "schubertpy/orthogonal_grassmannian.py:OrthogonalGrassmannian.qpieriD_inner", "schubertpy/isotropic_grassmannian.py:IsotropicGrassmannian.qpieriC_inner", "schubertpy/isotropic_grassmannian.py:IsotropicGrassmannian.part2index", "schubertpy/orthogonal_grassmannian.py:OrthogonalGrassmannian.type_swap"]}
{"id": "C108", "title": "Products of special classes on Gr(m,n) count semistandard tableaux", "statement": "On Gr(m,n), 0<m<n, let a_1,...,a_r be numbers between 1 and n-m. act(S[a_1]*...*S[a_r], S[]) returns a linear combination of classes in which the coefficient of S[lam] is the number of semistandard tableaux of shape lam that contain the number i exactly a_i times (the Kostka number), for every class lam, and no term contains q. In particular it is a natural number, and 0 unless lam has size a_1+...+a_r.", "quantifier": "for all 0<m<n, all lists a of numbers in 1..n-m and all classes lam", "why_tests_cant": "a test compares single products with a table; the statement gives every coefficient of every product of special classes", "anchors": ["schubertpy/abstract_grassmannian.py:AbstractGrassmannian.act", "schubertpy/grassmannian.py:Grassmannian.pieriA_inner"]}
{"id": "C109", "title": "Products on the even quadrics OG(1,2n+2)", "statement": "On the quadric OG(1,2n+2) the classes are S[c], 0<=c<=2n, and a second class S[n,0] of degree n. For n>=2 qmult of any two classes returns exactly the terms of the following table: the unit acts as unit; two powers of the hyperplane of degree below n give S[c+u], with S[n]+S[n,0] in degree n and 2*S[c+u] above n; the two classes of degree n square to S[2n] and have product q when n is even, and the other way round when n is odd; classes of complementary degrees (c+u=2n, c different from n) give S[2n]+q; larger sums give q times the class of degree c+u-2n with coefficient 1 or 2 (and both classes if that degree is n and the factors are above n); S[2n] exchanges S[n] and S[n,0], multiplies every class by q, and its square is q^2. mult returns the terms of the table without q, for n>=1.", "quantifier": "for all n>=2 (quantum), n>=1 (classical) and all pairs of classes", "why_tests_cant": "a test checks single quadrics; the two classes in the middle degree behave differently with the parity of n", "anchors": ["schubertpy/abstract_grassmannian.py:AbstractGrassmannian.qmult", "schubertpy/abstract_grassmannian.py:AbstractGrassmannian.mult", "schubertpy/orthogonal_grassmannian.py:OrthogonalGrassmannian.qpieriD_inner", "schubertpy/orthogonal_grassmannian.py:OrthogonalGrassmannian.pieriD_inner"]}
{"id": "C110", "title": "Products of two special classes on IG(m,2n) and OG(m,2n+1)", "statement": "Let k=n-m and 1<=b<=a<=2n-m. On IG(m,2n) mult(S[a],S[b]), in either order, returns the sum over i>=0 of the classes S[a+i,b-i] of the space, with coefficient 1 for i=0 or a+b<=2k+1 and coefficient 2 otherwise; qmult returns the same terms and, if a+b>2n-m, one more, q*S[a+b-(2n-m+1)]. On OG(m,2n+1) mult returns the same classes, with coefficient 1 for i=0 and, for i>0, coefficient 2 exactly if k<b-i, or b<=k and a+b>2k+1, or a<=k<a+i; for m>=2 qmult returns the same terms as mult, except S[2n-m]*S[2n-m]=q^2 (q if m=n).", "quantifier": "for all m>=1 (m>=2 for the quantum product on OG), all n>=m and all a,b with 1<=b<=a<=2n-m", "why_tests_cant": "the coefficient depends on the position of a, b, a+i, b-i and a+b relative to k; a test tries single numbers", "anchors": ["schubertpy/abstract_grassmannian.py:AbstractGrassmannian.mult", "schubertpy/abstract_grassmannian.py:AbstractGrassmannian.qmult", "schubertpy/isotropic_grassmannian.py:IsotropicGrassmannian.qpieriC_inner", "schubertpy/orthogonal_grassmannian.py:OrthogonalGrassmannian.qpieriB_inner", "schubertpy/qcalc.py:count_comps"]}
{"id": "C111", "title": "Giambelli polynomials of two rows on IG(m,2n) and OG(m,2n+1)", "statement": "Let k=n-m, m>=2 and S[a,b] a class with two rows. On IG(m,2n) giambelli(S[a,b]) is S[a]*S[b]-S[a+1]*S[b-1] if a+b<=2k+1 and S[a]*S[b]+2*sum_{i=1..b}(-1)^i S[a+i]*S[b-i] otherwise, where S[0]=1 and S[p]=0 for p>2n-m; qgiambelli(S[a,b]) is the same polynomial with S[2n-m+1]=q/2. On OG(m,2n+1) both giambelli and qgiambelli return the polynomial g with e(a)e(b)g = the same formula in the classes e(p)S[p], where e(p)=1 for p<=k and 2 for p>k.", "quantifier": "for all m>=2, n>=m and all classes S[a,b] with b>=1", "why_tests_cant": "the code finds the polynomial by recursion over Pieri products, in which most terms cancel; the factor q/2 never occurs in an intermediate result", "anchors": ["schubertpy/abstract_grassmannian.py:AbstractGrassmannian.giambelli", "schubertpy/abstract_grassmannian.py:AbstractGrassmannian.qgiambelli", "schubertpy/abstract_grassmannian.py:AbstractGrassmannian.giambelli_rec_inner"]}
{"id": "C112", "title": "Quantum products on OG(n,2n+2) with its two parameters", "statement": "On OG(n,2n+2), n>=1: qgiambelli returns the same polynomial as giambelli. If neither q1 nor q2 occurs in x, qmult(x,y) returns a linear combination of classes with coefficients in q, q1, q2, also when q1, q2 occur in y; if q1 or q2 occurs in x, qmult(x,y) raises ValueError. The product is commutative, x*(y*z)=y*(x*z), z*(x*y)=x*(y*z), and (x*y)*z=x*(y*z) when x*y has no q1, q2; S[] is the unit, S[p]*y=qpieri(p,y) and S[1,0]*y=qpieri(-1,y). The terms of x*y without q1, q2 are mult(x,y).", "quantifier": "for all n>=1 and all linear combinations of classes (with q; with q, q1, q2 for the right factor), every ascending order of the sorted sets", "why_tests_cant": "act_lc removes only q from the free symbols, so the two parameters are treated as special classes; that the Giambelli recursion never meets them and that the action is associative cannot be seen from samples", "anchors": ["schubertpy/abstract_grassmannian.py:AbstractGrassmannian.qmult", "schubertpy/abstract_grassmannian.py:AbstractGrassmannian.qgiambelli", "schubertpy/abstract_grassmannian.py:AbstractGrassmannian.act_lc", "schubertpy/orthogonal_grassmannian.py:OrthogonalGrassmannian.qpieriD_inner"]}
{"id": "C113", "title": "Quantum Poincare duality of OG(n,2n+2)", "statement": "On OG(n,2n+2), n>=1, with its two parameters: the point class occurs in qmult(S[l],S[mu]) exactly when mu = dualize(l), then with coefficient 1 and without parameters; no term q^a*q1^b*q2^c*S[point] with (a,b,c) != 0 occurs. The coefficient of q^a*q1^b*q2^c*S[dualize(nu)] in S[l]*S[mu] equals that of q^a*q1^b*q2^c*S[dualize(mu)] in S[l]*S[nu].", "quantifier": "for all n>=1, all classes l, mu, nu, all exponents, every ascending order of the sorted sets", "why_tests_cant": "the dual class has the other type here, and the parameter of a term is chosen by the types of both classes; a wrong choice for one family breaks the symmetry only in products with both types", "anchors": ["schubertpy/abstract_grassmannian.py:AbstractGrassmannian.qmult", "schubertpy/orthogonal_grassmannian.py:OrthogonalGrassmannian.dualize", "schubertpy/orthogonal_grassmannian.py:OrthogonalGrassmannian.qpieriD_inner"]}
{"id": "C114", "title": "type_swap with q1 and q2 exchanged is an automorphism of the quantum ring of OG(n,2n+2)", "statement": "On OG(n,2n+2), n>=1: the coefficient of q^a*q1^c*q2^b*S[type_swap(nu)] in qmult(S[type_swap(l)],S[type_swap(mu)]) is that of q^a*q1^b*q2^c*S[nu] in qmult(S[l],S[mu]); type_swap maps classes to classes and is an involution on them.", "quantifier": "for all n>=1, all classes l, mu, nu, all exponents, every ascending order of the sorted sets", "why_tests_cant": "the rule treats the two types and the two parameters in separate branches; an exchange in one branch only is visible only when products of both types are compared", "anchors": ["schubertpy/abstract_grassmannian.py:AbstractGrassmannian.qmult", "schubertpy/orthogonal_grassmannian.py:OrthogonalGrassmannian.type_swap", "schubertpy/orthogonal_grassmannian.py:OrthogonalGrassmannian.qpieriD_inner"]}
{"id": "C115", "title": "Degrees and integrality of the quantum products of OG(n,2n+2)", "statement": "On OG(n,2n+2), n>=1: every term of qmult(S[l],S[mu]) has the form z*q1^b*q2^c*S[nu] with an integer z, a class nu and |nu| + (b+c)*(n+1) = |l| + |mu|, where n+1 is the attribute deg_q of the space; q does not occur.", "quantifier": "for all n>=1, all classes l, mu, every ascending order of the sorted sets", "why_tests_cant": "the Pieri rule of type D halves intermediate coefficients, and the two parameters enter from different branches; that all products stay integral and homogeneous needs an argument over the Giambelli recursion", "anchors": ["schubertpy/abstract_grassmannian.py:AbstractGrassmannian.qmult", "schubertpy/orthogonal_grassmannian.py:OrthogonalGrassmannian.qpieriD_inner"]}
{"id": "C116", "title": "The class S[n+1] permutes the classes of OG(n,2n+2)", "statement": "On OG(n,2n+2), n>=1: qmult(S[n+1],S[l]) has exactly one term, with coefficient 1. If l begins with n+1 it is q1*q2*S[l without its first part]; otherwise, if l has fewer than n parts, it is S[n+1,l]; if l has n parts it is q1 or q2 (q2 if l is of the type marked by a zero) times the class with the same parts and the other type. In particular S[n+1]^2 = q1*q2.", "quantifier": "for all n>=1 and all classes l, every ascending order of the sorted sets", "why_tests_cant": "S[n+1]*S[l] passes through the branch of the rule in which q1 and q2 are chosen by the type; samples do not show that no other term ever remains", "anchors": ["schubertpy/abstract_grassmannian.py:AbstractGrassmannian.qmult", "schubertpy/orthogonal_grassmannian.py:OrthogonalGrassmannian.qpieriD_inner"]}
{"id": "C117", "title": "The staircases permute the classes of OG(m,2n+2)", "statement": "On OG(m,2n+2), n>=1, 1<=m<=n+1: for the class s=[n,n-1,...,n+1-m] of length m (length n if m=n+1), of either type when m<=n, the quantum product qmult(S[s],S[l]) has exactly one term, with coefficient 1. Its class is the one whose Schubert symbol arises from part2index(l) by the rotation by n+1, with the two middle coordinates n+1 and n+2 exchanged before the rotation if m plus the type of s is odd and after it if n+1+m plus the type of s is odd. With d the number of coordinates at most n+1 before the rotation, the parameters are q^d for m<n, q^(d/2) for m=n+1, and for m=n the product of d factors q1,q2,q1,... (q2,q1,q2,... for the second type).", "quantifier": "for all 1<=m<=n+1, n>=1, both types and all classes l; for m=n every ascending order of the sorted sets", "why_tests_cant": "the product passes through the Giambelli polynomial of m parts and all quantum terms; that all terms but one cancel, and which parameter remains, is a statement for every class and all sizes", "anchors": ["schubertpy/abstract_grassmannian.py:AbstractGrassmannian.qmult", "schubertpy/orthogonal_grassmannian.py:OrthogonalGrassmannian.qpieriD_inner", "schubertpy/qcalc.py:part2indexD_inner"]}
{"id": "C118", "title": "qmult on Gr(m,n) is multiplication of Schur polynomials at roots of q", "statement": "Let x_1,...,x_m be different elements of a domain over the rationals with x_j^n = (-1)^(m-1)*q for a value q. With q and SchurPol(m,l) at these values substituted for q and for every class S[l] of Gr(m,n), the value of qmult(a,b) is the product of the values of a and b, for all linear combinations a and b of classes.", "quantifier": "for all 1<=m<=n, all a and b, every domain over the rationals and all such x", "why_tests_cant": "it compares all quantum products of all Gr(m,n) with another function of the package at infinitely many values, and connects to no sample", "anchors": ["schubertpy/abstract_grassmannian.py:AbstractGrassmannian.qmult", "schubertpy/grassmannian.py:Grassmannian.qpieriA_inner", "schubertpy/utils/mix.py:SchurPol"]}
{"id": "C119", "title": "The formula of Vafa and Intriligator for the coefficients of qmult on Gr(m,n)", "statement": "Let zeta_1,...,zeta_n be the n different n-th roots of (-1)^(m-1) in a field over the rationals. If |l|+|mu| = |nu|+n*d, then n^m * m! times the coefficient of q^d*S[nu] in qmult(S[l],S[mu]) is the sum over all m-tuples I of indices of SchurPol(m,l) and SchurPol(m,mu) at zeta_I, times the alternant with exponents (m-1,...,0) at zeta_I, times the alternant with exponents nu_i+m-i at the inverses of zeta_I.", "quantifier": "for all 1<=m<=n, all classes l, mu, nu and all d", "why_tests_cant": "it gives every coefficient of every product of every Gr(m,n) by a closed formula that shares no step with the code", "anchors": ["schubertpy/abstract_grassmannian.py:AbstractGrassmannian.qmult", "schubertpy/grassmannian.py:Grassmannian.qpieriA_inner", "schubertpy/utils/mix.py:SchurPol"]}
{"id": "C120", "title": "No quantum product of classes of Gr(m,n) vanishes; the quantum dimension is multiplicative", "statement": "Put qdim(l) for the product of sin(pi*(l_i-l_j+j-i)/n)/sin(pi*(j-i)/n) over all pairs i<j of the m rows. For every class l of Gr(m,n) it is positive, and with 1 for q and qdim(l) for S[l] the value of qmult(a,b) is the product of the values of a and b for all linear combinations a and b of classes. Therefore the quantum product of any number of classes, computed by qmult from left to right, is not zero.", "quantifier": "for all 1<=m<=n, all a and b, and all finite lists of classes", "why_tests_cant": "a check of all products at once against a formula with sines; that no product vanishes is a statement about lists of any length", "anchors": ["schubertpy/abstract_grassmannian.py:AbstractGrassmannian.qmult", "schubertpy/grassmannian.py:Grassmannian.qpieriA_inner"]}
{"id": "C121", "title": "No quantum product of classes vanishes, types B, C and D", "statement": "For IG(m,2n), OG(m,2n+1) and OG(m,2n+2) with one parameter q there is a function that gives 1 to q and a positive real number to every class such that the value of qmult(a,b) is the product of the values of a and b, for all linear combinations a and b of classes. Therefore the quantum product of any number of classes, computed by qmult from left to right, is not zero.", "quantifier": "for all spaces of the three kinds (m>0 for OG, m != n for OG(m,2n+2)), all a and b, and all finite lists of classes", "why_tests_cant": "a statement about lists of classes of any length; one lost or cancelled term in the quantum Pieri rule can make a product zero far away from it", "anchors": ["schubertpy/abstract_grassmannian.py:AbstractGrassmannian.qmult", "schubertpy/isotropic_grassmannian.py:IsotropicGrassmannian.qpieriC_inner", "schubertpy/orthogonal_grassmannian.py:OrthogonalGrassmannian.qpieriB_inner", "schubertpy/orthogonal_grassmannian.py:OrthogonalGrassmannian.qpieriD_inner"]}
{"id": "C122", "title": "Repeated Pieri products have positive coefficients; repeated quantum Pieri products do not vanish", "statement": "Start from a linear combination of classes whose coefficients are positive integers and apply pieri(p, .), or qpieri(p, .), one after the other for any list of special classes p. The result is a linear combination of classes whose coefficients are positive integers. For qpieri with one parameter q the result is not zero when the start is not zero.", "quantifier": "for all Gr(m,n) with m>=1, IG(m,2n) (m>=1 for qpieri), OG(m,2n+1), OG(m,2n+2) and all lists of special classes (for OG(n,2n+2) with two parameters: positivity)", "why_tests_cant": "a statement about lists of any length; in types B, C and D the coefficients are built from differences and halves, and a sign or a factor 1/2 shows only for some classes", "anchors": ["schubertpy/abstract_grassmannian.py:AbstractGrassmannian.pieri", "schubertpy/abstract_grassmannian.py:AbstractGrassmannian.qpieri", "schubertpy/grassmannian.py:Grassmannian.qpieriA_inner", "schubertpy/isotropic_grassmannian.py:IsotropicGrassmannian.qpieriC_inner", "schubertpy/orthogonal_grassmannian.py:OrthogonalGrassmannian.qpieriB_inner", "schubertpy/orthogonal_grassmannian.py:OrthogonalGrassmannian.qpieriD_inner"]}
{"id": "C123", "title": "Structure constants in types B, C and D are symmetric under the classes that permute all classes", "statement": "Let S[s] be a class whose quantum product with every class is a power of q times one class: the row [2n-m] on OG(m,2n+1), the row [2n+1-m] and the staircases [n,...,n+1-m] and [n,...,n+1-m,0] on OG(m,2n+2) (for m=n+1 only [n,...,1]), the staircase [n,...,n-m+1] on IG(m,2n). If qmult(S[s],S[l]) = q^d*S[l'] and qmult(S[s],S[nu]) = q^e*S[nu'], then for every class S[mu] the coefficient of q^b*S[nu'] in qmult(S[l'],S[mu]) equals the coefficient of q^a*S[nu] in qmult(S[l],S[mu]) whenever b+d = a+e; coefficients of q^a*S[nu] with a+e<d and of q^b*S[nu'] with b+d<e are zero.", "quantifier": "for all IG(m,2n), OG(m,2n+1) with m>=1, OG(m,2n+2) with m>=1, m != n, all classes l, mu, nu, all powers of q and all fuel above the bound", "why_tests_cant": "a relation between the results of two different products; it holds for every triple of classes and needs the code's degree-d corrections to agree across the whole orbit", "anchors": ["schubertpy/abstract_grassmannian.py:AbstractGrassmannian.qmult", "schubertpy/abstract_grassmannian.py:AbstractGrassmannian.qpieri", "schubertpy/isotropic_grassmannian.py:IsotropicGrassmannian.qpieriC_inner", "schubertpy/orthogonal_grassmannian.py:OrthogonalGrassmannian.qpieriB_inner", "schubertpy/orthogonal_grassmannian.py:OrthogonalGrassmannian.qpieriD_inner"]}
{"id": "C124", "title": "Structure constants of OG(n,2n+2) with q1 and q2 are symmetric under the classes that permute all classes", "statement": "On OG(n,2n+2), where the quantum parameters are q1 and q2, let S[s] be S[n+1] or one of the two staircases [n,...,1] and [n,...,1,0] (both typed forms of stairD). If qmult(S[s],S[l]) = q1^d1*q2^d2*S[l'] and qmult(S[s],S[nu]) = q1^e1*q2^e2*S[nu'], then for every class S[mu] the coefficient of q1^b1*q2^b2*S[nu'] in qmult(S[l'],S[mu]) equals the coefficient of q1^a1*q2^a2*S[nu] in qmult(S[l],S[mu]) whenever b1+d1 = a1+e1 and b2+d2 = a2+e2; the coefficients without a partner are zero.", "quantifier": "for all n>=1, all classes l, mu, nu, all exponents and all fuel above the bound", "why_tests_cant": "relates the results of two different products for every triple of classes, and exchanges the roles of q1 and q2 in a way that depends on the types of the classes", "anchors": ["schubertpy/abstract_grassmannian.py:AbstractGrassmannian.qmult", "schubertpy/abstract_grassmannian.py:AbstractGrassmannian.qpieri", "schubertpy/orthogonal_grassmannian.py:OrthogonalGrassmannian.qpieriD_inner"]}
{"id": "C125", "title": "No quantum product on OG(n,2n+2) with q1 and q2 vanishes", "statement": "On OG(n,2n+2) there is an assignment of positive real numbers to the classes, with q = q1 = q2 = 1, for which the value of qmult(a,b) is the product of the values of a and b (a a linear combination with coefficients in q, b one with coefficients in q, q1, q2). Hence the product of any number of classes is never 0, and applying qpieri again and again, with special classes p = 1..n+1 or p = -1 (the second class of degree k = 1), to a non-zero combination with positive coefficients gives a non-zero combination with positive coefficients.", "quantifier": "for all n>=1, all lists of classes, all lists of special classes, all positive starting combinations and all fuel above the bound", "why_tests_cant": "tests multiply a few classes; that the corrections q1 and q2 never cancel and never run out is a statement about products of any length", "anchors": ["schubertpy/abstract_grassmannian.py:AbstractGrassmannian.qmult", "schubertpy/abstract_grassmannian.py:AbstractGrassmannian.qpieri", "schubertpy/orthogonal_grassmannian.py:OrthogonalGrassmannian.qpieriD_inner"]}
{"id": "C126", "title": "Helpers of the table test and of the coverage badges", "statement": "load_csv_data keeps all rows for max_rows None or 0, else the first max_rows rows (none for a negative limit). split_into_batches(data,b) for b>0 gives non-empty batches of at most b rows, all but the last full, whose concatenation is data; b=0 raises ValueError and b<0 gives no batches. A first column name(i,j,..) is read as this name and these numbers, and dispatch creates the space of the call Gr/IG/OG(m,n), nothing for other names, TypeError for another number of parameters. test_1_threaded succeeds exactly when the first max_threads*batch_size = 7000 rows name a space and pass the comparison (test_2_threaded: the first 7000 rows of Gr), so a wrong row after 7000 good rows is not noticed. The badge 'PR Coverage' shows the coverage truncated to an integer, with the colour for this integer; the colour of 'Coverage evolution' tells which number is larger if the two integers shown differ, and any colour can go with two equal integers.", "quantifier": "for all tables, batch sizes, numbers of threads, names, parameters, comparison functions and coverages", "why_tests_cant": "the helpers of a test are not tested themselves; the limit of 7 batches shows only on tables with more than 7000 rows", "anchors": ["schubertpy/testcases/brute_force/test_zclass_csv_threaded.py:split_into_batches", "schubertpy/testcases/brute_force/test_zclass_csv_threaded.py:dispatch", "schubertpy/testcases/brute_force/test_zclass_csv_threaded.py:process_batch", "schubertpy/testcases/brute_force/test_zclass_csv_threaded.py:TestWithCSVFileThreaded.test_1_threaded", "scripts/coverage_badges.py:badge_color", "scripts/coverage_badges.py:evolution_color"]}
{"id": "C127", "title": "Expansions of a class along a row on the maximal isotropic Grassmannians (Pfaffian formula)", "statement": "On IG(n,2n), OG(n,2n+1) and OG(n+1,2n+2), n>=1, mult and qmult satisfy: for a class S[l] with parts l_1>l_2>..>l_r the alternating sum S[l_1]*S[l without l_1] - S[l_2]*S[l without l_2] + ... is S[l] if r is odd and 0 if r is even; for a class S[b,l] with an even number of parts, S[b,l_1]*S[l without l_1] - S[b,l_2]*S[l without l_2] + ... is S[b,l]. In qmult all terms with q cancel: the Pfaffian formula has no quantum correction.", "quantifier": "for all n >= 1, all classes of any number of parts, all iteration orders of sets (qmult)", "why_tests_cant": "the code computes products by the recursive Giambelli formula of its own; the Pfaffian is an independent formula, and the cancellation of the terms with q involves products of classes of any length", "anchors": ["schubertpy/abstract_grassmannian.py:AbstractGrassmannian.mult", "schubertpy/abstract_grassmannian.py:AbstractGrassmannian.qmult", "schubertpy/isotropic_grassmannian.py:IsotropicGrassmannian.qpieriC_inner", "schubertpy/orthogonal_grassmannian.py:OrthogonalGrassmannian.qpieriB_inner", "schubertpy/orthogonal_grassmannian.py:OrthogonalGrassmannian.qpieriD_inner"]}
{"id": "C128", "title": "The products on the maximal isotropic Grassmannians are products of values of Q-tilde polynomials", "statement": "Let e_0=1, e_1, e_2, ... be elements of a commutative Q-algebra with e_r^2 - 2 e_{r+1}e_{r-1} + 2 e_{r+2}e_{r-2} - ... = 0 for r=1..n, 2 e_{n+1} = q and e_p = 0 for p > n+1. Put S[l] to the Pragacz-Ratajski polynomial Qtilde_l(e), the Pfaffian of the two-row expressions e_b e_a - 2 e_{b+1} e_{a-1} + ... . Then the value of qmult(a,b) on IG(n,2n) is the product of the values of a and b, for all linear combinations a, b. The same for mult, with e_{n+1} = 0, and on OG(n,2n+1) and OG(n+1,2n+2) with 2^length(l) S[l] = Qtilde_l(e), e_n^2 = 4q (0 for mult), e_p = 0 for p > n and the relations for r < n.", "quantifier": "for all n >= 1, all commutative Q-algebras and solutions e of the relations, all linear combinations of classes, all iteration orders of sets (qmult)", "why_tests_cant": "quantifies over all rings and points, and over all pairs of linear combinations; the formula for the value of a class is independent of the Pieri and Giambelli formulas of the code", "anchors": ["schubertpy/abstract_grassmannian.py:AbstractGrassmannian.mult", "schubertpy/abstract_grassmannian.py:AbstractGrassmannian.qmult", "schubertpy/isotropic_grassmannian.py:IsotropicGrassmannian.pieriC_inner", "schubertpy/isotropic_grassmannian.py:IsotropicGrassmannian.qpieriC_inner", "schubertpy/orthogonal_grassmannian.py:OrthogonalGrassmannian.pieriB_inner", "schubertpy/orthogonal_grassmannian.py:OrthogonalGrassmannian.qpieriB_inner", "schubertpy/orthogonal_grassmannian.py:OrthogonalGrassmannian.qpieriD_inner"]}
{"id": "C129", "title": "Formula of Vafa and Intriligator for the quantum products on the maximal isotropic Grassmannians", "statement": "On IG(n,2n) let y_1..y_{n+1} have n+1 different squares with 4 (y_j^2)^(n+1) = (-1)^n and product 1/2; for each of the 2^n changes s of an even number of signs put v_s(l) = Qtilde_l of the elementary symmetric functions of the s_j y_j. On OG(n,2n+1) and OG(n+1,2n+2) let y_1..y_n have different squares with (y_j^2)^n = -4(-1)^n; for each of the 2^n changes s of signs put v_s(l) = Qtilde_l / 2^length(l). Such y exist over every algebraically closed field of characteristic 0. Then the sums of v_s(l) v_t(dual l) over all classes l are 0 for s != t and not 0 for s = t (write E_s), and the coefficient of q^d S[nu] in qmult(S[l],S[mu]), where |l|+|mu| = |nu| + d deg q, is the sum over s of v_s(l) v_s(mu) v_s(dual nu) / E_s.", "quantifier": "for all n >= 1, all fields of characteristic 0 with such y, all classes l, mu, nu, all iteration orders of sets", "why_tests_cant": "a closed formula for all Gromov-Witten invariants of three classes for all n; it involves roots of unity and no step of the code's algorithm", "anchors": ["schubertpy/abstract_grassmannian.py:AbstractGrassmannian.qmult", "schubertpy/isotropic_grassmannian.py:IsotropicGrassmannian.qpieriC_inner", "schubertpy/orthogonal_grassmannian.py:OrthogonalGrassmannian.qpieriB_inner", "schubertpy/orthogonal_grassmannian.py:OrthogonalGrassmannian.qpieriD_inner", "schubertpy/abstract_grassmannian.py:AbstractGrassmannian.dualize"]}
{"id": "C130", "title": "Quantum products on IG(n,2n) up to the first power of q are classical products on IG(n+1,2n+2)", "statement": "For classes l, mu, nu of IG(n,2n): the coefficient of S[nu] in qmult(S[l],S[mu]) on IG(n,2n) is the coefficient of S[nu] in mult(S[l],S[mu]) on IG(n+1,2n+2), and twice the coefficient of q*S[nu] is the coefficient of S[n+1,nu] there.", "quantifier": "for all n >= 1, all classes l, mu, nu of IG(n,2n), all iteration orders of sets", "why_tests_cant": "compares two different computations on infinitely many pairs of spaces; classes multiply on IG(n+1,2n+2) through other Giambelli polynomials and other Pieri rules than on IG(n,2n)", "anchors": ["schubertpy/abstract_grassmannian.py:AbstractGrassmannian.mult", "schubertpy/abstract_grassmannian.py:AbstractGrassmannian.qmult", "schubertpy/isotropic_grassmannian.py:IsotropicGrassmannian.pieriC_inner", "schubertpy/isotropic_grassmannian.py:IsotropicGrassmannian.qpieriC_inner"]}
{"id": "C131", "title": "Quantum products on OG(n+1,2n+3) and OG(n+2,2n+4) are quantum products on IG(n,2n)", "statement": "For classes l, mu, nu of IG(n,2n) and d >= 0: 2^(len l + len mu) times the coefficient of q^d S[nu] in qmult(S[l],S[mu]) on OG(n+1,2n+3) (and on OG(n+2,2n+4)) is 2^(len nu + 4d) times the coefficient of q^(2d) S[nu] on IG(n,2n), and 2^(len l + len mu) times the coefficient of q^d S[n+1,nu] is 2^(len nu + 2 + 4d) times the coefficient of q^(2d+1) S[nu] on IG(n,2n).", "quantifier": "for all n >= 1, all classes l, mu, nu of IG(n,2n), all d, all iteration orders of sets", "why_tests_cant": "compares quantum products of three families of spaces for all n; the powers of q and 2 have to match in every degree", "anchors": ["schubertpy/abstract_grassmannian.py:AbstractGrassmannian.qmult", "schubertpy/isotropic_grassmannian.py:IsotropicGrassmannian.qpieriC_inner", "schubertpy/orthogonal_grassmannian.py:OrthogonalGrassmannian.qpieriB_inner", "schubertpy/orthogonal_grassmannian.py:OrthogonalGrassmannian.qpieriD_inner"]}
{"id": "C132", "title": "The call graph of the example script is the one of the last definition opened before each call", "statement": "For every ignore list and every list of files, analyze_code of example/graph.py returns the graph with an edge from a to b exactly if somewhere b is called by its plain name and the last function definition that starts before this call, in the order in which the files and their nodes are visited, is the one of a, with neither a nor b in the ignore list. The nodes are the defined functions outside the ignore list and the targets of the edges; nodes and edges occur once. For files that consist of functions without inner functions, the edges are exactly the pairs (a, b) such that b is called in the body of a. For a call after an inner function or outside of functions the edge starts at the wrong function (disagreement with the purpose of the script).", "quantifier": "all ignore lists (also None), all syntax trees (definitions, calls, other nodes), all numbers of files", "why_tests_cant": "A test draws the graph of one project; the claim is about every nesting of definitions and calls, and shows where the attribution of calls is wrong.", "anchors": ["example/graph.py:CodeAnalyzer", "example/graph.py:analyze_code"]}
{"id": "C133", "title": "Presentations of the rings of IG(m,2m+2k) and OG(m,2m+2k+1), k >= 1", "statement": "Two polynomials e, f in S[1],...,S[m+2k] (and q) act alike on S[] - equivalently on every linear combination of classes - exactly when e - f lies in the ideal of the relations of Buch, Kresch and Tamvakis. For act on IG(m,2m+2k): the determinants det(S[1-a+b]) of size j, m<j<=m+2k, and S[r]^2+2*sum_{i=1..r}(-1)^i S[r+i]*S[r-i], k<r<=m+k; for qact the quadratic relations minus (-1)^(m+2k-r)*q*S[2r-m-2k-1]. For act on OG(m,2m+2k+1), with c(p)=S[p] for p<=k and 2*S[p] for p>k: det(c(1-a+b)) of size j, m<j<=m+2k, and S[r]^2+sum_{i=1..r}(-1)^i S[r+i]*c(r-i), k<r<=m+k; for qact the determinant of size m+2k plus 2*q.", "quantifier": "for all m>=1, k>=1, all polynomials e, f in q and the special classes with rational coefficients, all linear combinations", "why_tests_cant": "an ideal membership over infinitely many polynomials in both directions, for every m and k", "anchors": ["schubertpy/abstract_grassmannian.py:AbstractGrassmannian.act", "schubertpy/abstract_grassmannian.py:AbstractGrassmannian.qact", "schubertpy/isotropic_grassmannian.py:IsotropicGrassmannian.qpieriC_inner"]}
{"id": "C134", "title": "Determinants of special classes multiply by the columns S[1,...,1] on IG(m,2m+2k) and OG(m,2m+2k+1)", "statement": "For j <= m, a polynomial that equals det(c(1-a+b)), 0<=a,b<j, acts on every linear combination x as the product with S[1,...,1] (j ones): act(e, x) = mult(S[1^j], x) and qact(e, x) = qmult(S[1^j], x). Here c(p)=S[p] on IG, and c(p)=S[p] for p<=k, 2*S[p] for p>k on OG. There is no quantum correction.", "quantifier": "for all m>=1, k>=1, j<=m, all linear combinations of classes with coefficients in Q[q]", "why_tests_cant": "a statement for all sizes of determinants and all spaces; the number of terms of the determinant grows exponentially", "anchors": ["schubertpy/abstract_grassmannian.py:AbstractGrassmannian.act", "schubertpy/abstract_grassmannian.py:AbstractGrassmannian.qact", "schubertpy/abstract_grassmannian.py:AbstractGrassmannian.mult", "schubertpy/abstract_grassmannian.py:AbstractGrassmannian.qmult"]}
{"id": "C135", "title": "Presentations of the rings of OG(m,2m+2k), k >= 1 (quantum: k >= 2)", "statement": "Two polynomials e, f in S[1],...,S[m+2k-1], S[k,0] (and q) act alike on S[] - equivalently on every linear combination of classes - exactly when e - f lies in the ideal of the relations of Buch, Kresch and Tamvakis. With c(p)=S[p] for p<k, c(k)=S[k]+S[k,0], c(p)=2*S[p] for p>k the relations for act are: det(c(1-a+b)) of size j, m<j<=m+2k-1; S[r]^2+sum_{i=1..r}(-1)^i S[r+i]*c(r-i), k<r<m+k; S[k]*S[k,0]+sum_{i=1..k}(-1)^i S[k+i]*S[k-i]; (S[k]-S[k,0])*det(c(1-a+b)) of size m. For qact and k>=2 the determinant of size m+2k-1 is 2*q, the other relations are the same.", "quantifier": "for all m>=1, k>=1 (qact: k>=2), all polynomials e, f in q and the special classes with rational coefficients, all linear combinations", "why_tests_cant": "an ideal membership over infinitely many polynomials in both directions, for every m and k", "anchors": ["schubertpy/abstract_grassmannian.py:AbstractGrassmannian.act", "schubertpy/abstract_grassmannian.py:AbstractGrassmannian.qact", "schubertpy/orthogonal_grassmannian.py:OrthogonalGrassmannian.qpieriD_inner"]}
{"id": "C136", "title": "Determinants of special classes multiply by the columns S[1,...,1] on OG(m,2m+2k), k >= 1", "statement": "For j <= m, a polynomial that equals det(c(1-a+b)), 0<=a,b<j, with c(p)=S[p] for p<k, c(k)=S[k]+S[k,0], c(p)=2*S[p] for p>k, acts for k>=2 on every linear combination x as the product with S[1,...,1] (j ones): act(e, x) = mult(S[1^j], x) and qact(e, x) = qmult(S[1^j], x). There is no quantum correction. On OG(m,2m+2), where k=1, act(e, x) = mult(S[1^j]+S[1^j,0], x) for 1<=j<=m.", "quantifier": "for all m>=1, k>=2 (k=1: act only), j<=m, all linear combinations of classes with coefficients in Q[q]", "why_tests_cant": "a statement for all sizes of determinants and all spaces; the number of terms of the determinant grows exponentially", "anchors": ["schubertpy/abstract_grassmannian.py:AbstractGrassmannian.act", "schubertpy/abstract_grassmannian.py:AbstractGrassmannian.qact", "schubertpy/abstract_grassmannian.py:AbstractGrassmannian.mult", "schubertpy/abstract_grassmannian.py:AbstractGrassmannian.qmult"]}
{"id": "C137", "title": "Presentation of the quantum ring of OG(m,2m+2) with its two parameters", "statement": "On OG(m,2m+2), m >= 1, two polynomials e, f in q and S[1],...,S[m+1], S[1,0] satisfy qact(e, S[]) = qact(f, S[]) - equivalently they act alike on every linear combination with coefficients in q, q1, q2 - exactly when e - f lies in the ideal generated by, with c(1)=S[1]+S[1,0] and c(p)=2*S[p] for p>1: det(c(1-a+b)) of size m+1 minus (q1+q2); S[r]^2+sum_{i=1..r}(-1)^i S[r+i]*c(r-i), 1<r<=m; S[1]*S[1,0]-S[2]; (S[1]-S[1,0])*det(c(1-a+b)) of size m minus (q1-q2). In particular the determinant of size m+1 acts as q1+q2 and (S[1]-S[1,0])*det of size m acts as q1-q2 on every x.", "quantifier": "for all m>=1, all polynomials e, f in q and the special classes with rational coefficients, all linear combinations with coefficients in Q[q,q1,q2], all ascending orders of sets", "why_tests_cant": "an ideal membership over infinitely many polynomials in both directions, for every m", "anchors": ["schubertpy/abstract_grassmannian.py:AbstractGrassmannian.qact", "schubertpy/orthogonal_grassmannian.py:OrthogonalGrassmannian.qpieriD_inner"]}
{"id": "C138", "title": "Quantum multiplication by S[1,...,1] + S[1,...,1,0] on OG(m,2m+2) is a determinant", "statement": "For 1 <= j <= m, a polynomial that equals det(c(1-a+b)), 0<=a,b<j, with c(1)=S[1]+S[1,0] and c(p)=2*S[p] for p>1, acts on every linear combination x on OG(m,2m+2) as the quantum product with S[1,...,1] + S[1,...,1,0] (j ones): qact(e, x) = qmult(S[1^j] + S[1^j,0], x), without correction in q1, q2.", "quantifier": "for all m>=1, 1<=j<=m, all linear combinations of classes with coefficients in Q[q,q1,q2]", "why_tests_cant": "a statement for all sizes of determinants and all spaces; the number of terms of the determinant grows exponentially", "anchors": ["schubertpy/abstract_grassmannian.py:AbstractGrassmannian.qact", "schubertpy/abstract_grassmannian.py:AbstractGrassmannian.qmult"]}
{"id": "C139", "title": "Classical structure constants of IG(m,2m+2k), OG(m,2m+2k+1), OG(m,2m+2k) do not depend on m", "statement": "A class of IG(m,2n), OG(m,2n+1) or OG(m,2n+2) is a class of IG(m+j,2n+2j), OG(m+j,2n+2j+1), OG(m+j,2n+2j+2). If linear combinations a, b on the smaller and a', b' on the larger space have the same coefficients at the classes of the smaller space, then mult(a,b) on the smaller and mult(a',b') on the larger space have the same coefficients at those classes. In particular (a'=a, b'=b) the structure constants do not depend on m for a fixed k, and the classes that do not fit into the smaller space form an ideal.", "quantifier": "for all m, n with m <= n (m <= n+1 in type D), all j >= 0, all linear combinations of classes", "why_tests_cant": "compares products on infinitely many pairs of spaces; a wrong bound on rows or columns shows up only near the boundary of the rectangle", "anchors": ["schubertpy/abstract_grassmannian.py:AbstractGrassmannian.mult", "schubertpy/isotropic_grassmannian.py:IsotropicGrassmannian.pieriC_inner", "schubertpy/orthogonal_grassmannian.py:OrthogonalGrassmannian.pieriB_inner", "schubertpy/orthogonal_grassmannian.py:OrthogonalGrassmannian.pieriD_inner"]}
{"id": "C140", "title": "The two maps from OG(n,2n+2) to OG(n+1,2n+2) give homomorphisms of the classical rings", "statement": "Sending S[l] to S[l'], where l' is l with its first row removed and a first column of that length added (type 1), embeds the classes of OG(n+1,2n+2), and of OG(n,2n+1), into the classes of OG(n,2n+2). The product of two images is the image of the product: its coefficient at the image of a class is the coefficient of the product at the class, and at all other classes it is 0. The same holds with the images of type 2 (a final 0 appended).", "quantifier": "for all n >= 0 for which both spaces exist, all pairs of classes", "why_tests_cant": "compares two different Pieri rules (k=0 and k=1) with types on infinitely many pairs of spaces; an error in the type bookkeeping for k=1 breaks it", "anchors": ["schubertpy/abstract_grassmannian.py:AbstractGrassmannian.mult", "schubertpy/orthogonal_grassmannian.py:OrthogonalGrassmannian.pieriD_inner", "schubertpy/orthogonal_grassmannian.py:OrthogonalGrassmannian.pieriB_inner"]}
{"id": "C141", "title": "Vanishing of products on IG(m,2n) and OG(m,2n+1), and the classes that occur in them", "statement": "Let k = n - m, and write l << mu if every part of l larger than k is at most the part of mu in the same row. For classes S[l], S[mu] of IG(m,2n), or of OG(m,2n+1), with duals S[l'], S[mu'], the result of mult(S[l],S[mu]) is not zero if and only if l << mu' and mu << l'. If S[nu] occurs in the result, with dual S[nu'], then l << nu, nu' << l', mu << nu and nu' << mu'.", "quantifier": "for all spaces IG(m,2n) and OG(m,2n+1), all pairs of classes", "why_tests_cant": "an if-and-only-if for all pairs of classes on infinitely many spaces; a wrong term or a lost term of the Pieri rule, or of dualize, breaks it; tests only sample pairs", "anchors": ["schubertpy/abstract_grassmannian.py:AbstractGrassmannian.mult", "schubertpy/abstract_grassmannian.py:AbstractGrassmannian.dualize", "schubertpy/isotropic_grassmannian.py:IsotropicGrassmannian.pieriC_inner", "schubertpy/orthogonal_grassmannian.py:OrthogonalGrassmannian.pieriB_inner"]}
{"id": "C142", "title": "Vanishing of products on OG(m,2n+2), and the classes that occur in them", "statement": "Let k = n+1-m, and write l << mu if every part of l larger than k is at most the part of mu in the same row. Two classes S[l], S[nu] with duals S[l'], S[nu'] clash if one is of type 1 and the other of type 2 and, for some v >= 0, l and nu have equally many parts larger than k+v, l' and nu' as well, and these two numbers add up to m-1-v. For classes S[l], S[mu] of OG(m,2n+2) with duals S[l'], S[mu'], the result of mult(S[l],S[mu]) is not zero if and only if l << mu', mu << l', and S[l], S[mu'] do not clash. If S[nu] occurs in the result, with dual S[nu'], then l << nu, nu' << l', mu << nu, nu' << mu', and S[nu] clashes neither with S[l] nor with S[mu].", "quantifier": "for all spaces OG(m,2n+2) with m <= n+1, all pairs of classes", "why_tests_cant": "an if-and-only-if for all pairs of classes on infinitely many spaces; the condition on the types is not visible in the shapes, a wrong type in the Pieri rule or in dualize breaks it", "anchors": ["schubertpy/abstract_grassmannian.py:AbstractGrassmannian.mult", "schubertpy/abstract_grassmannian.py:AbstractGrassmannian.dualize", "schubertpy/orthogonal_grassmannian.py:OrthogonalGrassmannian.pieriD_inner"]}
{"id": "C143", "title": "Vanishing of products on Gr(m,n), and the classes that occur in them", "statement": "For classes S[l], S[mu] of Gr(m,n), with dual S[mu'] of S[mu], the result of mult(S[l],S[mu]) is not zero if and only if l is contained in mu' (every row of l is at most the row of mu'), that is, if l_i + mu_{m+1-i} <= n-m for 1 <= i <= m. If S[nu] occurs in the result, then nu is a class of Gr(m,n) that contains l and mu.", "quantifier": "for all spaces Gr(m,n) with m >= 1, all pairs of classes", "why_tests_cant": "an if-and-only-if for all pairs of classes on infinitely many spaces; a Pieri rule that loses one term or goes outside the rectangle breaks it", "anchors": ["schubertpy/abstract_grassmannian.py:AbstractGrassmannian.mult", "schubertpy/abstract_grassmannian.py:AbstractGrassmannian.dualize", "schubertpy/grassmannian.py:Grassmannian.pieriA_inner"]}
{"id": "C144", "title": "The smallest power of q in a quantum product on Gr(m,n)", "statement": "For classes S[l], S[mu] of Gr(m,n), with dual S[mu'] of S[mu], and d >= 0: qmult(S[l],S[mu]) has a term q^e*S[nu] with e <= d if and only if l without its first d rows and its first d columns is contained in mu', that is, l_{i+d} <= mu'_i + d for all i. So the smallest power of q is the smallest such d. If q^d*S[nu] occurs, then nu is a class of Gr(m,n) that contains l and mu without their first d rows and columns.", "quantifier": "for all spaces Gr(m,n) with m >= 1, all pairs of classes, all d", "why_tests_cant": "an if-and-only-if for all pairs of classes on infinitely many spaces; a quantum Pieri rule that loses one q-term, or has one too many, breaks it", "anchors": ["schubertpy/abstract_grassmannian.py:AbstractGrassmannian.qmult", "schubertpy/abstract_grassmannian.py:AbstractGrassmannian.dualize", "schubertpy/grassmannian.py:Grassmannian.qpieriA_inner"]}
{"id": "C145", "title": "The powers of q in a quantum product on Gr(m,n)", "statement": "For classes S[l], S[mu] of Gr(m,n), with rows counted from 0, and d >= 0: qmult(S[l],S[mu]) has a term q^d*S[nu] if and only if d <= m, d <= l_i + mu_j <= n-m+d for all rows i, j < m with i + j = m-1+d, and n-m+d <= l_i + mu_j for all rows with i + j = d-1. If q^a and q^b occur, then q^d occurs for all d between a and b.", "quantifier": "for all spaces Gr(m,n) with m >= 1, all pairs of classes, all d", "why_tests_cant": "an exact description of the powers for all pairs of classes on infinitely many spaces; a quantum Pieri rule that loses one q-term, or has one too many, breaks it", "anchors": ["schubertpy/abstract_grassmannian.py:AbstractGrassmannian.qmult", "schubertpy/grassmannian.py:Grassmannian.qpieriA_inner", "schubertpy/grassmannian.py:Grassmannian.pieriA_inner"]}
{"id": "C146", "title": "The smallest power of q in a quantum product on IG(m,2n)", "statement": "Let k = n-m. For classes S[l], S[mu] of IG(m,2n), with duals l', mu', and d >= 0: qmult(S[l],S[mu]) has a term q^e*S[nu] with e <= d if and only if for all rows i, l_{i+d} > k implies l_{i+d} <= mu'_i, and mu_{i+d} > k implies mu_{i+d} <= l'_i. Every nu with q^d*S[nu] in the product satisfies the same comparisons with l and with mu: parts of l larger than k, without the first d, are at most those of nu, and parts of nu' larger than k, without the first d, are at most those of l'; likewise for mu.", "quantifier": "for all spaces IG(m,2n), all pairs of classes, all d, all iteration orders", "why_tests_cant": "an exact criterion for all pairs of classes on infinitely many spaces; a quantum Pieri rule of type C that loses a q-term or a row breaks it", "anchors": ["schubertpy/abstract_grassmannian.py:AbstractGrassmannian.qmult", "schubertpy/isotropic_grassmannian.py:IsotropicGrassmannian.qpieriC_inner", "schubertpy/abstract_grassmannian.py:AbstractGrassmannian.dualize"]}
{"id": "C147", "title": "The smallest power of q in a quantum product on the maximal isotropic Grassmannians", "statement": "For classes S[l], S[mu] with dual S[mu'] of S[mu], rows counted from 0, and d >= 0: qmult(S[l],S[mu]) has a term q^e*S[nu] with e <= d if and only if l without its first r rows is contained in mu' (l_{i+r} <= mu'_i for all i), where r = d on IG(n,2n) and r = 2d on OG(n,2n+1) and OG(n+1,2n+2). If q^d*S[nu] occurs, then l and mu without their first r rows are contained in nu.", "quantifier": "for all n (n >= 1 in the orthogonal cases), all pairs of classes, all d, all iteration orders", "why_tests_cant": "an exact criterion for all pairs of classes on infinitely many spaces; a quantum Pieri rule that loses a q-term or a row breaks it", "anchors": ["schubertpy/abstract_grassmannian.py:AbstractGrassmannian.qmult", "schubertpy/isotropic_grassmannian.py:IsotropicGrassmannian.qpieriC_inner", "schubertpy/orthogonal_grassmannian.py:OrthogonalGrassmannian.qpieriB_inner", "schubertpy/orthogonal_grassmannian.py:OrthogonalGrassmannian.qpieriD_inner"]}
{"id": "C148", "title": "The smallest power of q in a quantum product on OG(m,2n+1) for m < n", "statement": "Let k = n - m > 0, let S[l'], S[mu'] be the duals of S[l], S[mu], let top(d,a,b) mean a_{i+d} <= b_i for all rows i with a_{i+d} > k, and let r(t,a) be the number of parts of a larger than t. A clash of (l,l') with (nu,nu') at d is a t with k <= t <= n+k, r(t,l)+r(t,l') = n+k-t = r(t,nu)+r(t,nu') and r(t,l) = d + r(t,nu). Then qmult(S[l],S[mu]) has a term q^e*S[nu] with e <= d if and only if top(d,l,mu'), top(d,mu,l') and, if d is odd, (l,l') has no clash with (mu',mu) at d. If q^d*S[nu] occurs, then top(d,l,nu), top(d,nu',l') and, if d is odd, (l,l') has no clash with (nu,nu') at d; the same holds for mu.", "quantifier": "for all 0 < m < n, all pairs of classes, all d, all iteration orders", "why_tests_cant": "an exact criterion for all pairs of classes on infinitely many spaces; a quantum Pieri rule that loses one of the two kinds of q-terms, or gives a wrong power of q, breaks it", "anchors": ["schubertpy/abstract_grassmannian.py:AbstractGrassmannian.qmult", "schubertpy/orthogonal_grassmannian.py:OrthogonalGrassmannian.qpieriB_inner"]}
{"id": "C149", "title": "The largest of the smallest powers of q", "statement": "Let D = min(m,n-m) on Gr(m,n), D = m on IG(m,2n), D = m + (m mod 2) on OG(m,2n+1) with m < n, and D = ceil(n/2) on OG(n,2n+1). For all classes S[l], S[mu], qmult(S[l],S[mu]) has a term q^e*S[nu] with e <= D (so it is not zero), and every term q^e*S[nu] of the square of the class of a point has e >= D.", "quantifier": "for all Gr(m,n) with m >= 1, all IG(m,2n), all OG(m,2n+1) with 0 < m <= n, all pairs of classes, all iteration orders", "why_tests_cant": "a bound for all products on infinitely many spaces; tests cannot show that no product vanishes", "anchors": ["schubertpy/abstract_grassmannian.py:AbstractGrassmannian.qmult", "schubertpy/isotropic_grassmannian.py:IsotropicGrassmannian.qpieriC_inner", "schubertpy/orthogonal_grassmannian.py:OrthogonalGrassmannian.qpieriB_inner"]}
{"id": "C150", "title": "The smallest powers of q on IG(m,2n) and OG(m,2n+1)", "statement": "For the same two classes S[l], S[mu] let w = qmult(S[l],S[mu]) on IG(m,2n) and v the same on OG(m,2n+1), and let H(d,x) mean that x has a term q^e*S[nu] with e <= d. If m < n, then H(d,v) and H(d,w) are equivalent for even d, and for every d, H(d,v) implies H(d,w) and H(d,w) implies H(d+1,v). If m = n, then H(d,v) and H(2d,w) are equivalent.", "quantifier": "for all 0 < m <= n, all pairs of classes, all d, all iteration orders on both spaces", "why_tests_cant": "compares two different quantum Pieri rules of the program on all pairs of classes", "anchors": ["schubertpy/abstract_grassmannian.py:AbstractGrassmannian.qmult", "schubertpy/isotropic_grassmannian.py:IsotropicGrassmannian.qpieriC_inner", "schubertpy/orthogonal_grassmannian.py:OrthogonalGrassmannian.qpieriB_inner"]}
{"id": "C151", "title": "The smallest powers of q satisfy the triangle inequality", "statement": "Let H(d,x) mean that x has a term q^i*S[nu] with i <= d. For three classes S[l], S[nu], S[mu] and nu' = dualize(nu): if H(d, qmult(S[l],S[nu'])) and H(e, qmult(S[nu],S[mu])), then H(d+e, qmult(S[l],S[mu])).", "quantifier": "for all Gr(m,n), IG(m,2n), OG(m,2n+1), OG(n+1,2n+2), all triples of classes, all d and e, all iteration orders", "why_tests_cant": "relates three products for every triple of classes; the number of triples and the powers of q grow with the space", "anchors": ["schubertpy/abstract_grassmannian.py:AbstractGrassmannian.qmult", "schubertpy/abstract_grassmannian.py:AbstractGrassmannian.dualize", "schubertpy/isotropic_grassmannian.py:IsotropicGrassmannian.qpieriC_inner", "schubertpy/orthogonal_grassmannian.py:OrthogonalGrassmannian.qpieriB_inner"]}
