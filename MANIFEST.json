{
 "claims": [
  {
   "property": "C01",
   "status": "proved",
   "theorems": [
    "Verif.C01_clip_spec",
    "Verif.C01_clip_unique",
    "Verif.C01_clip_idem",
    "Verif.C01_clip_eq_iff"
   ],
   "note": "part_clip: exact characterisation, idempotence, equality criterion."
  },
  {
   "property": "C02",
   "status": "proved",
   "theorems": [
    "Verif.C02_conj_transpose",
    "Verif.C02_conj_partition",
    "Verif.C02_conj_conj",
    "Verif.C02_conj_length",
    "Verif.C02_conj_negative"
   ],
   "note": "Transpose, partition, involution, lengths; negative entries give []."
  },
  {
   "property": "C03",
   "status": "proved",
   "theorems": [
    "Verif.C03_partition_ok",
    "Verif.C03_partition_error"
   ],
   "note": "Constructor succeeds exactly on partitions, raises ValueError otherwise."
  },
  {
   "property": "C04",
   "status": "proved",
   "theorems": [
    "Verif.C04_all_kstrict",
    "Verif.C04_narrow_rectangle"
   ],
   "note": "Termination, no repetition, exactly the k-strict partitions of the rectangle; behaviour for cols < k shown separately."
  },
  {
   "property": "C05",
   "status": "partial",
   "theorems": [
    "Verif.C05_classes_partial",
    "Verif.C05_refuted_m0"
   ],
   "note": "Proved for m >= 1 including the count; for m = 0 the code returns no classes, proved as C05_refuted_m0."
  },
  {
   "property": "C06",
   "status": "proved",
   "theorems": [
    "Verif.C06_classes_IG",
    "Verif.C06_classes_OG"
   ],
   "note": "Class lists of IG(m,2n) and OG(m,2n+1)."
  },
  {
   "property": "C07",
   "status": "proved",
   "theorems": [
    "Verif.C07_classes_OGeven"
   ],
   "note": "Class list of OG(m,2n+2) with type markers."
  },
  {
   "property": "C08",
   "status": "proved",
   "theorems": [
    "Verif.C08_part_index_part",
    "Verif.C08_index_part_index",
    "Verif.C08_short_index_raises"
   ],
   "note": "Both directions and the error branch."
  },
  {
   "property": "C09",
   "status": "proved",
   "theorems": [
    "Verif.C09_part_index_part",
    "Verif.C09_index_part_index"
   ],
   "note": "Both directions."
  },
  {
   "property": "C10",
   "status": "proved",
   "theorems": [
    "Verif.C10_part_index_part",
    "Verif.C10_index_part_index"
   ],
   "note": "Both directions."
  },
  {
   "property": "C11",
   "status": "proved",
   "theorems": [
    "Verif.C11_part_index_part",
    "Verif.C11_index_part_index",
    "Verif.C11_other_component"
   ],
   "note": "Both directions with types; for maximal isotropic subspaces only the component of the library occurs, characterised by a parity (C11_other_component shows why)."
  },
  {
   "property": "C12",
   "status": "proved",
   "theorems": [
    "Verif.C12_dualize_A",
    "Verif.C12_dualize_C",
    "Verif.C12_dualize_B",
    "Verif.C12_dualize_D"
   ],
   "note": "Involution on classes, codimensions add up to the dimension; with the C37 theorems: dual of S[] is the point class. Type A complement formula."
  },
  {
   "property": "C13",
   "status": "proved",
   "theorems": [
    "Verif.C13_pair_spec",
    "Verif.C13_part_pair_part",
    "Verif.C13_pair_part_pair",
    "Verif.C13_pair2part_raises_iff"
   ],
   "note": "Both round trips, meaning of the pair, error branch."
  },
  {
   "property": "C14",
   "status": "proved",
   "theorems": [
    "Verif.C14_type_swap",
    "Verif.C14_miami_swap",
    "Verif.C14_involutions",
    "Verif.C14_schub_type",
    "Verif.C14_type_swap_list_raises",
    "Verif.C14_other_types"
   ],
   "note": "Swaps on classes, involutions, schub_type; the list overload of type_swap always raises."
  },
  {
   "property": "C15",
   "status": "proved",
   "theorems": [
    "Verif.C15_pieri",
    "Verif.C15_refuted_m0"
   ],
   "note": "Full iff for every Gr(m,n) with m >= 1: sum with coefficient 1 of exactly the horizontal strips; m = 0 is wrong in the code (C15_refuted_m0)."
  },
  {
   "property": "C16",
   "status": "proved",
   "theorems": [
    "Verif.C16_qpieri",
    "Verif.C16_refuted_large_p",
    "Verif.C16_m0_raises"
   ],
   "note": "Bertram's rule, for m >= 1, k >= 1 and 1 <= p <= k. Outside this range the code is wrong (C16_refuted_large_p, C16_m0_raises)."
  },
  {
   "property": "C17",
   "status": "proved",
   "theorems": [
    "Verif.C17_value",
    "Verif.C17_value_poly",
    "Verif.C17_tree_independent",
    "Verif.C17_expand",
    "Verif.C17_linear",
    "Verif.C17_constants_untouched"
   ],
   "note": "apply is the algebra substitution S[l] -> f(l); independent of the tree; linear."
  },
  {
   "property": "C18",
   "status": "proved",
   "theorems": [
    "Verif.C18_act_mul",
    "Verif.C18_qact_mul",
    "Verif.C18_act_add",
    "Verif.C18_qact_add",
    "Verif.C18_generators",
    "Verif.C18_closed"
   ],
   "note": "act and qact are ring actions: products, sums, unit, generators act by the Pieri rules, results are linear combinations of classes. Commutation of the Pieri operators by a cylindric Bender-Knuth reflection."
  },
  {
   "property": "C19",
   "status": "proved",
   "theorems": [
    "Verif.C19_giambelli",
    "Verif.C19_qgiambelli"
   ],
   "note": "Explicit recursion bound; toS(a) = a and qtoS(a) = a for every linear combination; the Giambelli polynomial contains only special classes and q."
  },
  {
   "property": "C20",
   "status": "proved",
   "theorems": [
    "Verif.C20_comm",
    "Verif.C20_assoc",
    "Verif.C20_unit",
    "Verif.C20_bilinear",
    "Verif.C20_pieri",
    "Verif.C20_closed"
   ],
   "note": "Commutative, associative, unital, bilinear over Q[q], S[p]* = pieri; for all 1 <= m <= n."
  },
  {
   "property": "C21",
   "status": "proved",
   "theorems": [
    "Verif.C21_comm",
    "Verif.C21_assoc",
    "Verif.C21_unit",
    "Verif.C21_bilinear",
    "Verif.C21_pieri",
    "Verif.C21_closed"
   ],
   "note": "Same for the quantum product, for all 1 <= m <= n."
  },
  {
   "property": "C22",
   "status": "proved",
   "theorems": [
    "Verif.C22_qmult",
    "Verif.C22_qpieri"
   ],
   "note": "Terms without q of qmult/qpieri are mult/pieri."
  },
  {
   "property": "C23",
   "status": "proved",
   "theorems": [
    "Verif.C23_qmult",
    "Verif.C23_mult"
   ],
   "note": "Grading with deg q = degree_q(); classical terms have no q."
  },
  {
   "property": "C24",
   "status": "proved",
   "theorems": [
    "Verif.C24_giambelli"
   ],
   "note": "qgiambelli = giambelli on every linear combination of classes."
  },
  {
   "property": "C25",
   "status": "proved",
   "theorems": [
    "Verif.C25_duality"
   ],
   "note": "Coefficient of point_class() in mult(S[l],S[mu]) is 1 iff mu = dualize(l)."
  },
  {
   "property": "C26",
   "status": "partial",
   "theorems": [
    "Verif.C26_refuted",
    "Verif.C26_one_hook_partial",
    "Verif.C26_low_degree_partial"
   ],
   "note": "The claim is false for the code: C26_refuted gives Gr(3,6), S[3,3]*S[3,2,1], where qmult_rh differs from qmult in the q^2 term. Proved for all inputs: the q^0 and q^1 coefficients agree (C26_low_degree_partial), and the results are equal for combinations of classes with at most A and B boxes if A + B < 2n (C26_one_hook_partial)."
  },
  {
   "property": "C27",
   "status": "proved",
   "theorems": [
    "Verif.C27_in_range",
    "Verif.C27_in_range_error",
    "Verif.C27_contract",
    "Verif.C27_result",
    "Verif.C27_hook_unique",
    "Verif.C27_height",
    "Verif.C27_trivial",
    "Verif.C27_grid_error",
    "Verif.C27_removes_though_in_range",
    "Verif.C27_misses_lower_hooks"
   ],
   "note": "Termination, exact result (chain of top-row hooks, first shape in the grid), sizes, heights, error branches; is_in_range decided exactly."
  },
  {
   "property": "C28",
   "status": "proved",
   "theorems": [
    "Verif.C28_raises_iff",
    "Verif.C28_height",
    "Verif.C28_zero_rows_counted"
   ],
   "note": "Raises exactly when not contained; counts rows; zero-difference rows shown."
  },
  {
   "property": "C29",
   "status": "proved",
   "theorems": [
    "Verif.C29_sound",
    "Verif.C29_terminates",
    "Verif.C29_history",
    "Verif.C29_list_tuple",
    "Verif.C29_list_tuple_kw",
    "Verif.C29_accepts",
    "Verif.C29_self_kept",
    "Verif.C29_nested_list_raises",
    "Verif.C29_raises_iff"
   ],
   "note": "Cached calls return what the uncached body returns, for every history and every eviction (re-entrant bodies included); list and tuple arguments share a key; TypeError is raised exactly if a list remains inside an argument, by position or by keyword."
  },
  {
   "property": "C30",
   "status": "proved",
   "theorems": [
    "Verif.C30_round_trip",
    "Verif.C30_round_trip_list",
    "Verif.C30_round_trip_pair",
    "Verif.C30_injective",
    "Verif.C30_printed",
    "Verif.C30_isSchur",
    "Verif.C30_sym_text",
    "Verif.C30_sym_text_injective",
    "Verif.C30_refuted_negative",
    "Verif.C30_not_schur"
   ],
   "note": "Round trip, injectivity and parser for all lists (and partition pairs) of non-negative parts; negative parts break it (C30_refuted_negative)."
  },
  {
   "property": "C31",
   "status": "partial",
   "theorems": [
    "Verif.C31_gr",
    "Verif.C31_ig",
    "Verif.C31_og",
    "Verif.C31_refuted_og_negative_k",
    "Verif.C31_clone_partial",
    "Verif.C31_refuted_clone",
    "Verif.C31_clone_never_BCD"
   ],
   "note": "Constructors proved; OG accepts some m > n (refuted) and clone is wrong for types B, C, D (refuted)."
  },
  {
   "property": "C32",
   "status": "proved",
   "theorems": [
    "Verif.C32_pieri_IG",
    "Verif.C32_pieri_OG",
    "Verif.C32_pieri_OGeven",
    "Verif.C32_pieri_set"
   ],
   "note": "All types, user-level pieri and pieri_set itself: terms are classes of degree |l|+p without repetition."
  },
  {
   "property": "C33",
   "status": "proved",
   "theorems": [
    "Verif.C33_coefficients_IG",
    "Verif.C33_coefficients_OG",
    "Verif.C33_coefficients_OGeven"
   ],
   "note": "Types B and C as stated (exponents never negative, coefficients powers of two); type D too."
  },
  {
   "property": "C34",
   "status": "partial",
   "theorems": [
    "Verif.C34_qpieri_IG",
    "Verif.C34_qpieri_OG_partial",
    "Verif.C34_qpieri_OG_point",
    "Verif.C34_qpieri_OGeven_point",
    "Verif.C34_qpieri_OGeven_partial",
    "Verif.C34_qpieri_OGeven_one_partial",
    "Verif.C34_set_order"
   ],
   "note": "Type C in full; type B for m >= 1, type D for m >= 1 (k = 1 under the assumption that sets are iterated in increasing order). Refuted: OG(0,N) raises IndexError (C34_*_point); with CPython's order in OG(8,18) a term is not a class (C34_set_order)."
  },
  {
   "property": "C35",
   "status": "proved",
   "theorems": [
    "Verif.C35_qpieri_IG_integral"
   ],
   "note": "Coefficients are powers of two for p <= n+k; the next value of p gives 1/2 (example)."
  },
  {
   "property": "C36",
   "status": "proved",
   "theorems": [
    "Verif.C36_tableaux",
    "Verif.C36_errors",
    "Verif.C36_symmetric_values",
    "Verif.C36_symmetric",
    "Verif.C36_homogeneous",
    "Verif.C36_zero"
   ],
   "note": "Generating function of semistandard tableaux, symmetric, homogeneous, zero iff too many parts; error branches."
  },
  {
   "property": "C37",
   "status": "partial",
   "theorems": [
    "Verif.C37_point_A",
    "Verif.C37_point_C",
    "Verif.C37_point_B",
    "Verif.C37_point_D",
    "Verif.C37_generators_A",
    "Verif.C37_generators_C",
    "Verif.C37_generators_B",
    "Verif.C37_generators_D_partial",
    "Verif.C37_refuted_D_m0",
    "Verif.C37_generators_exact_A",
    "Verif.C37_generators_exact_C",
    "Verif.C37_generators_exact_B",
    "Verif.C37_generators_exact_D_partial"
   ],
   "note": "Point class is the unique top class in all types; generators are classes except OG(0,2n+2), where the claim is false (C37_refuted_D_m0)."
  },
  {
   "property": "C38",
   "status": "proved",
   "theorems": [
    "Verif.C38_mult_table",
    "Verif.C38_qmult_table"
   ],
   "note": "Classical and quantum tables of every Gr(m,n), m >= 1."
  },
  {
   "property": "C39",
   "status": "proved",
   "theorems": [
    "Verif.C39_expansion",
    "Verif.C39_single",
    "Verif.C39_parameters",
    "Verif.C39_constant",
    "Verif.C39_power",
    "Verif.C39_other"
   ],
   "note": "Sums of at least two terms c q^d S[l]; single terms and malformed expressions described separately (C39_single, C39_other)."
  },
  {
   "property": "C40",
   "status": "proved",
   "theorems": [
    "Verif.C40_sorted",
    "Verif.C40_depends_on_set",
    "Verif.C40_unique",
    "Verif.C40_order"
   ],
   "note": "Sorted, duplicate free, depends on the set only, unique."
  },
  {
   "property": "C41",
   "status": "proved",
   "theorems": [
    "Verif.C41_set_equality",
    "Verif.C41_equivalence",
    "Verif.C41_insensitive",
    "Verif.C41_raises"
   ],
   "note": "Set equality of normalised rows; the normalisation of column 3 (sympy) is an arbitrary function that may raise."
  },
  {
   "property": "C42",
   "status": "partial",
   "theorems": [
    "Verif.C42_spec_num",
    "Verif.C42_negative_raises",
    "Verif.C42_raises_iff",
    "Verif.C42_refuted_not_special"
   ],
   "note": "Round trip and exact error condition proved; in type D spec2num accepts some non-special lists and [] raises IndexError (C42_refuted_not_special)."
  },
  {
   "property": "C43",
   "status": "proved",
   "theorems": [
    "Verif.C43_pieri_IG",
    "Verif.C43_pieri_OG",
    "Verif.C43_pieri_set"
   ],
   "note": "The support of pieri in types B, C and pieri_set for all three types is exactly the BKT relation."
  },
  {
   "property": "C44",
   "status": "proved",
   "theorems": [
    "Verif.C44_zero_A",
    "Verif.C44_unit_A",
    "Verif.C44_large_A"
   ],
   "note": "p = 0, unit, p > k, for all Gr(m,n) with m >= 1."
  },
  {
   "property": "C45",
   "status": "partial",
   "theorems": [
    "Verif.C45_ascii",
    "Verif.C45_embed_partial",
    "Verif.C45_refuted",
    "Verif.C45_embed_str",
    "Verif.C45_draw"
   ],
   "note": "Proved for partition_to_ascii, embed_str, embed_partition with width >= l_1, and the composed drawing; smaller widths and the empty partition are wrong (C45_refuted)."
  },
  {
   "property": "C46",
   "status": "proved",
   "theorems": [
    "Verif.C46_add",
    "Verif.C46_mul",
    "Verif.C46_pow",
    "Verif.C46_sub",
    "Verif.C46_reflected",
    "Verif.C46_ring_laws",
    "Verif.C46_other",
    "Verif.C46_sub_not_closed"
   ],
   "note": "Every operator denotes the polynomial operation; error branches; subtraction of a scalar returns a bare expression (C46_sub_not_closed)."
  },
  {
   "property": "C47",
   "status": "proved",
   "theorems": [
    "Verif.C47_integral"
   ],
   "note": "All coefficients of mult and qmult of two classes are integers."
  },
  {
   "property": "C48",
   "status": "proved",
   "theorems": [
    "Verif.C48_count_comps",
    "Verif.C48_pieri_IG",
    "Verif.C48_pieri_OG"
   ],
   "note": "count_comps against SimpleGraph connected components of the set of unmentioned boxes; the Pieri rules of types B and C term by term."
  },
  {
   "property": "C49",
   "status": "proved",
   "theorems": [
    "Verif.C49_pieri_OGeven"
   ],
   "note": "All even orthogonal Grassmannians, all typed classes, all integers p (p = k and -k being the two special classes of degree k)."
  },
  {
   "property": "C50",
   "status": "proved",
   "theorems": [
    "Verif.C50_qpieri_IG",
    "Verif.C50_qpieri_OG",
    "Verif.C50_qpieri_OGeven",
    "Verif.C50_qpieri_OGeven_one"
   ],
   "note": "Type C for p <= n+k (larger p: see C35), types B and D for m >= 1 (m = 0 raises IndexError, see C34). For OG(n,2n+2) (type D, k = 1) under the assumption that iterating over a set of small integers is in increasing order, as for C34."
  },
  {
   "property": "C51",
   "status": "proved",
   "theorems": [
    "Verif.C51_act_IG",
    "Verif.C51_qact_IG",
    "Verif.C51_act_OG",
    "Verif.C51_special_IG",
    "Verif.C51_special_OG"
   ],
   "note": "Commutation of the Pieri operators comes from commuting transfer matrices (Proofs/Word*)."
  },
  {
   "property": "C52",
   "status": "proved",
   "theorems": [
    "Verif.C52_giambelli_IG",
    "Verif.C52_giambelli_OG"
   ],
   "note": "Recursion depth bound giamBoundBC."
  },
  {
   "property": "C53",
   "status": "proved",
   "theorems": [
    "Verif.C53_mult_IG",
    "Verif.C53_qmult_IG",
    "Verif.C53_mult_OG"
   ],
   "note": "Up to the order of terms."
  },
  {
   "property": "C54",
   "status": "proved",
   "theorems": [
    "Verif.C54_linear_IG",
    "Verif.C54_linear_OG",
    "Verif.C54_pieri_IG",
    "Verif.C54_pieri_OG"
   ],
   "note": "Both linearity and agreement with pieri/qpieri."
  },
  {
   "property": "C55",
   "status": "proved",
   "theorems": [
    "Verif.C55_limit_IG"
   ],
   "note": "IG(m,2n)."
  },
  {
   "property": "C56",
   "status": "proved",
   "theorems": [
    "Verif.C56_graded_IG",
    "Verif.C56_graded_OG"
   ],
   "note": "IG classical and quantum, OG odd classical."
  },
  {
   "property": "C57",
   "status": "proved",
   "theorems": [
    "Verif.C57_integral_IG",
    "Verif.C57_integral_OG"
   ],
   "note": "IG classical and quantum, OG odd classical."
  },
  {
   "property": "C58",
   "status": "proved",
   "theorems": [
    "Verif.C58_duality_IG",
    "Verif.C58_qduality_IG",
    "Verif.C58_duality_OG"
   ],
   "note": "The Pieri matrices are symmetric for the involution that exchanges two letters of a word; dualize is this involution."
  },
  {
   "property": "C59",
   "status": "proved",
   "theorems": [
    "Verif.C59_count_IG",
    "Verif.C59_count_OG"
   ],
   "note": "By the bijection of classes with words."
  },
  {
   "property": "C60",
   "status": "proved",
   "theorems": [
    "Verif.C60_qact",
    "Verif.C60_special",
    "Verif.C60_qgiambelli"
   ],
   "note": "The quantum Pieri operators commute (first-letter kernel in front of the transfer matrix)."
  },
  {
   "property": "C61",
   "status": "proved",
   "theorems": [
    "Verif.C61_qmult",
    "Verif.C61_linear",
    "Verif.C61_qpieri"
   ],
   "note": "Generic Giambelli argument on the commuting quantum Pieri operators."
  },
  {
   "property": "C62",
   "status": "proved",
   "theorems": [
    "Verif.C62_limit",
    "Verif.C62_graded",
    "Verif.C62_integral"
   ],
   "note": ""
  },
  {
   "property": "C63",
   "status": "proved",
   "theorems": [
    "Verif.C63_qduality"
   ],
   "note": "The quantum Pieri matrices are symmetric for the involution of words that is dualize."
  },
  {
   "property": "C64",
   "status": "proved",
   "theorems": [
    "Verif.C64_act",
    "Verif.C64_qact",
    "Verif.C64_special",
    "Verif.C64_qspecial"
   ],
   "note": "The type D Pieri operators are transfer matrices on words with an inner letter; all of them commute."
  },
  {
   "property": "C65",
   "status": "proved",
   "theorems": [
    "Verif.C65_giambelli",
    "Verif.C65_qgiambelli"
   ],
   "note": "Includes termination with an explicit recursion bound."
  },
  {
   "property": "C66",
   "status": "proved",
   "theorems": [
    "Verif.C66_mult",
    "Verif.C66_qmult",
    "Verif.C66_pieri",
    "Verif.C66_qpieri",
    "Verif.C66_refuted_two_parameters"
   ],
   "note": "For m = n the quantum product is not associative because qact raises ValueError on q1 and q2 (C66_refuted_two_parameters)."
  },
  {
   "property": "C67",
   "status": "proved",
   "theorems": [
    "Verif.C67_limit",
    "Verif.C67_graded",
    "Verif.C67_qgraded",
    "Verif.C67_integral",
    "Verif.C67_qintegral"
   ],
   "note": ""
  },
  {
   "property": "C68",
   "status": "proved",
   "theorems": [
    "Verif.C68_duality",
    "Verif.C68_qduality"
   ],
   "note": "dualize works on index lists and mult on Pieri operators; the theorem connects the two, including the choice of the type."
  },
  {
   "property": "C69",
   "status": "proved",
   "theorems": [
    "Verif.C69_count"
   ],
   "note": ""
  },
  {
   "property": "C70",
   "status": "proved",
   "theorems": [
    "Verif.C70_rim_hook_rule",
    "Verif.C70_rule_unique"
   ],
   "note": "The theorem of Bertram, Ciocan-Fontanine and Fulton for the code's qmult and mult. The rule is a separate specification (HookRed) that uses nothing of qmult."
  },
  {
   "property": "C71",
   "status": "proved",
   "theorems": [
    "Verif.C71_bialternant",
    "Verif.C71_quotient"
   ],
   "note": "Classical definition of Schur polynomials, independent of tableaux."
  },
  {
   "property": "C72",
   "status": "proved",
   "theorems": [
    "Verif.C72_dimension"
   ],
   "note": "Weyl's dimension formula, over the integers."
  },
  {
   "property": "C73",
   "status": "proved",
   "theorems": [
    "Verif.C73_schur_product"
   ],
   "note": "The bound is needed: classes with more columns are cut off on Gr(m,n) (example in the file)."
  },
  {
   "property": "C74",
   "status": "proved",
   "theorems": [
    "Verif.C74_stable"
   ],
   "note": "Together with C73 the coefficients are those of products of Schur polynomials (Littlewood-Richardson numbers)."
  },
  {
   "property": "C75",
   "status": "proved",
   "theorems": [
    "Verif.C75_dualize_A",
    "Verif.C75_dualize_C",
    "Verif.C75_dualize_B",
    "Verif.C75_dualize_D"
   ],
   "note": "The value of the result at any values of the symbols is the value of p with the classes replaced."
  },
  {
   "property": "C76",
   "status": "proved",
   "theorems": [
    "Verif.C76_littlewood_richardson"
   ],
   "note": ""
  },
  {
   "property": "C77",
   "status": "proved",
   "theorems": [
    "Verif.C77_positive"
   ],
   "note": "Consequence of C76."
  },
  {
   "property": "C78",
   "status": "proved",
   "theorems": [
    "Verif.C78_qduality"
   ],
   "note": "C78_qduality."
  },
  {
   "property": "C79",
   "status": "proved",
   "theorems": [
    "Verif.C79_symmetric_Gr",
    "Verif.C79_symmetric_IG",
    "Verif.C79_symmetric_OG",
    "Verif.C79_qsymmetric_OG",
    "Verif.C79_symmetric_OGeven",
    "Verif.C79_qsymmetric_OGeven"
   ],
   "note": "C79_symmetric_Gr, C79_symmetric_IG, C79_symmetric_OG, C79_qsymmetric_OG, C79_symmetric_OGeven, C79_qsymmetric_OGeven. For quantum OG(n,2n+2) (k=1, two parameters) see C113."
  },
  {
   "property": "C80",
   "status": "proved",
   "theorems": [
    "Verif.C80_row",
    "Verif.C80_column",
    "Verif.C80_cyclic"
   ],
   "note": "C80_row, C80_column, C80_cyclic."
  },
  {
   "property": "C81",
   "status": "proved",
   "theorems": [
    "Verif.C81_IG_OG"
   ],
   "note": "C81_IG_OG."
  },
  {
   "property": "C82",
   "status": "proved",
   "theorems": [
    "Verif.C82_swap",
    "Verif.C82_qswap"
   ],
   "note": "C82_swap, C82_qswap. For quantum OG(n,2n+2) (two parameters) see C114."
  },
  {
   "property": "C83",
   "status": "proved",
   "theorems": [
    "Verif.C83_sound",
    "Verif.C83_represents",
    "Verif.C83_exact",
    "Verif.C83_lincomb",
    "Verif.C83_mult_Gr",
    "Verif.C83_mult_IG",
    "Verif.C83_mult_OG",
    "Verif.C83_mult_OGeven",
    "Verif.C83_shape"
   ],
   "note": "C83_sound, C83_represents, C83_exact, C83_lincomb, C83_mult_Gr/IG/OG/OGeven; C83_shape shows that on unexpanded trees the answer depends on the way of writing."
  },
  {
   "property": "C84",
   "status": "proved",
   "theorems": [
    "Verif.C84_zero_padding",
    "Verif.C84_operands",
    "Verif.C84_isSchur",
    "Verif.C84_expanded",
    "Verif.C84_unpadded",
    "Verif.C84_typeD",
    "Verif.C84_len"
   ],
   "note": "C84_zero_padding, C84_operands, C84_expanded, C84_unpadded, C84_typeD, C84_len."
  },
  {
   "property": "C85",
   "status": "proved",
   "theorems": [
    "Verif.C85_plus",
    "Verif.C85_times",
    "Verif.C85_minus",
    "Verif.C85_power",
    "Verif.C85_returns",
    "Verif.C85_minus_returns",
    "Verif.C85_order",
    "Verif.C85_kind",
    "Verif.C85_asymmetry"
   ],
   "note": "C85_plus, C85_times, C85_minus, C85_power, C85_returns, C85_minus_returns, C85_order, C85_kind, C85_asymmetry (Schur+lc returns while lc+Schur raises)."
  },
  {
   "property": "C86",
   "status": "proved",
   "theorems": [
    "Verif.C86_boxes",
    "Verif.C86_once",
    "Verif.C86_count",
    "Verif.C86_faithful",
    "Verif.C86_printed",
    "Verif.C86_tikz",
    "Verif.C86_box_text",
    "Verif.C86_yd_text",
    "Verif.C86_rows",
    "Verif.C86_lines",
    "Verif.C86_label"
   ],
   "note": "C86_tikz, C86_boxes, C86_once, C86_count, C86_faithful, C86_printed, C86_box_text, C86_yd_text, C86_label, C86_rows, C86_lines. The float in the label position is modelled by its decimal text."
  },
  {
   "property": "C87",
   "status": "proved",
   "theorems": [
    "Verif.C87_classes",
    "Verif.C87_mult",
    "Verif.C87_qmult"
   ],
   "note": "C87_classes, C87_mult, C87_qmult; the result lists agree up to the order of the terms."
  },
  {
   "property": "C88",
   "status": "proved",
   "theorems": [
    "Verif.C88_qtranspose",
    "Verif.C88_transpose"
   ],
   "note": "C88_qtranspose, C88_transpose; conjugate partitions by the independent relation IsConjugate."
  },
  {
   "property": "C89",
   "status": "proved",
   "theorems": [
    "Verif.C89_qcolumn",
    "Verif.C89_column"
   ],
   "note": "C89_qcolumn, C89_column with an explicit combinatorial specification."
  },
  {
   "property": "C90",
   "status": "proved",
   "theorems": [
    "Verif.C90_pieri",
    "Verif.C90_act",
    "Verif.C90_raise",
    "Verif.C90_part2index_list"
   ],
   "note": "C90_pieri, C90_act, C90_raise. The functions cannot compute anything useful; recorded as a disagreement in DESIGN.md."
  },
  {
   "property": "C91",
   "status": "proved",
   "theorems": [
    "Verif.C91_hooks",
    "Verif.C91_relations"
   ],
   "note": "C91_hooks, C91_relations."
  },
  {
   "property": "C92",
   "status": "proved",
   "theorems": [
    "Verif.C92_IG_quantum",
    "Verif.C92_IG_classical",
    "Verif.C92_OG_classical",
    "Verif.C92_OG_quantum"
   ],
   "note": "C92_IG_classical, C92_IG_quantum, C92_OG_classical, C92_OG_quantum."
  },
  {
   "property": "C93",
   "status": "proved",
   "theorems": [
    "Verif.C93_part_itr",
    "Verif.C93_itr_kstrict",
    "Verif.C93_part_itr_between",
    "Verif.C93_pieri_itrA",
    "Verif.C93_pieri_itr",
    "Verif.C93_part_gen"
   ],
   "note": "C93_part_itr, C93_itr_kstrict, C93_part_itr_between, C93_pieri_itrA, C93_pieri_itr, C93_part_gen. The order is the lexicographic order of Lean's library on lists."
  },
  {
   "property": "C94",
   "status": "proved",
   "theorems": [
    "Verif.C94_grammar",
    "Verif.C94_unambiguous",
    "Verif.C94_parse_str",
    "Verif.C94_read_str",
    "Verif.C94_shown",
    "Verif.C94_round_trip",
    "Verif.C94_printTerms",
    "Verif.C94_reparse"
   ],
   "note": "C94_grammar, C94_unambiguous, C94_parse_str, C94_read_str, C94_round_trip, C94_reparse. sympy's printer and parser are modelled on polynomials (see DESIGN.md); entries of partitions have to be non-negative."
  },
  {
   "property": "C95",
   "status": "proved",
   "theorems": [
    "Verif.C95_list",
    "Verif.C95_schur",
    "Verif.C95_str",
    "Verif.C95_other",
    "Verif.C95_refuted_negative"
   ],
   "note": "C95_list, C95_schur, C95_str, C95_other; C95_refuted_negative shows why the entries have to be non-negative. Floats are not distinguished from rational numbers."
  },
  {
   "property": "C96",
   "status": "proved",
   "theorems": [
    "Verif.C96_sum",
    "Verif.C96_product",
    "Verif.C96_power",
    "Verif.C96_invalid",
    "Verif.C96_len"
   ],
   "note": "C96_sum, C96_product, C96_power, C96_invalid, C96_len"
  },
  {
   "property": "C97",
   "status": "proved",
   "theorems": [
    "Verif.C97_effect",
    "Verif.C97_unchanged",
    "Verif.C97_again",
    "Verif.C97_refuted"
   ],
   "note": "C97_effect, C97_unchanged, C97_again; C97_refuted is the instance that makes the side effect harmful (trailing zeros carry the type in type D)"
  },
  {
   "property": "C98",
   "status": "proved",
   "theorems": [
    "Verif.C98_injective",
    "Verif.C98_constructor"
   ],
   "note": "C98_injective, C98_constructor"
  },
  {
   "property": "C99",
   "status": "proved",
   "theorems": [
    "Verif.C99_quantum",
    "Verif.C99_classical",
    "Verif.C99_mid_quantum",
    "Verif.C99_mid_classical"
   ],
   "note": "C99_classical, C99_quantum, C99_mid_classical, C99_mid_quantum"
  },
  {
   "property": "C100",
   "status": "proved",
   "theorems": [
    "Verif.C100_qpieri_closed",
    "Verif.C100_qpieri_comm",
    "Verif.C100_qact",
    "Verif.C100_special"
   ],
   "note": "C100_qpieri_closed, C100_qpieri_comm, C100_qact, C100_special. p >= -1: for p < -1 (no class of the space) the code gives no terms with a single q1 or q2. The order in which set elements are listed is assumed to be ascending for ascending lists (Ascending ord), as in C50."
  },
  {
   "property": "C101",
   "status": "proved",
   "theorems": [
    "Verif.C101_giambelli",
    "Verif.C101_qgiambelli",
    "Verif.C101_linear"
   ],
   "note": "C101_giambelli, C101_qgiambelli, C101_linear. Statement in the polynomial ring over Q (den of the returned expression), with the determinant of Mathlib."
  },
  {
   "property": "C102",
   "status": "proved",
   "theorems": [
    "Verif.C102_act",
    "Verif.C102_qact",
    "Verif.C102_everywhere"
   ],
   "note": "C102_act, C102_qact, C102_everywhere."
  },
  {
   "property": "C103",
   "status": "proved",
   "theorems": [
    "Verif.C103_IG_quantum",
    "Verif.C103_IG_classical",
    "Verif.C103_Gr_quantum",
    "Verif.C103_Gr_classical",
    "Verif.C103_OG_classical",
    "Verif.C103_OG_quantum"
   ],
   "note": "C103_Gr_classical, C103_Gr_quantum, C103_IG_classical, C103_IG_quantum, C103_OG_classical, C103_OG_quantum. The results are exact (one term), for S[K]+q up to order."
  },
  {
   "property": "C104",
   "status": "proved",
   "theorems": [
    "Verif.C104_IG_classical",
    "Verif.C104_IG_quantum",
    "Verif.C104_OG_classical",
    "Verif.C104_OG_quantum",
    "Verif.C104_OGD_classical",
    "Verif.C104_OGD_quantum"
   ],
   "note": "C104_IG_classical, C104_IG_quantum, C104_OG_classical, C104_OG_quantum, C104_OGD_classical, C104_OGD_quantum."
  },
  {
   "property": "C105",
   "status": "proved",
   "theorems": [
    "Verif.C105_Gr_skew",
    "Verif.C105_Gr",
    "Verif.C105_Gr_degree",
    "Verif.C105_OG",
    "Verif.C105_OGD",
    "Verif.C105_IG",
    "Verif.C105_OG_degree",
    "Verif.C105_OGD_degree",
    "Verif.C105_IG_degree"
   ],
   "note": "C105_Gr_skew, C105_Gr, C105_Gr_degree, C105_OG, C105_OGD, C105_IG, C105_OG_degree, C105_OGD_degree, C105_IG_degree."
  },
  {
   "property": "C106",
   "status": "proved",
   "theorems": [
    "Verif.C106_mult",
    "Verif.C106_qmult"
   ],
   "note": "C106_mult, C106_qmult: the result is a permutation of an explicit list of terms."
  },
  {
   "property": "C107",
   "status": "proved",
   "theorems": [
    "Verif.C107_OG_odd",
    "Verif.C107_OG_even",
    "Verif.C107_IG"
   ],
   "note": "C107_OG_odd, C107_OG_even, C107_IG: the result is exactly the one term."
  },
  {
   "property": "C108",
   "status": "proved",
   "theorems": [
    "Verif.C108_Gr",
    "Verif.C108_size"
   ],
   "note": "C108_Gr; C108_size: the size of the shape is the sum of the content. The tableaux are given as a finite set with exactly the tableaux of that shape and content as members."
  },
  {
   "property": "C109",
   "status": "proved",
   "theorems": [
    "Verif.C109_quantum",
    "Verif.C109_classical",
    "Verif.C109_classes"
   ],
   "note": "C109_quantum and C109_classical (up to the order of the terms); C109_classes says that the table covers all classes. OG(1,4), where the code uses q1 and q2, is covered by the classical part only."
  },
  {
   "property": "C110",
   "status": "proved",
   "theorems": [
    "Verif.C110_IG",
    "Verif.C110_OG",
    "Verif.C110_qIG",
    "Verif.C110_qOG"
   ],
   "note": "C110_IG, C110_qIG, C110_OG, C110_qOG, up to the order of the terms. The quantum product on OG(1,2n+1) is in C103."
  },
  {
   "property": "C111",
   "status": "proved",
   "theorems": [
    "Verif.C111_giambelli_IG",
    "Verif.C111_qgiambelli_IG",
    "Verif.C111_giambelli_OG",
    "Verif.C111_qgiambelli_OG"
   ],
   "note": "C111_giambelli_IG, C111_qgiambelli_IG, C111_giambelli_OG, C111_qgiambelli_OG: the polynomial denoted by the returned list."
  },
  {
   "property": "C112",
   "status": "proved",
   "theorems": [
    "Verif.C112_qgiambelli",
    "Verif.C112_closed",
    "Verif.C112_error",
    "Verif.C112_comm",
    "Verif.C112_left_comm",
    "Verif.C112_assoc",
    "Verif.C112_assoc_free",
    "Verif.C112_special",
    "Verif.C112_classical"
   ],
   "note": "C112_qgiambelli, C112_closed, C112_error, C112_comm, C112_left_comm, C112_assoc, C112_assoc_free, C112_special, C112_classical."
  },
  {
   "property": "C113",
   "status": "proved",
   "theorems": [
    "Verif.C113_duality",
    "Verif.C113_symmetric"
   ],
   "note": "C113_duality, C113_symmetric."
  },
  {
   "property": "C114",
   "status": "proved",
   "theorems": [
    "Verif.C114_swap"
   ],
   "note": "C114_swap."
  },
  {
   "property": "C115",
   "status": "proved",
   "theorems": [
    "Verif.C115_terms"
   ],
   "note": "C115_terms."
  },
  {
   "property": "C116",
   "status": "proved",
   "theorems": [
    "Verif.C116_top",
    "Verif.C116_square"
   ],
   "note": "C116_top, C116_square."
  },
  {
   "property": "C117",
   "status": "proved",
   "theorems": [
    "Verif.C117_staircase",
    "Verif.C117_staircase2"
   ],
   "note": "C117_staircase (m different from n), C117_staircase2 (m=n, two parameters)."
  },
  {
   "property": "C118",
   "status": "proved",
   "theorems": [
    "Verif.C118_roots"
   ],
   "note": "C118_roots."
  },
  {
   "property": "C119",
   "status": "proved",
   "theorems": [
    "Verif.C119_vafa"
   ],
   "note": "C119_vafa. roots_exist: over an algebraically closed field such elements exist."
  },
  {
   "property": "C120",
   "status": "proved",
   "theorems": [
    "Verif.C120_pos",
    "Verif.C120_hom",
    "Verif.C120_nonzero"
   ],
   "note": "C120_pos, C120_hom, C120_nonzero."
  },
  {
   "property": "C121",
   "status": "proved",
   "theorems": [
    "Verif.C121_IG",
    "Verif.C121_IG_nonzero",
    "Verif.C121_OG_odd",
    "Verif.C121_OG_odd_nonzero",
    "Verif.C121_OG_even",
    "Verif.C121_OG_even_nonzero"
   ],
   "note": "C121_IG, C121_IG_nonzero, C121_OG_odd, C121_OG_odd_nonzero, C121_OG_even, C121_OG_even_nonzero."
  },
  {
   "property": "C122",
   "status": "proved",
   "theorems": [
    "Verif.C122_pieri_IG",
    "Verif.C122_qpieri_IG",
    "Verif.C122_pieri_OG_odd",
    "Verif.C122_qpieri_OG_odd",
    "Verif.C122_pieri_OG_even",
    "Verif.C122_qpieri_OG_even",
    "Verif.C122_qpieri_OG_two",
    "Verif.C122_pieri_Gr",
    "Verif.C122_qpieri_Gr"
   ],
   "note": "C122_pieri_Gr, C122_qpieri_Gr, C122_pieri_IG, C122_qpieri_IG, C122_pieri_OG_odd, C122_qpieri_OG_odd, C122_pieri_OG_even, C122_qpieri_OG_even, C122_qpieri_OG_two."
  },
  {
   "property": "C123",
   "status": "proved",
   "theorems": [
    "Verif.C123_OG_odd",
    "Verif.C123_OG_even",
    "Verif.C123_IG",
    "Verif.C123_staircase"
   ],
   "note": "C123_OG_odd, C123_OG_even, C123_IG, C123_staircase. The hypotheses of the symmetry are met for every l and nu by C107 and C117."
  },
  {
   "property": "C124",
   "status": "proved",
   "theorems": [
    "Verif.C124_top",
    "Verif.C124_staircase"
   ],
   "note": "C124_top, C124_staircase. The hypotheses of the symmetry are met for every l and nu by C116 and C117."
  },
  {
   "property": "C125",
   "status": "proved",
   "theorems": [
    "Verif.C125_hom",
    "Verif.C125_nonzero",
    "Verif.C125_qpieri"
   ],
   "note": "C125_hom, C125_nonzero, C125_qpieri."
  },
  {
   "property": "C126",
   "status": "proved",
   "theorems": [
    "Verif.C126_load",
    "Verif.C126_batches",
    "Verif.C126_batches_errors",
    "Verif.C126_tested",
    "Verif.C126_command",
    "Verif.C126_space",
    "Verif.C126_test",
    "Verif.C126_test_rh",
    "Verif.C126_refuted_all_rows",
    "Verif.C126_badge",
    "Verif.C126_badge_text",
    "Verif.C126_evolution",
    "Verif.C126_refuted_blue"
   ],
   "note": "C126_load, C126_batches, C126_tested, C126_command, C126_space, C126_test, C126_test_rh, C126_badge, C126_badge_text, C126_evolution; C126_refuted_all_rows and C126_refuted_blue show what does not hold."
  },
  {
   "property": "C127",
   "status": "proved",
   "theorems": [
    "Verif.C127_IG_classical",
    "Verif.C127_IG_quantum",
    "Verif.C127_OG_classical",
    "Verif.C127_OG_quantum",
    "Verif.C127_OGD_classical",
    "Verif.C127_OGD_quantum"
   ],
   "note": "C127_IG_classical, C127_IG_quantum, C127_OG_classical, C127_OG_quantum, C127_OGD_classical, C127_OGD_quantum; the coefficients of the results are compared, every product is shown to be returned."
  },
  {
   "property": "C128",
   "status": "proved",
   "theorems": [
    "Verif.C128_IG_classical",
    "Verif.C128_IG_quantum",
    "Verif.C128_OG_classical",
    "Verif.C128_OG_quantum",
    "Verif.C128_OGD_classical",
    "Verif.C128_OGD_quantum"
   ],
   "note": "C128_IG_classical, C128_IG_quantum, C128_OG_classical, C128_OG_quantum, C128_OGD_classical, C128_OGD_quantum; examples: a rational point of IG(2,4) and OG(3,7), a point over the dual numbers for the classical rings."
  },
  {
   "property": "C129",
   "status": "proved",
   "theorems": [
    "Verif.C129_IG",
    "Verif.C129_OG",
    "Verif.C129_OGD",
    "Verif.C129_points"
   ],
   "note": "C129_IG, C129_OG, C129_OGD, C129_points; examples on IG(2,4) and OG(2,5) over the complex numbers, OG(2,4) over the rationals."
  },
  {
   "property": "C130",
   "status": "proved",
   "theorems": [
    "Verif.C130_lines"
   ],
   "note": "C130_lines; example: S[2]*S[1] on IG(2,4) and IG(3,6)."
  },
  {
   "property": "C131",
   "status": "proved",
   "theorems": [
    "Verif.C131_quantum",
    "Verif.C131_quantumD"
   ],
   "note": "C131_quantum, C131_quantumD; examples on IG(2,4), OG(3,7) and OG(4,8)."
  },
  {
   "property": "C132",
   "status": "proved",
   "theorems": [
    "Verif.C132_edges",
    "Verif.C132_nodes",
    "Verif.C132_flat",
    "Verif.C132_inner"
   ],
   "note": "C132_inner proves the wrong attribution of calls after inner functions and at module level with a concrete tree."
  },
  {
   "property": "C133",
   "status": "proved",
   "theorems": [
    "Verif.C133_IG_classical",
    "Verif.C133_IG_quantum",
    "Verif.C133_OG_classical",
    "Verif.C133_OG_quantum"
   ],
   "note": "C133_IG_classical, C133_IG_quantum, C133_OG_classical, C133_OG_quantum. With C104 (k=0) this covers all isotropic Grassmannians of types B and C."
  },
  {
   "property": "C134",
   "status": "proved",
   "theorems": [
    "Verif.C134_IG_classical",
    "Verif.C134_IG_quantum",
    "Verif.C134_OG_classical",
    "Verif.C134_OG_quantum"
   ],
   "note": "C134_IG_classical, C134_IG_quantum, C134_OG_classical, C134_OG_quantum."
  },
  {
   "property": "C135",
   "status": "proved",
   "theorems": [
    "Verif.C135_classical",
    "Verif.C135_quantum"
   ],
   "note": "C135_classical, C135_quantum. k=0 is C104; for k=1 (OG(m,2m+2) with q1, q2) see C137."
  },
  {
   "property": "C136",
   "status": "proved",
   "theorems": [
    "Verif.C136_classical",
    "Verif.C136_quantum",
    "Verif.C136_one"
   ],
   "note": "C136_classical, C136_quantum; C136_one for k=1."
  },
  {
   "property": "C137",
   "status": "proved",
   "theorems": [
    "Verif.C137_presentation",
    "Verif.C137_det",
    "Verif.C137_difference"
   ],
   "note": "C137_presentation, C137_det, C137_difference."
  },
  {
   "property": "C138",
   "status": "proved",
   "theorems": [
    "Verif.C138_columns"
   ],
   "note": "C138_columns."
  },
  {
   "property": "C139",
   "status": "proved",
   "theorems": [
    "Verif.C139_classes",
    "Verif.C139_classes_D",
    "Verif.C139_IG",
    "Verif.C139_OG_odd",
    "Verif.C139_OG_even"
   ],
   "note": "C139_classes, C139_classes_D, C139_IG, C139_OG_odd, C139_OG_even."
  },
  {
   "property": "C140",
   "status": "proved",
   "theorems": [
    "Verif.C140_odd",
    "Verif.C140_one",
    "Verif.C140_two"
   ],
   "note": "C140_odd, C140_one, C140_two."
  },
  {
   "property": "C141",
   "status": "proved",
   "theorems": [
    "Verif.C141_IG",
    "Verif.C141_OG_odd"
   ],
   "note": "C141_IG, C141_OG_odd."
  },
  {
   "property": "C142",
   "status": "proved",
   "theorems": [
    "Verif.C142_vanishing"
   ],
   "note": "C142_vanishing."
  },
  {
   "property": "C143",
   "status": "proved",
   "theorems": [
    "Verif.C143_vanishing"
   ],
   "note": "C143_vanishing."
  },
  {
   "property": "C144",
   "status": "proved",
   "theorems": [
    "Verif.C144_smallest_power"
   ],
   "note": "C144_smallest_power."
  },
  {
   "property": "C145",
   "status": "proved",
   "theorems": [
    "Verif.C145_powers",
    "Verif.C145_no_gaps"
   ],
   "note": "C145_powers, C145_no_gaps."
  },
  {
   "property": "C146",
   "status": "proved",
   "theorems": [
    "Verif.C146_smallest_power"
   ],
   "note": "C146_smallest_power. With d = 0 the condition is that of C141."
  },
  {
   "property": "C147",
   "status": "proved",
   "theorems": [
    "Verif.C147_IG",
    "Verif.C147_OG_odd",
    "Verif.C147_OG_even"
   ],
   "note": "C147_IG, C147_OG_odd, C147_OG_even."
  },
  {
   "property": "C148",
   "status": "proved",
   "theorems": [
    "Verif.C148_smallest_power"
   ],
   "note": "C148_smallest_power."
  },
  {
   "property": "C149",
   "status": "proved",
   "theorems": [
    "Verif.C149_IG",
    "Verif.C149_OG",
    "Verif.C149_OG_max",
    "Verif.C149_Gr"
   ],
   "note": "C149_Gr, C149_IG, C149_OG, C149_OG_max."
  },
  {
   "property": "C150",
   "status": "proved",
   "theorems": [
    "Verif.C150_compare",
    "Verif.C150_compare_max"
   ],
   "note": "C150_compare, C150_compare_max."
  },
  {
   "property": "C151",
   "status": "proved",
   "theorems": [
    "Verif.C151_Gr",
    "Verif.C151_IG",
    "Verif.C151_OG",
    "Verif.C151_OG_even"
   ],
   "note": "C151_Gr, C151_IG, C151_OG, C151_OG_even."
  }
 ]
}