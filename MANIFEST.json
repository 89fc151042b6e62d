{
 "claims": [
  {
   "property": "C01",
   "status": "proved",
   "theorems": [
    "LC.C01_generator_order",
    "LC.C01_generator_order_layout",
    "LC.C01_tuple_order"
   ],
   "note": ""
  },
  {
   "property": "C02",
   "status": "proved",
   "theorems": [
    "LC.C02_monomial_order",
    "LC.C02_monomial_order_predefined",
    "LC.C02_shorter_first"
   ],
   "note": ""
  },
  {
   "property": "C03",
   "status": "proved",
   "theorems": [
    "LC.C03_dyn_indices_order",
    "LC.C03_dyn_indices_layout",
    "LC.C03_generators_with_dyn_indices"
   ],
   "note": ""
  },
  {
   "property": "C04",
   "status": "proved",
   "theorems": [
    "LC.C04_normalisation_sound",
    "LC.C04_arithmetic_sound"
   ],
   "note": "any generator family satisfying the documented contract, any associative algebra"
  },
  {
   "property": "C05",
   "status": "partial",
   "theorems": [
    "LC.C05_stored_monomials_canonical_partial",
    "LC.C05_constructor_partial",
    "LC.C05_canonical_fixed_partial",
    "LC.C05_F2_counterexample"
   ],
   "note": "missing case: a spin-1/2 and a higher spin at the same index; there the claim is false in the code (F2), proved by C05_F2_counterexample"
  },
  {
   "property": "C06",
   "status": "proved",
   "theorems": [
    "LC.C06_predefined_algebras",
    "LC.C06_normalisation_sound_predefined",
    "LC.C06_textbook_satisfiable",
    "LC.C06_F2_mixed_multiplicities_do_not_commute"
   ],
   "note": ""
  },
  {
   "property": "C07",
   "status": "proved",
   "theorems": [
    "LC.C07_canonical_map",
    "LC.C07_constructor"
   ],
   "note": "scalars: integral domains of characteristic 0"
  },
  {
   "property": "C08",
   "status": "proved",
   "theorems": [
    "LC.C08_add_comm_assoc",
    "LC.C08_zero_neg_sub",
    "LC.C08_coefficients",
    "LC.C08_eq_iff_coefficients"
   ],
   "note": ""
  },
  {
   "property": "C09",
   "status": "proved",
   "theorems": [
    "LC.C09_module"
   ],
   "note": ""
  },
  {
   "property": "C10",
   "status": "proved",
   "theorems": [
    "LC.C10_bilinear"
   ],
   "note": ""
  },
  {
   "property": "C11",
   "status": "proved",
   "theorems": [
    "LC.C11_mul_assoc",
    "LC.C11_unit",
    "LC.C11_mul_assoc_low_powers",
    "LC.C11_F15_spin_one_not_associative"
   ],
   "note": "fermions, bosons, spins-1/2, as the property states; for spins S>=1 proved when no ladder power can reach the multiplicity, otherwise shown to fail (F15)"
  },
  {
   "property": "C12",
   "status": "proved",
   "theorems": [
    "LC.C12_eq_iff_same_operator",
    "LC.C12_zero_iff"
   ],
   "note": ""
  },
  {
   "property": "C13",
   "status": "proved",
   "theorems": [
    "LC.C13_car"
   ],
   "note": ""
  },
  {
   "property": "C14",
   "status": "proved",
   "theorems": [
    "LC.C14_ccr"
   ],
   "note": ""
  },
  {
   "property": "C15",
   "status": "proved",
   "theorems": [
    "LC.C15_spin_commutators",
    "LC.C15_spin_half_products",
    "LC.C15_spin_sites_commute"
   ],
   "note": ""
  },
  {
   "property": "C16",
   "status": "partial",
   "theorems": [
    "LC.C16_commute_partial",
    "LC.C16_expressions_commute",
    "LC.C16_expressions_commute_all_spins",
    "LC.C06_F2_mixed_multiplicities_do_not_commute"
   ],
   "note": "missing case: spin-1/2 against another multiplicity at the same index; there the claim is false in the code (F2)"
  },
  {
   "property": "C17",
   "status": "proved",
   "theorems": [
    "LC.C17_conj_all_spins",
    "LC.C17_hc_all_spins",
    "LC.C17_conj",
    "LC.C17_hc"
   ],
   "note": "All spins; where a spin 1/2 shares its indices with another spin (finding F2) excluded by HalfAlone."
  },
  {
   "property": "C18",
   "status": "partial",
   "theorems": [
    "LC.C18_ladder_powers",
    "LC.C18_ladder_zero_iff",
    "LC.C18_fermion_squares",
    "LC.C18_in_any_product_partial",
    "LC.C18_F15_spin_one_product_survives"
   ],
   "note": "'in any product' holds for fermions and spins-1/2; it is false in the code for spins S>=1 (F15), proved by C18_F15_spin_one_product_survives"
  },
  {
   "property": "C19",
   "status": "proved",
   "theorems": [
    "LC.C19_mixed_agree"
   ],
   "note": ""
  },
  {
   "property": "C20",
   "status": "proved",
   "theorems": [
    "LC.C20_scalars"
   ],
   "note": ""
  },
  {
   "property": "C21",
   "status": "proved",
   "theorems": [
    "LC.C21_transform"
   ],
   "note": ""
  },
  {
   "property": "C22",
   "status": "partial",
   "theorems": [
    "LC.C22_add_assign_self_partial",
    "LC.C22_mul_assign_self_partial",
    "LC.C22_F10_sub_assign_self",
    "LC.C22_F17_scale_by_own_coefficient",
    "LC.C22_F17_scaled_coefficients"
   ],
   "note": "e += e and e *= e proved; e -= e is undefined behaviour for every non-zero e (F10), also proved"
  },
  {
   "property": "C23",
   "status": "proved",
   "theorems": [
    "LC.C23_next_pow2",
    "LC.C23_next_pow2_beyond"
   ],
   "note": "both compilation branches; beyond 2^63 the behaviour is undefined"
  },
  {
   "property": "C24",
   "status": "proved",
   "theorems": [
    "LC.C24_extract_bits",
    "LC.C24_deposit_bits",
    "LC.C24_round_trips"
   ],
   "note": "portable branch; BMI2 intrinsics are trusted"
  },
  {
   "property": "C25",
   "status": "partial",
   "theorems": [
    "LC.C25_counts_partial",
    "LC.C25_F13_portable_popcount_wrong"
   ],
   "note": "the portable popcount fallback is wrong in the code (F13)"
  },
  {
   "property": "C46",
   "status": "partial",
   "theorems": [
    "LC.C46_binomial_partial",
    "LC.C46_binomial_63",
    "LC.C46_F9_overflow"
   ],
   "note": "n = 63 with 29 <= k <= 34 overflows in the code (F9)"
  },
  {
   "property": "C47",
   "status": "proved",
   "theorems": [
    "LC.C47_combination_ranking"
   ],
   "note": ""
  },
  {
   "property": "C48",
   "status": "proved",
   "theorems": [
    "LC.C48_unranking",
    "LC.C48_F9_wrong_size"
   ],
   "note": "all M <= 62 as stated, and also M = 63 outside 29..34 particles"
  },
  {
   "property": "C49",
   "status": "proved",
   "theorems": [
    "LC.C49_staggered_ranking"
   ],
   "note": ""
  },
  {
   "property": "C26",
   "status": "proved",
   "theorems": [
    "LC.C26_bit_ranges",
    "LC.C26_algebra_ranges",
    "LC.C26_construction_succeeds_iff"
   ],
   "note": ""
  },
  {
   "property": "C27",
   "status": "proved",
   "theorems": [
    "LC.C27_foreach",
    "LC.C27_dim_counts_states",
    "LC.C27_F4_int_overflow"
   ],
   "note": "sparse iteration for dimensions below 2^31; beyond that the code overflows an int (F4)"
  },
  {
   "property": "C28",
   "status": "proved",
   "theorems": [
    "LC.C28_order_independent",
    "LC.C28_add"
   ],
   "note": ""
  },
  {
   "property": "C29",
   "status": "partial",
   "theorems": [
    "LC.C29_copy_partial",
    "LC.C29_F1_copy_loses_algebras",
    "LC.C29_F1_assignment_keeps_old_ranges",
    "LC.C29_F1_no_fermions_on_copies"
   ],
   "note": "copies lose the algebra bit ranges in the code (F1)"
  },
  {
   "property": "C31",
   "status": "partial",
   "theorems": [
    "LC.C31_failed_add_partial",
    "LC.C31_F16_too_big_add",
    "LC.C31_add_throws_iff"
   ],
   "note": "add() throwing hilbert_space_too_big leaves a modified object (F16)"
  },
  {
   "property": "C32",
   "status": "partial",
   "theorems": [
    "LC.C32_nested_foreach_partial",
    "LC.C32_F5_nested_foreach_disturbed"
   ],
   "note": "sparse iteration state is shared in the code (F5)"
  },
  {
   "property": "C59",
   "status": "partial",
   "theorems": [
    "LC.C59_equal_spaces_partial",
    "LC.C59_F18_boson_dimension_ignored"
   ],
   "note": "dimensions of bosonic spaces are ignored in comparisons (F18)"
  },
  {
   "property": "C33",
   "status": "proved",
   "theorems": [
    "LC.C33_fermionic_action",
    "LC.C33_fermionic_action_exists",
    "LC.C33_C34_C35_mixed_action"
   ],
   "note": ""
  },
  {
   "property": "C34",
   "status": "proved",
   "theorems": [
    "LC.C34_bosonic_action",
    "LC.C33_C34_C35_mixed_action"
   ],
   "note": ""
  },
  {
   "property": "C35",
   "status": "proved",
   "theorems": [
    "LC.C35_spin_action",
    "LC.C33_C34_C35_mixed_action"
   ],
   "note": ""
  },
  {
   "property": "C36",
   "status": "proved",
   "theorems": [
    "LC.C36_valid_target"
   ],
   "note": ""
  },
  {
   "property": "C37",
   "status": "proved",
   "theorems": [
    "LC.C37_tables_in_bounds",
    "LC.act_hypotheses"
   ],
   "note": ""
  },
  {
   "property": "C30",
   "status": "proved",
   "theorems": [
    "LC.C30_space_of_expression",
    "LC.C30_throws_iff"
   ],
   "note": ""
  },
  {
   "property": "C38",
   "status": "proved",
   "theorems": [
    "LC.C38_operator_action",
    "LC.C38_operator_action_value",
    "LC.C38_dense",
    "LC.C38_linear_in_vector",
    "LC.C38_linear_in_expression",
    "LC.c38_hypotheses"
   ],
   "note": "for distinct source and destination; op(v, v) zeroes its source first (C38_aliased_call_gives_zero)"
  },
  {
   "property": "C40",
   "status": "proved",
   "theorems": [
    "LC.C40_parametric",
    "LC.C40_at"
   ],
   "note": "coefficient functions are assumed pure"
  },
  {
   "property": "C42",
   "status": "proved",
   "theorems": [
    "LC.C42_sparse_refines_amplitudes"
   ],
   "note": ""
  },
  {
   "property": "C39",
   "status": "proved",
   "theorems": [
    "LC.C39_products",
    "LC.C39_products_fermions_spins",
    "LC.C39_products_bosons",
    "LC.c39_hypotheses"
   ],
   "note": "bosons: for states whose images under the terms of b stay below the cutoffs"
  },
  {
   "property": "C41",
   "status": "proved",
   "theorems": [
    "LC.C41_adjoint",
    "LC.c39_hypotheses"
   ],
   "note": ""
  },
  {
   "property": "C43",
   "status": "proved",
   "theorems": [
    "LC.C43_map_index",
    "LC.C43_foreach",
    "LC.C43_lawful",
    "LC.C43_operator_action",
    "LC.C43_F14_dimension_one",
    "LC.C43_F4_int_overflow"
   ],
   "note": "map_index for every constructed Hilbert space; iteration and the state-vector interface for 1 < dim < 2^31. Outside that range the property fails: findings F14 (dimension 1) and F4 (int counter), both proved as counterexamples."
  },
  {
   "property": "C44",
   "status": "proved",
   "theorems": [
    "LC.C44_of_list",
    "LC.C44_inverse",
    "LC.C44_of_operator",
    "LC.C44_view"
   ],
   "note": "Lists, operators, inverse map and views, for every behaviour of std::unordered_map's iteration order."
  },
  {
   "property": "C45",
   "status": "partial",
   "theorems": [
    "LC.C45_compositions_partial",
    "LC.C45_commuting",
    "LC.C45_commuting_expressions",
    "LC.C45_fermions",
    "LC.C45_F12_operator_order",
    "LC.C45_empty_list"
   ],
   "note": "The factors are applied in the order opposite to the documentation (finding F12, proved as counterexample); the documented set is proved for operators that commute up to non-zero factors. For an empty list and N>0 the mapper contains the vacuum."
  },
  {
   "property": "C51",
   "status": "partial",
   "theorems": [
    "LC.C51_sector_partial",
    "LC.C51_view_partial",
    "LC.C51_no_such_sector",
    "LC.C51_sparse",
    "LC.C51_F14_dimension_one",
    "LC.C51_F1_copies"
   ],
   "note": "For all three rankings (trie: at most 62 modes); 63 modes with 29<=N<=34 are excluded because the binomial overflows (F9). Hilbert spaces of dimension one and copies of Hilbert spaces violate the property (F14, F1, proved as counterexamples)."
  },
  {
   "property": "C52",
   "status": "partial",
   "theorems": [
    "LC.C52_multisector_partial",
    "LC.C52_view_partial",
    "LC.C52_generator_size",
    "LC.C52_improper",
    "LC.C52_no_such_sector",
    "LC.C52_sparse",
    "LC.C52_F7_truncated_mask",
    "LC.C52_F14_dimension_one"
   ],
   "note": "Proved when all modes of the sectors are stored in the lowest 32 bits. Beyond that the property fails (finding F7, proved as counterexample); also for spaces of dimension one (F14)."
  },
  {
   "property": "C53",
   "status": "proved",
   "theorems": [
    "LC.C53_find_root",
    "LC.C53_in_same_set",
    "LC.C53_n_sets",
    "LC.C53_n_sets_unique",
    "LC.C53_total",
    "LC.C53_example"
   ],
   "note": "For every sequence of calls of the public functions of disjoint_sets with valid arguments (DsHistory)."
  },
  {
   "property": "C54",
   "status": "partial",
   "theorems": [
    "LC.C54_compress_partial",
    "LC.C54_normalize_partial",
    "LC.C54_find_all_normalize_partial",
    "LC.C54_F3"
   ],
   "note": "Both announcements are false in general (C54_F3, four elements). Proved: compress_sets() leaves at most two steps to the representative; normalize_sets() makes the smallest member the representative when every parent is a representative, e.g. after find_root was called for every element."
  },
  {
   "property": "C55",
   "status": "proved",
   "theorems": [
    "LC.C55_partition",
    "LC.C55_invariant",
    "LC.C55_finest",
    "LC.C55_matrix_elements"
   ],
   "note": "Joined = equivalence generated by the non-zero matrix elements between valid basis states; both constructors; also after any queries (which modify mutable members). Sparse Hilbert spaces of dimension >= 2^31 excluded (F4). c55_hypotheses shows a concrete case."
  },
  {
   "property": "C56",
   "status": "proved",
   "theorems": [
    "LC.C56_values",
    "LC.C56_bases",
    "LC.C56_order",
    "LC.C56_queries"
   ],
   "note": "For every object obtained by constructors, merge_subspaces and queries. Also: subspaces are numbered in order of their smallest states, operator[] throws for indices that are not basis states."
  },
  {
   "property": "C57",
   "status": "partial",
   "theorems": [
    "LC.C57_merge_partial",
    "LC.C57_F6_not_one_to_one"
   ],
   "note": "Proved: termination, coarser, each original subspace is connected to at most one new subspace, merging is minimal, one-to-one if nothing changed, returned maps are the matrix elements. The full claim is false of the code (finding F6): C57_F6_not_one_to_one."
  },
  {
   "property": "C58",
   "status": "proved",
   "theorems": [
    "LC.C58_find_connections"
   ],
   "note": "For every partition object and operator."
  },
  {
   "property": "C50",
   "status": "partial",
   "theorems": [
    "LC.C50_trie_ranking_partial",
    "LC.C50_F19_63_modes"
   ],
   "note": "All R, M<=62, N, states: construction never accesses outside the vector or fails the assertion, every look-up is inside the final vector and equals the combination ranking. With 63 modes pow2(64) is undefined (F19, proved)."
  },
  {
   "property": "C60",
   "status": "partial",
   "theorems": [
    "LC.C60_sector_action_partial"
   ],
   "note": "Charge condition stated with countFermions (Spec/Sector, Spec/Charge); C62 gives it for products. Same exclusions as C51: dimension one (F14), 63 fermionic modes with 29..34 particles; std::vector as storage."
  },
  {
   "property": "C61",
   "status": "partial",
   "theorems": [
    "LC.C61_multisector_action_partial"
   ],
   "note": "Same exclusions as C52 (modes in the lowest 32 bits, F7; dimension one, F14); std::vector as storage."
  },
  {
   "property": "C62",
   "status": "proved",
   "theorems": [
    "LC.C62_monomial",
    "LC.C62_grading"
   ],
   "note": "Charges with values in any additive commutative group. Where a spin 1/2 shares its indices with another spin (finding F2) excluded by HalfAlone."
  },
  {
   "property": "C63",
   "status": "proved",
   "theorems": [
    "LC.C63_selection_rule"
   ],
   "note": "Matrix elements as in C38 (opEl), which C38 proves to be what operators compute."
  },
  {
   "property": "C64",
   "status": "proved",
   "theorems": [
    "LC.C64_monomials_strictly_increasing",
    "LC.C64_normal_form"
   ],
   "note": "ScalarFamily: no law is assumed about any scalar operation. C64_normal_form with HalfAlone (finding F2); writing through the mutable get_monomials() is outside. Scalar types whose make_const throws are outside."
  },
  {
   "property": "C65",
   "status": "proved",
   "theorems": [
    "LC.C65_sum",
    "LC.C65_difference",
    "LC.C65_scaling",
    "LC.C65_commutative",
    "LC.C65_sub_self"
   ],
   "note": ""
  },
  {
   "property": "C66",
   "status": "proved",
   "theorems": [
    "LC.C66_sum_error",
    "LC.C66_product_error",
    "LC.C66_monomial_error",
    "LC.C66_exact_scalars"
   ],
   "note": "Ring arithmetic exact, zero test with tolerance; hypotheses proved for rationals with |x|<eps and complex numbers with the library's test (exactUpTo_tolOps, exactUpTo_complexTol). Rounding is not part of this claim."
  },
  {
   "property": "C67",
   "status": "partial",
   "theorems": [
    "LC.C67_conj_partial",
    "LC.C67_conj_mixed_partial",
    "LC.C67_F11_stale_contribution"
   ],
   "note": "Proved when no conjugated coefficient is negligible: C67_conj_partial for monomials of one kind (all fermionic or all bosonic), C67_conj_mixed_partial for products of fermionic and bosonic operators. Otherwise false in the code (F11): C67_F11_stale_contribution, an error of a factor 2 with double coefficients."
  },
  {
   "property": "C68",
   "status": "partial",
   "theorems": [
    "LC.C68_constant_times",
    "LC.C68_scalar_vs_constant_partial",
    "LC.C68_F20_negligible_depends_on_length"
   ],
   "note": "C68_constant_times characterises the product exactly; equality proved when no product is negligible; otherwise false (F20), proved."
  },
  {
   "property": "C69",
   "status": "partial",
   "theorems": [
    "LC.C69_conversion",
    "LC.C69_mixed_expressions",
    "LC.C69_mixed_scalar_partial",
    "LC.C69_F21_zero_coefficients_stored",
    "LC.C69_F22_scalar_tested_in_its_own_type"
   ],
   "note": "Expressions: proved. Scalars: proved if conversion keeps the result of is_zero; otherwise false (F22), and narrowing conversions store zeros (F21), both proved."
  },
  {
   "property": "C70",
   "status": "proved",
   "theorems": [
    "LC.C70_user_order",
    "LC.C70_layout",
    "LC.C70_inherited_comparisons"
   ],
   "note": ""
  },
  {
   "property": "C71",
   "status": "proved",
   "theorems": [
    "LC.C71_normalisation_sound",
    "LC.C71_arithmetic_sound",
    "LC.C71_conj_sound"
   ],
   "note": "Reducing functions are assumed to write f iff they return true, as documented; linear functions of the user's own classes."
  },
  {
   "property": "C72",
   "status": "partial",
   "theorems": [
    "LC.C72_canonical_map_partial",
    "LC.C72_stored_monomials_partial",
    "LC.C72_F24_zero_coefficient_stored",
    "LC.C72_F28_real_zero_constant",
    "LC.C72_F25_reduced_power_not_normalised",
    "LC.C72_F27_exchanged_pair_not_simplified"
   ],
   "note": "Proved for algebras satisfying UserNoZeros and UserConfluent (both examples do); the documented contract alone is not enough: four counterexample algebras."
  },
  {
   "property": "C73",
   "status": "proved",
   "theorems": [
    "LC.C73_different_algebras_commute"
   ],
   "note": "For algebras satisfying UserNoZeros, UserConfluent, UserClosed, and spin multiplicities that do not mix 1/2 with others (F2)."
  },
  {
   "property": "C74",
   "status": "proved",
   "theorems": [
    "LC.C74_mul_assoc",
    "LC.C74_eq_iff_same_operator",
    "LC.C74_conj",
    "LC.C74_gamma"
   ],
   "note": "gamma_complete and gamma_conjRelations discharge the hypotheses for examples/gamma.hpp."
  },
  {
   "property": "C75",
   "status": "proved",
   "theorems": [
    "LC.C75_swap_relation",
    "LC.C75_simplify_relation",
    "LC.C75_conj_relation",
    "LC.C75_clifford",
    "LC.C75_gamma_conj",
    "LC.C75_virasoro_commutator",
    "LC.C75_virasoro_square",
    "LC.C75_virasoro_conj",
    "LC.C75_virasoro_recurrences",
    "LC.C75_virasoro_recurrences_divided",
    "LC.C75_virasoro_jacobi",
    "LC.C75_F23_virasoro_not_associative"
   ],
   "note": "C75_swap_relation excludes pairs that are simplified after the exchange (F27). F23: the example's rule L_n*L_n -> 0 makes the product non-associative."
  },
  {
   "property": "C76",
   "status": "proved",
   "theorems": [
    "LC.C76_add_comm_assoc",
    "LC.C76_zero_neg_sub",
    "LC.C76_coefficients",
    "LC.C76_eq_iff_coefficients",
    "LC.C76_module_laws",
    "LC.C76_bilinear",
    "LC.C76_mixed_agree",
    "LC.C76_scalars",
    "LC.C76_transform_spec"
   ],
   "note": "Under UserOrder and UserNoZeros."
  },
  {
   "property": "C77",
   "status": "proved",
   "theorems": [
    "LC.C77_integer_exact",
    "LC.C77_mul_assign_strong",
    "LC.C77_no_exception",
    "LC.C77_reachable",
    "LC.C77_spin_half_throws"
   ],
   "note": "Integers without overflow. C77_reachable transfers all theorems about rational coefficients."
  },
  {
   "property": "C78",
   "status": "proved",
   "theorems": [
    "LC.C78_rational_exact"
   ],
   "note": "Rationals without overflow; predefined algebras (a floating-point structure constant of a user-defined algebra makes make_const throw)."
  },
  {
   "property": "C79",
   "status": "proved",
   "theorems": [
    "LC.C79_operator_action",
    "LC.C79_operator_action_value",
    "LC.C79_dense",
    "LC.C79_predefined_classes",
    "LC.C79_default_operator",
    "LC.C79_gamma",
    "LC.C79_gamma5"
   ],
   "note": "Contract of a monomial_action: ActionContract (Spec/UserAction). C79_predefined_classes and C79_gamma discharge it for the classes in the repository."
  },
  {
   "property": "C80",
   "status": "partial",
   "theorems": [
    "LC.C80_unknown_generators",
    "LC.C80_predefined_classes",
    "LC.C80_unknown_generators_partial",
    "LC.C80_products",
    "LC.C80_relations",
    "LC.C80_gamma_products",
    "LC.C80_F29_cutoff_hides_unknown_mode",
    "LC.C80_F30_foreign_generator_accepted",
    "LC.C80_F30_whole_index",
    "LC.C80_F30_other_indices"
   ],
   "note": "Violated by the code: F29 (a bosonic power above the cutoff hides unknown generators after it; the operator is then zero, as C80_unknown_generators_partial says). F30 is about the example's monomial_action<gamma>. Products: whenever the matrices obey the relations (fermions, spins, user algebras; not truncated bosons)."
  },
  {
   "property": "C81",
   "status": "partial",
   "theorems": [
    "LC.C81_monomial_text",
    "LC.C81_expression_text",
    "LC.C81_generator_text",
    "LC.C81_readable_partial",
    "LC.C81_integer_indices",
    "LC.C81_string_indices",
    "LC.C81_coefficients",
    "LC.C81_F31_parenthesis",
    "LC.C81_F31_comma",
    "LC.C81_F31_dynamic"
   ],
   "note": "Violated for string indices with commas or parentheses and for dynamic indices (F31); proved for index types printed unambiguously. Printing of numbers is assumed (decimal)."
  },
  {
   "property": "C82",
   "status": "proved",
   "theorems": [
    "LC.C82_eigen_destination",
    "LC.C82_eigen_value",
    "LC.C82_same_memory",
    "LC.C82_same_object",
    "LC.C82_views",
    "LC.C82_apart"
   ],
   "note": "Eigen is not part of the repository: an Eigen object is taken to be equidistant elements of a memory."
  },
  {
   "property": "C83",
   "status": "partial",
   "theorems": [
    "LC.C83_agree",
    "LC.C83_lvalues",
    "LC.C83_rvalues_partial",
    "LC.C83_F32_moved_argument"
   ],
   "note": "Violated by the code for rvalues taken by value (F32); proved for lvalues, and for rvalues that the functions leave intact."
  },
  {
   "property": "C84",
   "status": "proved",
   "theorems": [
    "LC.C84_exact_or_exception",
    "LC.C84_no_exception",
    "LC.C84_integer",
    "LC.C84_rational",
    "LC.C84_F33_boson_number",
    "LC.C84_F33_spin_half"
   ],
   "note": "Integers and rationals without overflow; square roots and halves are exact reals. F33: the particle number of a boson (integers) and S_z of a spin 1/2 (rationals) throw although the matrix elements are representable."
  },
  {
   "property": "C85",
   "status": "partial",
   "theorems": [
    "LC.C85_boson_partial",
    "LC.C85_spin",
    "LC.C85_correctly_rounded_partial",
    "LC.C85_F34_too_few_bits"
   ],
   "note": "Violated by the code for huge bosonic dimensions (F34, dim = 2^49+1); proved for dim <= 2^m when the error of std::log2 is at most 2^-m, for dim <= 2^49 with correct rounding, and for all spins."
  },
  {
   "property": "C86",
   "status": "partial",
   "theorems": [
    "LC.C86_foreach_of_copies_partial",
    "LC.C86_map_index_of_copies",
    "LC.C86_F35_original_destroyed",
    "LC.C86_F35_moved"
   ],
   "note": "Violated by the code (F35): foreach of a copy reads the parameters of the original, so the original must exist and must not have been moved from; map_index of copies is right in any case."
  },
  {
   "property": "C87",
   "status": "partial",
   "theorems": [
    "LC.MonApi.C87_values_partial",
    "LC.MonApi.C87_observers",
    "LC.MonApi.C87_iterators",
    "LC.MonApi.C87_iterators_stay_valid",
    "LC.MonApi.C87_swap",
    "LC.MonApi.C87_ownership",
    "LC.MonApi.C87_own_range",
    "LC.MonApi.C87_F36_own_range"
   ],
   "note": "Violated by the code (F36) for a range of a monomial appended to the monomial itself, which is undefined unless the vector happens to have the capacity; proved for all other histories of calls."
  },
  {
   "property": "C88",
   "status": "proved",
   "theorems": [
    "LC.C88_spin_commutators",
    "LC.C88_ladder",
    "LC.C88_hermitian",
    "LC.C88_spin_half",
    "LC.C88_spin_square",
    "LC.C88_sites_commute",
    "LC.C88_make_complex",
    "LC.C88_make_complex_monomial"
   ],
   "note": "S_x and S_y are modelled as the product of a complex number and an expression with real coefficients (two scalar types); exact real and complex arithmetic"
  },
  {
   "property": "C89",
   "status": "partial",
   "theorems": [
    "LC.C89_history_partial",
    "LC.C89_alive",
    "LC.C89_add_outcome",
    "LC.C89_F37_self_assignment",
    "LC.C89_F38_moved_from_add"
   ],
   "note": "Violated by the code for self-assignment (F37), moved-from objects (F38), objects whose add() threw hilbert_space_too_big (F16) and the algebra queries of copies (F1); proved for every history otherwise. Moved-from std::map objects are taken to be empty."
  },
  {
   "property": "C90",
   "status": "partial",
   "theorems": [
    "LC.C90_foreach_partial",
    "LC.C90_abandoned",
    "LC.C90_operators",
    "LC.C90_foreach_example",
    "LC.C90_F39_shared_space"
   ],
   "note": "Violated by the code for a sparse hilbert_space object shared by several threads (F39: mutable indices_). Sequentially consistent memory, one access per step; vectors are std::vector. Operators: the threads' destination vectors are distinct from all other vectors in use (NoSharing), operators and sources may be shared."
  },
  {
   "property": "C91",
   "status": "partial",
   "theorems": [
    "LC.C91_find_root_partial",
    "LC.C91_object",
    "LC.C91_F40_data_race"
   ],
   "note": "Proved for sequentially consistent memory with one access per step; formally concurrent calls are data races in C++ (F40: plain writes to a mutable member)."
  },
  {
   "property": "C92",
   "status": "proved",
   "theorems": [
    "LC.C92_queries_read_only",
    "LC.C92_concurrent_queries"
   ],
   "note": "operator[] of a thread is modelled as find_root, step by step, followed by a look-up in a map that nobody modifies; valid basis states; condition of C27 (F4) on the dimension of sparse spaces"
  },
  {
   "property": "C93",
   "status": "proved",
   "theorems": [
    "LC.C93_add_sub",
    "LC.C93_strong",
    "LC.C93_scale_convert",
    "LC.C93_history"
   ],
   "note": "Fault model (Model/Faults.lean): std::map::emplace and compound assignments of scalars have no effect if they throw; erase, clear, swap and is_zero do not throw. C93_history is stated for exact scalars; e += e and e -= e are excluded there (C22)."
  },
  {
   "property": "C94",
   "status": "partial",
   "theorems": [
    "LC.C94_add_partial",
    "LC.C94_add_first",
    "LC.C94_assign_partial",
    "LC.C94_recovery",
    "LC.C94_F41_interrupted_add"
   ],
   "note": "Violated by the code (F41): an exception after the insertion of the elementary space leaves dim(), bit ranges or foreach() stale. Proved: what holds at every crash point, and that assignment repairs the object (except F1). Fault model of Model/Faults.lean; foreach_alg_ is replaced without throwing once its successor exists."
  },
  {
   "property": "C95",
   "status": "partial",
   "theorems": [
    "LC.C95_merge_partial",
    "LC.C95_queries",
    "LC.C95_history_partial",
    "LC.C95_F42_lost_partition"
   ],
   "note": "Violated by the code if an insertion into root_to_subspace throws (F42); proved for all other crash points. Exact scalars; condition of C27 (F4) on the dimension of sparse spaces."
  },
  {
   "property": "C96",
   "status": "proved",
   "theorems": [
    "LC.C96_expressions",
    "LC.C96_equality",
    "LC.C96_spaces",
    "LC.C96_queries",
    "LC.C96_operators",
    "LC.C96_user_algebras",
    "LC.C96_static_dynamic",
    "LC.C96_static_programs"
   ],
   "note": "Exact scalars. Static index types are nested tuples of integers and strings compared like std::tuple."
  },
  {
   "property": "C97",
   "status": "proved",
   "theorems": [
    "LC.C97_homomorphism",
    "LC.C97_programs",
    "LC.C97_identities",
    "LC.C97_renaming",
    "LC.C97_particle_hole"
   ],
   "note": "Exact scalars (an integral domain of characteristic 0); fermions, bosons and spins-1/2 (higher spins are excluded by F15: their products are not associative)."
  },
  {
   "property": "C98",
   "status": "proved",
   "theorems": [
    "LC.C98_error_bound",
    "LC.C98_error_bound_value",
    "LC.C98_dense",
    "LC.C98_sparse",
    "LC.C98_programs",
    "LC.C98_exact_limit",
    "LC.C98_first_order",
    "LC.C98_tiny_amplitudes_are_lost"
   ],
   "note": "Arithmetic is given by the standard model (relative error u of each operation, 2 roundings for sqrt and pow, finite results have finite operands); underflow of products is not covered. Coefficients are taken as stored in the expression: rounding while the expression is built is C66-C69."
  },
  {
   "property": "C99",
   "status": "proved",
   "theorems": [
    "LC.C99_order",
    "LC.C99_congruence",
    "LC.C99_spaces_of_generators",
    "LC.C99_arguments",
    "LC.C99_dispatch",
    "LC.C99_predefined",
    "LC.C99_F44_copy_is_not_a_copy",
    "LC.C99_spin_multiplicity",
    "LC.C99_spin_truncation"
   ],
   "note": "Copying of es_constructor objects is not part of the claim: copies of non-const objects lose their arguments (F44). Rounding of double is a parameter that is exact on half-integers below 2^31."
  },
  {
   "property": "C100",
   "status": "proved",
   "theorems": [
    "LC.ExprMem.C100_range_for",
    "LC.ExprMem.C100_increment_decrement",
    "LC.ExprMem.C100_values",
    "LC.ExprMem.C100_validity",
    "LC.ExprMem.C100_invalid_forever",
    "LC.ExprMem.C100_other_variables",
    "LC.ExprMem.C100_defined"
   ],
   "note": "Standard guarantees of std::map (node stability, moved-from maps are empty) are part of the model; end() stays with its object; moving an expression to itself is left open; one scalar type. The undefined cases of e += e, e -= e (F10) are stated exactly in C100_defined."
  },
  {
   "property": "C101",
   "status": "proved",
   "theorems": [
    "LC.C101_exact_modulo",
    "LC.C101_exact_in_range",
    "LC.C101_no_exception",
    "LC.C101_F45_zero_terms",
    "LC.C101_F45_conj"
   ],
   "note": "Wrap-around is what the language prescribes for unsigned types not narrower than int; for signed types it holds with -fwrapv. Hermitian conjugation is excluded because of F45: zero coefficients produced by overflow stay in the map and conj() mishandles them."
  },
  {
   "property": "C102",
   "status": "proved",
   "theorems": [
    "LC.C102_var_number",
    "LC.C102_coefficients",
    "LC.C102_F28_zero_terms"
   ],
   "note": "Stored zero terms (and hence ==, size) do depend on the spelling: F28, restated as C102_F28_zero_terms."
  },
  {
   "property": "C103",
   "status": "proved",
   "theorems": [
    "LC.C103_views",
    "LC.C103_mapped_shows",
    "LC.C103_compressed_shows",
    "LC.C103_sector_shows",
    "LC.C103_multisector_shows",
    "LC.C103_compressed",
    "LC.C103_mapped",
    "LC.C103_sector",
    "LC.C103_multisector"
   ],
   "note": "Which views present which lists is subject to the exclusions of C43, C51, C52 (findings F4, F7, F9, F14). Same assumptions about the arithmetic as C98 (no underflow of products)."
  },
  {
   "property": "C104",
   "status": "proved",
   "theorems": [
    "LC.C104_total_spin",
    "LC.C104_q3"
   ],
   "note": "Exact complex coefficients. The further charges Q4, Q5 of the program are not modelled."
  },
  {
   "property": "C105",
   "status": "partial",
   "theorems": [
    "LC.C105_exact_partial",
    "LC.C105_predefined",
    "LC.C105_user",
    "LC.C105_F46_not_canonical"
   ],
   "note": "Proved for predefined algebras and for user-defined ones whose structure constants are integers or fractions in lowest terms with positive denominators; false otherwise (F46). GMP's own functions are modelled after GMP 6."
  },
  {
   "property": "C106",
   "status": "proved",
   "theorems": [
    "LC.C106_operators_determine_expressions",
    "LC.C106_limit_bosons",
    "LC.C106_limit_spins"
   ],
   "note": "The two limit theorems show that the restrictions are needed: (a\u2020)^d on a mode with d states is the zero operator, and for S > 1/2 the Casimir relation S_+S_- + S_z^2 - S_z = S(S+1) holds for operators but not for ==."
  },
  {
   "property": "C107",
   "status": "partial",
   "theorems": [
    "LC.C107_mapped_views",
    "LC.C107_into_full_vector",
    "LC.C107_stay_invariant",
    "LC.C107_block_structure",
    "LC.C107_act_in_subspace_partial",
    "LC.C107_F47_cancelling_terms"
   ],
   "note": "Missing, because it is false: acting through mapped views in a subspace when contributions of several terms to a matrix element cancel (F47). With a vector of the full space as the destination there is no such condition (C107_into_full_vector)."
  },
  {
   "property": "C108",
   "status": "proved",
   "theorems": [
    "LC.C108_sum",
    "LC.C108_single",
    "LC.C108_decomposition",
    "LC.C108_all_states",
    "LC.C108_missing",
    "LC.C108_assertion_exact",
    "LC.C108_F48_assertion"
   ],
   "note": "For state numbers below the dimension. The assertion in the code checks a weaker condition (F48)."
  },
  {
   "property": "C109",
   "status": "proved",
   "theorems": [
    "LC.C109_fock_action",
    "LC.C109_eigenvectors",
    "LC.C109_printed",
    "LC.C109_ground_state",
    "LC.C109_doublets",
    "LC.C109_negative_detuning"
   ],
   "note": "Exact real arithmetic. With a negative detuning the example's formula for the mixing angle belongs to the other energy (C109_negative_detuning); the program itself uses a positive one."
  },
  {
   "property": "C110",
   "status": "proved",
   "theorems": [
    "LC.C110_evaluate",
    "LC.C110_evaluated_operator",
    "LC.C110_parametric",
    "LC.C110_polynomials",
    "LC.C110_polynomial_value",
    "LC.C110_displaced_oscillator"
   ],
   "note": "The values are elements of a commutative ring (for operators: a domain of characteristic 0), not floating-point numbers."
  },
  {
   "property": "C111",
   "status": "proved",
   "theorems": [
    "LC.C111_symbolic",
    "LC.Kanamori.C111_kanamori",
    "LC.Kanamori.C111_equal",
    "LC.Kanamori.C111_symmetries",
    "LC.Kanamori.C111_momenta",
    "LC.Kanamori.C111_spin_orbit",
    "LC.Kanamori.C111_commuting"
   ],
   "note": "Coefficients are exact complex numbers; with doubles the program prints the terms left over by rounding, if any."
  },
  {
   "property": "C112",
   "status": "proved",
   "theorems": [
    "LC.C112_commutator",
    "LC.C112_eigenoperator",
    "LC.C112_conserved"
   ],
   "note": "Coefficients in a domain of characteristic 0, exact arithmetic."
  },
  {
   "property": "C113",
   "status": "partial",
   "theorems": [
    "LC.Lattice.C113_hubbard_holstein_terms",
    "LC.Lattice.C113_holstein_terms_partial",
    "LC.Lattice.C113_F49_open_boundary",
    "LC.Lattice.C113_size",
    "LC.Lattice.C113_hubbard_conserves",
    "LC.Lattice.C113_hubbard_spin",
    "LC.Lattice.C113_holstein_spin",
    "LC.Lattice.C113_holstein_conserves",
    "LC.Lattice.C113_hermitian"
   ],
   "note": "Exact coefficients in a domain of characteristic 0; terms and Hermiticity for non-zero parameters. examples/holstein.cpp has open instead of periodic boundaries (F49)."
  },
  {
   "property": "C114",
   "status": "partial",
   "theorems": [
    "LC.C114_sector_partial",
    "LC.C114_multisector_partial",
    "LC.C114_space",
    "LC.C114_self_adjoint",
    "LC.C114_eigenvectors"
   ],
   "note": "Sectors and multisectors with the exclusions of C51 and C52 (F7, F14, 63 fermionic modes with 29..34 particles); whole spaces for 1 < dim < 2^31 (F4, F14). Exact coefficients; the eigensolver is not modelled."
  },
  {
   "property": "C115",
   "status": "partial",
   "theorems": [
    "LC.Lattice.C115_hubbard_terms",
    "LC.Lattice.C115_hubbard_space",
    "LC.Lattice.C115_program_partial",
    "LC.Lattice.C115_hubbard_sector",
    "LC.Lattice.C115_hubbard_multisector_partial",
    "LC.Lattice.C115_chain_terms",
    "LC.Lattice.C115_chain_space",
    "LC.Lattice.C115_chain_sector_partial",
    "LC.Lattice.C115_chain_sparse",
    "LC.Lattice.C115_F50_one_site_wide"
   ],
   "note": "Exact coefficients in a domain of characteristic 0. The multisector needs all bits below 32 (F7), the torus at least two sites in each direction (F50), the general statement the exclusions of C51."
  },
  {
   "property": "C116",
   "status": "proved",
   "theorems": [
    "LC.Atom.C116_terms",
    "LC.Atom.C116_space",
    "LC.Atom.C116_program",
    "LC.Atom.C116_one_to_one",
    "LC.Atom.C116_act",
    "LC.Atom.C116_number",
    "LC.Atom.C116_spin"
   ],
   "note": "Hypotheses: mu and J non-zero (otherwise modes drop out of the Hilbert space or the partition gets finer), indices with dn before up as in the program, 2n at most 63 (the other case is an error, C116_space). Exact coefficients; printing is not modelled. c116_hypotheses runs the published program: 3 orbitals, 44 subspaces, subspace 24."
  },
  {
   "property": "C117",
   "status": "proved",
   "theorems": [
    "LC.SpinRing.C117_terms",
    "LC.SpinRing.C117_space",
    "LC.SpinRing.C117_matrix",
    "LC.SpinRing.C117_blocks",
    "LC.SpinRing.C117_hermitian",
    "LC.SpinRing.C117_self_adjoint",
    "LC.SpinRing.C117_total_spin"
   ],
   "note": "Hypotheses: N at least 2 (with one site the program multiplies operators of the same site), m at least 2, h non-zero, distinct indices, m^N < 2^31 (F4) for the matrix. Exact coefficients; the eigensolver and printing are not modelled. c117_hypotheses runs the published program: six spins 1, 729 states."
  },
  {
   "property": "C118",
   "status": "proved",
   "theorems": [
    "LC.SpinPair.C118_output",
    "LC.SpinPair.C118_spin",
    "LC.SpinPair.C118_square"
   ],
   "note": "Hypotheses: distinct sites, h non-zero. Exact coefficients; printing is not modelled. c118_hypotheses is the published program (sites 1 and 2, h = 1/2)."
  },
  {
   "property": "C119",
   "status": "proved",
   "theorems": [
    "LC.GammaProgram.C119_all_zero",
    "LC.GammaProgram.C119_gamma5_hermitian",
    "LC.GammaProgram.C119_gamma5_anticommutes",
    "LC.GammaProgram.C119_gamma5_terms"
   ],
   "note": "Exact coefficients; printing is not modelled. The Clifford relations for all indices are C75_clifford, the action of gamma^5 on vectors is C79_gamma5."
  }
 ]
}
