c("C23", "proved", "C23_next_pow2 C23_next_pow2_beyond", "both compilation branches; beyond 2^63 the behaviour is undefined")
c("C24", "proved", "C24_extract_bits C24_deposit_bits C24_round_trips", "portable branch; BMI2 intrinsics are trusted")
c("C25", "partial", "C25_counts_partial C25_F13_portable_popcount_wrong", "the portable popcount fallback is wrong in the code (F13)")
c("C46", "partial", "C46_binomial_partial C46_binomial_63 C46_F9_overflow", "n = 63 with 29 <= k <= 34 overflows in the code (F9)")
c("C47", "proved", "C47_combination_ranking", "")
c("C48", "proved", "C48_unranking C48_F9_wrong_size", "all M <= 62 as stated, and also M = 63 outside 29..34 particles")
c("C49", "proved", "C49_staggered_ranking", "")
c("C26", "proved", "C26_bit_ranges C26_algebra_ranges C26_construction_succeeds_iff", "")
c("C27", "proved", "C27_foreach C27_dim_counts_states C27_F4_int_overflow", "sparse iteration for dimensions below 2^31; beyond that the code overflows an int (F4)")
c("C28", "proved", "C28_order_independent C28_add", "")
c("C29", "partial", "C29_copy_partial C29_F1_copy_loses_algebras C29_F1_assignment_keeps_old_ranges C29_F1_no_fermions_on_copies", "copies lose the algebra bit ranges in the code (F1)")
c("C31", "partial", "C31_failed_add_partial C31_F16_too_big_add C31_add_throws_iff", "add() throwing hilbert_space_too_big leaves a modified object (F16)")
c("C32", "partial", "C32_nested_foreach_partial C32_F5_nested_foreach_disturbed", "sparse iteration state is shared in the code (F5)")
c("C59", "partial", "C59_equal_spaces_partial C59_F18_boson_dimension_ignored", "dimensions of bosonic spaces are ignored in comparisons (F18)")
c("C33", "proved", "C33_fermionic_action C33_fermionic_action_exists C33_C34_C35_mixed_action", "")
c("C34", "proved", "C34_bosonic_action C33_C34_C35_mixed_action", "")
c("C35", "proved", "C35_spin_action C33_C34_C35_mixed_action", "")
c("C36", "proved", "C36_valid_target", "")
c("C37", "proved", "C37_tables_in_bounds act_hypotheses", "")
c("C30", "proved", "C30_space_of_expression C30_throws_iff", "")
c("C38", "proved", "C38_operator_action C38_operator_action_value C38_dense C38_linear_in_vector C38_linear_in_expression c38_hypotheses", "for distinct source and destination; op(v, v) zeroes its source first (C38_aliased_call_gives_zero)")
c("C40", "proved", "C40_parametric C40_at", "coefficient functions are assumed pure")
c("C42", "proved", "C42_sparse_refines_amplitudes", "")
c("C39", "proved", "C39_products C39_products_fermions_spins C39_products_bosons c39_hypotheses", "bosons: for states whose images under the terms of b stay below the cutoffs")
c("C41", "proved", "C41_adjoint c39_hypotheses", "")

c("C43","proved","C43_map_index C43_foreach C43_lawful C43_operator_action C43_F14_dimension_one C43_F4_int_overflow",
  "map_index for every constructed Hilbert space; iteration and the state-vector interface for 1 < dim < 2^31. Outside that range the property fails: findings F14 (dimension 1) and F4 (int counter), both proved as counterexamples.")
c("C44","proved","C44_of_list C44_inverse C44_of_operator C44_view",
  "Lists, operators, inverse map and views, for every behaviour of std::unordered_map's iteration order.")
c("C45","partial","C45_compositions_partial C45_commuting C45_commuting_expressions C45_fermions C45_F12_operator_order C45_empty_list",
  "The factors are applied in the order opposite to the documentation (finding F12, proved as counterexample); the documented set is proved for operators that commute up to non-zero factors. For an empty list and N>0 the mapper contains the vacuum.")

c("C51","partial","C51_sector_partial C51_view_partial C51_no_such_sector C51_sparse C51_F14_dimension_one C51_F1_copies",
  "For all three rankings (trie: at most 62 modes); 63 modes with 29<=N<=34 are excluded because the binomial overflows (F9). Hilbert spaces of dimension one and copies of Hilbert spaces violate the property (F14, F1, proved as counterexamples).")
c("C52","partial","C52_multisector_partial C52_view_partial C52_generator_size C52_improper C52_no_such_sector C52_sparse C52_F7_truncated_mask C52_F14_dimension_one",
  "Proved when all modes of the sectors are stored in the lowest 32 bits. Beyond that the property fails (finding F7, proved as counterexample); also for spaces of dimension one (F14).")
c("C53","proved","C53_find_root C53_in_same_set C53_n_sets C53_n_sets_unique C53_total C53_example","For every sequence of calls of the public functions of disjoint_sets with valid arguments (DsHistory).")
c("C54","partial","C54_compress_partial C54_normalize_partial C54_find_all_normalize_partial C54_F3","Both announcements are false in general (C54_F3, four elements). Proved: compress_sets() leaves at most two steps to the representative; normalize_sets() makes the smallest member the representative when every parent is a representative, e.g. after find_root was called for every element.")
c("C55","proved","C55_partition C55_invariant C55_finest C55_matrix_elements","Joined = equivalence generated by the non-zero matrix elements between valid basis states; both constructors; also after any queries (which modify mutable members). Sparse Hilbert spaces of dimension >= 2^31 excluded (F4). c55_hypotheses shows a concrete case.")
c("C56","proved","C56_values C56_bases C56_order C56_queries","For every object obtained by constructors, merge_subspaces and queries. Also: subspaces are numbered in order of their smallest states, operator[] throws for indices that are not basis states.")
c("C57","partial","C57_merge_partial C57_F6_not_one_to_one","Proved: termination, coarser, each original subspace is connected to at most one new subspace, merging is minimal, one-to-one if nothing changed, returned maps are the matrix elements. The full claim is false of the code (finding F6): C57_F6_not_one_to_one.")
c("C58","proved","C58_find_connections","For every partition object and operator.")
c("C50","partial","C50_trie_ranking_partial C50_F19_63_modes","All R, M<=62, N, states: construction never accesses outside the vector or fails the assertion, every look-up is inside the final vector and equals the combination ranking. With 63 modes pow2(64) is undefined (F19, proved).")

c("C60","partial","C60_sector_action_partial","Charge condition stated with countFermions (Spec/Sector, Spec/Charge); C62 gives it for products. Same exclusions as C51: dimension one (F14), 63 fermionic modes with 29..34 particles; std::vector as storage.")
c("C61","partial","C61_multisector_action_partial","Same exclusions as C52 (modes in the lowest 32 bits, F7; dimension one, F14); std::vector as storage.")
c("C62","proved","C62_monomial C62_grading","Charges with values in any additive commutative group. Where a spin 1/2 shares its indices with another spin (finding F2) excluded by HalfAlone.")
c("C63","proved","C63_selection_rule","Matrix elements as in C38 (opEl), which C38 proves to be what operators compute.")

c("C64","proved","C64_monomials_strictly_increasing C64_normal_form","ScalarFamily: no law is assumed about any scalar operation. C64_normal_form with HalfAlone (finding F2); writing through the mutable get_monomials() is outside. Scalar types whose make_const throws are outside.")
c("C65","proved","C65_sum C65_difference C65_scaling C65_commutative C65_sub_self","")
c("C66","proved","C66_sum_error C66_product_error C66_monomial_error C66_exact_scalars","Ring arithmetic exact, zero test with tolerance; hypotheses proved for rationals with |x|<eps and complex numbers with the library's test (exactUpTo_tolOps, exactUpTo_complexTol). Rounding is not part of this claim.")
c("C67","partial","C67_conj_partial C67_conj_mixed_partial C67_F11_stale_contribution","Proved when no conjugated coefficient is negligible: C67_conj_partial for monomials of one kind (all fermionic or all bosonic), C67_conj_mixed_partial for products of fermionic and bosonic operators. Otherwise false in the code (F11): C67_F11_stale_contribution, an error of a factor 2 with double coefficients.")
c("C68","partial","C68_constant_times C68_scalar_vs_constant_partial C68_F20_negligible_depends_on_length","C68_constant_times characterises the product exactly; equality proved when no product is negligible; otherwise false (F20), proved.")
c("C69","partial","C69_conversion C69_mixed_expressions C69_mixed_scalar_partial C69_F21_zero_coefficients_stored C69_F22_scalar_tested_in_its_own_type","Expressions: proved. Scalars: proved if conversion keeps the result of is_zero; otherwise false (F22), and narrowing conversions store zeros (F21), both proved.")

c("C70","proved","C70_user_order C70_layout C70_inherited_comparisons","")
c("C71","proved","C71_normalisation_sound C71_arithmetic_sound C71_conj_sound","Reducing functions are assumed to write f iff they return true, as documented; linear functions of the user's own classes.")
c("C72","partial","C72_canonical_map_partial C72_stored_monomials_partial C72_F24_zero_coefficient_stored C72_F28_real_zero_constant C72_F25_reduced_power_not_normalised C72_F27_exchanged_pair_not_simplified","Proved for algebras satisfying UserNoZeros and UserConfluent (both examples do); the documented contract alone is not enough: four counterexample algebras.")
c("C73","proved","C73_different_algebras_commute","For algebras satisfying UserNoZeros, UserConfluent, UserClosed, and spin multiplicities that do not mix 1/2 with others (F2).")
c("C74","proved","C74_mul_assoc C74_eq_iff_same_operator C74_conj C74_gamma","gamma_complete and gamma_conjRelations discharge the hypotheses for examples/gamma.hpp.")
c("C75","proved","C75_swap_relation C75_simplify_relation C75_conj_relation C75_clifford C75_gamma_conj C75_virasoro_commutator C75_virasoro_square C75_virasoro_conj C75_virasoro_recurrences C75_virasoro_recurrences_divided C75_virasoro_jacobi C75_F23_virasoro_not_associative","C75_swap_relation excludes pairs that are simplified after the exchange (F27). F23: the example's rule L_n*L_n -> 0 makes the product non-associative.")
c("C76","proved","C76_add_comm_assoc C76_zero_neg_sub C76_coefficients C76_eq_iff_coefficients C76_module_laws C76_bilinear C76_mixed_agree C76_scalars C76_transform_spec","Under UserOrder and UserNoZeros.")
c("C77","proved","C77_integer_exact C77_mul_assign_strong C77_no_exception C77_reachable C77_spin_half_throws","Integers without overflow. C77_reachable transfers all theorems about rational coefficients.")
c("C78","proved","C78_rational_exact","Rationals without overflow; predefined algebras (a floating-point structure constant of a user-defined algebra makes make_const throw).")
c("C79","proved","C79_operator_action C79_operator_action_value C79_dense C79_predefined_classes C79_default_operator C79_gamma C79_gamma5","Contract of a monomial_action: ActionContract (Spec/UserAction). C79_predefined_classes and C79_gamma discharge it for the classes in the repository.")
c("C80","partial","C80_unknown_generators C80_predefined_classes C80_unknown_generators_partial C80_products C80_relations C80_gamma_products C80_F29_cutoff_hides_unknown_mode C80_F30_foreign_generator_accepted C80_F30_whole_index C80_F30_other_indices","Violated by the code: F29 (a bosonic power above the cutoff hides unknown generators after it; the operator is then zero, as C80_unknown_generators_partial says). F30 is about the example's monomial_action<gamma>. Products: whenever the matrices obey the relations (fermions, spins, user algebras; not truncated bosons).")
c("C81","partial","C81_monomial_text C81_expression_text C81_generator_text C81_readable_partial C81_integer_indices C81_string_indices C81_coefficients C81_F31_parenthesis C81_F31_comma C81_F31_dynamic","Violated for string indices with commas or parentheses and for dynamic indices (F31); proved for index types printed unambiguously. Printing of numbers is assumed (decimal).")
c("C82","proved","C82_eigen_destination C82_eigen_value C82_same_memory C82_same_object C82_views C82_apart","Eigen is not part of the repository: an Eigen object is taken to be equidistant elements of a memory.")
c("C83","partial","C83_agree C83_lvalues C83_rvalues_partial C83_F32_moved_argument","Violated by the code for rvalues taken by value (F32); proved for lvalues, and for rvalues that the functions leave intact.")
c("C84","proved","C84_exact_or_exception C84_no_exception C84_integer C84_rational C84_F33_boson_number C84_F33_spin_half","Integers and rationals without overflow; square roots and halves are exact reals. F33: the particle number of a boson (integers) and S_z of a spin 1/2 (rationals) throw although the matrix elements are representable.")
c("C85","partial","C85_boson_partial C85_spin C85_correctly_rounded_partial C85_F34_too_few_bits","Violated by the code for huge bosonic dimensions (F34, dim = 2^49+1); proved for dim <= 2^m when the error of std::log2 is at most 2^-m, for dim <= 2^49 with correct rounding, and for all spins.")
c("C86","partial","C86_foreach_of_copies_partial C86_map_index_of_copies C86_F35_original_destroyed C86_F35_moved","Violated by the code (F35): foreach of a copy reads the parameters of the original, so the original must exist and must not have been moved from; map_index of copies is right in any case.")
c("C87","partial","MonApi.C87_values_partial MonApi.C87_observers MonApi.C87_iterators MonApi.C87_iterators_stay_valid MonApi.C87_swap MonApi.C87_ownership MonApi.C87_own_range MonApi.C87_F36_own_range","Violated by the code (F36) for a range of a monomial appended to the monomial itself, which is undefined unless the vector happens to have the capacity; proved for all other histories of calls.")

c("C88","proved","C88_spin_commutators C88_ladder C88_hermitian C88_spin_half C88_spin_square C88_sites_commute C88_make_complex C88_make_complex_monomial","S_x and S_y are modelled as the product of a complex number and an expression with real coefficients (two scalar types); exact real and complex arithmetic")

c("C89","partial","C89_history_partial C89_alive C89_add_outcome C89_F37_self_assignment C89_F38_moved_from_add","Violated by the code for self-assignment (F37), moved-from objects (F38), objects whose add() threw hilbert_space_too_big (F16) and the algebra queries of copies (F1); proved for every history otherwise. Moved-from std::map objects are taken to be empty.")

c("C90","partial","C90_foreach_partial C90_abandoned C90_operators C90_foreach_example C90_F39_shared_space","Violated by the code for a sparse hilbert_space object shared by several threads (F39: mutable indices_). Sequentially consistent memory, one access per step; vectors are std::vector. Operators: the threads' destination vectors are distinct from all other vectors in use (NoSharing), operators and sources may be shared.")
c("C91","partial","C91_find_root_partial C91_object C91_F40_data_race","Proved for sequentially consistent memory with one access per step; formally concurrent calls are data races in C++ (F40: plain writes to a mutable member).")
c("C92","proved","C92_queries_read_only C92_concurrent_queries","operator[] of a thread is modelled as find_root, step by step, followed by a look-up in a map that nobody modifies; valid basis states; condition of C27 (F4) on the dimension of sparse spaces")

c("C93","proved","C93_add_sub C93_strong C93_scale_convert C93_history","Fault model (Model/Faults.lean): std::map::emplace and compound assignments of scalars have no effect if they throw; erase, clear, swap and is_zero do not throw. C93_history is stated for exact scalars; e += e and e -= e are excluded there (C22).")

c("C94","partial","C94_add_partial C94_add_first C94_assign_partial C94_recovery C94_F41_interrupted_add","Violated by the code (F41): an exception after the insertion of the elementary space leaves dim(), bit ranges or foreach() stale. Proved: what holds at every crash point, and that assignment repairs the object (except F1). Fault model of Model/Faults.lean; foreach_alg_ is replaced without throwing once its successor exists.")
c("C95","partial","C95_merge_partial C95_queries C95_history_partial C95_F42_lost_partition","Violated by the code if an insertion into root_to_subspace throws (F42); proved for all other crash points. Exact scalars; condition of C27 (F4) on the dimension of sparse spaces.")

c("C96","proved","C96_expressions C96_equality C96_spaces C96_queries C96_operators C96_user_algebras C96_static_dynamic C96_static_programs","Exact scalars. Static index types are nested tuples of integers and strings compared like std::tuple.")
c("C97","proved","C97_homomorphism C97_programs C97_identities C97_renaming C97_particle_hole","Exact scalars (an integral domain of characteristic 0); fermions, bosons and spins-1/2 (higher spins are excluded by F15: their products are not associative).")

c("C98","proved","C98_error_bound C98_error_bound_value C98_dense C98_sparse C98_programs C98_exact_limit C98_first_order C98_tiny_amplitudes_are_lost","Arithmetic is given by the standard model (relative error u of each operation, 2 roundings for sqrt and pow, finite results have finite operands); underflow of products is not covered. Coefficients are taken as stored in the expression: rounding while the expression is built is C66-C69.")

c("C99","proved","C99_order C99_congruence C99_spaces_of_generators C99_arguments C99_dispatch C99_predefined C99_F44_copy_is_not_a_copy C99_spin_multiplicity C99_spin_truncation","Copying of es_constructor objects is not part of the claim: copies of non-const objects lose their arguments (F44). Rounding of double is a parameter that is exact on half-integers below 2^31.")

c("C100","proved","ExprMem.C100_range_for ExprMem.C100_increment_decrement ExprMem.C100_values ExprMem.C100_validity ExprMem.C100_invalid_forever ExprMem.C100_other_variables ExprMem.C100_defined","Standard guarantees of std::map (node stability, moved-from maps are empty) are part of the model; end() stays with its object; moving an expression to itself is left open; one scalar type. The undefined cases of e += e, e -= e (F10) are stated exactly in C100_defined.")

c("C101","proved","C101_exact_modulo C101_exact_in_range C101_no_exception C101_F45_zero_terms C101_F45_conj","Wrap-around is what the language prescribes for unsigned types not narrower than int; for signed types it holds with -fwrapv. Hermitian conjugation is excluded because of F45: zero coefficients produced by overflow stay in the map and conj() mishandles them.")

c("C102","proved","C102_var_number C102_coefficients C102_F28_zero_terms","Stored zero terms (and hence ==, size) do depend on the spelling: F28, restated as C102_F28_zero_terms.")

c("C103","proved","C103_views C103_mapped_shows C103_compressed_shows C103_sector_shows C103_multisector_shows C103_compressed C103_mapped C103_sector C103_multisector","Which views present which lists is subject to the exclusions of C43, C51, C52 (findings F4, F7, F9, F14). Same assumptions about the arithmetic as C98 (no underflow of products).")

c("C104","proved","C104_total_spin C104_q3","Exact complex coefficients. The further charges Q4, Q5 of the program are not modelled.")

c("C105","partial","C105_exact_partial C105_predefined C105_user C105_F46_not_canonical","Proved for predefined algebras and for user-defined ones whose structure constants are integers or fractions in lowest terms with positive denominators; false otherwise (F46). GMP's own functions are modelled after GMP 6.")

c("C106","proved","C106_operators_determine_expressions C106_limit_bosons C106_limit_spins","The two limit theorems show that the restrictions are needed: (a†)^d on a mode with d states is the zero operator, and for S > 1/2 the Casimir relation S_+S_- + S_z^2 - S_z = S(S+1) holds for operators but not for ==.")

c("C107","partial","C107_mapped_views C107_into_full_vector C107_stay_invariant C107_block_structure C107_act_in_subspace_partial C107_F47_cancelling_terms","Missing, because it is false: acting through mapped views in a subspace when contributions of several terms to a matrix element cancel (F47). With a vector of the full space as the destination there is no such condition (C107_into_full_vector).")

c("C108","proved","C108_sum C108_single C108_decomposition C108_all_states C108_missing C108_assertion_exact C108_F48_assertion","For state numbers below the dimension. The assertion in the code checks a weaker condition (F48).")

c("C109","proved","C109_fock_action C109_eigenvectors C109_printed C109_ground_state C109_doublets C109_negative_detuning","Exact real arithmetic. With a negative detuning the example's formula for the mixing angle belongs to the other energy (C109_negative_detuning); the program itself uses a positive one.")

c("C110","proved","C110_evaluate C110_evaluated_operator C110_parametric C110_polynomials C110_polynomial_value C110_displaced_oscillator","The values are elements of a commutative ring (for operators: a domain of characteristic 0), not floating-point numbers.")

c("C111","proved","C111_symbolic Kanamori.C111_kanamori Kanamori.C111_equal Kanamori.C111_symmetries Kanamori.C111_momenta Kanamori.C111_spin_orbit Kanamori.C111_commuting","Coefficients are exact complex numbers; with doubles the program prints the terms left over by rounding, if any.")

c("C112","proved","C112_commutator C112_eigenoperator C112_conserved","Coefficients in a domain of characteristic 0, exact arithmetic.")

c("C113","partial","Lattice.C113_hubbard_holstein_terms Lattice.C113_holstein_terms_partial Lattice.C113_F49_open_boundary Lattice.C113_size Lattice.C113_hubbard_conserves Lattice.C113_hubbard_spin Lattice.C113_holstein_spin Lattice.C113_holstein_conserves Lattice.C113_hermitian","Exact coefficients in a domain of characteristic 0; terms and Hermiticity for non-zero parameters. examples/holstein.cpp has open instead of periodic boundaries (F49).")

c("C114","partial","C114_sector_partial C114_multisector_partial C114_space C114_self_adjoint C114_eigenvectors","Sectors and multisectors with the exclusions of C51 and C52 (F7, F14, 63 fermionic modes with 29..34 particles); whole spaces for 1 < dim < 2^31 (F4, F14). Exact coefficients; the eigensolver is not modelled.")

c("C115","partial","Lattice.C115_hubbard_terms Lattice.C115_hubbard_space Lattice.C115_program_partial Lattice.C115_hubbard_sector Lattice.C115_hubbard_multisector_partial Lattice.C115_chain_terms Lattice.C115_chain_space Lattice.C115_chain_sector_partial Lattice.C115_chain_sparse Lattice.C115_F50_one_site_wide","Exact coefficients in a domain of characteristic 0. The multisector needs all bits below 32 (F7), the torus at least two sites in each direction (F50), the general statement the exclusions of C51.")

c("C116","proved","Atom.C116_terms Atom.C116_space Atom.C116_program Atom.C116_one_to_one Atom.C116_act Atom.C116_number Atom.C116_spin","Hypotheses: mu and J non-zero (otherwise modes drop out of the Hilbert space or the partition gets finer), indices with dn before up as in the program, 2n at most 63 (the other case is an error, C116_space). Exact coefficients; printing is not modelled. c116_hypotheses runs the published program: 3 orbitals, 44 subspaces, subspace 24.")

c("C117","proved","SpinRing.C117_terms SpinRing.C117_space SpinRing.C117_matrix SpinRing.C117_blocks SpinRing.C117_hermitian SpinRing.C117_self_adjoint SpinRing.C117_total_spin","Hypotheses: N at least 2 (with one site the program multiplies operators of the same site), m at least 2, h non-zero, distinct indices, m^N < 2^31 (F4) for the matrix. Exact coefficients; the eigensolver and printing are not modelled. c117_hypotheses runs the published program: six spins 1, 729 states.")

c("C118","proved","SpinPair.C118_output SpinPair.C118_spin SpinPair.C118_square","Hypotheses: distinct sites, h non-zero. Exact coefficients; printing is not modelled. c118_hypotheses is the published program (sites 1 and 2, h = 1/2).")

c("C119","proved","GammaProgram.C119_all_zero GammaProgram.C119_gamma5_hermitian GammaProgram.C119_gamma5_anticommutes GammaProgram.C119_gamma5_terms","Exact coefficients; printing is not modelled. The Clifford relations for all indices are C75_clifford, the action of gamma^5 on vectors is C79_gamma5.")
