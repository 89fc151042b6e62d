{"id": "C01", "title": "Generator comparison is a strict total order", "statement": "For any two generators g1, g2 of the predefined algebras exactly one of g1 < g2, g1 == g2, g1 > g2 holds, < is transitive, > is the converse of <, and == is equality of algebra, indices and quantum-operator kind.", "quantifier": "all pairs/triples of fermionic, bosonic and spin generators over any totally ordered index type, all multiplicities", "why_tests_cant": "std::map and the sorting in expression need a strict weak order for every pair; tests compare a handful of literals", "anchors": ["include/libcommute/expression/generator.hpp: operator==,<,>", "include/libcommute/expression/generator_fermion.hpp: less/greater", "include/libcommute/expression/generator_boson.hpp", "include/libcommute/expression/generator_spin.hpp"]}
{"id": "C02", "title": "Monomial comparison is a strict total order", "statement": "For monomials, exactly one of m1 < m2, m1 == m2, m1 > m2 holds, < is transitive, > is the converse of <, and shorter monomials precede longer ones.", "quantifier": "all pairs/triples of monomials of any length", "why_tests_cant": "unbounded lengths; the order keys the coefficient map of every expression", "anchors": ["include/libcommute/expression/monomial.hpp: operator==,<,>"]}
{"id": "C03", "title": "Dynamic index sequences are totally ordered", "statement": "dyn_indices compare with a strict total order (shorter first, then lexicographic with int < string), > is the converse of <, == is equality of the sequences.", "quantifier": "all sequences of int/string indices", "why_tests_cant": "unbounded sequences", "anchors": ["include/libcommute/expression/dyn_indices.hpp: operator==,<,>"]}
{"id": "C04", "title": "Normalisation preserves the operator", "statement": "Building an expression from coefficient x and any product of generators yields an expression that denotes x times that product in every associative algebra in which the generators satisfy the commutation/simplification relations announced by swap_with/simplify_prod/reduce_power (also for user-defined algebras that fulfil this documented contract).", "quantifier": "all monomials, all coefficients, all generator families that satisfy the contract", "why_tests_cant": "sorting is recursive and rewrites arbitrarily long products; only an induction covers every length and interleaving", "anchors": ["include/libcommute/expression/expression.hpp: normalize_and_store, reduce_powers_and_store, store_monomial", "include/libcommute/expression/monomial.hpp: concatenate"]}
{"id": "C05", "title": "Stored monomials are in canonical form", "statement": "Every monomial stored by normalisation is sorted (is_ordered() is true), no adjacent pair of its generators admits a further simplification, and no power of a spin ladder operator reaches the multiplicity.", "quantifier": "all input products of predefined generators", "why_tests_cant": "bubble sort re-examines only shrinking windows; correctness for all lengths needs an invariant", "anchors": ["include/libcommute/expression/expression.hpp: normalize_and_store, reduce_powers_and_store", "include/libcommute/expression/monomial.hpp: is_ordered"]}
{"id": "C06", "title": "Predefined algebras satisfy their textbook relations", "statement": "The rewriting data returned by swap_with, simplify_prod and reduce_power of fermions, bosons and spins agrees with the CAR, CCR and su(2) relations (spin-1/2 with its extra product relations), so C04 applies to every mixture of them with one multiplicity per spin index.", "quantifier": "all pairs of generators, all multiplicities, all indices", "why_tests_cant": "cases range over all indices and multiplicities", "anchors": ["include/libcommute/expression/generator_fermion.hpp: swap_with, simplify_prod", "include/libcommute/expression/generator_boson.hpp: swap_with", "include/libcommute/expression/generator_spin.hpp: swap_with, simplify_prod, reduce_power"]}
{"id": "C07", "title": "Expressions keep a canonical coefficient map", "statement": "After any sequence of constructions and arithmetic operations, an expression's monomials are distinct, iterated in strictly increasing order, and none has a zero coefficient.", "quantifier": "all finite programs over the expression API (scalars without zero divisors)", "why_tests_cant": "holds for histories, not single calls", "anchors": ["include/libcommute/expression/expression.hpp: store_monomial, operator+=, -=, *=, +, -, unary minus, scalar operations"]}
{"id": "C08", "title": "Addition makes expressions an abelian group", "statement": "a+b == b+a, (a+b)+c == a+(b+c), a+0 == a, a-a == 0, a-b == a+(-b), -(-a) == a as expressions.", "quantifier": "all expressions", "why_tests_cant": "unbounded operands and cancellation patterns", "anchors": ["include/libcommute/expression/expression.hpp: operator+, operator-, unary minus, add_impl, sub_impl, operator+=, operator-="]}
{"id": "C09", "title": "Scalar multiplication is a module action", "statement": "alpha*(a+b) == alpha*a+alpha*b, (alpha+beta)*a == alpha*a+beta*a, (alpha*beta)*a == alpha*(beta*a), 1*a == a, 0*a == 0, prefix == postfix form.", "quantifier": "all scalars and expressions", "why_tests_cant": "unbounded operands", "anchors": ["include/libcommute/expression/expression.hpp: operator*(S), mul_const_*_impl, operator*=(S)"]}
{"id": "C10", "title": "Multiplication distributes over addition", "statement": "(a+b)*c == a*c+b*c, a*(b+c) == a*b+a*c and (alpha*a)*b == alpha*(a*b) == a*(alpha*b).", "quantifier": "all expressions and scalars", "why_tests_cant": "products normalise every pair of monomials; cancellations may occur between any of them", "anchors": ["include/libcommute/expression/expression.hpp: operator*, operator*="]}
{"id": "C11", "title": "Multiplication is associative with unit", "statement": "(a*b)*c == a*(b*c), 1*a == a == a*1 for expressions of fermions, bosons and spin-1/2. (For spins S>=1 the library's reduction of ladder powers breaks this; see DESIGN.)", "quantifier": "all expressions", "why_tests_cant": "associativity is a confluence statement on all words", "anchors": ["include/libcommute/expression/expression.hpp: operator*="]}
{"id": "C12", "title": "Expression equality decides operator equality", "statement": "Two expressions of fermions, bosons and spin-1/2 compare equal iff they denote the same operator (on the Fock space), in particular an expression is 0 iff the operator is 0.", "quantifier": "all pairs of expressions", "why_tests_cant": "completeness needs linear independence of all canonical monomials", "anchors": ["include/libcommute/expression/expression.hpp: operator=="]}
{"id": "C13", "title": "Canonical anticommutation relations", "statement": "c(i)*c_dag(j)+c_dag(j)*c(i) == delta_ij, c(i)*c(j)+c(j)*c(i) == 0, c_dag(i)*c_dag(j)+c_dag(j)*c_dag(i) == 0, n(i) == c_dag(i)*c(i).", "quantifier": "all index values", "why_tests_cant": "all pairs of indices", "anchors": ["include/libcommute/expression/factories.hpp: c, c_dag, n", "include/libcommute/expression/generator_fermion.hpp"]}
{"id": "C14", "title": "Canonical commutation relations", "statement": "a(i)*a_dag(j)-a_dag(j)*a(i) == delta_ij, [a(i),a(j)] == 0 == [a_dag(i),a_dag(j)].", "quantifier": "all index values", "why_tests_cant": "all pairs of indices", "anchors": ["include/libcommute/expression/factories.hpp: a, a_dag", "include/libcommute/expression/generator_boson.hpp"]}
{"id": "C15", "title": "Spin commutation relations", "statement": "[S_p(i),S_m(i)] == 2*S_z(i), [S_z,S_p] == S_p, [S_z,S_m] == -S_m for every multiplicity; spin-1/2 products S_z*S_z == 1/4, S_p*S_m == 1/2+S_z etc.; spins at different sites commute.", "quantifier": "all indices and multiplicities", "why_tests_cant": "all indices and multiplicities", "anchors": ["include/libcommute/expression/factories.hpp: S_p, S_m, S_z", "include/libcommute/expression/generator_spin.hpp"]}
{"id": "C16", "title": "Generators of different algebras commute", "statement": "The product of two generators of different algebras does not depend on their order; the same holds for spins with different indices or different multiplicity.", "quantifier": "all pairs of generators", "why_tests_cant": "all pairs", "anchors": ["include/libcommute/expression/generator.hpp: swap_with, simplify_prod", "include/libcommute/expression/generator_spin.hpp: simplify_prod"]}
{"id": "C17", "title": "Hermitian conjugation is an involutive antilinear antiautomorphism", "statement": "conj(conj(e)) == e, conj(a+b) == conj(a)+conj(b), conj(alpha*a) == alpha^* conj(a), conj(a*b) == conj(b)*conj(a), and e+hc is Hermitian.", "quantifier": "all expressions of fermions, bosons and spins of any multiplicity (a spin-1/2 sharing its indices with another spin excluded, F2)", "why_tests_cant": "unbounded expressions", "anchors": ["include/libcommute/expression/expression.hpp: conj", "include/libcommute/expression/hc.hpp", "include/libcommute/expression/generator*.hpp: conj"]}
{"id": "C18", "title": "Nilpotency of fermionic and spin ladder operators", "statement": "c(i)^2 == c_dag(i)^2 == 0 and S_p(i)^k == S_m(i)^k == 0 for every k >= multiplicity, in any product, while lower powers survive.", "quantifier": "all indices, multiplicities and powers", "why_tests_cant": "unbounded powers", "anchors": ["include/libcommute/expression/expression.hpp: reduce_powers_and_store", "include/libcommute/expression/generator_spin.hpp: reduce_power"]}
{"id": "C19", "title": "Mixed-type addition agrees with same-type addition", "statement": "The ordered-merge implementation used for different scalar types yields the same expression as the lookup/insert implementation used for equal types; likewise for subtraction.", "quantifier": "all pairs of expressions", "why_tests_cant": "two different algorithms must agree on all inputs", "anchors": ["include/libcommute/expression/expression.hpp: add_impl(false_type), add_impl(true_type), sub_impl"]}
{"id": "C20", "title": "Adding scalars is adding constant expressions", "statement": "e+alpha == alpha+e == e+expression(alpha), e-alpha == e+(-alpha), alpha-e == -(e-alpha), and compound forms agree.", "quantifier": "all expressions and scalars", "why_tests_cant": "cancellation of the constant term for arbitrary content", "anchors": ["include/libcommute/expression/expression.hpp: add_const_*, sub_const_*, operator-(S, expression), operator+=(S), operator-=(S)"]}
{"id": "C21", "title": "transform() maps coefficients", "statement": "transform(e,f) has exactly the monomials of e whose image coefficient is non-zero, with coefficient f(m, e[m]).", "quantifier": "all expressions and functors", "why_tests_cant": "unbounded", "anchors": ["include/libcommute/expression/expression.hpp: transform"]}
{"id": "C22", "title": "Compound assignments are alias-safe", "statement": "e += e doubles e, e -= e empties it, e *= e squares it, also when both operands are the same object.", "quantifier": "all expressions", "why_tests_cant": "iterator invalidation depends on the state during the loop", "anchors": ["include/libcommute/expression/expression.hpp: operator+=, operator-=, operator*="]}
{"id": "C23", "title": "next_pow2 is the least power of two not smaller than its argument", "statement": "For 1 <= i <= 2^63, next_pow2(i) is a power of two, >= i, and less than 2i.", "quantifier": "all 64-bit arguments", "why_tests_cant": "2^64 inputs", "anchors": ["include/libcommute/loperator/bit_ops.hpp: next_pow2"]}
{"id": "C24", "title": "Bit extraction and deposit are inverse", "statement": "extract_bits(deposit_bits(x,mask),mask) == x mod 2^popcount(mask), deposit_bits(extract_bits(v,mask),mask) == v & mask, and bit k of the extraction is the k-th set position of mask.", "quantifier": "all 64-bit values and masks", "why_tests_cant": "2^128 inputs", "anchors": ["include/libcommute/loperator/bit_ops.hpp: deposit_bits, extract_bits"]}
{"id": "C25", "title": "Portable bit counting", "statement": "parity_popcount, count_trailing_zeros and popcount return parity, trailing zero count and bit count in every compilation branch.", "quantifier": "all 64-bit values", "why_tests_cant": "2^64 inputs and the fallback branch is not compiled in tests", "anchors": ["include/libcommute/loperator/bit_ops.hpp: popcount, parity_popcount, count_trailing_zeros"]}
{"id": "C26", "title": "Bit ranges tile the state index", "statement": "In a Hilbert space the bit ranges of the elementary spaces, in order, are adjacent, start at bit 0, have length n_bits of their space, end at total_n_bits()-1, and each algebra's bit range is exactly the union of its spaces' ranges; construction fails iff more than 63 bits are needed.", "quantifier": "all collections of elementary spaces", "why_tests_cant": "unbounded collections", "anchors": ["include/libcommute/loperator/hilbert_space.hpp: recompute_bit_ranges, bit_range, algebra_bit_range, total_n_bits, add"]}
{"id": "C27", "title": "foreach over a Hilbert space visits every basis state once", "statement": "foreach(hs,f) calls f, in increasing order, exactly once on every index whose bit fields are below the dimensions of their elementary spaces, and nothing else; the number of calls is dim().", "quantifier": "all Hilbert spaces (of dimension < 2^31 when sparse)", "why_tests_cant": "mixed-radix iteration with carries and merged ranges", "anchors": ["include/libcommute/loperator/hilbert_space.hpp: foreach, sparse_foreach_basis_state, init_foreach_alg"]}
{"id": "C28", "title": "A Hilbert space does not depend on construction order", "statement": "Building a Hilbert space from elementary spaces in any order or by successive add() gives equal spaces with equal dim(), bit ranges and iteration; duplicates are rejected.", "quantifier": "all permutations of all collections", "why_tests_cant": "factorially many orders", "anchors": ["include/libcommute/loperator/hilbert_space.hpp: constructors, add, operator=="]}
{"id": "C29", "title": "Copies of a Hilbert space behave like the original", "statement": "A copy-constructed or copy-assigned hilbert_space answers every query (has_algebra, algebra_bit_range, bit_range, dim, foreach ...) like its source.", "quantifier": "all Hilbert spaces", "why_tests_cant": "tests compare copies by operator== only, which ignores part of the state", "anchors": ["include/libcommute/loperator/hilbert_space.hpp: copy constructor, operator="]}
{"id": "C30", "title": "A Hilbert space made from an expression supports that expression", "statement": "make_hilbert_space(expr) contains the elementary space of every generator in expr, no others, and make_loperator(expr, hs) does not throw.", "quantifier": "all expressions", "why_tests_cant": "unbounded expressions", "anchors": ["include/libcommute/loperator/hilbert_space.hpp: hilbert_space(expr)", "include/libcommute/loperator/es_constructor.hpp", "include/libcommute/loperator/monomial_action*.hpp: constructors"]}
{"id": "C31", "title": "Failed add() leaves the Hilbert space unchanged", "statement": "If add() throws, the Hilbert space is as before the call.", "quantifier": "all Hilbert spaces and elementary spaces", "why_tests_cant": "exception paths in every state", "anchors": ["include/libcommute/loperator/hilbert_space.hpp: add"]}
{"id": "C32", "title": "Basis iterations are re-entrant", "statement": "Calling foreach on a Hilbert space (or view) from within a functor running under foreach on the same object does not disturb either iteration.", "quantifier": "all Hilbert spaces and nestings", "why_tests_cant": "hidden mutable state", "anchors": ["include/libcommute/loperator/hilbert_space.hpp: sparse_foreach_basis_state::indices_", "include/libcommute/loperator/n_fermion_sector_view.hpp: unranking_generator"]}
{"id": "C33", "title": "Fermionic monomial action equals the Jordan-Wigner product", "statement": "The action of a canonical fermionic monomial on a basis state is the composition of its single creation/annihilation operators: same vanishing condition, same target state, same sign.", "quantifier": "all canonical fermionic monomials, all Hilbert spaces, all basis states", "why_tests_cant": "sign masks for arbitrarily many operators and bits", "anchors": ["include/libcommute/loperator/monomial_action_fermion.hpp: monomial_action, act, compute_count_mask"]}
{"id": "C34", "title": "Bosonic monomial action equals the product of truncated ladder operators", "statement": "The action of a bosonic monomial equals composing a_dag|n> = sqrt(n+1)|n+1> (0 at the cutoff) and a|n> = sqrt(n)|n-1>.", "quantifier": "all bosonic monomials, cutoffs and states", "why_tests_cant": "unbounded powers, modes and cutoffs", "anchors": ["include/libcommute/loperator/monomial_action_boson.hpp: monomial_action, act"]}
{"id": "C35", "title": "Spin monomial action equals the product of spin matrices", "statement": "The action of a spin monomial equals composing the (2S+1)-dimensional matrices of S_p, S_m, S_z.", "quantifier": "all spin monomials, multiplicities and states", "why_tests_cant": "unbounded powers and multiplicities", "anchors": ["include/libcommute/loperator/monomial_action_spin.hpp: monomial_action, act"]}
{"id": "C36", "title": "Monomial actions keep basis states inside the Hilbert space", "statement": "If act() on a valid basis state index returns true, the new index is again a valid basis state index (so no out-of-range access into state vectors of size vec_size()).", "quantifier": "all Hilbert spaces, monomials and valid states", "why_tests_cant": "bit-field arithmetic with carries", "anchors": ["include/libcommute/loperator/monomial_action_fermion.hpp", "include/libcommute/loperator/monomial_action_boson.hpp", "include/libcommute/loperator/monomial_action_spin.hpp"]}
{"id": "C37", "title": "Square-root tables are never read out of bounds", "statement": "For every valid basis state, each access to the precomputed square-root table of a bosonic or spin monomial is within the table.", "quantifier": "all monomials, Hilbert spaces and valid states", "why_tests_cant": "bound (2S-n)(n+1) <= table size must hold for all S, n", "anchors": ["include/libcommute/loperator/monomial_action_boson.hpp: sqr_root", "include/libcommute/loperator/monomial_action_spin.hpp: sqr_root"]}
{"id": "C38", "title": "Linear operators act linearly and represent the expression", "statement": "loperator(e,hs) acts as sum of coefficient times monomial action on every basis amplitude; it is linear in the vector and L(a+b) = L(a)+L(b), L(alpha*a) = alpha*L(a).", "quantifier": "all expressions, Hilbert spaces, vectors", "why_tests_cant": "unbounded", "anchors": ["include/libcommute/loperator/loperator.hpp: loperator::operator(), act_impl"]}
{"id": "C39", "title": "Linear operators represent products", "statement": "L(a*b) = L(a) L(b) on every state for expressions of fermions and spins (for bosons: up to the truncation boundary).", "quantifier": "all expressions, Hilbert spaces, vectors", "why_tests_cant": "combines normal ordering with bit-level action for all inputs", "anchors": ["include/libcommute/loperator/loperator.hpp", "include/libcommute/expression/expression.hpp"]}
{"id": "C40", "title": "Parametric operators agree with their evaluated form", "statement": "parametric_loperator(v,args), act_and_store_coeffs and at(args)(v) give the same vector.", "quantifier": "all parametric operators, arguments and vectors", "why_tests_cant": "unbounded", "anchors": ["include/libcommute/loperator/loperator.hpp: parametric_loperator"]}
{"id": "C41", "title": "Conjugate expression gives the adjoint operator", "statement": "<m|L(conj(e))|n> is the complex conjugate of <n|L(e)|m>.", "quantifier": "all expressions of fermions, spins, bosons; all basis states", "why_tests_cant": "unbounded", "anchors": ["include/libcommute/expression/expression.hpp: conj", "include/libcommute/loperator/loperator.hpp"]}
{"id": "C42", "title": "sparse_state_vector refines a total amplitude function", "statement": "After any history of update_add_element / set_zeros / prune, get_element(n) is the accumulated sum, n_nonzeros() counts the non-zero amplitudes, foreach visits exactly these once, regardless of hash order.", "quantifier": "all operation histories", "why_tests_cant": "histories and hash orders", "anchors": ["include/libcommute/loperator/sparse_state_vector.hpp"]}
{"id": "C43", "title": "Compressed view is a bijection onto 0..dim-1", "statement": "compressed_state_view::map_index maps the valid basis states bijectively and in increasing order onto 0..dim()-1, and its foreach pairs each basis state with the amplitude at its mapped position.", "quantifier": "all Hilbert spaces for map_index; all Hilbert spaces with 1 < dim < 2^31 for the iteration", "why_tests_cant": "mixed radix with merged ranges", "anchors": ["include/libcommute/loperator/compressed_state_view.hpp: map_index, init, foreach"]}
{"id": "C44", "title": "basis_mapper gives an injective map onto 0..size-1", "statement": "For every list of basis states (or operator) the mapping has exactly the listed states as keys and is a bijection onto 0..size()-1; inverse_map is its inverse; for duplicate-free lists the value is the position.", "quantifier": "all lists", "why_tests_cant": "unbounded lists, hash orders", "anchors": ["include/libcommute/loperator/mapped_basis_view.hpp: basis_mapper"]}
{"id": "C45", "title": "Fixed-degree basis mapper collects the documented states", "statement": "basis_mapper(O_list,hs,N) maps exactly the basis states that contribute to O_1^{n_1}...O_M^{n_M}|0> with n_1+...+n_M = N.", "quantifier": "all operator lists and N", "why_tests_cant": "recursion over compositions", "anchors": ["include/libcommute/loperator/mapped_basis_view.hpp: compositions_constructor_impl"]}
{"id": "C46", "title": "Binomial coefficients are exact", "statement": "binomial(n,k) is the binomial coefficient for all mode counts a Hilbert space can have (n <= 63).", "quantifier": "all n <= 63, all k", "why_tests_cant": "intermediate overflow", "anchors": ["include/libcommute/loperator/n_fermion_sector_view.hpp: detail::binomial"]}
{"id": "C47", "title": "Combination ranking is an order isomorphism", "statement": "combination_ranking maps the M-mode states with N particles bijectively onto 0..C(M,N)-1 (in increasing order when at most half filled).", "quantifier": "all M, N and states", "why_tests_cant": "combinatorially many states", "anchors": ["include/libcommute/loperator/n_fermion_sector_view.hpp: combination_ranking"]}
{"id": "C48", "title": "Unranking enumerates a sector completely", "statement": "unranking_generator returns each N-particle state exactly once, stops after size() states, and the i-th state returned has rank i.", "quantifier": "all M <= 62, N", "why_tests_cant": "bit tricks over all states", "anchors": ["include/libcommute/loperator/n_fermion_sector_view.hpp: unranking_generator"]}
{"id": "C49", "title": "Staggered ranking equals combination ranking", "statement": "staggered_ranking<R> returns the same rank as combination_ranking and stays inside its tables.", "quantifier": "all M, N, R, states", "why_tests_cant": "tables and chunking for all sizes", "anchors": ["include/libcommute/loperator/n_fermion_sector_view.hpp: staggered_ranking"]}
{"id": "C50", "title": "Trie ranking equals combination ranking", "statement": "trie_ranking<R> returns the same rank as combination_ranking and stays inside its table.", "quantifier": "all M, N, R, states", "why_tests_cant": "packed trie construction for all sizes", "anchors": ["include/libcommute/loperator/n_fermion_sector_view.hpp: trie_ranking"]}
{"id": "C51", "title": "N-fermion sector view is a bijection consistent with iteration", "statement": "map_index of n_fermion_sector_view maps the sector's basis states bijectively onto 0..n_fermion_sector_size()-1; foreach and n_fermion_sector_basis_states list state i at position i.", "quantifier": "all non-sparse Hilbert spaces and N", "why_tests_cant": "combinatorially many states", "anchors": ["include/libcommute/loperator/n_fermion_sector_view.hpp: n_fermion_sector_view, n_fermion_sector_size, n_fermion_sector_basis_states"]}
{"id": "C52", "title": "N-fermion multisector view is a bijection consistent with iteration", "statement": "The same for n_fermion_multisector_view over any list of disjoint sectors.", "quantifier": "all non-sparse Hilbert spaces and sector lists", "why_tests_cant": "combinatorially many states", "anchors": ["include/libcommute/loperator/n_fermion_sector_view.hpp: n_fermion_multisector_view, multisector_unranking_generator, init_mask, make_nonmultisector_mask"]}
{"id": "C53", "title": "Disjoint sets implement the generated equivalence", "statement": "After any sequence of make_set/set_union/find_root/compress/normalize, two elements are in_same_set iff they are connected by the performed unions, n_sets() counts the classes, and find_root terminates and returns a member of the class.", "quantifier": "all operation histories", "why_tests_cant": "union-find histories with path compression", "anchors": ["include/libcommute/loperator/disjoint_sets.hpp"]}
{"id": "C54", "title": "compress_sets and normalize_sets do what they announce", "statement": "After compress_sets() every element's parent is its representative; after compress_sets();normalize_sets() every representative is the smallest element of its set.", "quantifier": "all reachable disjoint-set states", "why_tests_cant": "depends on tree shapes of depth >= 2", "anchors": ["include/libcommute/loperator/disjoint_sets.hpp: compress_sets, normalize_sets"]}
{"id": "C55", "title": "Partition subspaces are the minimal invariant subspaces", "statement": "space_partition assigns two basis states the same subspace iff they are connected by non-zero matrix elements of the operator; hence each subspace is invariant and no finer basis partition is.", "quantifier": "all operators and Hilbert spaces", "why_tests_cant": "graph connectivity on all sizes", "anchors": ["include/libcommute/loperator/space_partition.hpp: constructor, operator[]"]}
{"id": "C56", "title": "Subspaces are numbered 0..n-1 and their bases partition the space", "statement": "operator[] takes exactly the values 0..n_subspaces()-1, subspace_basis(k) lists in order the states numbered k, subspace_bases() are these lists; wrong k is rejected.", "quantifier": "all partitions", "why_tests_cant": "unbounded", "anchors": ["include/libcommute/loperator/space_partition.hpp: update_root_to_subspace, subspace_basis, subspace_bases"]}
{"id": "C57", "title": "merge_subspaces produces one-to-one connections", "statement": "After merge_subspaces(Cd,C) the partition is coarser than before and each of Cd and C connects every subspace to at most one subspace; the returned maps are the matrix elements.", "quantifier": "all partitions and operator pairs", "why_tests_cant": "fixpoint iteration on all graphs", "anchors": ["include/libcommute/loperator/space_partition.hpp: merge_subspaces"]}
{"id": "C58", "title": "find_connections lists exactly the connected subspace pairs", "statement": "(i,j) is in find_connections(op) iff op has a non-zero matrix element from a state of subspace i to one of subspace j.", "quantifier": "all operators and partitions", "why_tests_cant": "unbounded", "anchors": ["include/libcommute/loperator/space_partition.hpp: find_connections"]}
{"id": "C59", "title": "Equal Hilbert spaces are indistinguishable", "statement": "If hs1 == hs2 then dim(), total_n_bits(), bit ranges and the sequence of states visited by foreach() agree for both.", "quantifier": "all pairs of Hilbert spaces", "why_tests_cant": "unbounded families of Hilbert spaces", "anchors": ["include/libcommute/loperator/hilbert_space.hpp: operator==", "include/libcommute/loperator/elementary_space_boson.hpp: equal", "include/libcommute/loperator/elementary_space.hpp: operator=="]}
{"id": "C60", "title": "Operators act between N-fermion sectors through views", "statement": "If every term of an expression changes the fermion number by N'-N, applying its linear operator through n_fermion_sector_views of the N- and N'-sectors never accesses outside the vectors, and yields the matrix of the expression between the two lists of sector basis states times the source vector.", "quantifier": "all expressions of definite charge, Hilbert spaces, N, N', vectors and ranking algorithms", "why_tests_cant": "unbounded families of operators, sectors and vectors; an out-of-range write would be silent", "anchors": ["include/libcommute/loperator/n_fermion_sector_view.hpp: n_fermion_sector_view", "include/libcommute/loperator/loperator.hpp: loperator::operator()"]}
{"id": "C61", "title": "Operators act between multisectors through views", "statement": "The same for n_fermion_multisector_views of two multisectors over the same sets of modes, if every term changes the fermion number of each set by the difference of the prescribed numbers.", "quantifier": "all expressions, Hilbert spaces, multisectors, vectors and ranking algorithms", "why_tests_cant": "unbounded families of operators, sectors and vectors", "anchors": ["include/libcommute/loperator/n_fermion_sector_view.hpp: n_fermion_multisector_view", "include/libcommute/loperator/loperator.hpp: loperator::operator()"]}
{"id": "C62", "title": "Normal ordering conserves additive quantum numbers", "statement": "For every assignment of charges to fermionic, bosonic and spin modes (with values in any abelian group) the terms stored for a product of expressions of charges d and d' all have charge d+d'; sums, scalar multiples keep the charge, conj reverses it.", "quantifier": "all expressions and all charges", "why_tests_cant": "reordering of arbitrarily long products creates unboundedly many terms", "anchors": ["include/libcommute/expression/expression.hpp: normalize_and_store, reduce_powers_and_store, operator*=, conj"]}
{"id": "C63", "title": "Selection rules", "statement": "A linear operator made from an expression all of whose terms have charge d has non-zero matrix elements only between basis states whose values of the quantum number differ by d.", "quantifier": "all expressions, Hilbert spaces, basis states and charges", "why_tests_cant": "unbounded families of operators and states", "anchors": ["include/libcommute/loperator/monomial_action_fermion.hpp", "include/libcommute/loperator/monomial_action_boson.hpp", "include/libcommute/loperator/monomial_action_spin.hpp"]}
{"id": "C64", "title": "Normal form for every scalar type", "statement": "Whatever the scalar types' arithmetic and zero tests do (rounding, overflow, NaN, tolerances), a program that freely mixes any number of scalar types only builds expressions with strictly increasing, pairwise different monomials, and with the predefined generators every stored monomial is in normal form (ordered, nothing to swap or simplify, no vanishing power).", "quantifier": "all families of scalar types with arbitrary operations, all programs, all generators", "why_tests_cant": "the operations of the scalar type are unrestricted and programs are unbounded", "anchors": ["include/libcommute/expression/expression.hpp: all constructors and operators", "include/libcommute/scalar_traits.hpp"]}
{"id": "C65", "title": "Coefficients of sums, differences, scalar multiples for every scalar type", "statement": "For every scalar type, a monomial of exactly one summand keeps its coefficient (0 - y in the right operand of a difference), a monomial of both gets one scalar addition/subtraction, and is dropped iff is_zero holds for the result; scalar multiples perform one multiplication per monomial and drop nothing; a+b = b+a if coefficient addition commutes; a-a = 0 iff is_zero(x-x) for all coefficients x.", "quantifier": "all scalar types, all expressions built by programs", "why_tests_cant": "needs all coefficient values including rounding and NaNs", "anchors": ["include/libcommute/expression/expression.hpp: operator+=, operator-=, operator*, unary minus"]}
{"id": "C66", "title": "The tolerance of is_zero causes a bounded error", "statement": "With exact arithmetic and a zero test of tolerance eps, every coefficient of a sum or difference is within eps of the exact one, and every coefficient of a product is within eps times the number of contributions to its monomial; with an exact zero test (integers, rationals) there is no error.", "quantifier": "all expressions over a scalar type with a tolerance (real: |x|; complex: max of the parts)", "why_tests_cant": "dropped negligible terms can accumulate over unboundedly many products", "anchors": ["include/libcommute/expression/expression.hpp: store_monomial, normalize_and_store", "include/libcommute/scalar_traits.hpp: is_zero"]}
{"id": "C67", "title": "conj for every scalar type", "statement": "The Hermitian conjugate of a fermionic or bosonic expression consists exactly of the conjugated monomials (stored with the fermionic factors first) with the conjugated coefficients, for every scalar type in which x*1 = x.", "quantifier": "all scalar types and expressions", "why_tests_cant": "coefficients below the tolerance take a different path", "anchors": ["include/libcommute/expression/expression.hpp: conj"]}
{"id": "C68", "title": "Scalars and constant expressions", "statement": "x*e and expression(x)*e (e*x and e*expression(x)) are the same expression, for every scalar type.", "quantifier": "all scalar types, scalars, expressions", "why_tests_cant": "the two use different code with different treatment of negligible coefficients", "anchors": ["include/libcommute/expression/expression.hpp: operator* (both), normalize_and_store"]}
{"id": "C69", "title": "Mixing scalar types", "statement": "Arithmetic of expressions (or an expression and a scalar) of different scalar types gives what one gets by converting the operands to the result type first; conversion converts every coefficient and keeps every monomial.", "quantifier": "all pairs of scalar types whose arithmetic converts the operands to the result type, all expressions", "why_tests_cant": "separate overloads with their own loops (ordered merge) for every combination of types", "anchors": ["include/libcommute/expression/expression.hpp: add_impl, sub_impl, converting constructor, mixed scalar operators"]}
{"id": "C70", "title": "Order with user-defined algebras", "statement": "If the overridden comparisons of a user's generator classes are a strict total order within each algebra (the inherited ones are), then ==, <, > form a strict total order on all generators, predefined and user-defined; predefined generators come first, user-defined ones are ordered by algebra ID and then by their own comparison.", "quantifier": "all user-defined classes, all pairs and triples of generators", "why_tests_cant": "quantifies over all classes a user may write", "anchors": ["include/libcommute/expression/generator.hpp: operator==, operator<, operator>, equal, less, greater", "include/libcommute/algebra_ids.hpp: min_user_defined_algebra_id"]}
{"id": "C71", "title": "User-defined algebras are reduced soundly", "statement": "In every realisation by operators of the predefined relations and of the relations announced by swap_with/simplify_prod/reduce_power of the user's classes, constructing and combining expressions (+,-,*,scalars,conj) acts as the same operation on operators.", "quantifier": "all user-defined algebras, all realisations, all expressions mixing predefined and user-defined generators", "why_tests_cant": "infinitely many algebras and products", "anchors": ["include/libcommute/expression/expression.hpp: normalize_and_store, reduce_powers_and_store", "include/libcommute/expression/generator.hpp: swap_with, simplify_prod, reduce_power, conj"]}
{"id": "C72", "title": "Canonical expressions with user-defined algebras", "statement": "Expressions containing user-defined generators are stored as a strictly increasing sequence of distinct monomials without zero coefficients, and no stored monomial contains a product that the predefined or the user's rules would still change.", "quantifier": "all user-defined algebras that follow the documentation, all expressions", "why_tests_cant": "all algebras, all operation histories", "anchors": ["include/libcommute/expression/expression.hpp: normalize_and_store, reduce_powers_and_store, store_monomial"]}
{"id": "C73", "title": "Different algebras commute", "statement": "a*b == b*a for expressions a and b made of generators of disjoint sets of algebras, predefined or user-defined.", "quantifier": "all expressions, all partitions of the algebra IDs", "why_tests_cant": "unbounded products", "anchors": ["include/libcommute/expression/generator.hpp: free swap_with, free simplify_prod"]}
{"id": "C74", "title": "Expressions of a user-defined algebra with a faithful realisation", "statement": "If operators obeying exactly the user's relations exist, then the product of expressions mixing fermions, bosons, spins-1/2 and the user's generators is associative, == is equality of operators, and conj is an involutive, antilinear antihomomorphism.", "quantifier": "all such algebras (the gamma matrices of the example among them), all expressions", "why_tests_cant": "all algebras, all products", "anchors": ["include/libcommute/expression/expression.hpp: operator*, operator==, conj", "examples/gamma.hpp: generator_gamma"]}
{"id": "C75", "title": "Announced relations hold for expressions", "statement": "For user-defined generators u, v the product u*v equals what swap_with (for u > v, unless v*u can be simplified further) or simplify_prod (otherwise) announces and conj(u) what conj announces; the Clifford relations hold for the gamma matrices of the example for all indices; the Virasoro commutators, the printed recurrences and the Jacobi identity hold for all indices.", "quantifier": "all user-defined algebras, all generators", "why_tests_cant": "all indices", "anchors": ["examples/gamma.hpp", "examples/virasoro_algebra.cpp", "include/libcommute/expression/generator.hpp: swap_with, simplify_prod, conj"]}
{"id": "C76", "title": "Arithmetic laws with user-defined algebras", "statement": "Expressions containing user-defined generators form a module over the scalars under +,-,unary minus and scalar multiplication, the product is bilinear, mixed-type sums, sums with scalars and transform() do what they do to coefficients, and == compares all coefficients.", "quantifier": "all user-defined algebras (no relation between their rules assumed), all expressions", "why_tests_cant": "all algebras, all expressions", "anchors": ["include/libcommute/expression/expression.hpp: arithmetic operators, transform"]}
{"id": "C77", "title": "Integer coefficients: exact or an exception", "statement": "With an integral scalar type (int, mpz_class) every operation on expressions either throws or gives, coefficient by coefficient, the result computed with rational coefficients; a *= b that throws leaves a unchanged; nothing throws as long as only fermions, bosons and spins other than 1/2 are involved; the product of two components of the same spin-1/2 throws unless it vanishes identically, even if the final result has integer coefficients (4*S_z*S_z).", "quantifier": "all expressions with integer coefficients (without overflow), all algebras for exactness, all fermion/boson/spin!=1/2 expressions for the absence of exceptions", "why_tests_cant": "all expressions; the exception may be thrown at any depth of the normal-ordering recursion", "anchors": ["include/libcommute/scalar_traits.hpp: scalar_traits<integral>", "include/libcommute/scalars/gmpxx.hpp: scalar_traits<mpz_class>", "include/libcommute/expression/expression.hpp: normalize_and_store, operator*="]}
{"id": "C78", "title": "Rational coefficients are exact and never throw", "statement": "With mpq_class or boost::rational coefficients construction, +, -, *, *=, scalar multiplication, conj and == of expressions of fermions, bosons and spins of any multiplicity never throw and give the exact results.", "quantifier": "all expressions with rational coefficients over the predefined algebras (without overflow for boost::rational)", "why_tests_cant": "all expressions", "anchors": ["include/libcommute/scalars/gmpxx.hpp: scalar_traits<mpq_class>", "include/libcommute/scalars/boost_rational.hpp", "include/libcommute/expression/expression.hpp"]}
{"id": "C79", "title": "Linear operators over arbitrary lists of algebras", "statement": "loperator<S, AlgebraIDs...>(e, hs) of an expression whose generators belong to the listed algebras (predefined and user-defined ones) and to the Hilbert space can be constructed, and op(v), op*v, op(src,dst) are the product of the matrix of the expression with the vector, provided each algebra's monomial_action does what its documentation asks for and operators of different algebras commute. The predefined monomial_actions and the gamma matrices of examples/gamma.loperator.cpp meet these requirements; the default operator is the special case fermion, boson, spin.", "quantifier": "all lists of algebra IDs accepted by the static_assert, all user-defined generator classes and monomial_action specialisations meeting the contract, all Hilbert spaces, all expressions, all state vectors", "why_tests_cant": "all user-defined algebras, all expressions and all state vectors", "anchors": ["include/libcommute/loperator/monomial_action.hpp: monomial_action<AlgebraIDs...>, find_algebra_monomial_subrange", "include/libcommute/loperator/loperator.hpp: loperator, loperator_base", "examples/gamma.loperator.cpp", "test/new_algebra.loperator.cpp"]}
{"id": "C80", "title": "Unknown generators and products for operators over arbitrary algebras", "statement": "The constructor of loperator<S, AlgebraIDs...> throws if the expression contains a generator of an algebra not listed or of a mode that is not in the Hilbert space; the operator of a product of expressions acts as the operators of the factors one after the other.", "quantifier": "all lists of algebra IDs, all monomial_action specialisations, all Hilbert spaces, expressions and state vectors", "why_tests_cant": "all expressions over all algebras; generators may be anywhere in a monomial", "anchors": ["include/libcommute/loperator/monomial_action.hpp: unknown_generator, monomial_action<AlgebraIDs...>", "include/libcommute/loperator/monomial_action_boson.hpp: monomial_action<boson>", "include/libcommute/loperator/loperator.hpp: loperator"]}
{"id": "C81", "title": "Printed expressions", "statement": "Inserting an expression into a stream prints its terms in the order of iteration, joined by ' + ', each as coefficient*monomial with runs of equal generators as [g]^n, the zero expression as the zero coefficient; two expressions printed alike are equal.", "quantifier": "all expressions reachable through the API, all indices and coefficients with unambiguous printed forms", "why_tests_cant": "injectivity over all pairs of expressions; ambiguous strings are rare", "anchors": ["include/libcommute/expression/expression.hpp: operator<<", "include/libcommute/expression/monomial.hpp: operator<<", "include/libcommute/expression/generator_spin.hpp: to_string", "include/libcommute/utility.hpp: tuple_to_string", "include/libcommute/expression/dyn_indices.hpp: to_string"]}
{"id": "C82", "title": "Eigen vectors, segments, columns and blocks", "statement": "Eigen vectors, segments of vectors, columns and one-column blocks of matrices, and maps can be source and destination of a linear operator: the destination's elements become the operator applied to the source and nothing else in the memory is changed; source and destination may be disjoint parts of the same vector or matrix.", "quantifier": "all expressions, Hilbert spaces, memories, offsets, strides and sizes", "why_tests_cant": "all layouts of source and destination in memory and all operators", "anchors": ["include/libcommute/loperator/state_vector_eigen3.hpp: get_element, update_add_element, set_zeros, zeros_like, foreach", "include/libcommute/loperator/loperator.hpp: operator()"]}
{"id": "C83", "title": "Parametric operators with temporary arguments", "statement": "The result of applying a parametric operator, or of at(args...), depends only on the values of the arguments, not on whether they are variables or temporary objects.", "quantifier": "all parametric operators, all coefficient functions and arguments", "why_tests_cant": "all combinations of parameter passing; tests use numbers", "anchors": ["include/libcommute/loperator/loperator.hpp: parametric_loperator::operator(), act_and_store_coeffs, at, act_impl"]}
{"id": "C84", "title": "Linear operators with integer and rational coefficients are exact or throw", "statement": "A linear operator whose coefficients are integers or exact rationals, applied to a vector of such numbers, either gives exactly the matrix times the vector, or throws because a square root or a half-integer cannot be converted to the scalar type; it never gives a rounded or truncated result. It does not throw for expressions made of fermions, S_+ and S_- of spins 1/2 and S_z of integer spins.", "quantifier": "all Hilbert spaces of predefined algebras, all expressions that a program can build, all vectors", "why_tests_cant": "all matrix elements of all operators in all states", "anchors": ["include/libcommute/scalar_traits.hpp: make_const(double)", "include/libcommute/scalars/gmpxx.hpp: make_const(double)", "include/libcommute/scalars/boost_rational.hpp: make_const(double)", "include/libcommute/loperator/loperator.hpp: act_impl", "include/libcommute/loperator/monomial_action_fermion.hpp: act", "include/libcommute/loperator/monomial_action_boson.hpp: act", "include/libcommute/loperator/monomial_action_spin.hpp: act"]}
{"id": "C85", "title": "Enough bits for every state of an elementary space", "statement": "An elementary space of dimension d occupies the smallest number of bits with which its states 0..d-1 are distinct bit patterns: different product states of a Hilbert space have different indices below vec_size().", "quantifier": "all dimensions of bosonic spaces and all spin multiplicities, all implementations of std::log2 that are exact at powers of two and have a bounded error", "why_tests_cant": "The number of bits is computed with a floating-point logarithm; tests use small dimensions, and the rounding error only matters near powers of two.", "anchors": ["include/libcommute/loperator/elementary_space_boson.hpp: elementary_space_boson, n_bits", "include/libcommute/loperator/elementary_space_spin.hpp: elementary_space_spin, n_bits"]}
{"id": "C86", "title": "Copies of multisector views", "statement": "A copy of a multisector view (made by copying or moving it, any number of times) is a view of the same vector and sectors in its own right: iterating over it visits the states of the multisector and map_index gives their positions, whatever has been done with the original (iteration, exceptions, destruction).", "quantifier": "all programs of constructions, copies, moves, destructions and (possibly interrupted) iterations of views", "why_tests_cant": "Depends on the history and the lifetimes of objects; a dangling reference often still reads the old values.", "anchors": ["include/libcommute/loperator/n_fermion_sector_view.hpp: n_fermion_multisector_view, detail::multisector_unranking_generator::sector_params"]}
{"id": "C87", "title": "Monomials are values: append, concatenate, iterators", "statement": "A monomial behaves as the list of its generators: constructors, copies, moves and assignments give independent values; append (of a generator, another or the same monomial, or a range of iterators) and concatenate put generators at the end in order and change nothing else; swap_generators exchanges two of them; forward and reverse iterators, their arithmetic and comparisons, operator[], size and empty observe this list; iterators of a monomial stay valid while other monomials are created, changed or destroyed.", "quantifier": "all histories of calls on any number of monomials, all growth policies of std::vector", "why_tests_cant": "Iterator invalidation depends on the capacity of the vector, and the result must be right for every history of calls.", "anchors": ["include/libcommute/expression/monomial.hpp: monomial, append, concatenate, swap_generators, const_iterator, begin, end, rbegin, rend, operator[]"]}
{"id": "C88", "title": "S_x, S_y and make_complex", "statement": "For every spin multiplicity and index, S_x and S_y are Hermitian, obey [S_x,S_y] = i S_z and its cyclic permutations, S_x + i S_y = S_+, S_x - i S_y = S_-; S_x^2+S_y^2+S_z^2 equals S_- S_+ + S_z^2 + S_z and commutes with all three components; operators at different indices commute; for spin 1/2 S_x S_x = S_y S_y = 1/4, S_x S_y = (i/2) S_z and so on, and the square is the constant 3/4. make_complex keeps every monomial and coefficient and is an injective homomorphism for +, -, *, scalar multiplication, conj and ==.", "quantifier": "all multiplicities, all indices; all expressions with real coefficients that programs can build", "why_tests_cant": "tests check one multiplicity and a few indices and convert a few expressions; the identities must hold for all multiplicities, indices and expressions", "anchors": ["include/libcommute/expression/factories.hpp: S_x, S_y, make_complex", "include/libcommute/expression/factories_dyn.hpp: S_x, S_y, make_complex", "include/libcommute/expression/expression.hpp: converting constructor, operator*(S, expression)"]}
{"id": "C89", "title": "Histories of Hilbert space variables", "statement": "After any sequence of constructions, add() calls (successful or failed), copies, copy and move assignments and destructions, a hilbert_space variable answers all queries like a space constructed in one go from the elementary spaces it is expected to contain: copies and moved-to objects are full values, independent of the source, can be extended, and changing one variable never changes another.", "quantifier": "all finite programs over any number of hilbert_space variables, all elementary spaces, all interleavings of failed and successful operations", "why_tests_cant": "tests copy one space once; correctness of a value type is about all histories of constructions, copies, moves, failed and successful additions", "anchors": ["include/libcommute/loperator/hilbert_space.hpp: constructors, copy and move constructors and assignments, add"]}
{"id": "C90", "title": "Concurrent iterations and operator applications", "statement": "Any number of threads may iterate over (const) Hilbert spaces with foreach() and apply (shared, const) linear operators to vectors at the same time: whatever the interleaving of their steps, each thread sees exactly the sequence of basis states, or computes exactly the vector, of a sequential call; an iteration abandoned by an exception or a stopped thread does not spoil later iterations over the same object; every call ends.", "quantifier": "all numbers of threads, Hilbert spaces, operators and vectors, all schedules, all points at which threads are stopped", "why_tests_cant": "tests are sequential; interleavings are exponentially many and the bad ones are rare", "anchors": ["include/libcommute/loperator/hilbert_space.hpp: sparse_foreach_basis_state (mutable indices_), foreach", "include/libcommute/loperator/loperator.hpp: operator()(src, dst), act_impl", "include/libcommute/loperator/state_vector.hpp: set_zeros, foreach, update_add_element"]}
{"id": "C91", "title": "Concurrent look-ups in disjoint sets", "statement": "find_root() is a const function: when several threads call it on the same object at the same time, every call ends and returns the representative a sequential call returns, and at every moment (also when threads are stopped in the middle of a call) the object has the same representatives as before.", "quantifier": "all objects (all histories of public calls), all numbers of threads, all sequences of arguments, all schedules", "why_tests_cant": "path compression writes to shared memory in the middle of the look-up; tests are sequential", "anchors": ["include/libcommute/loperator/disjoint_sets.hpp: find_root (mutable parents_)"]}
{"id": "C92", "title": "Queries of space partitions are read-only", "statement": "operator[], foreach, subspace_basis, subspace_bases and find_connections leave a space_partition object as it is, although its disjoint sets are compressed lazily; therefore several threads may query the same partition for basis states: nothing is written, and every call returns what a sequential call returns.", "quantifier": "all partitions (all Hilbert spaces, operators, mergers and earlier queries), all queries, all numbers of threads and schedules", "why_tests_cant": "no test looks at the mutable member, and tests are sequential", "anchors": ["include/libcommute/loperator/space_partition.hpp: operator[], update_root_to_subspace, find_connections, subspace_basis, subspace_bases, foreach", "include/libcommute/loperator/disjoint_sets.hpp: find_root"]}
{"id": "C93", "title": "Expressions survive exceptions", "statement": "If an exception (failed allocation, throwing scalar arithmetic, throwing user-defined generator) interrupts a compound assignment of an expression at any point, the expression remains valid. a *= b, a += x and a -= x (x a scalar) leave it unchanged. After an interrupted a += b or a -= b every monomial has either its old coefficient or that of the complete result; after an interrupted a *= x every coefficient is either multiplied or not; after an interrupted converting assignment every monomial of the source is either copied or not. A program that catches such exceptions and goes on only ever sees expressions that could have been computed without exceptions.", "quantifier": "all expressions, all scalar types, all points at which an operation may throw, all finite sequences of statements with exceptions in between", "why_tests_cant": "no test injects faults, and there are unboundedly many points at which an exception can arise", "anchors": ["include/libcommute/expression/expression.hpp: operator+=, operator-=, operator*=, operator=, store_monomial, normalize"]}
{"id": "C94", "title": "Hilbert spaces survive exceptions", "statement": "If hilbert_space::add(es) or a copy assignment is interrupted by an exception (failed allocation, throwing clone() or n_bits()), the object stays valid: it is unchanged or complete. In particular an exception thrown while es is cloned, and elementary_space_exists, leave it unchanged; whenever es has been inserted, has, index, dim(es), size and foreach_elementary_space answer as for the complete product; and assigning another Hilbert space repairs any such object.", "quantifier": "all Hilbert spaces, elementary spaces, and points at which an operation may throw", "why_tests_cant": "no test injects faults; every allocation inside the functions is a crash point", "anchors": ["include/libcommute/loperator/hilbert_space.hpp: add, operator=, recompute_bit_ranges, init_foreach_alg"]}
{"id": "C95", "title": "Space partitions survive exceptions", "statement": "If merge_subspaces is interrupted by an exception, e.g. of one of the operators, the space_partition object is either as before or the completely merged partition; find_connections, foreach, subspace_basis, subspace_bases and operator[] interrupted by an exception (of the operator, of the functor, of an allocation) leave it as it is. A program that catches the exceptions and goes on always has a partition that could have been made without exceptions.", "quantifier": "all partitions, operators, points at which an operation may throw, and sequences of calls", "why_tests_cant": "no test lets an operator or an allocation throw in the middle of these loops", "anchors": ["include/libcommute/loperator/space_partition.hpp: merge_subspaces, find_connections, foreach, update_root_to_subspace", "include/libcommute/loperator/disjoint_sets.hpp: find_root"]}
{"id": "C96", "title": "Only the order of indices matters", "statement": "Renaming all indices by an order-preserving map gives the same expressions term by term, the same answers of ==, the same Hilbert spaces (order of factors, bits, dimension, exceptions) and the same linear operators. In particular code written with static index tuples and the same code written with dyn_indices agree. Expressions of user-defined generators are respected by every map of generators that commutes with their virtual functions.", "quantifier": "all index types, order-preserving maps, programs building expressions, Hilbert spaces, state vectors", "why_tests_cant": "tests use a handful of index types and values", "anchors": ["include/libcommute/expression/expression.hpp", "include/libcommute/expression/generator_fermion.hpp: less, greater, equal, swap_with", "include/libcommute/expression/dyn_indices.hpp: operator<, operator==", "include/libcommute/loperator/hilbert_space.hpp", "include/libcommute/loperator/loperator.hpp"]}
{"id": "C97", "title": "Canonical transformations", "statement": "If expressions assigned to the generators satisfy the canonical (anti)commutation and spin-1/2 relations, as decided by ==, then substituting them for the generators respects sums, products, scalar multiples and (if they respect conjugation) conj(), plus_hc, minus_hc: transforming the final normal ordered result of a computation gives the same expression as doing the computation with the transformed operators. This covers renamings of indices that change their order, the particle-hole transformation and Bogoliubov transformations.", "quantifier": "all transformations and programs over fermions, bosons and spins-1/2", "why_tests_cant": "tests check single identities; this is a statement about all expressions and all transformations", "anchors": ["include/libcommute/expression/expression.hpp: operator*, operator+, operator==, normalize_and_insert", "include/libcommute/expression/hc.hpp", "include/libcommute/expression/factories.hpp"]}
{"id": "C98", "title": "Accuracy of linear operators in floating-point arithmetic", "statement": "If each operation on coefficients and amplitudes has relative error at most u and is_zero accepts amplitudes up to tol, then every finite amplitude of op(src, dst), op(sv), op * sv differs from the exact matrix-vector product by at most ((1+u)^(N+3d+2)-1) * sum_k |e|_tk |psi_k| + tol * sum over the amplitudes passing is_zero of |e|_tk (N terms, monomials of length at most d); sparse destinations add tol*N*(1+u)^N. Overflows only spoil the amplitudes they contribute to; no table or vector is accessed out of bounds whatever the numbers are.", "quantifier": "all Hilbert spaces, expressions, dense and sparse vectors, real and complex floating-point types, including infinities and NaNs", "why_tests_cant": "tests compare a few results with a tolerance; the bound is for all operators and vectors", "anchors": ["include/libcommute/loperator/loperator.hpp: act_impl", "include/libcommute/loperator/monomial_action_fermion.hpp: act", "include/libcommute/loperator/monomial_action_boson.hpp: act, sqr_root", "include/libcommute/loperator/monomial_action_spin.hpp: act", "include/libcommute/loperator/state_vector.hpp: foreach, update_add_element", "include/libcommute/loperator/sparse_state_vector.hpp: update_add_element"]}
{"id": "C99", "title": "Elementary spaces: comparisons and construction from generators", "statement": "elementary_space: exactly one of a<b, a==b, a>b holds, < is transitive, a>b iff b<a, a!=b iff not a==b, and the order looks at algebra, multiplicity and indices only. es_constructor<IDs...>(args...): each argument goes to the first remaining class that can be constructed from it and the others are default constructed; calling it on a generator gives the result of the class of the generator's algebra, or throws es_construction_failure iff the algebra is not in the list. The spaces made for two generators compare equal iff the generators act on the same degree of freedom. Spins given as double (k/2) give multiplicity k+1 and are returned unchanged by spin().", "quantifier": "all elementary spaces, all lists of algebra classes (also user-defined) and arguments, all generators, all spins that fit an int", "why_tests_cant": "tests compare a dozen spaces and use the two predefined constructors", "anchors": ["include/libcommute/loperator/elementary_space.hpp: operator==, operator<, operator>", "include/libcommute/loperator/elementary_space_spin.hpp: equal, less, greater", "include/libcommute/loperator/es_constructor.hpp: es_constructor_impl, es_constructor, boson_es_constructor, default_es_constructor", "include/libcommute/expression/generator_spin.hpp: generator_spin, spin", "include/libcommute/algebra_ids.hpp: algebra_ids_ordered"]}
{"id": "C100", "title": "Iterators over expressions and references to their monomials", "statement": "A range-based for loop over an expression visits its monomials with their coefficients once each, in increasing order, and -- undoes ++. In a program that creates, copies, moves, modifies and destroys expressions, an iterator (and the references monomial, coeff obtained from it) stays valid, keeps its monomial and shows the current coefficient until the expression is destroyed, assigned to, multiplied by an expression or by zero, cleared, or the coefficient of this monomial becomes zero; it follows its expression when that is moved; operations on other expressions do not affect it; once invalid it never becomes valid again. The operations themselves have their documented effects, also for aliased operands, and are defined except for e += e, e -= e with a vanishing coefficient and self-moves.", "quantifier": "all programs over any number of expressions of one scalar type, all iterators, all operations", "why_tests_cant": "tests iterate over one fixed expression and never modify it while an iterator is alive", "anchors": ["include/libcommute/expression/expression.hpp: const_iterator, begin, end, operator+=, operator-=, operator*=, clear"]}
{"id": "C101", "title": "Fixed-width integral coefficients are exact modulo 2^w", "statement": "If a program with integer literals is run with coefficients of an integral type of w bits with wrap-around arithmetic, every coefficient of the resulting expression equals, modulo 2^w, the coefficient computed with unlimited integers; a coefficient that fits into the type is exact even if intermediate results overflow. No exception is thrown unless spin-1/2 operators occur.", "quantifier": "all programs built from constants, monomials, +, -, * and operations with integers; all widths; all algebras", "why_tests_cant": "tests use small coefficients that never overflow", "anchors": ["include/libcommute/scalar_traits.hpp: scalar_traits<S> for integral S", "include/libcommute/expression/expression.hpp: expression, normalize_and_store, store_monomial"]}
{"id": "C102", "title": "Structure constants are numbers", "statement": "Two var_number objects are equal only if they are of the same kind and have the same contents, is_zero() tells whether the number is zero for every kind. The coefficients of expressions depend on the values of the structure constants only: if two versions of a user-defined algebra differ in how these are written (1/2 or 2/4, 0 or 0/3 or 0.0), the same program gives the same coefficient for every monomial with both, with any exact scalar type that can represent them.", "quantifier": "all user-defined algebras, all pairs of equivalent versions, all programs built from constants, monomials, +, -, * and scalars; all exact scalar types", "why_tests_cant": "the tests use one spelling of each constant", "anchors": ["include/libcommute/utility.hpp: var_number, linear_function", "include/libcommute/expression/expression.hpp: normalize_and_store, reduce_powers_and_store", "include/libcommute/expression/generator.hpp: swap_with, simplify_prod, reduce_power"]}
{"id": "C103", "title": "Accuracy of operators acting through views of floating-point vectors", "statement": "If views of two std::vectors of floating-point numbers present lists l and l' of basis states (compressed views: all states; mapped_basis_view, n_fermion_sector_view, n_fermion_multisector_view: the states of the mapper or the sector) and no term of the expression leads from l outside l', then op(src_view, dst_view) neither fails nor accesses anything outside the vectors, and every finite element of the result differs from the exact matrix-vector product between the two lists by at most ((1+u)^(N+3d+2)-1) times the product of the absolute values plus tol times the columns of elements that pass is_zero.", "quantifier": "all Hilbert spaces, expressions (N terms, monomials of length at most d), views, vectors and floating-point arithmetics with relative error u per operation and is_zero tolerance tol, including those that overflow", "why_tests_cant": "tests compare a few operators on small vectors with a tolerance", "anchors": ["include/libcommute/loperator/mapped_basis_view.hpp: get_element, update_add_element, foreach", "include/libcommute/loperator/compressed_state_view.hpp: get_element, update_add_element, foreach", "include/libcommute/loperator/n_fermion_sector_view.hpp: get_element, update_add_element, foreach", "include/libcommute/loperator/loperator.hpp: act_impl"]}
{"id": "C104", "title": "The Heisenberg chain example", "statement": "For every number of sites N and exchange constant g, the expressions [H, S_x], [H, S_y], [H, S_z] and [H, Q3] that examples/heisenberg_chain.cpp builds (periodic spin-1/2 chain, operators S_x(i), S_y(i), S_z(i), loops with indices modulo N) are equal to 0: all terms cancel.", "quantifier": "all chain lengths N (including 0, 1, 2, 3 where neighbours coincide) and all exchange constants", "why_tests_cant": "the program runs for N = 20 only", "anchors": ["examples/heisenberg_chain.cpp: main, dot, cross", "include/libcommute/expression/factories.hpp: make_spin", "include/libcommute/expression/expression.hpp: operator*, operator+=, operator-"]}
{"id": "C105", "title": "mpq_class coefficients", "statement": "With mpq_class coefficients in canonical form, building monomials, products, sums, differences, scalar operations and Hermitian conjugates never throws, gives the results of exact rational arithmetic with coefficients in canonical form, and == decides equality of the numbers.", "quantifier": "all expressions, scalars and monomials over the predefined algebras and all user-defined algebras with rational structure constants", "why_tests_cant": "unbounded integers and arbitrary user-defined structure constants; GMP silently computes with non-canonical arguments", "anchors": ["include/libcommute/scalars/gmpxx.hpp: scalar_traits<mpq_class>::make_const, is_zero", "include/libcommute/expression/expression.hpp: normalize_and_store, operator=="]}
{"id": "C106", "title": "Linear operators determine expressions", "statement": "For expressions with fermions, bosons and spins 1/2 of a Hilbert space, in which no bosonic creation or annihilation operator occurs as often as its mode has states: the linear operators act alike on all basis vectors if and only if == holds for the expressions.", "quantifier": "all Hilbert spaces, all pairs of expressions over their generators with the stated restriction, all coefficients", "why_tests_cant": "infinitely many pairs of expressions with arbitrarily many terms; a missed normalisation rule would be a pair of unequal expressions with the same matrix", "anchors": ["include/libcommute/loperator/loperator.hpp: make_loperator, operator()", "include/libcommute/expression/expression.hpp: operator==, normalize_and_store"]}
{"id": "C107", "title": "Operators act in invariant subspaces", "statement": "The subspaces found by space_partition for an operator, also after any number of merges, are blocks of its matrix: the operator applied to a vector of the full space is the collection of its blocks applied to the parts of the vector; and the operator can be applied through mapped_basis_views of two vectors in one subspace, as in examples/partition.cpp, without an exception and with the diagonal block times the vector as the result. Through views of arbitrary lists of basis states it either computes the block between the lists or throws std::out_of_range, and it throws exactly if one of the terms leads out of the second list.", "quantifier": "all Hilbert spaces, expressions over their generators, partitions made from them and merged, subspaces, lists of basis states, vectors, amplitude types and unordered_map implementations", "why_tests_cant": "all operators and all vectors; the tests act on one subspace of one Hamiltonian, in which contributions of different terms never cancel", "anchors": ["include/libcommute/loperator/space_partition.hpp: space_partition, merge_subspaces, subspace_basis", "include/libcommute/loperator/mapped_basis_view.hpp: basis_mapper, update_add_element", "include/libcommute/loperator/loperator.hpp: loperator::act_impl", "examples/partition.cpp"]}
{"id": "C108", "title": "Product basis states composed with basis_state_index()", "statement": "The sum of basis_state_index(es, n) over different elementary spaces of a Hilbert space, with n below their dimensions, is the index of the basis state with exactly these components and all other spaces in their state 0; it is below get_vec_size() and nothing overflows. Conversely every basis state index is the sum of basis_state_index() of its components, added in any order, from one choice of numbers only. A space that is not part of the Hilbert space gives elementary_space_not_found.", "quantifier": "all Hilbert spaces, including user-defined elementary spaces, all subsets of their spaces, all state numbers, all orders of addition", "why_tests_cant": "a number of basis states that grows exponentially with the number of spaces; the tests check single spaces of one Hilbert space", "anchors": ["include/libcommute/loperator/hilbert_space.hpp: hilbert_space::basis_state_index, bit_range", "examples/jaynes_cummings.cpp"]}
{"id": "C109", "title": "Truncation and eigenvectors; the Jaynes-Cummings example", "statement": "A linear operator on a truncated bosonic space acts like the operator of the full Fock space followed by the projection on the truncated space; hence eigenvectors of the model that fit into the space are eigenvectors of the linear operator with the same energies. In particular examples/jaynes_cummings.cpp prints (in exact arithmetic) zero for [H, N], for the ground state and for both states of every doublet, whatever the values of hbar, w_c, w_a > w_c and Omega, the number of bosonic states and the number of doublets that fit.", "quantifier": "all expressions in fermions, bosons and spins, Hilbert spaces and vectors; for the example all real values of its constants, all dimensions and all doublets", "why_tests_cant": "infinitely many parameter values and dimensions; the example checks 20 doublets at one set of parameters, numerically", "anchors": ["include/libcommute/loperator/loperator.hpp: loperator::operator()", "include/libcommute/loperator/monomial_action_boson.hpp: monomial_action::act", "include/libcommute/loperator/hilbert_space.hpp: basis_state_index", "examples/jaynes_cummings.cpp"]}
{"id": "C110", "title": "Coefficients that can be evaluated later", "statement": "Expressions may be computed with coefficients of a user-defined type (polynomials, functions of parameters) and evaluated afterwards: if evaluation respects the operations of the coefficient type, the evaluated coefficients are those of the expression computed directly from the values of the literals, for all arguments; a parametric operator built from such an expression gives the same vectors as the operator built from the values. In particular the polynomials of examples/parametric_loperator.cpp are such a type, and the program's H|0> is omega_0 (1/2 + g^2)|0> - omega_0 g |1> for all polynomials omega_0, g, all values of the parameter and all dimensions.", "quantifier": "all programs with +, -, *, unary minus and the scalar operations, over all algebras; all coefficient types with an evaluation, no laws required of them; all arguments and vectors; for the example all polynomials, parameters and dimensions", "why_tests_cant": "the programs, the coefficient types and the parameter values are unbounded; the example prints four values of the parameter", "anchors": ["include/libcommute/expression/expression.hpp: expression::normalize_and_store, operator*=", "include/libcommute/loperator/loperator.hpp: parametric_loperator, make_param_loperator", "examples/parametric_loperator.cpp: polynomial"]}
{"id": "C111", "title": "The two forms of the Kanamori Hamiltonian agree", "statement": "The program examples/kanamori.cpp computes H_K and its form in terms of N, S^2 and L^2 with the arithmetic of expressions; their difference is the zero expression, and the two compare equal, for all values of the Coulomb integrals U, J and all pairwise different index values of the six orbitals. What the program calls integrals of motion are: H_K commutes, as an expression, with N, every component of the spin and orbital momentum, S^2 and L^2; the spin components satisfy [S_a, S_b] = i S_c, the orbital ones as defined there [L_a, L_b] = -i L_c, and spin commutes with orbital momentum; N, S^2, S_z, L^2 and L_z commute with each other. More generally, a computation with symbolic coefficients whose result has no terms gives the zero expression for all values of the parameters and all injective renamings of the indices.", "quantifier": "all complex U, J; all ordered index types and all injective assignments of indices; for the general principle all programs over fermions, bosons and spins", "why_tests_cant": "the example checks one pair U, J and one set of indices; the order of the indices decides the order in which the normalisation swaps generators", "anchors": ["examples/kanamori.cpp", "include/libcommute/expression/expression.hpp: expression::operator*=, normalize_and_store", "include/libcommute/expression/factories.hpp: c_dag, c, n"]}
{"id": "C112", "title": "Commutators detect conserved quantum numbers", "statement": "For Q = sum of w_i n(i), w_j a_dag(j)*a(j), w_k S_z(k) over a list of different modes, the expression Q*e - e*Q has, for every monomial, the coefficient of e multiplied with the amount by which the monomial changes the quantum number. Hence Q*e - e*Q == d*e exactly if all terms of e change it by d, and Q*e == e*Q exactly if no term changes it: the check for conservation laws by comparing with zero, as the examples do, has neither false positives nor false negatives.", "quantifier": "all expressions of fermions, bosons and spins of any multiplicity (no spin-1/2 sharing its indices with another spin); all weights; all lists of modes that contain the modes with a weight occurring in e", "why_tests_cant": "expressions, weights and orders of indices are unbounded; products with S_z of higher spins are not associative (F15), so that the usual algebra does not apply to the expressions directly", "anchors": ["include/libcommute/expression/expression.hpp: operator*, operator-, operator+=", "include/libcommute/expression/factories.hpp: n, S_z", "examples/holstein.cpp, examples/hubbard_holstein.cpp: [H, N], [H, S_z]"]}
{"id": "C113", "title": "The lattice Hamiltonians of the documentation", "statement": "The Hamiltonians built by examples/hubbard_holstein.cpp and examples/holstein.cpp have exactly the advertised terms with their coefficients: hopping between neighbouring sites of a lattice with periodic boundary conditions, repulsion, phonons, electron-phonon coupling (14 Nx Ny terms for the Hubbard-Holstein model). They are Hermitian for real parameters and commute with the number of electrons and the total spin projection the programs build; both also commute with the operators that raise and lower the total spin.", "quantifier": "all lattice sizes, all values of the parameters, all distinct indices of the orbitals in any order", "why_tests_cant": "the lattice size is a constant of the example program; the loops nest over all pairs of sites and every += merges into the map built so far", "anchors": ["examples/hubbard_holstein.cpp", "examples/holstein.cpp", "include/libcommute/expression/expression.hpp: expression::operator+=, operator*"]}
{"id": "C114", "title": "Matrices filled column by column", "statement": "A program that sets a vector to the unit vectors one after another and applies an operator through views into the columns of an uninitialised matrix (examples/n_fermion_sectors.cpp, hubbard_holstein_1d.cpp, spin1_heisenberg.cpp) ends without touching memory outside the two objects, and the matrix it fills is that of the expression between the basis states of the sector, multisector or Hilbert space, in the order of the list of basis states. The matrix of an expression equal to its conjugate is self-adjoint, and an eigenvector of the matrix, put at the positions of the basis states, is an eigenvector of the operator on the full space with the same eigenvalue.", "quantifier": "all Hilbert spaces of predefined elementary spaces, sectors, multisectors, expressions conserving the particle numbers, previous contents of the matrix and the vector, ranking algorithms", "why_tests_cant": "the examples print one spectrum for one lattice; sizes, expressions and the garbage in the uninitialised matrix are unbounded", "anchors": ["examples/n_fermion_sectors.cpp", "examples/hubbard_holstein_1d.cpp", "examples/spin1_heisenberg.cpp", "include/libcommute/loperator/n_fermion_sector_view.hpp", "include/libcommute/loperator/compressed_state_view.hpp", "include/libcommute/loperator/state_vector_eigen3.hpp"]}
{"id": "C115", "title": "From a lattice model to its sector matrix", "statement": "The programs examples/n_fermion_sectors.cpp and examples/hubbard_holstein_1d.cpp, run for any lattice size, parameters and numbers of electrons, build the advertised Hamiltonian, a Hilbert space with exactly the orbitals and phonons that occur in it, and hand to the eigensolver exactly the matrix of that Hamiltonian between the states with N electrons (or N_up and N_down electrons); the number of these states is the product of binomial coefficients and phonon states. A model with more than 63 bits and, in the sector programs, a number of phonon states that is not a power of two, are refused.", "quantifier": "all lattice sizes, all non-zero parameters, all numbers of electrons, all ranking algorithms, all initial contents of the matrix, all distinct indices of the orbitals in any order", "why_tests_cant": "the size of the lattice is a compile-time constant of the program; a run shows only some eigenvalues of one matrix", "anchors": ["examples/n_fermion_sectors.cpp", "examples/hubbard_holstein_1d.cpp", "include/libcommute/loperator/hilbert_space.hpp: make_hilbert_space", "include/libcommute/loperator/n_fermion_sector_view.hpp", "include/libcommute/loperator/loperator.hpp: make_loperator"]}
{"id": "C116", "title": "The atomic-shell partition program", "statement": "The program examples/partition.cpp, for any number of orbitals and any parameters with a non-zero chemical potential and a non-zero exchange coupling, runs to the end: the Hamiltonian it builds has the terms of the Kanamori interaction and no others and commutes, for all parameters, with the operators that raise and lower the total spin, the Hilbert space deduced from it has 2^(2n) states, two states end up in the same subspace exactly when they have the same numbers of up and down electrons and the same singly occupied orbitals, the number of subspaces is the sum over p of C(n,p)(p+1)(n-p+1) both before and after the merges, every creation or annihilation operator maps a subspace into at most one subspace, all stored matrix elements are those of the operators, and acting through the views of a subspace gives the product of the Hamiltonian's block with the vector; an invalid subspace number is refused. With more than 63 modes the program is stopped by the error on the size of the Hilbert space.", "quantifier": "all numbers of orbitals, all mu != 0, U, J != 0 in any domain of characteristic zero, all subspaces, all vectors, all hash table implementations", "why_tests_cant": "the published program prints the result for 3 orbitals and one set of parameters; the partition depends on how terms cancel for all values of the parameters", "anchors": ["examples/partition.cpp", "include/libcommute/loperator/space_partition.hpp", "include/libcommute/loperator/mapped_basis_view.hpp", "include/libcommute/expression/expression.hpp", "include/libcommute/loperator/hilbert_space.hpp"]}
{"id": "C117", "title": "The spin ring program", "statement": "The program examples/spin1_heisenberg.cpp, for a ring of any number of sites N >= 2, spins of any multiplicity m and any non-zero transverse coupling h, builds the Heisenberg Hamiltonian with exactly the terms S_z S_z, h S_+ S_- and h S_- S_+ for each pair of neighbours (with twice the coefficients when the ring has two sites), deduces from it a Hilbert space of m^N states in N ceil(log2 m) bits (an error if that is more than 63 bits), which is sparse unless m is a power of two, and the matrix it hands to the eigensolver is the matrix of the Hamiltonian between the m^N product states in increasing order, whatever the uninitialised vectors contained; the matrix is self-adjoint for real h and block diagonal in the projection of the total spin; the Hamiltonian expression compares equal before and after being commuted with the projection of the total spin, and, for h = 1/2, with all its components.", "quantifier": "all N >= 2, all multiplicities m >= 2 with m^N < 2^31, all non-zero couplings in any domain of characteristic zero, all distinct site indices, all initial contents of the vectors", "why_tests_cant": "the published program runs one length, one spin and one coupling and prints ten eigenvalues; cancellation of terms, the packing of spins into bits and the compression of sparse state indices depend on N and m", "anchors": ["examples/spin1_heisenberg.cpp", "include/libcommute/loperator/compressed_state_view.hpp", "include/libcommute/expression/factories.hpp", "include/libcommute/loperator/hilbert_space.hpp", "include/libcommute/algebra_ids.hpp"]}
{"id": "C118", "title": "The exchange matrix program", "statement": "The program examples/exchange_matrix.cpp, for any two distinct sites (in either order) and any non-zero coupling h of the transverse part, prints dimension 4 and the four columns (1/4,0,0,0), (0,-1/4,h,0), (0,h,-1/4,0), (0,0,0,1/4): the matrix of the exchange interaction of two spins 1/2. The interaction commutes with the projection of the total spin of the pair, and for h = 1/2 with all its components; 8 times the interaction plus 6 is then the same expression as 4 times the square of the total spin.", "quantifier": "all pairs of distinct indices of any ordered index type, all non-zero couplings in any domain of characteristic zero over the reals", "why_tests_cant": "the published program prints one case; the order of the sites decides which bit belongs to which spin and how the products are reordered", "anchors": ["examples/exchange_matrix.cpp", "include/libcommute/loperator/loperator.hpp", "include/libcommute/loperator/elementary_space_spin.hpp", "include/libcommute/loperator/monomial_action_spin.hpp"]}
{"id": "C119", "title": "The gamma matrix expression program", "statement": "The program examples/gamma.expression.cpp prints 21 expressions, all of them zero: the 16 Clifford relations minus twice the metric, the difference of gamma^5 and its conjugate, and the 4 anticommutators of gamma^5 with the gamma matrices; gamma^5 itself is not zero but the single term I gamma^0 gamma^1 gamma^2 gamma^3.", "quantifier": "every domain of characteristic zero with an involution and an element I with conj(I) = -I; all 21 outputs", "why_tests_cant": "floating point output of one run; here the identities are exact, for every coefficient ring, and follow from the user's swap_with, simplify_prod and conj", "anchors": ["examples/gamma.expression.cpp", "examples/gamma.hpp", "include/libcommute/expression/expression.hpp"]}
