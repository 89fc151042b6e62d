# Formal model of libcommute in Lean 4 — design

## 1. Layout

* `lean/Verif/Model/*.lean` – the model of the C++ code, function by function; each definition cites file:lines in /repo.
* `lean/Verif/Spec/*.lean` – small specifications that do not use the model's algorithms (relations of the algebras, Fock space, bit fields, equivalence
  classes, histories of calls). They are what the theorem statements are to be read against.
* `lean/Verif/Proof/*.lean` – lemmas.
* `lean/Verif/Props/*.lean` – the property theorems, named `Cnn_…` (suffix `_partial` if something of the property is missing, `Cnn_Fk_…` for a machine-checked
  counterexample of finding Fk), with concrete cases that meet the hypotheses.
* `properties.jsonl`, `MANIFEST.json` – properties and claims (`tools/claims.py`, `tools/claims_more.py` generate the manifest).
* `seeded/LOG.jsonl` – wrong programs tried against the theorems (`tools/mutate.py` edits a scratch copy of the model and rebuilds it).

Conventions: a function that modifies its argument or its object returns the new value; an exception is `Except.error`; undefined behaviour is a distinct outcome
(`.ub`, or `none` where it is the only failure); a `uint64_t` is a `Nat` with explicit reduction modulo 2^64 wherever the C++ operation can wrap; `int` is
`Int` or `Nat`, and where a value can leave its range this is stated as a hypothesis or a finding; loops without an evident bound get fuel, and a theorem says
the fuel is enough.

## 2. Modelling decisions

* **Indices.** A tuple of indices is an element of an arbitrary type `ι` with a `LinearOrder` (what `std::tuple::operator<` gives for well-behaved index types).
  `dyn_indices` is modelled separately (C03).
* **Generators.** `Gen ι` = fermion / boson / spin(multiplicity, component). Virtual functions are functions by cases. The expression layer is generic in the generator
  type through a class of the virtual functions, so that user-defined algebras are covered by C04 (contract `LawfulGen`-style: `swap_with` and `simplify_prod` are sound in an
  algebra).
* **Scalars.** `ScalarType` is a commutative ring with decidable equality; `is_zero` is exact comparison with 0, except in
  C64–C69 (`Model/AnyScalar`, `Model/MixedScalar`), where `+`, `*`, `is_zero`, … are arbitrary functions, or exact with a tolerance test `|x| < 100 eps`. `make_const(var_number)` maps integers and fractions into the ring through `ConstScalar`, whose laws (`ScalarLaws`) say that it does
  so correctly; `make_const(double)` is `algebraMap ℝ S`. Integral types, `mpz_class`, `mpq_class`, `boost::rational`, whose `make_const` throws for some numbers, are modelled in `Model/ThrowScalar` (C77, C78) and `Model/ThrowAction` (C84).
  Where cancellations or uniqueness matter, the ring is an integral domain of characteristic 0.
* **Expressions.** `std::map<monomial, S>` is an association list kept sorted by the library's monomial order; `find/emplace/erase` are the list operations.
  `Reachable P e`: `e` is the value of an expression built by the public operations from generators satisfying `P` (the mutable overload of `get_monomials()` is not
  an operation: a user can store anything through it).
* **Spins.** `HalfAlone M`: at every index there is either spin 1/2 or other multiplicities, not both (finding F2 is what happens otherwise). Multiplicities are below
  2^31.
* **Fock space.** `Spec/Fock.lean`: occupation numbers, Jordan–Wigner sign, matrix elements of single generators from the textbook; `Spec/FockSpace.lean`: the
  standard representation. `Represents` relates algebras' elements for generators satisfying a predicate to the relations.
* **Hilbert spaces.** `Constructed hs` = obtained by constructors, `add` and assignment from well-formed elementary spaces (`ESpace.Wf`). `ValidState hs s`:
  every bit field of `s` holds a value below the dimension of its elementary space. `ceil(log2(dim))` is the exact `Nat.clog 2 dim`; C85 shows that
  this is what the floating-point computation of the code gives for dimensions up to 2^47 (one unit in the last place) or 2^49 (correct rounding), but not for 2^49+1 (F34).
* **Square roots** in boson/spin actions are `Real.sqrt` (double → ℝ).
* **Bits.** Portable loops are modelled; compiler intrinsics (`__builtin_popcountll`, `__builtin_parityll`, `_pdep_u64`, `_pext_u64`) are trusted to compute what they are documented to
  compute. `next_pow2` beyond 2^63 shifts by 64 (undefined behaviour).
* **Monomial actions.** The iterators of `monomial_action<fermion/boson/spin>` that are incremented past the end before the loop ends are not
  modelled (no observable effect). The bosonic vanishing shortcut and the checks of unknown generators are in the order of the code.
* **State vectors.** `StateVec` is the interface of the library (`get_element`, `update_add_element`, `set_zeros`, `foreach`), `LawfulSV` what it has to satisfy; instances are proved
  for the dense vector, the sparse vector and all views. Source and destination have the same element type. `std::unordered_map` is a list in iteration
  order that the implementation (`HashImpl`) permutes as it likes at insertion and copying; theorems hold for every `HashImpl`.
* **User-defined algebras** (C70–C76): `UserGen U` is the set of virtual functions of any classes derived from `generator`, `AllGen ι U` the generators of both kinds. The conditions
  under which properties hold are in `Spec/UserAlgebra` (`UserOrder`, `UserNoZeros`, `UserConfluent`, `UserClosed`, `UserRealisation`, `UserFaithful`, `UserConjRelations`).
* **Operators over arbitrary algebras** (C79, C80): a specialisation of `monomial_action` is its algebra ID and a constructor returning the member function `act` (`ActionClass`); what it has to do
  is `ActionContract`. `Known`: generators of the listed algebras that belong to the Hilbert space.
* **Linear operators.** Coefficient functions of parametric operators are pure. `op(v, v)` is modelled separately (it zeroes its source).
* **Views** hold the adapted vector by value (a reference in the code, that nobody else uses during the call); a failing `foreach` drops the calls made before the failure.
* **Rankings/sector views.** Mutable generators are re-initialised at every iteration; copies of views are the subject of C86 (`Model/ViewCopy`).
* **Disjoint sets.** Recursion of `find_root` with fuel `size + 1` (proved enough); `assert`s are preconditions (`DsHistory` uses valid arguments only).
* **Space partitions.** The Hilbert space, held by reference, is the fixed list of states visited by `foreach` and the value of `get_vec_size`; `std::map`, `std::multimap`, `std::set` are
  sorted lists; the `do`-`while` loop has fuel `n_sets() + 1` (proved enough); queries return the object with its modified `mutable` members.

## 3. Properties: what is modelled and how it is proved

| Id | Model | Proof | Status |
|----|-------|-------|--------|
| C01 | `Gen` comparisons | case analysis over a linear order | proved |
| C02 | size-then-lexicographic comparison | induction on lists | proved |
| C03 | `dyn_indices` comparison | induction on lists | proved |
| C04 | `normalizeAndStore`, `reducePowersAndStore`, bubble sort | induction on monomial length; value in an arbitrary algebra | proved |
| C05 | same | invariant of bubble sort | partial: F2 |
| C06 | `swapWith`, `simplifyProd`, `reducePower` | case analysis; textbook (anti)commutators | proved |
| C07 | map operations | invariant over `Reachable` | proved |
| C08–C10, C20, C21 | map operations | coefficient functions; canonical lists are equal iff functions are | proved |
| C11, C12 | product + Fock representation | soundness (C04) + linear independence of canonical monomials on Fock space | proved |
| C13–C15 | factories + product | direct computation for all indices | proved |
| C16 | same | same | partial: F2 |
| C17 | `conj` | normalisation without power reduction (universal enveloping algebra, faithful representation) followed by dropping; conj evaluated in the opposite algebra; the numbers of S_+ and S_- are invariant while conj reorders a sorted monomial | proved (all spins) |
| C18 | powers | products of generators | partial: F15 |
| C19 | mixed-type sums | coefficient functions | proved |
| C22 | iterator model with invalidation | counterexample for `-=`, proof for `+=`, `*=` | partial: F10 |
| C23, C24 | bit loops on `Nat` mod 2^64 | `testBit` characterisations | proved |
| C25 | bit loops | same | partial: F13 |
| C26–C28, C30 | `HilbertSpace` | induction on the sorted list of spaces | proved |
| C29, C31, C32, C59 | `HilbertSpace`, iteration with hidden state | induction; counterexamples | partial: F1, F16, F5, F18 |
| C33–C37 | monomial actions | induction over generators | proved |
| C38–C41 | `loperator` | C04 with `Module.End`; adjointness by basis computation | proved |
| C42 | finite map | refinement to `Nat → S` | proved |
| C43, C44 | views | mixed-radix arithmetic; induction | proved |
| C45 | compositions | induction over operators and powers | partial: F12 |
| C46 | `binomial` | Pascal recursion in bounds | partial: F9 |
| C47–C49 | ranking, unranking | combinatorial number system, induction on bits | proved |
| C50 | `trie_ranking` | loop invariants of `make_trie`, relocation of packed subtrees, paths in the vector | partial: F19 |
| C51, C52 | sector views | unranking enumerates the sector | partial: F7, F9, F14, F19 |
| C53 | parents/ranks arrays | forest invariant with rank/height measure | proved |
| C54 | `compress_sets`, `normalize_sets` | same | partial: F3 |
| C55, C56, C58 | partition | refinement to the generated equivalence | proved |
| C60, C61 | operators on sector views | C38 + C51/C52 + charge of monomial actions | partial: as C51, C52 |
| C62 | normal ordering with charges | induction over the recursion of `normalize_and_store` | proved |
| C63 | monomial actions with charges | induction over generators | proved |
| C57 | `merge_subspaces` | measure `n_sets`, alignment invariant | partial: F6 |
| C64, C65 | `Model/AnyScalar`, `Model/MixedScalar`: the code of `expression` over scalar types given only by their operations | the invariants never look at coefficients; map updates | proved |
| C66 | same, exact arithmetic with a tolerance | simulation of the exact normalisation: the stored sequence is the exact one without negligible entries | proved |
| C67, C68 | same | normalisation fixes canonical monomials; a generator that commutes with all that follow is bubbled to its place (ConjMixed) | partial: F11, F20 |
| C69 | `Model/MixedScalar` | coefficients of the ordered merge; map extensionality | partial: F21, F22 |
| C70, C73, C75, C76 | `Model/UserAlgebra`: predefined generators together with arbitrary user-defined classes | the lemmas of C01, C04, C08–C10, C16 are generic in the generator type | proved |
| C71 | same | value in an arbitrary algebra (as C04) | proved |
| C72 | same | invariants of normalisation (as C05, C07) | partial: F24, F25, F27, F28 |
| C74 | same, gamma matrices | tensor product of the faithful representation of the predefined algebras and a faithful one of the user's | proved |
| C77, C78 | `Model/ThrowScalar`: the expression functions with a `make_const` that may throw (`Option`) | simulation: a run that does not throw is, coefficient by coefficient, a run with the larger scalar type (`Proof/ThrowScalar`); invariant `InP` for the absence of exceptions (`Proof/ThrowSafe`) | proved |
| C79 | `Model/UserAction`: `monomial_action<AlgebraIDs...>` as a list of classes with a constructor and `act`, `loperator` over it | the chain of base classes acts as the product of the matrices (induction over the classes; sortedness of stored monomials gives the sub-ranges); contracts of the predefined classes from C33–C35, of the gamma matrices from Dirac's matrices | proved |
| C80 | same | induction over the chain; homomorphism property of `evalExpr` | partial: F29, F30 |
| C81 | `Model/Print`: `to_string` of indices and generators, `operator<<` of monomials and expressions, as lists of characters | unique parsing: texts split at the first character outside a class; runs of equal generators | partial: F31 |
| C82 | `Model/Eigen`: an Eigen vector, segment, column, block or map is an offset, a stride and a size in some memory; `op(src, dst)` with both in the same memory, the amplitude being a reference into it | `LawfulSV` instance; updates touch only the destination, so the loop sees the original source | proved |
| C83 | `Model/ParamMove`: coefficient functions with a value and an effect on arguments passed as rvalues; `std::forward` in the loops of `act_impl` and `at` | induction over the terms | partial: F32 |
| C84 | `Model/ThrowAction`: `act` of the three algebras and `act_impl` with a `make_const(double)` that may throw | simulation by the operator over the reals (`Proof/ThrowAction`); for the absence of exceptions, the updates stored by the constructors multiply by integers only | proved (F33) |
| C85 | `Model/FloatBits`: the constructors of bosonic and spin spaces with `std::log2` as a real-valued function; `Spec/FloatBits`: error bound, correct rounding to 53 bits | bounds of log2(2^k ± 1) from Bernoulli's inequality | partial: F34 |
| C86 | `Model/ViewCopy`: a memory of multisector views whose generators hold the address of a view; programs of constructor calls, copies, moves, destructions and interrupted iterations | invariant over programs: what each view holds in terms of the view it stems from (`Proof/ViewCopy`) | partial: F35 |
| C87 | `Model/MonomialApi`: monomials as vectors in a memory with buffers, capacities, reallocation by any growth policy, and iterators as positions in buffers; all functions of monomial.hpp except comparisons and printing (elsewhere) | refinement: every call has the effect of the list operation and preserves the memory invariant; induction over histories (`Proof/MonomialApi`) | partial: F36 |
| C88 | `Model/ComplexFactories`: `S_x`, `S_y` as complex number × expression with real coefficients, `make_complex` as the converting constructor; exact ℝ, ℂ | the identities follow from C15, bilinearity (C10) and, for the square, associativity of low powers (C11); `make_complex` by a simulation of every operation under a change of scalars (`Proof/ComplexFactories`) | proved |
| C89 | `Model/SpaceHistory`: a memory of `hilbert_space` variables; constructors, `add`, copy/move constructors and assignments, the copy assignment statement by statement so that source and target may be the same object | simulation of every step by a table of expected values (`Spec/SpaceHistory`), induction over the program; `add` ignores stale algebra ranges | partial (F37, F38, F16, F1) |
| C90 | `Model/Concurrent`: threads with own variables and shared memory, one memory access per step; `foreach` over Hilbert space objects with the shared member `indices_`, `op(src, dst)` for vectors in memory; a schedule is a list of thread numbers | invariants of executions: "log + states still to come = sequential result" for each program point, a step measure for termination | partial (F39) |
| C91 | `Model/Concurrent`: `find_root` as a machine with an explicit stack, reads and writes of `parents_` interleaved | the forest keeps its roots and height function under every single write (`Rep.attach`); measure | partial (F40: a C++ data race; proved for sequential consistency) |
| C92 | `Model/SpacePartition`, `Model/Concurrent` | after `update_root_to_subspace` every basis state's parent is a root (`Proof/PartFlat`); hence `find_root` never writes | proved |
| C93 | `Model/Faults` (fault-injection monad: an oracle decides for every operation that may throw) | loop lemmas (`Proof/Faults`): the loops commit one monomial at a time; hence an interrupted statement is a statement with an initial segment of its operand, which is itself reachable by `transform` | proved |
| C94 | `Model/FaultsSpace` | small Hoare logic for programs with exceptions (`Flt.Tri`, `Proof/FaultsSpace`) | partial (F41) |
| C95 | `Model/FaultsSpace`, `Model/SpacePartition` | the same; `find_root` does not write because partitions are flat (`Proof/PartFlat`) | partial (F42) |
| C96 | all expression and Hilbert-space models | naturality of every modelled function under maps of generators (`Proof/Relabel`, `Proof/RelabelSpace`) | proved |
| C97 | `Model/Expression`, `Model/HC` | evaluation in the faithful representation of C12, pulled back along the transformation (`Proof/Substitute`) | proved |
| C98 | `Model/FloatAction` (actions, `loperator`, vectors over scalars given by their operations only) | simulation of the exact model up to relative errors, running error analysis of the accumulation, at most one contribution per term and row (`Proof/FloatAction`, `FloatApply`, `FloatBound`) | proved |
| C99 | `Model/ESpaceOps` (`operator>`, `!=`; the variadic `es_constructor` over arbitrary classes of algebras; spins as `double`) | keys of the order, induction over the list of algebras | proved |
| C100 | `Model/ExprIter` (nodes of the map of monomials with identities, iterators, programs over any number of expressions) | invariants of reachable memories (`Reach.wf`), induction over the loops of `+=`, `-=` | proved |
| C101 | `Model/FixedInt` (`BitVec w` as scalar type), programs `IntProg` | normalisation commutes with ring homomorphisms of the coefficients (`Proof/FixedInt`: lockstep, coefficients in the kernel have no effect), induction on programs | proved |
| C102 | two `UserGen` instances related by `SameUser` | lockstep of the two normalisations; where they part (`c == 0`), the remaining work has coefficient 0 and no effect (`Proof/ConstRepr`) | proved |
| C103 | `Model/FloatViews`: the views of `Model/Views`, `Model/SectorView` over vectors of C98 | a view that presents a list is again a vector of C98 (`Proof/FloatViews`), sharper form of the bound of C98 | proved |
| C104 | `Model/Heisenberg`: the example program over exact complex coefficients | evaluation in the faithful representation (C12); exchange operators, braid relation, Reshetikhin's condition telescoping around the ring; N < 4 separately | proved |
| C105 | `Model/Gmp`: mpq_class as a stored pair, GMP's algorithms, `make_const` | simulation: rationals that accept only constants in lowest terms embed both in ℚ and in pairs | partial: F46 |
| C106 | operators of C38 and `==` of C01 | coefficient extraction: the term with the fewest annihilation operators is isolated by its initial and final occupation numbers, its spin part by a weighted sum over spin states | proved; limits shown by counterexamples |
| C107 | partitions (C55-C58), mapped views (C44), operators (C38) combined | the loop of `act_impl` either stays in the range of the view (C38) or throws at the first term that leaves it; blocks from invariance | partial: F47 |
| C108 | `basisStateIndex`, its assertion, sums in `sv_index_type` | each index changes one empty bit field; states are determined by their fields | proved (F48 on the assertion) |
| C109 | operators (C38), Fock space, Model/JaynesCummings | matrix elements are those of the Fock space (normal order); the 2×2 eigenproblem of the doublets | proved |
| C110 | arithmetic over any scalar type (C98), parametric operators (C40), Model/Polynomial | simulation of the normalisation under an evaluation; sums over terms depend on values only; `polynomial::operator()` respects the operators of the class | proved |
| C111 | examples/kanamori.cpp (Model/Kanamori) over the model of expressions | the program is run in the kernel with symbolic coefficients and six numbered modes; C110 transfers the result to all U, J, faithfulness of the Fock representation to all names of the indices; the symmetries (KanamoriSymmetry, KanamoriCommuting) the same way | proved |
| C112 | model of expressions; Spec/NumberOps builds Q as programs do | the coefficients of a single product can be read off the representation in the enveloping algebra (C17); there [Q, g] = w(g) g for generators, by induction for monomials | proved |
| C113 | `Lattice.hubbardHolstein`, `holstein`, `number`, `spinZ` (the loops of the examples with symbolic sizes) | values of the loops in the enveloping algebra, a list of canonical monomials with non-zero coefficients is the stored list up to order; conservation from C112's commutators, spin multiplets by a sum over both spins | partial (F49: holstein.cpp) |
| C114 | `FillMatrix.sector`, `multisector`, `comp` (the loops of three examples over an Eigen matrix in memory) | invariant of the loop over columns: columns done hold the matrix, others are untouched; views by C51, C52, C43, action by C38 | partial (exclusions of C51, C52) |
| C115 | `Lattice.fermiHubbard`, `chain`, `sectorProgram`, `multisectorProgram` (two whole examples up to the eigensolver) | terms as in C113; an expression is reachable from the generators in it, its space has exactly their elementary spaces (C30); bits and dimension by C26; matrix by C114 | partial (F7, F50, exclusions of C51) |
| C116 | `Atom.ham`, `run`, `mergeAll`, `act` (the whole of examples/partition.cpp for n orbitals) | coefficient lists by permutation from the representation, exchange moves connect states with equal numbers (induction on the number of differing orbitals), partition by C55, merges by C56, count of subspaces by fibres over the set of singly occupied orbitals, spin symmetry pair of orbitals by pair of orbitals | proved |
| C117 | `SpinRing.bond`, `ham`, `program` (the whole of examples/spin1_heisenberg.cpp for N sites and multiplicity m) | coefficient of every monomial of the sum by induction over the bonds, space by C30/C26, matrix by C114, conservation by C63, conjugation by C17, total spin by evaluation in the faithful representation of C17 | proved |
| C118 | `SpinPair.exchange`, `program` (the whole of examples/exchange_matrix.cpp) | the space is computed from the terms (C30), matrix elements of the three terms from the textbook action by cases, columns by C38; the symmetry (PairSpin) is that of C117 for two sites | proved |
| C119 | `makeGamma`, `gamma5`, `GammaProgram.printed` (the whole of examples/gamma.expression.cpp) | evaluation in a faithful realisation (C74), where the identities follow from anticommutation; terms of gamma^5 by C71's normal forms | proved |

## 4. Findings (places where the unchanged code violates the property)

* **F1 (C29)** `hilbert_space` copy constructor / copy assignment do not copy `algebra_bit_ranges_` (hilbert_space.hpp:235-263): `has_algebra` is false on a
  copy, `algebra_bit_range` throws, a fermionic `loperator` cannot be built on it, `n_fermion_sector_view` neither; copy assignment keeps the *target's* stale ranges.
* **F2 (C05, C16)** `generator_spin::simplify_prod` (generator_spin.hpp:94-121) checks only its own multiplicity: a spin-1/2 and a higher spin with the same
  indices are merged as if both were spin-1/2.
* **F3 (C54)** `compress_sets` (disjoint_sets.hpp:110-113) calls `find_root` on parents, not on elements; paths of length 2 survive, and then `normalize_sets` does not
  produce smallest representatives.
* **F4 (C27, C43)** `sparse_foreach_basis_state` accumulates the number of states in an `int` (hilbert_space.hpp:75-80).
* **F5 (C32)** `sparse_foreach_basis_state::indices_`, `unranking_generator::{i,unranked}` are mutable state shared by nested iterations.
* **F6 (C57)** `merge_conn_targets` (space_partition.hpp:175-199) compares a key only with the previous run of keys; the multimap stays ordered by the representatives before the merging,
  so when subspaces with non-adjacent roots were merged, their targets are not.
* **F7 (C52)** `init_mask` returns `unsigned int` (n_fermion_sector_view.hpp:100): masks are cut to 32 bits, and `map_index` then reads out of bounds.
* **F8 (C52)** `multisector_unranking_generator::total` is accumulated in an `int` (n_fermion_sector_view.hpp:740). Not reachable as long as F7 is avoided.
* **F9 (C46)** `binomial(63, k)` overflows for 29 ≤ k ≤ 34 (n_fermion_sector_view.hpp:53-60).
* **F10 (C22)** `e -= e` erases the map node the range-for iterator points to (expression.hpp:262-274).
* **F11 (C17, C67)** `conj` re-adds the previous monomial's contribution when a stored coefficient has zero conjugate (expression.hpp:196-213; stored negligible coefficients arise with
  scalar multiplication, zero divisors, underflow or narrowing conversion; C67_F11 shows a factor 2 error with `double`).
* **F12 (C45)** the compositions constructor applies O_1 first, i.e. collects O_M^{n_M}…O_1^{n_1}|0>, opposite to the documentation; with an empty list and N > 0 the mapper contains the vacuum.
* **F13 (C25)** the portable `popcount` fallback computes a xor-fold, not a count (bit_ops.hpp:56-68).
* **F14 (C43, C51, C52)** a compressed view or a sector view of a 1-dimensional Hilbert space iterates over nothing.
* **F15 (C11, C18)** for spins S>=1 the product is not associative as an operation on expressions (`S_+^k` vanishes as a power, but not in any product).
* **F16 (C31)** `add()` that throws `hilbert_space_too_big` has already inserted the space.
* **F17 (C22)** `e *= x` where `x` is a reference to a coefficient of `e` itself.
* **F18 (C59)** the dimension of a bosonic elementary space is ignored by `operator==` of Hilbert spaces (and by look-ups).
* **F19 (C50)** `trie_ranking` of 63 modes evaluates `pow2(64)`, an undefined shift (n_fermion_sector_view.hpp:348).
* **F20 (C68)** `normalize_and_store` drops negligible coefficients only for monomials of two or more generators (expression.hpp:622-697), so `x*e` and `expression(x)*e` differ.
* **F21 (C69)** `expression<int>(0.4)`, conversion `double`→`int`, `e_int *= 0.5` store zero coefficients: `is_zero` tests the argument's type or is not called (expression.hpp:88-131, 378-386).
* **F22 (C69)** a `float` scalar below the tolerance of `float` times an expression with `double` coefficients gives zero (expression.hpp:301-322).
* **F23 (C75)** examples/virasoro_algebra.cpp simplifies `L_n * L_n` to 0, which does not follow from the commutation relations (`L_n² = 0` contradicts them: multiplication of the
  resulting expressions is not associative, `(L_1 L_0) L_0 ≠ L_1 (L_0 L_0)`). The commutators and the Jacobi identity are right.
* **F24, F28 (C72)** a user-defined `swap_with` that writes a term `0 * g`, or returns a zero that is not the integer 0, leads to stored zero coefficients / to a
  superfluous term (expression.hpp:622-697: only the returned constant is compared with 0, as a `var_number`).
* **F25 (C72)** the result of `reduce_power` is stored without reordering or simplifying what becomes adjacent (expression.hpp:699-745).
* **F27 (C72)** a pair exchanged by `swap_with` is not offered to `simplify_prod` (quaternion units defined as documented leave `i*j` in the stored expression).
* **F29 (C80)** `monomial_action<boson>` returns from its constructor at the first power exceeding the cutoff (monomial_action_boson.hpp:100-104), so that unknown
  generators after it are not reported: `a†_0 a†_0 a†_1` is accepted as the zero operator on a space with a two-level mode 0 and no mode 1.
* **F30 (C80)** the example's `monomial_action<gamma>` (examples/gamma.loperator.cpp:73-143) accepts generators of any algebra (`c†(1)` acts as `γ¹`), uses the whole index of the basis state
  (out-of-bounds reads in a product space) and treats indices other than 0…3 as the identity matrix.
* **F31 (C81)** string indices are printed without quotes or escapes (utility.hpp:130-132): `c("2)C(1")` is printed as `c("2")*c("1")`, `c("a,b","c")` as `c("a","b,c")`, and with
  dynamic indices `c("1")` as `c(1)`. Printing a constant term evaluates `begin() + 1` of an empty vector (monomial.hpp:188), formally undefined, not modelled.
* **F32 (C83)** `parametric_loperator` forwards its arguments to every coefficient function in turn (loperator.hpp:230, 250): with temporary arguments and functions that take them by
  value, all functions but the first get moved-from objects.
* **F33 (C84)** With integer or rational coefficients, operators throw although the result is representable: `a†a` with integers in states whose particle number is not a square (the two factors `√n` are converted one by one, monomial_action_boson.hpp:148-158), `S_z` of a spin 1/2 with `mpq_class`/`boost::rational` in every state
  (`make_const(double)` accepts only integers, gmpxx.hpp:114-121, boost_rational.hpp:34-41). `C84_F33_boson_number`, `C84_F33_spin_half`.
* **F34 (C85)** `elementary_space_boson` computes its number of bits as `std::ceil(std::log2(dim))` in floating point (elementary_space_boson.hpp:42). For `dim = 2^49 + 1` the
  logarithm is rounded to 49: one bit too few, so that different product states share an index. Correct for `dim ≤ 2^49` with a correctly rounded `log2`. `C85_F34_too_few_bits`.
* **F35 (C86)** `multisector_unranking_generator` holds a reference to the `sector_params` of the view that was constructed (n_fermion_sector_view.hpp:717); the implicit copy and
  move constructors of the view copy the reference. `foreach` of a copy is undefined behaviour after the original has been destroyed, and of a moved view always.
  `C86_F35_original_destroyed`, `C86_F35_moved`.
* **F36 (C87)** `monomial::append(range_type)` inserts into the vector while iterating over the range (monomial.hpp:242-245): a range of the same monomial dangles after a
  reallocation, although `append(monomial)` of the same monomial is safe (it reserves first). `m.append({m.begin(), m.end()})` is undefined behaviour unless the capacity happens to
  suffice. `C87_own_range`, `C87_F36_own_range`.
* **F37 (C89)** `hilbert_space::operator=(hilbert_space const&)` (hilbert_space.hpp:249-263) clears `elementary_spaces_` before it iterates over the map of the source: after a self-assignment the space has lost all its elementary spaces, while `dim()`, `total_n_bits()` and `foreach()` still are those of the old product.
* **F38 (C89)** The defaulted move operations (hilbert_space.hpp:248, 264) leave `dim_` and `bit_range_end_` in the moved-from object, whose maps are empty: `size()` is 0 but `dim()` is the old one, and spaces added to it later multiply the stale dimension, so that `foreach()` runs over states that do not exist.
* **F39 (C90)** `foreach(hs, f)` takes a `const` Hilbert space but keeps its counters in a `mutable` member (hilbert_space.hpp:56, 93-109): when two threads iterate over the same sparse space, a schedule exists in which a functor is called on an index that is not a basis state and misses others. Everything that iterates over the space (constructors of partitions, mappers, `foreach` of views with trivial maps) inherits this.
* **F40 (C91)** `disjoint_sets::find_root() const` writes to the `mutable` vector `parents_` (disjoint_sets.hpp:31, 67-74) without synchronisation: concurrent calls are data races, undefined behaviour in C++. (With sequentially consistent memory all results are right, C91; queries of space partitions are not affected, C92.)
* **F41 (C94)** `hilbert_space::add()` inserts the elementary space first and recomputes `bit_range_end_`, `dim_` and `foreach_alg_` afterwards (hilbert_space.hpp:286-292): an exception in between (allocation in `recompute_bit_ranges()` or `init_foreach_alg()`) leaves an object whose `foreach()` visits wrong states or whose `dim()` stays wrong even after later successful calls of `add()`. The copy assignment (hilbert_space.hpp:249-263) likewise leaves a mixture of both objects.
* **F42 (C95)** `update_root_to_subspace()` clears the member `root_to_subspace` and refills it (space_partition.hpp:297-300): if an insertion throws at the end of `merge_subspaces()`, the partition has lost subspaces; `operator[]` throws for valid states and `find_connections()` dereferences `end()`.
* **F43 (C98)** `foreach` for `std::vector` (and any type using the generic overload) skips amplitudes with `is_zero` (state_vector.hpp:71-80), i.e. below `100 eps`: `op` maps a vector of amplitudes of size `1e-15` to zero, so `op(x*v) = x*op(v)` fails for small `x` with an error that is not a relative rounding error. `C98_tiny_amplitudes_are_lost`; the second term of the bound of C98.
* **F44 (C99)** The forwarding constructor `es_constructor(Args&&...)` (es_constructor.hpp:130-133) is a better match for a non-const lvalue of the same type than the copy constructor: `auto b = a;` passes `a` on as an argument, the first base class is copied from it (sliced) and all others are default constructed (es_constructor.hpp:72-74). For `boson_es_constructor` this does not compile; for user-defined algebras with default arguments the copy silently loses the stored parameters. `C99_F44_copy_is_not_a_copy`.
* **F45 (C101)** Scalar multiplication and products store coefficients without testing products for zero. With integral types whose multiplication can overflow to zero (e.g. `(65536u*c_dag(1))*65536u`) a zero coefficient stays in the map: the expression is not `==` to zero, has size 1, and `conj()` adds the conjugate of the preceding term twice (`C101_F45_zero_terms`, `C101_F45_conj`).
* **F46 (C105)** `scalar_traits<mpq_class>::make_const(var_number)` returns `{numerator, denominator}` without `canonicalize()` (gmpxx.hpp:127-128). A user-defined algebra with a constant such as `var_number(2, 4)` yields coefficients that are not in GMP's canonical form: `==` compares them unequal to equal numbers (`C105_F46_not_canonical`), and GMP documents no behaviour for them. `boost::rational` normalises and is not affected.
* **F47 (C107)** `space_partition` joins basis states by the matrix elements of the operator, i.e. after the contributions of all terms have been added, but `op(src, dst)` adds the contributions one by one to `dst` (loperator.hpp:133-143). If contributions cancel, as for correlated hopping `c†_0 c_1 (1 - n_2) + h.c.` with mode 2 occupied, an intermediate contribution lies outside the invariant subspace, and `map.at()` of a mapped view throws `std::out_of_range` (mapped_basis_view.hpp:70-77), although the operator connects the subspace only to itself; examples/partition.cpp:163-165 says that there can be no exception. Theorem `C107_F47_cancelling_terms` shows it for every Hilbert space with three fermionic modes.
* **F48 (C108)** The assertion of `basis_state_index(es, n)` (hilbert_space.hpp:384) is `n < 2^n_bits()` instead of `n < dim()`: for spaces whose dimension is not a power of two (spin 1, a boson with 5 states) a number that is out of range passes, and the index returned is below `get_vec_size()` but is no basis state (`C108_F48_assertion`). With assertions disabled, `n ≥ 2^n_bits()` silently names a state of the next space.
* **F49 (C113)** examples/holstein.cpp:49-51 tests `std::abs(i - j) == N` for the periodic boundary; the largest difference of two coordinates is `N - 1`, so the test never succeeds and the lattice has open boundaries although the program announces periodic ones (`C113_F49_open_boundary`). examples/hubbard_holstein.cpp has `Nx - 1` and is right.
* **F50 (C115)** examples/hubbard_holstein.cpp:67-74 and n_fermion_sectors.cpp:64-71: for `Ny = 1` (or `Nx = 1`) `std::abs(iy - jy) == Ny - 1` holds for `iy == jy`, a site is its own neighbour and the Hamiltonian gets the terms `-t n(i,s)` (`C115_F50_one_site_wide`). The constants in the examples are larger.

## 5. Trusted base

* Lean 4.33.0 kernel; axioms `propext`, `Classical.choice`, `Quot.sound` only (checked with `#print axioms`); no axioms of our own, no compiled evaluation
  (`decide +kernel` is evaluated by the kernel).
* Mathlib definitions used in statements (`Ring`, `Module.End`, `Finsupp`, `Nat.choose`, `Real.sqrt`, `Relation.EqvGen`, …).
* The reading of /repo recorded in the comments of `Verif/Model`. Files modelled: `expression/{generator,generator_fermion,generator_boson,generator_spin,monomial,expression,factories,hc,
  dyn_indices}.hpp`, `algebra_ids.hpp`, the algebras of `examples/gamma.hpp` and `examples/virasoro_algebra.cpp`, `examples/gamma.loperator.cpp`, `scalar_traits.hpp` (as laws), `utility.hpp` (`var_number`), `loperator/{bit_ops,elementary_space*,hilbert_space,monomial_action*,loperator,
  state_vector,sparse_state_vector,mapped_basis_view,compressed_state_view,n_fermion_sector_view,disjoint_sets,space_partition,state_vector_eigen3}.hpp`, and the programs
  `examples/{spin1_heisenberg,exchange_matrix,gamma.expression,partition,n_fermion_sectors,hubbard_holstein,hubbard_holstein_1d,holstein,heisenberg_chain,jaynes_cummings,kanamori,parametric_loperator,virasoro}.cpp`.
* Not modelled: C++ template metaprogramming, memory management, `shared_ptr`/virtual dispatch, stream output of numbers (assumed: decimal digits; `boost::rational`, `std::complex` as in `Spec/Print`), Boost/GMP adaptors (except `mpq_class`, C105: GMP's `mpq_add/sub/mul/neg/equal/sgn` are modelled after GMP 6, for arguments that are different objects)
  (`scalars/*.hpp`), Eigen itself, allocation failures except C93–C95, concurrency except C90–C92 (sequentially consistent memory). The rounding
  of floating-point types is covered only by C64, C65, C67–C69 (arbitrary scalar operations); `loperator`, vectors and views of floating-point numbers are covered by C98, C103 (standard model of rounding). Fixed-width integers: C101.

