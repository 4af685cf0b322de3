{"id": "C01", "title": "Operator product is composition on Fock space", "statement": "For any two second-quantised operators a and b built with the public API, the operator a*b returned by multiplication acts on the fermionic Fock space exactly as applying b first and then a: normal ordering never loses a term, duplicates a contraction or gets a sign wrong.", "quantifier": "all operators a, b (any number of monomials of any length, any index labels, any coefficients of an exact commutative ring)", "why_tests_cant": "the number of monomial shapes, contractions and sign patterns is unbounded; a test only checks a handful of products", "anchors": ["c++/triqs/operators/many_body_operator.hpp: operator*=, normalize_and_insert", "c++/triqs/operators/many_body_operator.cpp"]}
{"id": "C02", "title": "Sum, difference, negation and scaling act linearly", "statement": "a+b, a-b, -a, a+scalar, a-scalar, scalar*a act on Fock space as the corresponding linear combination of the actions of a, b and the identity.", "quantifier": "all operators a, b and all scalars, including cancellation of coefficients to zero and scaling by zero", "why_tests_cant": "cancellation can occur between any subset of monomials; enumeration is impossible", "anchors": ["c++/triqs/operators/many_body_operator.hpp: operator+=, operator-=, operator*=(scalar), erase_zero_monomial"]}
{"id": "C03", "title": "Stored form is always canonical", "statement": "Every operator obtained through any sequence of API operations (the raw constructor from a coefficient and a factor list being given normal-ordered lists, see C67) stores only strictly normal-ordered monomials (creation operators first, increasing index; annihilation operators after, decreasing index; no repeated operator), each with a non-zero coefficient and each at most once.", "quantifier": "all finite histories of constructor / + / - / * / scaling / dagger calls", "why_tests_cant": "invariant over unbounded histories of operations", "anchors": ["c++/triqs/operators/many_body_operator.hpp: monomials, normalize_and_insert, dagger"]}
{"id": "C04", "title": "Operator equality is semantic equality", "statement": "Two operators compare equal with == if and only if they act identically on every Fock state.", "quantifier": "all pairs of operators reachable through the API", "why_tests_cant": "needs uniqueness of the normal form for all operators, in both directions", "anchors": ["c++/triqs/operators/many_body_operator.hpp: operator==, is_zero"]}
{"id": "C05", "title": "dagger is the Hermitian adjoint", "statement": "dagger(a) acts as the adjoint of a with respect to the occupation-number basis; hence dagger(dagger(a)) == a, dagger(a*b) == dagger(b)*dagger(a), and the result is again canonical.", "quantifier": "all operators a, b, all coefficient rings with a conjugation", "why_tests_cant": "quantifies over all operators; the code inserts reversed monomials without re-normalising them, which is only correct because of a global ordering fact", "anchors": ["c++/triqs/operators/many_body_operator.hpp: dagger"]}
{"id": "C06", "title": "Canonical anticommutation relations hold through the API", "statement": "For all labels i, j the API computes c(i)*c_dag(j)+c_dag(j)*c(i) equal to 1 if i==j and 0 otherwise, and c(i)*c(j)+c(j)*c(i)==0, c_dag(i)*c_dag(j)+c_dag(j)*c_dag(i)==0, n(i)*n(i)==n(i).", "quantifier": "all pairs of index labels", "why_tests_cant": "labels range over an infinite set with two orderings each", "anchors": ["c++/triqs/operators/many_body_operator.hpp: c, c_dag, n, operator*, operator=="]}
{"id": "C07", "title": "Operator archive round trip", "statement": "Writing an operator whose monomials have at most four factors to an archive and reading it back into a fresh operator gives an equal operator; writing an operator with a longer monomial is refused with an error, never silently truncated.", "quantifier": "all operators and all operator sets containing their labels", "why_tests_cant": "needs all operators and all label sets", "anchors": ["c++/triqs/operators/many_body_operator.cpp: h5_write, h5_read"]}
{"id": "C08", "title": "Quadratic and quartic coefficient extraction is lossless", "statement": "extract_h_dict, extract_U_dict2 and extract_U_dict4 return dictionaries whose defining sums (sum h_ij c+_i c_j, 1/2 sum U_ij n_i n_j, 1/2 sum U_ijkl c+_i c+_j c_l c_k) are equal to the input operator; terms of another form raise an error (or are exactly the ones dropped when the caller asks to ignore them).", "quantifier": "all operators", "why_tests_cant": "antisymmetrised entries could collide or be double counted only for special index coincidences", "anchors": ["c++/triqs/operators/util/extractors.hpp: extract_h_dict, extract_U_dict2, extract_U_dict4"]}
{"id": "C09", "title": "Block matrix to operator conversion round trip", "statement": "block_matrix_from_op inverts op_from_block_matrix for every block matrix, and refuses every operator term that is not c_dag(bl,i)*c(bl,j).", "quantifier": "all block structures, block matrices and operators", "why_tests_cant": "needs all operators including ill-formed ones", "anchors": ["c++/triqs/operators/util/extractors.hpp: block_matrix_from_op, op_from_block_matrix"]}
{"id": "C10", "title": "Operator set is a stable bijective numbering", "statement": "After any sequence of insertions a fundamental operator set numbers its n distinct labels bijectively by 0..n-1 in order of first insertion; inserting a known label changes nothing and an existing number never changes; looking up an unknown label throws.", "quantifier": "all insertion histories", "why_tests_cant": "unbounded histories with arbitrary repetition", "anchors": ["c++/triqs/hilbert_space/fundamental_operator_set.hpp: insert_from_indices_t, operator[], reverse_map"]}
{"id": "C11", "title": "Operator set archive round trip", "statement": "Writing a fundamental operator set as an archive attribute and reading it back returns the same numbering of the same labels.", "quantifier": "all operator sets: labels with arbitrarily many integer and string components", "why_tests_cant": "fails only for specific component values (integers outside 32 bits, strings containing NUL), which tests do not sample", "anchors": ["c++/triqs/hilbert_space/fundamental_operator_set.cpp: variant_visitor, string_to_variant, to_vec_vec_string, to_indices"]}
{"id": "C12", "title": "Full and sub Hilbert spaces index their states bijectively", "statement": "In a full Hilbert space of n orbitals get_state_index and get_fock_state are mutually inverse on exactly 2^n states and throw outside; in a sub-space built by adding states, get_state_index and get_fock_state are mutually inverse on exactly the added states.", "quantifier": "all orbital counts / all lists of added states", "why_tests_cant": "depends on n and on integer widths beyond what a test allocates", "anchors": ["c++/triqs/hilbert_space/hilbert_space.hpp: hilbert_space, sub_hilbert_space"]}
{"id": "C13", "title": "Imperative operator equals the algebraic operator", "statement": "Acting with an imperative_operator built from a many-body operator on a state of the full Hilbert space gives the state the many-body operator defines in Fock space, with the Fock convention |0..k> = c+_0 ... c+_k |vac> ordered by the operator set.", "quantifier": "all operators, all operator sets (any ordering of labels, number of orbitals up to the supported 64), all states", "why_tests_cant": "fermionic signs depend on which orbitals are occupied; wrong signs appear only above a number of orbitals that tests never reach", "anchors": ["c++/triqs/hilbert_space/imperative_operator.hpp: constructor, operator(), parity_number_of_bits, compute_count_mask"]}
{"id": "C14", "title": "Sparse and dense states represent the same vectors", "statement": "The map-based and vector-based state classes implement the same vector-space operations: amplitudes after any sequence of +=, -=, *=, /= and element updates, and dot products, agree with the mathematical vectors.", "quantifier": "all histories of operations", "why_tests_cant": "unbounded histories; pruning of zero entries in the sparse class is history dependent", "anchors": ["c++/triqs/hilbert_space/state.hpp: state (map), state (vector), dot_product"]}
{"id": "C15", "title": "Phase I partition = connected components of the Hamiltonian", "statement": "After construction, two basis states are in the same subspace if and only if they are connected by a chain of non-zero matrix elements of H (or the hybridisation); hence every subspace is invariant under H and no finer partition with this property exists.", "quantifier": "all Hamiltonians (all finite matrices)", "why_tests_cant": "all graphs on 2^n states", "anchors": ["c++/triqs/hilbert_space/space_partition.hpp: space_partition constructor"]}
{"id": "C16", "title": "Subspace numbering is dense and deterministic", "statement": "Subspace indices are exactly 0..n_subspaces-1, numbered by the first basis state belonging to them, and lookup_basis_state is constant on subspaces and distinct on different ones.", "quantifier": "all partitions reachable by construction and merging", "why_tests_cant": "all union-find histories", "anchors": ["c++/triqs/hilbert_space/space_partition.hpp: _update_index, lookup_basis_state, n_subspaces"]}
{"id": "C17", "title": "Merging for an operator pair only coarsens and connects what it must", "statement": "merge_subspaces(Cd, C) never splits subspaces (H-invariance is kept); afterwards all subspaces that Cd reached from one old subspace are one subspace, and all old subspaces from which Cd (through its conjugate) reached one old subspace are one subspace; documented stronger claim: Cd generates only one-to-one connections between the resulting subspaces.", "quantifier": "all Hamiltonians and operator pairs", "why_tests_cant": "the failure needs two stages of merging interacting; no unit test has it", "anchors": ["c++/triqs/hilbert_space/space_partition.hpp: merge_subspaces"]}
{"id": "C18", "title": "find_mappings is exact", "statement": "find_mappings(op) returns exactly the pairs (s,t) of subspace indices such that op has a non-zero matrix element from some basis state in s to some basis state in t; with diagonal_only, exactly those with s==t.", "quantifier": "all partitions and operators", "why_tests_cant": "all operators", "anchors": ["c++/triqs/hilbert_space/space_partition.hpp: find_mappings"]}
{"id": "C19", "title": "Determinant bookkeeping is exact", "statement": "After any sequence of completed operations determinant() equals the determinant of the matrix f(x_i,y_j) in the order shown to the user.", "quantifier": "all matrix functions f over a field (exact arithmetic), all histories of insert / insert2..k / remove / remove k / change row / change col / change row+col / refill / swap / roll operations with invertible intermediate matrices", "why_tests_cant": "unbounded histories; the permutation sign and incremental updates interact", "anchors": ["c++/triqs/det_manip/det_manip.hpp: complete_insert, complete_remove, complete_change_col, complete_change_row, complete_change_col_row, complete_refill, swap_row, swap_col, roll_matrix"]}
{"id": "C20", "title": "Inverse matrix bookkeeping is exact", "statement": "After any sequence of completed operations inverse_matrix() is the inverse of the matrix f(x_i,y_j) in user order.", "quantifier": "as for the determinant", "why_tests_cant": "rank-one and block updates over unbounded histories", "anchors": ["c++/triqs/det_manip/det_manip.hpp: complete_* , inverse_matrix"]}
{"id": "C21", "title": "Every try returns the exact determinant ratio", "statement": "Each try_* call returns (determinant after completing the operation)/(determinant before), for the matrices in user order.", "quantifier": "all states reachable, all positions and new arguments with invertible current matrix", "why_tests_cant": "sign of the permutation and Schur-complement formula over all positions", "anchors": ["c++/triqs/det_manip/det_manip.hpp: try_insert, try_insert_k, try_remove, try_remove_k, try_change_col, try_change_row, try_change_col_row, try_refill"]}
{"id": "C22", "title": "Rejected tries leave no trace", "statement": "try_* followed by reject_last_try leaves the size, arguments, determinant, and inverse seen by the user unchanged, and later operations behave as if the try had not happened.", "quantifier": "all reachable states and all tries", "why_tests_cant": "scratch data could leak into later operations for some histories", "anchors": ["c++/triqs/det_manip/det_manip.hpp: reject_last_try, complete_operation, try_*"]}
{"id": "C23", "title": "User-visible argument order is list insertion and removal", "statement": "The argument lists returned by get_x/get_y (x_values) after any history equal the lists obtained by inserting and deleting at the requested positions of ordinary lists, for rows and columns independently.", "quantifier": "all histories", "why_tests_cant": "the internal storage swaps rows with the last one; the permutation must compensate for every history", "anchors": ["c++/triqs/det_manip/det_manip.hpp: row_num, col_num, complete_insert, complete_remove, complete_insert_k, complete_remove_k, roll_matrix"]}
{"id": "C24", "title": "Position arguments are validated before memory is touched", "statement": "try_insert*/try_remove*/try_change* called with an out-of-range position are refused rather than accessing memory out of range.", "quantifier": "all positions and all k", "why_tests_cant": "only the last of k positions is affected, tests pass valid ones", "anchors": ["c++/triqs/det_manip/det_manip.hpp: try_insert_k, try_remove_k, try_change_row bounds checks"]}
{"id": "C25", "title": "Swapping or move-assigning det_manip transfers everything", "statement": "After swap(a,b) (or move assignment) each object behaves as the other did before, including its capacity for multi-row operations and thresholds.", "quantifier": "all pairs of reachable objects", "why_tests_cant": "failure needs objects with different capacities", "anchors": ["c++/triqs/det_manip/det_manip.hpp: swap_but_f, reserve"]}
{"id": "C26", "title": "try_insert_from_function keeps arguments and matrix consistent", "statement": "Completing an insertion whose row/column are given by functions leaves an object whose stored arguments and matrix satisfy M_ij = f(x_i,y_j).", "quantifier": "all histories", "why_tests_cant": "stale scratch arguments depend on the previous operation", "anchors": ["c++/triqs/det_manip/det_manip.hpp: try_insert_from_function, complete_insert"]}
{"id": "C27", "title": "Every attempted move is resolved exactly once", "statement": "In every simulation each attempt of a move is followed by exactly one accept or reject of that same move before the next attempt; accepted counts never exceed proposed counts; proposed counts sum to the number of steps.", "quantifier": "all move sets (including nested), all random streams, all histories", "why_tests_cant": "all schedules of random numbers", "anchors": ["c++/triqs/mc_tools/mc_generic.hpp: run", "c++/triqs/mc_tools/mc_move_set.hpp: move_set::attempt, accept, reject, move"]}
{"id": "C28", "title": "Monte-Carlo sign is the product of accepted signs", "statement": "After any number of steps the sign reported to measurements is the initial sign times, for each accepted move, the sign of its Metropolis ratio times the sign returned by its accept.", "quantifier": "all histories of attempts, ratios and accepts", "why_tests_cant": "unbounded histories", "anchors": ["c++/triqs/mc_tools/mc_generic.hpp: run", "c++/triqs/mc_tools/mc_move_set.hpp"]}
{"id": "C29", "title": "Cycle, measurement and status accounting", "statement": "A run performs whole cycles of length_cycle steps, measures exactly once per completed cycle when measuring is enabled, stops at the requested number of cycles, at the stop callback or at a signal, and the status code says which.", "quantifier": "all cycle counts, lengths, callbacks, signals and exceptions raised by moves", "why_tests_cant": "all schedules of signals/callbacks/exceptions", "anchors": ["c++/triqs/mc_tools/mc_generic.hpp: run, warmup, accumulate"]}
{"id": "C30", "title": "Moves are selected with their normalised probability", "statement": "The move picked for a uniform random number u in [0,1) is move i for u in an interval of length p_i/sum p; the intervals are disjoint and cover [0,1); moves of probability zero are never picked.", "quantifier": "all move tables and all u", "why_tests_cant": "continuum of u and arbitrary tables", "anchors": ["c++/triqs/mc_tools/mc_move_set.hpp: attempt, normaliseProba"]}
{"id": "C31", "title": "Metropolis acceptance satisfies detailed balance", "statement": "Accepting a proposal with ratio r when |r| exceeds the uniform number makes the chain satisfy detailed balance for weights w whenever the moves return r = (w'/w)*(reverse proposal/forward proposal).", "quantifier": "all finite state spaces, weights, proposal matrices", "why_tests_cant": "statement about probabilities for all weights", "anchors": ["c++/triqs/mc_tools/mc_move_set.hpp: attempt", "c++/triqs/mc_tools/mc_generic.hpp: run"]}
{"id": "C32", "title": "Every enabled measurement sees every measured configuration once", "statement": "accumulate(sign) is forwarded exactly once to every registered enabled measure, in name order, for each measured cycle; registering a name twice throws; results are collected once per measure.", "quantifier": "all registration and measurement histories", "why_tests_cant": "unbounded histories", "anchors": ["c++/triqs/mc_tools/mc_measure_set.hpp"]}
{"id": "C33", "title": "Buffered generators preserve the stream", "statement": "Calling a buffered function n times returns f's values in the order f produced them, with no value lost or repeated, whatever the buffer size; previewing does not consume.", "quantifier": "all buffer sizes and call histories", "why_tests_cant": "refills happen at every buffer boundary", "anchors": ["c++/triqs/utility/buffered_function.hpp"]}
{"id": "C34", "title": "Mersenne-Twister state stays in bounds and outputs stay in the open unit interval", "statement": "For every seed and any number of draws, the state index stays inside the array, state words stay 32-bit values and every returned number lies in [eps, 1-eps].", "quantifier": "all seeds, all numbers of draws", "why_tests_cant": "period 2^19937", "anchors": ["c++/triqs/mc_tools/MersenneRNG.hpp", "c++/triqs/mc_tools/MersenneRNG.cpp"]}
{"id": "C35", "title": "Linear binning preserves the data", "statement": "At any time the stored bins are the averages of consecutive equal blocks of the data stream in order, their number never exceeds the requested maximum, and no datum is lost or counted twice (also after manual compression).", "quantifier": "all data streams, all bin limits and capacities, all histories of << and compress", "why_tests_cant": "re-binning is triggered at history-dependent points", "anchors": ["c++/triqs/stat/accumulator.hpp: lin_binning"]}
{"id": "C36", "title": "Logarithmic binning computes running mean and variance of block averages", "statement": "At level n the accumulator's M and Q are the mean and the sum of squared deviations of the averages of consecutive blocks of 2^n data, using every complete block.", "quantifier": "all data streams", "why_tests_cant": "recursion over levels for all lengths", "anchors": ["c++/triqs/stat/accumulator.hpp: log_binning"]}
{"id": "C37", "title": "Distributed log-binning reduction equals the pooled statistics", "statement": "Combining per-rank (count, mean, squared deviations) triples as the MPI reduction does gives the count, mean and squared deviations of the concatenated data.", "quantifier": "all numbers of ranks and data sets", "why_tests_cant": "all data partitions", "anchors": ["c++/triqs/stat/accumulator.hpp: mpi_reduce_MQ"]}
{"id": "C38", "title": "Accumulator archive round trip", "statement": "Writing an accumulator to an archive and reading it back gives an accumulator that reports the same statistics and reacts identically to further data.", "quantifier": "all accumulators and continuations", "why_tests_cant": "difference only visible when data is added after reading", "anchors": ["c++/triqs/stat/accumulator.hpp: h5_write, h5_read"]}
{"id": "C39", "title": "Mean, error and jackknife identities", "statement": "mean returns the arithmetic mean; mean_and_err's error is sqrt(sum (x-mean)^2/(n(n-1))); the jackknife estimate of an affine function equals the function of the means, and for the identity its error equals mean_and_err's.", "quantifier": "all data sets with n >= 2", "why_tests_cant": "all data", "anchors": ["c++/triqs/stat/mean_error.hpp", "c++/triqs/stat/jackknife.hpp"]}
{"id": "C40", "title": "Histogram conserves counts and bins the nearest point", "statement": "For any data sequence in-range points are counted once in the bin whose centre is nearest, out-of-range points only in the lost counter, the bins sum to the number of counted points; histograms of concatenated data add; pdf sums to 1 and cdf ends at 1.", "quantifier": "all data sequences, limits, bin numbers", "why_tests_cant": "all sequences", "anchors": ["c++/triqs/stat/histograms.hpp", "c++/triqs/stat/histograms.cpp"]}
{"id": "C41", "title": "Discrete imaginary time is exact modular arithmetic", "statement": "Addition and subtraction of time points implement addition and subtraction modulo the number of ticks, for all values: results are in range, associative and commutative, a-b = a+(-b) and (a-b)+b = a as time differences on the circle.", "quantifier": "all pairs of 64-bit tick values", "why_tests_cant": "2^128 pairs, wrap-around", "anchors": ["c++/triqs/utility/time_pt.hpp: operator+, operator-"]}
{"id": "C42", "title": "Linear mesh: values, nearest point and interpolation", "statement": "On a linear mesh of L>=2 points over [a,b] the points are a+i(b-a)/(L-1); the nearest-point index is the index of a mesh point at distance at most half a step and is exact on mesh points; interpolation reproduces every affine function exactly and the stored values at mesh points.", "quantifier": "all intervals, sizes, arguments in the interval, data", "why_tests_cant": "continuum of arguments, boundary cases at the end points", "anchors": ["c++/triqs/mesh/bases/linear.hpp: to_value, to_index, evaluate"]}
{"id": "C43", "title": "Matsubara mesh indexing", "statement": "On a Matsubara mesh to_data_index and to_index are inverse bijections between frequency numbers first..last and 0..size-1; size is 2n (fermions), 2n-1 (bosons) or n (positive only); a full mesh contains -w with every w; the archive representation determines the mesh.", "quantifier": "all n_iw, statistics, options", "why_tests_cant": "all sizes and both parities", "anchors": ["c++/triqs/mesh/imfreq.hpp"]}
{"id": "C44", "title": "Matsubara frequency arithmetic", "statement": "x+y, x-y and -x of Matsubara frequencies are the Matsubara frequencies whose values are the sum, difference and negation of the values; x/y and x*y are the quotient and product of the complex values.", "quantifier": "all frequency numbers and statistics", "why_tests_cant": "all combinations of parity and sign", "anchors": ["c++/triqs/mesh/domains/matsubara.hpp: operator+, operator-, operator/"]}
{"id": "C45", "title": "Lattice and Brillouin-zone meshes index bijectively", "statement": "For dims (d0,d1,d2) to_data_index and to_index are inverse bijections between triples in range and 0..d0*d1*d2-1, and iteration visits each point exactly once.", "quantifier": "all dims, all indices", "why_tests_cant": "all sizes", "anchors": ["c++/triqs/mesh/cyclat.hpp", "c++/triqs/mesh/brzone.hpp"]}
{"id": "C46", "title": "Periodic index folding", "statement": "Evaluating at any (possibly negative or large) lattice index equals evaluating at the unique in-range index congruent to it; index arithmetic k1+k2, k1-k2, -k, n*k folds compatibly, so that lazily built momentum expressions address the point of the folded sum.", "quantifier": "all integer triples, all expressions", "why_tests_cant": "C++ remainder of negatives differs from mathematical modulo", "anchors": ["c++/triqs/mesh/utils.hpp: positive_modulo", "c++/triqs/mesh/brzone.hpp: index_modulo, to_data_index", "c++/triqs/mesh/k_expr.hpp"]}
{"id": "C47", "title": "Brillouin-zone interpolation is periodic, exact on mesh points and a weighted average", "statement": "Evaluating a function on the momentum mesh at any momentum gives a combination of the 8 surrounding mesh values with non-negative weights summing to one; it is exact on mesh points and invariant under reciprocal-lattice translations.", "quantifier": "all momenta, dims, data", "why_tests_cant": "continuum of momenta", "anchors": ["c++/triqs/mesh/brzone.hpp: evaluate", "c++/triqs/mesh/evaluate.hpp"]}
{"id": "C48", "title": "closest_index returns the nearest mesh momentum", "statement": "The index returned for a momentum k is that of a mesh point (modulo reciprocal lattice vectors) at minimal Euclidean distance from k.", "quantifier": "all lattices (unit vectors), dims and k", "why_tests_cant": "fails only for sufficiently skewed unit vectors", "anchors": ["c++/triqs/mesh/brzone.hpp: closest_index"]}
{"id": "C49", "title": "Product mesh indexing and evaluation", "statement": "A product mesh converts indices componentwise and bijectively, has as many points as the product of component sizes, iterates over each tuple once; evaluation at (x1..xn) is the nested (tensor-product) evaluation and does not depend on the order of nesting.", "quantifier": "all component meshes, points and data", "why_tests_cant": "all arities", "anchors": ["c++/triqs/mesh/prod.hpp", "c++/triqs/mesh/evaluate.hpp"]}
{"id": "C50", "title": "Mesh equality is structural", "statement": "Two meshes compare equal if and only if they were constructed from the same parameters.", "quantifier": "all mesh parameter pairs", "why_tests_cant": "hash collisions by symmetry (e.g. permuted dims) are never sampled", "anchors": ["c++/triqs/mesh/cyclat.hpp: operator==", "c++/triqs/mesh/brzone.hpp: operator==", "c++/triqs/mesh/utils.hpp: hash", "c++/triqs/mesh/imfreq.hpp", "c++/triqs/mesh/bases/linear.hpp"]}
{"id": "C51", "title": "Adjoint meshes are compatible with the Fourier transforms", "statement": "make_adjoint_mesh of a Matsubara-frequency mesh gives a time mesh accepted by the transform whose own adjoint is the original (full) mesh; for real time/frequency meshes delta_t*delta_w*L = 2 pi.", "quantifier": "all meshes", "why_tests_cant": "integer division boundary cases", "anchors": ["c++/triqs/mesh/adjoint.hpp"]}
{"id": "C52", "title": "Lattice Fourier transform round trip", "statement": "Fourier transforming from momentum to real space and back is the identity on Green functions.", "quantifier": "all dims, all data", "why_tests_cant": "all sizes and data", "anchors": ["c++/triqs/gfs/transform/fourier_lattice.cpp"]}
{"id": "C53", "title": "Matsubara Fourier transform round trip", "statement": "Transforming G(iw) to G(tau) and back with the same known moments on the same frequency mesh returns exactly G(iw), for fermions and bosons, whenever the time mesh is long enough for the code to accept it.", "quantifier": "all frequency data, moments, mesh sizes (exact arithmetic)", "why_tests_cant": "all sizes and data, wrap-around of negative frequencies", "anchors": ["c++/triqs/gfs/transform/fourier_matsubara.cpp"]}
{"id": "C54", "title": "Tail model has the prescribed moments", "statement": "The three-pole model subtracted in the Fourier transforms and the density has first, second and third moments equal to the known moments.", "quantifier": "all moments, both statistics", "why_tests_cant": "identity in all moments", "anchors": ["c++/triqs/gfs/transform/fourier_matsubara.cpp: a1,a2,a3", "c++/triqs/gfs/functions/density.cpp"]}
{"id": "C55", "title": "Positive-frequency representation round trip", "statement": "Extending a positive-frequency function to all frequencies and taking the positive part again is the identity, and the extension satisfies G(-iw)=conj(G(iw)).", "quantifier": "all sizes, both statistics, all data", "why_tests_cant": "index arithmetic differs by parity", "anchors": ["c++/triqs/gfs/functions/imfreq.hpp: make_gf_from_real_gf, positive_freq_view"]}
{"id": "C56", "title": "make_hermitian projects onto Hermitian functions", "statement": "make_hermitian(g) is accepted by is_gf_hermitian, leaves Hermitian functions unchanged and is idempotent, for Matsubara and imaginary-time functions; likewise make_real_in_tau.", "quantifier": "all data, both statistics", "why_tests_cant": "all data", "anchors": ["c++/triqs/gfs/functions/imfreq.hpp: make_hermitian, is_gf_hermitian, make_real_in_tau"]}
{"id": "C57", "title": "Flatten / unflatten round trip", "statement": "unflatten_2d undoes flatten_2d for every array shape and kept dimension; documented: the second dimension lists the other dimensions in their original order.", "quantifier": "all shapes and kept dimensions", "why_tests_cant": "order differs only for kept dimension >= 2", "anchors": ["c++/triqs/gfs/gf/flatten.hpp"]}
{"id": "C58", "title": "Legendre evaluation and constraints", "statement": "The Legendre generator's n-th value is P_n(x); enforce_discontinuity makes the discontinuity exactly the requested one; get_tail's zeroth moment is zero.", "quantifier": "all x, n, data", "why_tests_cant": "all n", "anchors": ["c++/triqs/utility/legendre.hpp", "c++/triqs/utility/legendre.cpp", "c++/triqs/gfs/functions/legendre.cpp"]}
{"id": "C59", "title": "Replacing by the tail is symmetric in frequency", "statement": "replace_by_tail(g,tail,n_min) overwrites -w whenever it overwrites w, so that a Hermitian function with Hermitian tail stays Hermitian.", "quantifier": "all meshes, both statistics, all n_min", "why_tests_cant": "the boson window is off by one", "anchors": ["c++/triqs/gfs/functions/imfreq.hpp: replace_by_tail"]}
{"id": "C60", "title": "Pade approximant interpolates its input", "statement": "When no division by zero or truncation occurs the continued fraction evaluated at every input point returns the input value; the process-wide multi-precision setting is left unchanged.", "quantifier": "all distinct nodes and values (exact arithmetic)", "why_tests_cant": "all inputs; the exception path leaks the precision", "anchors": ["c++/triqs/utility/pade_approximants.hpp"]}
{"id": "C61", "title": "real_or_complex tracks reality soundly", "statement": "A real_or_complex number flagged real always has zero imaginary part after any arithmetic, arithmetic agrees with complex arithmetic, and converting a complex-flagged number to double throws.", "quantifier": "all expressions", "why_tests_cant": "all expression trees", "anchors": ["c++/triqs/utility/real_or_complex.hpp"]}
{"id": "C62", "title": "Tight-binding Hamiltonians are Hermitian at every k", "statement": "Any hopping set accepted by the constructor gives a Hermitian h(k) for all k.", "quantifier": "all accepted hopping lists, all k", "why_tests_cant": "fails only with repeated displacements", "anchors": ["c++/triqs/lattice/tight_binding.cpp: constructor", "c++/triqs/lattice/tight_binding.hpp: fourier"]}
{"id": "C63", "title": "Grid generator enumerates the cell-centred grid", "statement": "Iterating a grid generator visits each of the nkpts^dim cell centres exactly once, with index running through 0..size-1.", "quantifier": "all dims 1..3 and nkpts >= 1", "why_tests_cant": "all sizes", "anchors": ["c++/triqs/lattice/grid_generator.hpp"]}
{"id": "C64", "title": "Reciprocal lattice duality", "statement": "The dot product of any reciprocal mesh vector of the Brillouin-zone mesh with any lattice translation of the matching cyclic lattice gives the exact phase 2 pi sum n_i R_i / d_i.", "quantifier": "all lattices and dims", "why_tests_cant": "all lattices", "anchors": ["c++/triqs/lattice/brillouin_zone.cpp", "c++/triqs/mesh/brzone.hpp: constructor, to_value"]}
{"id": "C65", "title": "Quantum-number partition", "statement": "Partitioning by quantum-number operators puts two Fock states in the same subspace iff all their quantum numbers agree, every state of the filtered space is in exactly one subspace, and an error is raised unless each creation and annihilation operator maps each subspace into at most one subspace.", "quantifier": "all quantum-number lists, all fundamental operators", "why_tests_cant": "all Hilbert spaces", "anchors": ["c++/triqs/atom_diag/impl/worker.cpp: partition_with_qn"]}
{"id": "C66", "title": "Automatic partition gives valid block connections", "statement": "After autopartition, for every fundamental operator each subspace is connected by its creation (annihilation) operator to at most one subspace, and the stored connection table is that connection.", "quantifier": "all Hamiltonians", "why_tests_cant": "failure requires interplay of merges for several operators", "anchors": ["c++/triqs/atom_diag/impl/worker.cpp: autopartition", "c++/triqs/hilbert_space/space_partition.hpp: merge_subspaces"]}
{"id": "C67", "title": "Raw monomial constructor", "statement": "Constructing an operator directly from a coefficient and a list of creation/annihilation factors gives an operator that compares equal to the product of those factors.", "quantifier": "all coefficients and factor lists", "why_tests_cant": "only unsorted factor lists fail", "anchors": ["c++/triqs/operators/many_body_operator.hpp: many_body_operator_generic(scalar_t, monomial_t)"]}
{"id": "C68", "title": "is_op_hermitian decides Hermiticity", "statement": "is_op_hermitian(a) (default tolerance) returns true iff all matrix elements satisfy <T|a|S> = conj <S|a|T>.", "quantifier": "all operators", "why_tests_cant": "all operators", "anchors": ["c++/triqs/operators/many_body_operator.hpp: is_op_hermitian, is_almost_zero"]}
{"id": "C69", "title": "Integer multiples of time points", "statement": "mult_by_int(a,k) is the k-fold sum of the time point a, and div_by_int undoes it.", "quantifier": "all ticks and factors", "why_tests_cant": "64-bit products; the wrap modulus of the product differs from that of the sum", "anchors": ["c++/triqs/utility/time_pt.hpp: mult_by_int, div_by_int"]}
{"id": "C70", "title": "Conversion from a real time to a time point", "statement": "make_time_pt is defined for every x in [0,beta] (its precondition), is monotone, and returns the tick just below the exact position.", "quantifier": "all beta > 0 and x in [0,beta]", "why_tests_cant": "the end point is one value in a continuum; undefined conversions may look correct on a given machine", "anchors": ["c++/triqs/utility/time_pt.hpp: time_segment::make_time_pt"]}
{"id": "C71", "title": "Random integers and reals lie in the requested range", "statement": "rng(N) returns an integer i with 0 <= i < N exactly when the underlying number lies in [i/N,(i+1)/N), and rng(b), rng(a,b) return reals of the interval.", "quantifier": "all generators with values in (0,1), all N, a, b", "why_tests_cant": "statement about all values of the generator", "anchors": ["c++/triqs/mc_tools/random_generator.hpp: operator()"]}
{"id": "C72", "title": "RandMT is the MT19937 recurrence", "statement": "Every number returned after seeding is the tempered value of the MT19937 recurrence on the state seeded with the multiplicative generator, for any number of draws.", "quantifier": "all seeds and all numbers of draws", "why_tests_cant": "unbounded streams, in-place regeneration of the state array", "anchors": ["c++/triqs/mc_tools/MersenneRNG.hpp"]}
{"id": "C73", "title": "filter_op splits an operator by length", "statement": "filter_op(h,len) (quadratic_terms, quartic_terms) consists of exactly the terms of h with len factors and their coefficients; together with the remaining terms it is equal to h.", "quantifier": "all operators and lengths", "why_tests_cant": "statement about all operators", "anchors": ["c++/triqs/operators/util/extractors.hpp: filter_op, quadratic_terms, quartic_terms"]}
{"id": "C74", "title": "Dictionary to matrix conversion is exact", "statement": "dict_to_matrix throws exactly if a key contains a label that is not in the fundamental operator set; otherwise the element at the positions of a key is its value and all other elements are zero.", "quantifier": "all dictionaries, ranks and operator sets", "why_tests_cant": "statement about all label sets; collisions of positions only for special sets", "anchors": ["c++/triqs/operators/util/extractors.hpp: dict_to_matrix"]}
{"id": "C75", "title": "Density from Matsubara frequencies is -G(beta)", "statement": "For fermions, density(G(iw), moments) equals -G(tau=beta) of the inverse Fourier transform of G with the same moments, for every time mesh the transform accepts.", "quantifier": "all frequency data, moments and mesh sizes (exact arithmetic)", "why_tests_cant": "identity between two separately written sums, for all data", "anchors": ["c++/triqs/gfs/functions/density.cpp", "c++/triqs/gfs/transform/fourier_matsubara.cpp"]}
{"id": "C76", "title": "Real-axis Fourier transform round trip", "statement": "On every pair of meshes that the transforms accept, time to frequency to time and frequency to time to frequency with the same moments are the identity; the transform is the Riemann sum of exp(iwt) g(t) plus the exact transform of the tail model, which has the given moments.", "quantifier": "all meshes, moments and data (exact arithmetic)", "why_tests_cant": "identity for all sizes and data", "anchors": ["c++/triqs/gfs/transform/fourier_real.cpp"]}
{"id": "C77", "title": "Completion of lattice bases", "statement": "Every accepted set of 1, 2 or 3 unit vectors is completed to three independent vectors, the added ones being unit vectors orthogonal to the others; conversion of lattice coordinates to real coordinates and back is the identity on the first ndim components.", "quantifier": "all unit vectors", "why_tests_cant": "identity over all real matrices; degenerate inputs divide by zero", "anchors": ["c++/triqs/lattice/bravais_lattice.cpp: constructor", "c++/triqs/lattice/bravais_lattice.hpp: lattice_to_real_coordinates, real_to_lattice_coordinates"]}
{"id": "C78", "title": "Tight-binding Hamiltonian on a mesh is the lattice Fourier transform", "statement": "On every Brillouin zone mesh, the Hamiltonian evaluated at a mesh point is the lattice Fourier transform of the hoppings placed on the cyclic lattice of the same extents.", "quantifier": "all lattices, hoppings and meshes (exact arithmetic)", "why_tests_cant": "identity for all sizes and data; folding of long displacements", "anchors": ["c++/triqs/lattice/tight_binding.hpp: fourier"]}
{"id": "C79", "title": "Density of states is a normalised histogram", "statement": "dos returns bin centres and, for each orbital, the histogram of the eigenvalues on the k grid weighted by the orbital content of the eigenvectors; its integral over energy is one for each orbital.", "quantifier": "all lattices, grids, numbers of bands and bins (exact arithmetic)", "why_tests_cant": "identity for all sizes and data; bin edges; degenerate ranges", "anchors": ["c++/triqs/lattice/tight_binding.cpp: dos"]}
{"id": "C80", "title": "Patch density of states integrates to the area", "statement": "dos_patch evaluates the energy at the centres of gravity of ndiv^2 equal small triangles covering each triangle of the patch; the integral of the density over energy is the area of the patch.", "quantifier": "all patches, divisions and numbers of bins (exact arithmetic)", "why_tests_cant": "tiling and counting for all divisions", "anchors": ["c++/triqs/lattice/tight_binding.cpp: dos_patch"]}
{"id": "C81", "title": "Energies on paths and grids are those of the right points", "statement": "Column i of the functions on a path from K1 to K2 with n points belongs to K1 + i (K2-K1)/n, so that joined paths meet each corner once; column i of the grid function belongs to the i-th cell centre.", "quantifier": "all paths, grids and numbers of points (exact arithmetic)", "why_tests_cant": "accumulated increments for all n", "anchors": ["c++/triqs/lattice/tight_binding.cpp: energies_on_bz_path, energy_matrix_on_bz_path, energies_on_bz_grid"]}
{"id": "C82", "title": "Restricted views show the same frequencies", "statement": "restricted_view(g, n_max) is g on the smaller mesh: same temperature and statistics, and at every frequency of the view the value g has there.", "quantifier": "all meshes, both statistics, all n_max up to the size of g", "why_tests_cant": "the mesh of the view is built for fermions whatever g is", "anchors": ["c++/triqs/gfs/functions/imfreq.hpp: restricted_view"]}
{"id": "C83", "title": "Frequencies used in a tail fit", "statement": "The tail fit uses distinct frequencies of the mesh inside the fitting window, none of them zero; the sample contains with every frequency also the opposite one; fit_tail_on_window uses frequencies with indices n_min to n_max and their counterparts only.", "quantifier": "all meshes, statistics, tail fractions in [0, 1], maximal numbers of points, windows", "why_tests_cant": "the indices come from rounding and accumulated steps; tests use a few mesh sizes and look at the fitted moments only", "anchors": ["c++/triqs/mesh/tail_fitter.hpp: get_tail_fit_indices", "c++/triqs/gfs/functions/imfreq.hpp: fit_tail_on_window", "c++/triqs/gfs/functions/imfreq.hpp: replace_by_tail_in_fit_window"]}
{"id": "C84", "title": "Tail fit is exact on high-frequency expansions", "statement": "If the data is a finite expansion sum_k c_k / w^k and the known moments are the first c_k, a fit that returns at least as many moments returns exactly the c_k, whatever least-squares solver is used; the known moments are returned unchanged.", "quantifier": "all Matsubara meshes with at least three non-negative frequencies, all temperatures, fractions up to 1/2, orders, numbers of known moments, all coefficients", "why_tests_cant": "tests fit a few functions with a tolerance; rescaling, shifting by known moments and the choice of the order must agree for all of them", "anchors": ["c++/triqs/mesh/tail_fitter.hpp: vander", "c++/triqs/mesh/tail_fitter.hpp: setup_lss", "c++/triqs/mesh/tail_fitter.hpp: fit"]}
{"id": "C85", "title": "Evaluation of Matsubara functions", "statement": "A Matsubara function evaluated at a frequency of its mesh is the stored value, outside of the mesh the value of its fitted expansion (exact if the data is an expansion), and for meshes of positive frequencies the conjugate of the value at the opposite frequency; a frequency of another temperature or statistic is refused.", "quantifier": "all meshes, data, frequencies", "why_tests_cant": "tests evaluate at a few frequencies of the right statistic", "anchors": ["c++/triqs/gfs/evaluator.hpp: gf_evaluator<mesh::imfreq>"]}
{"id": "C86", "title": "Moments deduced from imaginary time", "statement": "The moments deduced from samples of G(tau) near 0 and beta are s G(beta) - G(0), G'(0) - s G'(beta), s G''(beta) - G''(0), the coefficients of 1/z, 1/z^2, 1/z^3 of the transform, for polynomials up to degree eight up to the rounding of the tabulated constants.", "quantifier": "all polynomials up to degree eight, temperatures, statistics, meshes of at least nine points", "why_tests_cant": "the constants are a table of 64 decimals; tests compare transforms of a few functions with a tolerance", "anchors": ["c++/triqs/gfs/transform/fourier_matsubara.cpp: fit_tail", "c++/triqs/gfs/transform/fourier_matsubara.cpp: _fourier_impl"]}
{"id": "C87", "title": "Diagonalisation of the blocks", "statement": "After construction every block carries the energies, relative to the ground state, in ascending order and a unitary matrix of eigenvectors of the Hamiltonian restricted to it; the smallest energy of all blocks is zero; reordering the blocks keeps the connections of creation and annihilation operators.", "quantifier": "all hermitian Hamiltonians, all partitions into non-empty stable blocks, all connection tables", "why_tests_cant": "tests look at a few Hamiltonians; the reordering of blocks, of eigensystems and of the connection tables has to agree for all of them", "anchors": ["c++/triqs/atom_diag/impl/worker.cpp: complete", "c++/triqs/hilbert_space/imperative_operator.hpp: operator()"]}
{"id": "C88", "title": "Matrices of operators in the eigenbasis", "statement": "The stored matrices of creation and annihilation operators, the matrix of a monomial and the matrix of an operator from a block are the matrix elements between the eigenvectors of the two blocks; an exception is thrown if an operator connects a block with two others.", "quantifier": "all systems, monomials, operators, blocks", "why_tests_cant": "tests compare a few matrix elements", "anchors": ["c++/triqs/atom_diag/impl/worker.cpp: make_op_matrix", "c++/triqs/atom_diag/impl/atom_diag.cpp: get_matrix_element_of_monomial", "c++/triqs/atom_diag/impl/atom_diag.cpp: get_op_mat"]}
{"id": "C89", "title": "Numbering of eigenstates and vacuum", "statement": "The flattened index numbers the eigenstates from zero to the dimension of the full space without repetition; the vacuum state has norm one and is the Fock state without particles expressed in the eigenbasis.", "quantifier": "all systems", "why_tests_cant": "tests use a few systems, always with the vacuum in a block", "anchors": ["c++/triqs/atom_diag/atom_diag.hpp: flatten_subspace_index", "c++/triqs/atom_diag/impl/atom_diag.cpp: fill_first_eigenstate_of_subspace", "c++/triqs/atom_diag/impl/atom_diag.cpp: compute_vacuum"]}
{"id": "C90", "title": "Action of operators on states", "statement": "act(op, state) is the state in the eigenbasis obtained by applying the operator to the state in the Fock basis; products of operators act one after the other.", "quantifier": "all systems, operators, states", "why_tests_cant": "tests apply a few operators to a few states", "anchors": ["c++/triqs/atom_diag/impl/functions.cpp: act"]}
{"id": "C91", "title": "Canonical ensemble", "statement": "The partition function is the trace of exp(-beta (H - E_0)); the trace of the atomic density matrix with an operator is the expectation value of the operator in the canonical ensemble of the Hamiltonian, for the system built by the constructor.", "quantifier": "all hermitian Hamiltonians, partitions into stable blocks, temperatures, operators", "why_tests_cant": "tests compare a few expectation values of small systems", "anchors": ["c++/triqs/atom_diag/impl/functions.cpp: partition_function", "c++/triqs/atom_diag/impl/functions.cpp: atomic_density_matrix", "c++/triqs/atom_diag/impl/functions.cpp: trace_rho_op"]}
{"id": "C92", "title": "Quantum numbers of the eigenstates", "statement": "For an operator that commutes with the Hamiltonian the numbers returned are its eigenvalues on the eigenstates; the checked version refuses operators that are not diagonal in the eigenbasis.", "quantifier": "all systems and operators", "why_tests_cant": "tests use conserved quantities that are diagonal in the Fock basis", "anchors": ["c++/triqs/atom_diag/impl/functions.cpp: quantum_number_eigenvalues", "c++/triqs/atom_diag/impl/functions.cpp: quantum_number_eigenvalues_checked"]}
{"id": "C93", "title": "Atomic Green's function in imaginary time", "statement": "The sum over the terms of the Lehmann representation is -Tr[exp(-(beta-tau)H) c exp(-tau H) c^+]/Z up to the threshold for residues times the number of pairs of states; with excluded states their pairs are left out.", "quantifier": "all systems, operators, temperatures, times in [0, beta], excluded states", "why_tests_cant": "tests compare numbers for a few systems with reference data", "anchors": ["c++/triqs/atom_diag/impl/gf.cpp: atomic_g_lehmann_impl", "c++/triqs/atom_diag/impl/gf.cpp: atomic_g_tau"]}
{"id": "C94", "title": "Atomic Green's function at Matsubara frequencies", "statement": "At every fermionic Matsubara frequency the function computed from the Lehmann representation is the transform of the one in imaginary time, and of the trace formula up to the threshold.", "quantifier": "all systems, temperatures, frequencies, lists of terms", "why_tests_cant": "tests compare a few frequencies with reference data", "anchors": ["c++/triqs/atom_diag/impl/gf.cpp: atomic_g_iw"]}
{"id": "C95", "title": "Sum rule, positivity and hermiticity of the Lehmann representation", "statement": "The residues for c_n1 and c^+_n2 add up to one for equal indices and to zero otherwise, up to the threshold; the diagonal residues are positive and the spectral function is non-negative; exchanging the indices conjugates the residues; G(0) + G(beta) is minus the sum of the residues.", "quantifier": "all systems whose blocks contain all Fock states, temperatures, broadenings", "why_tests_cant": "sum rules hold for every Hamiltonian because of the anticommutation relations; tests see single systems", "anchors": ["c++/triqs/atom_diag/impl/gf.cpp: atomic_g_lehmann_impl", "c++/triqs/atom_diag/impl/gf.cpp: atomic_g_w"]}
{"id": "C96", "title": "Matrix of the transformation from Legendre coefficients to Matsubara frequencies", "statement": "legendre_T(n, l) is sqrt(2l+1)/beta times the transform of P_l(2 tau/beta - 1) at the n-th fermionic frequency, for positive and negative n; the direct transformations of a Legendre Green's function to frequencies and to imaginary time are the transform and the values of the function represented by the series.", "quantifier": "all n, l, beta, coefficients", "why_tests_cant": "tests compare with tolerances for a few l, n and a single Green's function", "anchors": ["c++/triqs/utility/legendre.cpp: legendre_T", "c++/triqs/gfs/transform/legendre_matsubara.hpp: legendre_matsubara_direct"]}
{"id": "C97", "title": "Legendre coefficients from imaginary time", "statement": "The inverse transformation approximates the Legendre coefficients of the function by the trapezoidal rule, with an error of order 1/N^2; after a direct transformation the original coefficients are recovered up to this error.", "quantifier": "all smooth functions of imaginary time, mesh sizes, numbers of coefficients", "why_tests_cant": "tests see one function and one mesh size", "anchors": ["c++/triqs/gfs/transform/legendre_matsubara.hpp: legendre_matsubara_inverse"]}
{"id": "C98", "title": "Legendre coefficients of the atomic Green's function", "statement": "The coefficients computed term by term from the Lehmann representation with modified spherical Bessel functions are the Legendre coefficients of the atomic Green's function in imaginary time.", "quantifier": "all lists of poles and residues, temperatures, l", "why_tests_cant": "tests compare a few coefficients with reference data", "anchors": ["c++/triqs/atom_diag/impl/gf.cpp: atomic_g_l", "c++/triqs/utility/legendre.cpp: mod_cyl_bessel_i"]}
{"id": "C99", "title": "Assignment of expressions to Green's functions", "statement": "g = e, g += e, v = e (v a view) and g[w_] << e store at each point and target element the value that the expression e had before the assignment, also if e contains g itself.", "quantifier": "all meshes, target shapes, expressions of sums, products, quotients and scalars, states of the storages", "why_tests_cant": "tests assign a few expressions to one Green's function; whether old or partly overwritten values are read depends on views and layouts", "anchors": ["c++/triqs/gfs/gf/gf.hpp: operator=", "c++/triqs/gfs/gf/gf_view.hpp: triqs_gf_view_assign_delegation", "c++/triqs/gfs/gf/gf_expr.hpp", "c++/triqs/gfs/gf/auto_assign.hpp: clef_auto_assign"]}
{"id": "C100", "title": "Green's functions are values", "statement": "In every sequence of constructions, copies, moves, assignments and assignments through views, different Green's functions never share storage: an operation on one of them, or through a view of it, leaves the others unchanged; a copy equals the original.", "quantifier": "all sequences of operations, meshes, shapes", "why_tests_cant": "tests check one copy followed by one modification", "anchors": ["c++/triqs/gfs/gf/gf.hpp: constructors, operator=, swap_impl", "c++/triqs/gfs/gf/gf_view.hpp"]}
{"id": "C101", "title": "Slices of functions of several variables", "statement": "g[x, all, y] is a view on the data of g with the remaining variables: its elements are the elements of g at the merged indices, its mesh consists of the components at the places of all, and it is a valid view whenever g is.", "quantifier": "all numbers of variables, positions of all, points, layouts", "why_tests_cant": "tests slice functions of two variables", "anchors": ["c++/triqs/gfs/gf/_gf_view_common.hpp: _subscript_impl", "c++/triqs/gfs/gf/defs.hpp: filter_mesh, compute_position"]}
{"id": "C102", "title": "Statistics of products in imaginary time", "statement": "A product or quotient of functions of imaginary time is fermionic exactly if the number of fermionic factors is odd; sums require equal meshes and keep them.", "quantifier": "all expressions", "why_tests_cant": "tests multiply two functions", "anchors": ["c++/triqs/gfs/gf/gf_expr.hpp: combine_mesh"]}
{"id": "C103", "title": "Failed assignments leave the target as it was", "statement": "If the assignment of an expression throws, the Green's function or view on the left is unchanged.", "quantifier": "all expressions and states", "why_tests_cant": "exceptions are tested by their being thrown, not by the state they leave", "anchors": ["c++/triqs/gfs/gf/gf.hpp: operator=", "c++/triqs/gfs/gf/gf_expr.hpp: combine_mesh, combine_shape"]}
{"id": "C104", "title": "Expressions of block Green's functions", "statement": "b = e and v = e (v a view) for an expression e of block Green's functions give every block the value that e had there before the assignment, together with the names of the leftmost operand; nothing else is changed.", "quantifier": "all numbers of blocks, arity one and two, expressions, sharing of blocks between views", "why_tests_cant": "tests use two or three blocks and operands of equal structure", "anchors": ["c++/triqs/gfs/block/_block_gf_view_common.hpp: _assign_impl", "c++/triqs/gfs/block/block_gf.hpp: operator=", "c++/triqs/gfs/block/block_gf_view.hpp: operator=", "c++/triqs/gfs/block/expr.hpp"]}
{"id": "C105", "title": "Archives of block Green's functions", "statement": "Writing a block Green's function to HDF5 and reading it back gives the same names and blocks.", "quantifier": "all names and blocks, arity one and two", "why_tests_cant": "tests use plain names; collisions depend on the names", "anchors": ["c++/triqs/gfs/block/_block_gf_view_common.hpp: h5_write, h5_read"]}
{"id": "C106", "title": "Iteration over blocks", "statement": "Iterating over a block Green's function visits every block exactly once, row by row; map_block_gf keeps the names and applies the function to each block; default names are distinct.", "quantifier": "all numbers of rows and columns", "why_tests_cant": "tests iterate over a fixed two by two function", "anchors": ["c++/triqs/gfs/block/_block_gf_view_common.hpp: iterator_impl", "c++/triqs/gfs/block/map.hpp", "c++/triqs/gfs/block/factories.hpp: make_block2_gf", "c++/triqs/gfs/block/block_gf.hpp: constructors"]}
{"id": "C107", "title": "Density matrix from Matsubara frequencies", "statement": "density(g) of a matrix-valued g(iw) returns in element (i, j) the density of the element g_ij, for every shape of the target and every statistic.", "quantifier": "all meshes, target shapes, values and moments", "why_tests_cant": "tests use hermitian functions with square targets, for which the part of the loop that copies conjugates is invisible", "anchors": ["c++/triqs/gfs/functions/density.cpp: density(gf_const_view<imfreq>, array_const_view)"]}
{"id": "C108", "title": "Density converges to the occupation", "statement": "When the number of Matsubara frequencies grows, the density of a function whose known first moment is right converges to the occupation of its poles (Fermi or Bose function); for the Green's function of the exact diagonalisation it converges to the expectation value in the grand-canonical ensemble.", "quantifier": "all poles, residues, temperatures, both statistics; all systems of atom_diag", "why_tests_cant": "a limit; tests compare one value with a tolerance", "anchors": ["c++/triqs/gfs/functions/density.cpp", "c++/triqs/atom_diag/gf.cpp"]}
{"id": "C109", "title": "Zero-temperature density from real frequencies", "statement": "density(g) on the real axis is the integral of the interpolated spectral function up to zero frequency, hermitian, and positive when the spectral function is.", "quantifier": "all meshes and values", "why_tests_cant": "tests use a symmetric mesh for which zero is a mesh point or a tolerance larger than the error", "anchors": ["c++/triqs/gfs/functions/density.cpp: density(gf_const_view<refreq>)"]}
{"id": "C110", "title": "Finite-temperature density from real frequencies", "statement": "density(g, beta) on the real axis is the sum of spectral function times Fermi function times the step; for a positive spectral function it lies between zero and the total weight; at low temperature it becomes the sum over negative frequencies.", "quantifier": "all meshes, values and temperatures", "why_tests_cant": "tests evaluate one temperature", "anchors": ["c++/triqs/gfs/functions/density.cpp: density(gf_const_view<refreq>, double)"]}
{"id": "C111", "title": "Density from Legendre coefficients", "statement": "density(gl) is minus the value at beta of the function of imaginary time with these coefficients, and the density of one function does not depend on the mesh it is given on.", "quantifier": "all coefficients and matrices", "why_tests_cant": "tests use real symmetric functions, for which a transposition is invisible", "anchors": ["c++/triqs/gfs/functions/density.cpp: density(gf_const_view<legendre>)"]}
{"id": "C112", "title": "Rebinning in imaginary time", "statement": "rebinning_tau(g, n) returns a function on n points of which each value is the average of g over the points nearest to it; smooth functions are reproduced up to the size of a bin.", "quantifier": "all numbers of old and new points, values and temperatures", "why_tests_cant": "tests rebin one mesh to one coarser mesh", "anchors": ["c++/triqs/gfs/functions/imtime.cpp: rebinning_tau"]}
{"id": "C113", "title": "Operator labels of spins and orbitals", "statement": "get_mkind gives distinct labels to distinct spins and orbitals, and the block structure of set_operator_structure is the one of these labels.", "quantifier": "all spin names, numbers of orbitals and both conventions", "why_tests_cant": "tests use the names up and down", "anchors": ["python/triqs/operators/util/op_struct.py: get_mkind, set_operator_structure"]}
{"id": "C114", "title": "Slater Hamiltonian", "statement": "h_int_slater builds one half of the sum of U_ijkl a+_is a+_js' a_ls' a_ks; it conserves the number of particles and is Hermitian for a Hermitian matrix.", "quantifier": "all numbers of spins and orbitals, labels and interaction matrices", "why_tests_cant": "tests compare one matrix of three orbitals", "anchors": ["python/triqs/operators/util/hamiltonians.py: h_int_slater"]}
{"id": "C115", "title": "Kanamori Hamiltonian", "statement": "h_int_kanamori with the matrices of U_matrix_kanamori equals h_int_slater with the four-index matrix, is Hermitian, conserves the number of particles, and is invariant under orbital rotations when U' = U - 2J.", "quantifier": "all U, U', J, numbers of spins and orbitals", "why_tests_cant": "tests fix U and J and compare with one reference", "anchors": ["python/triqs/operators/util/hamiltonians.py: h_int_kanamori", "python/triqs/operators/util/U_matrix.py: U_matrix_kanamori"]}
{"id": "C116", "title": "Density-density part", "statement": "diagonal_part keeps exactly the diagonal matrix elements of an operator, and h_int_density of the reduced matrices is the diagonal part of the Slater Hamiltonian.", "quantifier": "all operators and real four-index matrices", "why_tests_cant": "tests compare one Hamiltonian", "anchors": ["python/triqs/operators/util/hamiltonians.py: diagonal_part, h_int_density", "python/triqs/operators/util/U_matrix.py: reduce_4index_to_2index"]}
{"id": "C117", "title": "Basis change of the interaction", "statement": "transform_U_matrix gives the Hamiltonian in which each operator is replaced by its expansion in the new basis; for orthonormal columns the new operators obey the anticommutation relations; two changes compose.", "quantifier": "all matrices of the change of basis and interaction matrices", "why_tests_cant": "tests transform spherical to cubic harmonics for one l", "anchors": ["python/triqs/operators/util/U_matrix.py: transform_U_matrix"]}
{"id": "C118", "title": "Spin and orbital momentum operators", "statement": "S_op and L_op are the Hermitian components of angular momenta, S2_op and L2_op their squares, LS_op their scalar product; one electron has spin 1/2 and orbital momentum (n_orb-1)/2; the spin is conserved by the Slater and Kanamori Hamiltonians.", "quantifier": "all numbers of orbitals, labels and orthonormal changes of basis", "why_tests_cant": "tests compare a few operators for fixed n_orb", "anchors": ["python/triqs/operators/util/observables.py: S_op, S2_op, L_op, L2_op, LS_op"]}
{"id": "C119", "title": "Real and imaginary parts of operators", "statement": "real(op) and imag(op) have the real and imaginary parts of the matrix elements of op; make_operator_real rejects exactly the operators with an imaginary coefficient above the tolerance.", "quantifier": "all complex operators and tolerances", "why_tests_cant": "tests use two operators", "anchors": ["c++/triqs/operators/many_body_operator.hpp: real, imag", "python/triqs/operators/util/hamiltonians.py: make_operator_real"]}
{"id": "C120", "title": "Cubic harmonics", "statement": "spherical_to_cubic is unitary and its rows are real functions for l = 1, 2, 3; a row with a given name is the same function in every convention; the t2g and eg indices name the right rows. Exceptions: l = 0 gives the zero matrix and wien2k with l = 2 uses other functions.", "quantifier": "all conventions and angular momenta", "why_tests_cant": "tests compare a few matrices", "anchors": ["python/triqs/operators/util/U_matrix.py: spherical_to_cubic, t2g_submatrix, eg_submatrix"]}
{"id": "C121", "title": "Interaction matrix of a shell", "statement": "The matrix of U_matrix_slater is symmetric, gives a Hermitian Hamiltonian that commutes with the orbital momentum in the basis used, and is real in every basis of real orbitals; the ways a call can fail are characterised.", "quantifier": "all angular momenta, radial integrals and orthonormal bases", "why_tests_cant": "tests compare printed matrices for l = 2", "anchors": ["python/triqs/operators/util/U_matrix.py: U_matrix_slater, angular_matrix_element, transform_U_matrix"]}
{"id": "C122", "title": "Three-j symbols", "statement": "three_j_symbol satisfies the selection rules, the recursion of the raising and lowering operators, the reflection and exchange symmetries, orthogonality, and the Condon-Shortley phase, and never takes the factorial of a negative number.", "quantifier": "all integer quantum numbers", "why_tests_cant": "tests evaluate a few symbols", "anchors": ["python/triqs/operators/util/U_matrix.py: three_j_symbol"]}
{"id": "C123", "title": "Clebsch-Gordan coefficients", "statement": "clebsch_gordan is orthonormal and equals the documented coefficient up to a sign; the exact condition for the right sign is given (an operator precedence makes it wrong for others).", "quantifier": "all integer quantum numbers", "why_tests_cant": "there are no tests of the function", "anchors": ["python/triqs/operators/util/U_matrix.py: clebsch_gordan"]}
{"id": "C124", "title": "Interaction parameters and radial integrals", "statement": "With the radial integrals of U_J_to_radial_integrals the average interaction is U_int and the average interaction of equal spins in different orbitals is U_int - J_hund, in every orthonormal basis; radial_integrals_to_U_J inverts it, and gives the coupling of the interaction exactly if the integrals have the assumed ratios.", "quantifier": "all parameters, radial integrals and orthonormal bases of p, d and f shells", "why_tests_cant": "tests use one set of parameters", "anchors": ["python/triqs/operators/util/U_matrix.py: U_J_to_radial_integrals, radial_integrals_to_U_J"]}
{"id": "C125", "title": "Super lattice cluster and coordinates", "statement": "When the search of SuperLattice succeeds, it returns exactly one site of each class of the lattice modulo the super lattice, as many as the determinant of the units; change_coordinates_L_to_SL writes every point uniquely as a super lattice vector plus a cluster site. The exact condition for the search to succeed is given.", "quantifier": "all dimensions, integer units with non-zero determinant, points", "why_tests_cant": "tests fold one two-dimensional lattice", "anchors": ["python/triqs/lattice/super_lattice.py: TBSuperLattice.__init__, change_coordinates_L_to_SL"]}
{"id": "C126", "title": "Folding onto the super lattice", "statement": "fold gives the super lattice Hamiltonian that acts on the same orbitals in the same way: same matrix elements, hence same spectrum, Hermitian if the original is; orbital positions are those of the original lattice.", "quantifier": "all tight-binding models and super lattices", "why_tests_cant": "tests compare one dispersion", "anchors": ["python/triqs/lattice/super_lattice.py: fold, __init__, pack_index_site_orbital"]}
{"id": "C127", "title": "Solving for a value by false position", "statement": "dichotomy returns only points whose value is within the precision; for continuous strictly increasing functions the search converges when not limited in steps; it never divides by zero; exact boundary and monotony cases where it fails are given.", "quantifier": "all functions, starting points, steps and precisions", "why_tests_cant": "tests use one function", "anchors": ["python/triqs/utility/dichotomy.py: dichotomy"]}
{"id": "C128", "title": "Bounds for bisection", "statement": "determine_bounds returns an interval over which the sign changes; for strictly monotonic functions that reach the wanted sign within the given number of steps it is found.", "quantifier": "all functions and starting intervals", "why_tests_cant": "tests use one function", "anchors": ["python/triqs/utility/bound_and_bisect.py: determine_bounds"]}
{"id": "C129", "title": "Slicing an array over processes", "statement": "The slices of slice_array over all ranks concatenate to the array, lengths differ by at most one, and a sum over slices reduced over ranks is the sum over the array.", "quantifier": "all arrays and numbers of processes", "why_tests_cant": "tests run on few processes", "anchors": ["python/triqs/utility/mpi_mpi4py.py: slice_inf, slice_sup, slice_array"]}
{"id": "C130", "title": "Hilbert transform", "statement": "The weights of a HilbertTransform sum to one and are not negative for a DOS that is not; they are those of the trapezoid rule if the DOS vanishes at the band edges. The transform is the weighted sum of the inverses for every number of processes, exists and has a negative imaginary part above the real axis for causal self energies, turns into its adjoint below, and decays like 1/z. The options that give a result are characterised.", "quantifier": "all densities of states, self energies, fields, orbitals and numbers of processes", "why_tests_cant": "tests compare one semicircular DOS", "anchors": ["python/triqs/dos/hilbert_transform.py: HilbertTransform"]}
{"id": "C131", "title": "Local Green function from a sum over k points", "statement": "SumkDiscrete returns the weighted sum over the k points of the inverses for every number of processes; it exists and has a negative imaginary part above the real axis for causal self energies and Hermitian hoppings, and decays like 1/z.", "quantifier": "all weights, hoppings, self energies depending on k, orbitals and numbers of processes", "why_tests_cant": "tests compare a single-orbital square lattice", "anchors": ["python/triqs/sumk/sumk_discrete.py: SumkDiscrete.__call__"]}
{"id": "C132", "title": "k points of a lattice sum", "statement": "The grid of SumkDiscreteFromLattice has n^d points in the zone (-1/2, 1/2], with each point its opposite; the average of the hopping over the grid is the local hopping if no hopping is as long as the grid, in general hoppings by multiples of n appear with a sign. Which options give a grid is characterised; copies have the wrong grid.", "quantifier": "all dimensions, numbers of points and tight-binding models", "why_tests_cant": "tests use one grid", "anchors": ["python/triqs/sumk/sumk_discrete_from_lattice.py: Recompute_Grid, __reduce__", "c++/triqs/lattice/tight_binding.hpp: fourier"]}
{"id": "C133", "title": "Density of a density of states", "statement": "DOS.density on an equidistant grid is the area left of the chemical potential, hence not negative, monotonic and equal to the trapezoid sum above the band; below the band and on uneven grids the result is wrong, with the exact value given.", "quantifier": "all densities of states and chemical potentials", "why_tests_cant": "there are no tests of the function", "anchors": ["python/triqs/dos/dos.py: DOS.density"]}
{"id": "C134", "title": "Arithmetic of Green functions in Python", "statement": "Sums, differences and products of Green functions, and products with numbers, matrices and scalar-valued functions, are those of the matrices at each point of the mesh; the products are associative and the statistics of products are right. Operands whose shapes do not match are refused.", "quantifier": "all meshes, target shapes, data and block structures", "why_tests_cant": "tests use square functions of the same shape", "anchors": ["python/triqs/gf/gf.py: Gf.__iadd__ ... __rmatmul__", "python/triqs/gf/block_gf.py: BlockGf.__iadd__, __mul__, __rmul__"]}
{"id": "C135", "title": "The Dyson equation and the hybridisation function", "statement": "The three forms of dyson() are consistent with each other and solve G = G0 + G0 Sigma G; for causal G0 and Sigma the solution exists and is causal; exactly two of the three arguments are accepted. delta() recovers the hybridisation from which a non-interacting Green function was made, if the tail fit finds the constant.", "quantifier": "all matrices and meshes", "why_tests_cant": "tests use one model", "anchors": ["python/triqs/gf/tools.py: dyson, delta"]}
{"id": "C136", "title": "The hybridisation function of a bath", "statement": "make_delta gives the hybridisation function of a bath with these hoppings and energies: the Green function of the orbitals coupled to the bath is (z - h - Delta)^-1; the imaginary-time values are its Fourier transform, do not overflow, and the first moment is V V^+.", "quantifier": "all hoppings, energies, temperatures and mesh points", "why_tests_cant": "tests compare with a few energies", "anchors": ["python/triqs/gf/tools.py: make_delta"]}
{"id": "C137", "title": "Fitting a discrete bath", "statement": "discretize_bath packs and unpacks hoppings and energies without loss, starts from hoppings with the first moment of the given function, and returns the bath of the minimiser with the energies in ascending order. The arguments with which a fit can start are exactly characterised.", "quantifier": "all numbers of orbitals and bath levels, all start values", "why_tests_cant": "tests use start values of one kind", "anchors": ["python/triqs/gf/tools.py: discretize_bath"]}
{"id": "C138", "title": "The Legendre fit", "statement": "fit_legendre returns Hermitian coefficient matrices; they give the Hermitian Legendre expansion closest to the data, and it is the only closest one; data which are a Hermitian expansion are recovered exactly. The conditions for a fit and its errors are characterised.", "quantifier": "all orders up to the number of mesh points, all data", "why_tests_cant": "tests fit one function with noise", "anchors": ["python/triqs/gf/tools.py: fit_legendre"]}
{"id": "C139", "title": "The semicircular and the flat density of states", "statement": "SemiCircular and Flat set a Green function to the Hilbert transform of their density of states: the values decay and have the causal sign in the upper half plane, on the real axis the imaginary part is -pi times the density inside the band and zero outside, and the real part is the principal value; the semicircle has norm one and vanishes at its edges.", "quantifier": "all half bandwidths, chemical potentials and frequencies", "why_tests_cant": "tests compare stored numbers", "anchors": ["python/triqs/gf/descriptors.py: SemiCircular, Flat"]}
{"id": "C140", "title": "Lazy expressions", "statement": "G << expression gives at each frequency the matrix value of the expression in which numbers stand for multiples of the unit matrix; expressions that cannot be assigned raise an error, so there is never another result, except for quotients by arrays. A descriptor of a block function sets the blocks in their order, and only once.", "quantifier": "all expressions, meshes and matrices", "why_tests_cant": "tests use a dozen expressions", "anchors": ["python/triqs/gf/lazy_expressions.py", "python/triqs/gf/descriptor_base.py: convert_scalar_to_const", "python/triqs/gf/gf.py: Gf.__lshift__"]}
{"id": "C141", "title": "Paths in momentum space", "statement": "k_space_path returns for each segment equally spaced points from its start to its end; the distance is the length of the path up to the point and never decreases; the ticks are the lengths at the ends of the segments. A path exists for at least one segment and one point.", "quantifier": "all segments, numbers of points and Brillouin zones", "why_tests_cant": "tests use one path", "anchors": ["python/triqs/lattice/utils.py: k_space_path"]}
{"id": "C142", "title": "Tight-binding models read from wannier90", "statement": "The Hamiltonian read from seed_hr.dat is, at each momentum, the transpose of the one of wannier90; spin gives two equal blocks, a local term is added at all momenta; the lattice vectors are read in both units; incomplete files are refused.", "quantifier": "all numbers of orbitals, lattice vectors, degeneracies and matrices", "why_tests_cant": "the test file has real symmetric matrices", "anchors": ["python/triqs/lattice/utils.py: parse_hopping_from_wannier90_hr_dat, parse_lattice_vectors_from_wannier90_wout, extend_wannier90_to_spin, TB_from_wannier90"]}
{"id": "C143", "title": "Conversion of tight-binding models", "statement": "TB_from_pythTB keeps the Hamiltonian at each momentum and is accepted in three dimensions and only there; TB_to_sympy is the Hamiltonian at the opposite momentum.", "quantifier": "all models, hoppings and momenta", "why_tests_cant": "pythTB is not installed for the tests; models with real hoppings do not show the sign", "anchors": ["python/triqs/lattice/utils.py: TB_from_pythTB, TB_to_sympy"]}
{"id": "C144", "title": "Discrete Lehmann representation", "statement": "The transformations between coefficients, imaginary-time nodes and frequency nodes are inverse to each other; the data at the nodes are the values of the function there; the values at Matsubara frequencies are the Fourier transform of those at imaginary times; the density is the Fermi-weighted sum of the coefficients; conversions between the three meshes lose nothing and equality includes the statistic; a fit of a representable function is exact.", "quantifier": "all frequencies, nodes with regular matrices, coefficients", "why_tests_cant": "tests compare a few functions within a tolerance", "anchors": ["c++/triqs/mesh/dlr.hpp", "c++/triqs/mesh/dlr_imtime.hpp", "c++/triqs/mesh/dlr_imfreq.hpp", "c++/triqs/gfs/functions/dlr.hpp", "c++/triqs/gfs/functions/density.hpp"]}
{"id": "C145", "title": "Elements, slices and views of Green functions in Python", "statement": "g[w], g[Idx(n)], tuples of them on product meshes and g[i,j] or slices of the target give the data at the right position; a Green function obtained this way is a view: assignments through it change exactly the selected elements of the original.", "quantifier": "all meshes, positions, slices and assigned values", "why_tests_cant": "tests use a few elements of one function", "anchors": ["python/triqs/gf/gf.py: __getitem__, __setitem__, __lshift__, copy_from", "python/triqs/gf/mesh_product.py", "c++/triqs/mesh/imfreq.hpp: to_data_index"]}
{"id": "C146", "title": "Block Green functions in Python", "statement": "A BlockGf keeps the names in the given order and gives each block by its name; copies are independent and complete; views share the blocks; G << A copies by name whatever the order; saving and loading give back names, order and blocks; map_block acts on every block; structures are converted to sizes.", "quantifier": "all names, numbers of blocks, contents and selections", "why_tests_cant": "tests use blocks up and down in the same order", "anchors": ["python/triqs/gf/block_gf.py", "python/triqs/gf/map_block.py"]}
{"id": "C147", "title": "Two-index block Green functions in Python", "statement": "A Block2Gf gives each block by its two names and visits all pairs in order; views share the blocks, copies are independent; G << A copies by names whatever the order; writing and reading give back names and blocks exactly if the joined names are distinct and not reserved, and are refused otherwise; all_indices gives exactly the valid indices.", "quantifier": "all names, numbers of blocks, contents and selections", "why_tests_cant": "tests use up and down in the same order and names without underscores", "anchors": ["python/triqs/gf/block2_gf.py", "python/triqs/gf/map_block.py", "python/triqs/gf/block_gf.py: all_indices"]}
{"id": "C148", "title": "Comparison of archives", "statement": "h5diff reports no difference exactly if along every path of keys both archives have the same keys and equal entries within the tolerance of their kind; the comparison of scalars and arrays is symmetric, an archive agrees with itself exactly if it has no empty array, no unsupported type and no number that differs from itself, and failures of earlier calls are never forgotten.", "quantifier": "all archives, depths, keys, numbers and tolerance tests", "why_tests_cant": "tests compare few small archives, mostly equal", "anchors": ["python/triqs/utility/h5diff.py", "python/triqs/utility/comparison_tests.py"]}
{"id": "C149", "title": "Green functions in text files", "statement": "Writing a square real-frequency function of at least two points to text files and reading these gives it back; the frequencies read are those of the file exactly if these are equally spaced and increasing; different elements and names give different files; files of different lengths and more columns than rows are refused.", "quantifier": "all functions, sizes, meshes, files and names", "why_tests_cant": "the test writes and reads one function", "anchors": ["python/triqs/gf/tools.py: read_gf_from_txt, write_gf_to_txt"]}
{"id": "C150", "title": "The data of plots", "statement": "clip_array selects exactly the points of the window for ordered values; plot_base gives one curve per index of the target and part, each index once, the first fastest, with distinct labels and the values at the points in the window; the mode S only if allowed and other modes are refused unless the data are real; x_data_view gives the points in the window with their data.", "quantifier": "all shapes, orders, windows, modes and data", "why_tests_cant": "plots are not tested beyond being produced", "anchors": ["python/triqs/plot/protocol.py", "python/triqs/gf/plot/plot_base.py", "python/triqs/gf/gf.py: x_data_view"]}
{"id": "C151", "title": "Symmetries of Green functions", "statement": "gf_sym_grp translates a symmetry of indices into the symmetry of the data array: a function has the symmetry exactly if its data have it; init with a function that has the symmetries gives that function everywhere though it is evaluated once per class; symmetrize keeps functions with the symmetries and is idempotent; the reported index is that of the reported element.", "quantifier": "all meshes, targets, symmetries, functions and classes", "why_tests_cant": "tests use a few symmetries on small meshes", "anchors": ["c++/triqs/gfs/gf_sym_grp.hpp"]}
{"id": "C152", "title": "Transforms of one variable of a function of several variables", "statement": "The transform of variable N of a Green function of several variables applies the transform of one variable to every line along N and leaves the other variables as they are; a transform and its inverse give back the function; linear transforms of different variables commute; known moments belong to the line with the same indices.", "quantifier": "all numbers of variables, extents, data and transforms", "why_tests_cant": "tests transform one or two variables of small arrays", "anchors": ["c++/triqs/gfs/transform/fourier.hpp", "c++/triqs/gfs/transform/partial_transform.hpp", "c++/triqs/gfs/functions/dlr.hpp", "c++/triqs/gfs/functions/functions2.hpp: make_zero_tail"]}
{"id": "C153", "title": "Arithmetic of Matsubara frequencies and points of meshes in Python", "statement": "Sums, differences, products and quotients of Matsubara frequencies, points of meshes and numbers in Python have the value of the operation on the values; the result is a frequency exactly for sums and differences of two frequencies, with the right index and statistics; the conversion to C++ and back keeps a frequency.", "quantifier": "all frequencies, points, numbers and meshes", "why_tests_cant": "tests add a few frequencies of one mesh", "anchors": ["python/triqs/gf/matsubara_freq.py", "python/triqs/gf/mesh_point.py", "c++/triqs/cpp2py_converters/mesh.hpp"]}
{"id": "C154", "title": "Timers and the time left", "statement": "A timer that is started and stopped in turn reports the number of ticks for which it was running; the text of a time has hours, minutes below 60 and seconds below 60 that add up to it; the estimate of the time left is the mean time per cycle times the number of cycles left; the times reported after a run are those of the run.", "quantifier": "all sequences of starts and stops, all times and numbers of cycles", "why_tests_cant": "tests do not look at clocks", "anchors": ["c++/triqs/utility/timer.hpp", "c++/triqs/utility/timestamp.hpp", "c++/triqs/mc_tools/mc_generic.hpp"]}
{"id": "C155", "title": "Tools for tuples", "statement": "The helpers for tuples do what the functions on lists of the same name do: filter, filter_out, pop_front, replace and reverse give the elements at the positions asked for in order, for_each and fold visit every element once from the first to the last, map gives the images in order, printing joins the elements.", "quantifier": "all tuples, positions, functions and states", "why_tests_cant": "tests use two or three tuples of two or three elements", "anchors": ["c++/triqs/utility/tuple_tools.hpp"]}
{"id": "C156", "title": "The comparison of Green functions in C++ tests", "statement": "The comparison used by the tests passes exactly if the meshes and the shapes agree and no difference of the data exceeds the precision, block by block with the same names; NaN in the data must make it fail.", "quantifier": "all data, shapes, precisions and blocks", "why_tests_cant": "it is the tool of the tests", "anchors": ["c++/triqs/gfs/gf_tests.hpp", "c++/triqs/test_tools/gfs.hpp"]}
{"id": "C157", "title": "Patches of the Brillouin zone", "statement": "The triangles of a patch cover a convex polygon without overlap, the weight of the patch is the area of the polygon, and the density of states of the patch, summed over the energy bins, is the weight.", "quantifier": "all convex polygons, dispersions and numbers of bins and divisions", "why_tests_cant": "tests use no patches", "anchors": ["python/triqs/lattice/bz_patch.py", "python/triqs/lattice/tight_binding.py"]}
{"id": "C158", "title": "Products with matrices, inverses and tails of blocks of Green functions", "statement": "The product of a Green function with matrices on the left and on the right is the product at every mesh point, also in place, and changes nothing else; the inverse is the inverse at every point, or an error at the first point without one; a function is real exactly if no imaginary part exceeds the tolerance; the fit of the tails of blocks gives the fit of each block with its known moments and the largest error.", "quantifier": "all data, shapes, views and overlaps, matrices, numbers of blocks and errors", "why_tests_cant": "tests use a few well-formed functions that do not overlap, without NaN and without singular matrices", "anchors": ["c++/triqs/gfs/functions/functions2.hpp"]}
{"id": "C159", "title": "Points along a path through the Brillouin zone in plots", "statement": "The points of a mesh chosen for a plot along a path are those nearest to points of the path, each once and in order, beginning with the one nearest to the start and containing the one nearest to the end; the search ends; the points generated on a path are equally spaced from corner to corner, at most as many as asked for, and the ticks stand at the ends of the segments.", "quantifier": "all meshes, paths, numbers of points and strides", "why_tests_cant": "tests draw no plots; the search misses points or does not end for special positions only", "anchors": ["python/triqs/gf/plot/select_indices.py", "python/triqs/gf/plot/bz.py"]}
{"id": "C160", "title": "Signals and time limits of simulations", "statement": "A run sees a signal exactly if one has arrived since the handler was last stopped; once seen it stays visible until the end of the run, so that the accounting of cycles holds with the real handler; a time limit stops a run exactly after the time asked for; a signal outside of a run has its usual effect, and no signal is lost.", "quantifier": "all sequences of starts, stops and signals, all arrival times during a run, all user functions", "why_tests_cant": "tests send no signals", "anchors": ["c++/triqs/utility/signal_handler.cpp", "c++/triqs/utility/callbacks.cpp", "c++/triqs/mc_tools/mc_generic.hpp"]}
{"id": "C161", "title": "Analytic continuation of Green functions with Pade approximants", "statement": "The continuation uses the first n_points non-negative Matsubara frequencies; data that are the values of a continued fraction with at most n_points coefficients (for instance of one level) are continued exactly to every real frequency and offset where the evaluation is defined; factors go through; each element of the target space is continued from the same element of the data; a wrong number of points is refused before anything is written.", "quantifier": "all data, numbers of points, offsets, meshes and target spaces (exact arithmetic)", "why_tests_cant": "statement about all functions and all real frequencies; tests compare one function with a stored file", "anchors": ["c++/triqs/gfs/transform/pade.cpp", "c++/triqs/gfs/transform/pade.hpp", "c++/triqs/utility/pade_approximants.hpp", "python/triqs/gf/gf_fnt_desc.py: set_from_pade"]}
{"id": "C162", "title": "Construction, copies, assignment and pickles of Green functions in Python", "statement": "A Gf that was constructed has data whose first dimensions are the sizes of the mesh; given data are not copied. copy() gives a function with the same mesh, data and name that shares no object with its original, and copy_from touches only functions that share an object with its target. g << h succeeds exactly if meshes and shapes are equal, then copies the data only, and changes nothing when it fails. Pickling gives back mesh, data and name, for products of any number of meshes, except for functions on positive Matsubara frequencies only.", "quantifier": "all meshes, products, data, names and states of the memory", "why_tests_cant": "statement about all functions and what they share; tests look at single functions and never at what another function sees", "anchors": ["python/triqs/gf/gf.py: Gf.__init__, copy, copy_from, __lshift__, transpose, conjugate, __reduce__, __factory_from_dict__", "python/triqs/gf/mesh_product.py", "c++/triqs/gfs/functions/imfreq.hpp: make_gf_from_real_gf"]}
{"id": "C163", "title": "Arithmetic of block Green functions with numbers, matrices, lists and block functions", "statement": "B + a, B - a, B / a and the product with a number give a new block function with the same names in which every block has the result of the operation with its operand (the block of the same name, the element of the list at the same position, or the common operand); the operands are untouched, also on failure and when blocks are shared; a - B is minus B - a; a number is added to the diagonal of matrices and to all elements otherwise; subtraction undoes addition and division multiplication. In place the same holds for blocks that are different objects.", "quantifier": "all block functions, operands and states of the memory (exact arithmetic)", "why_tests_cant": "statement about all operands and sharing patterns, including failures after some of the blocks", "anchors": ["python/triqs/gf/block_gf.py: __iadd__, __isub__, __rsub__, __imul__, __itruediv__", "python/triqs/gf/block2_gf.py", "python/triqs/gf/gf.py: __iadd__, __isub__, __itruediv__", "c++/triqs/gfs/legacy_for_python_api.hpp"]}
{"id": "C164", "title": "Archives of determinants", "statement": "A det_manip written to an archive and read back into any object shows the same size, arguments in the order of the user, inverse matrix and determinant, and has the same stored settings; read into an object with at least as much reserved room it can be used like the original: every valid operation can be tried, returns the ratio of the determinants and leaves the right matrix. An archive written while a try is pending is that of the rejected try. An object constructed by a move has the arguments, inverse and determinant of the source.", "quantifier": "all histories of both objects, all arguments, all operations afterwards (exact arithmetic)", "why_tests_cant": "statement about all histories and all operations after reading back", "anchors": ["c++/triqs/det_manip/det_manip.hpp: h5_write, h5_read, det_manip(det_manip &&)"]}
{"id": "C165", "title": "Operations on determinants in one call", "statement": "insert, insert2, remove, remove2, change_col, change_row, change_one_row_and_one_col return the ratio of the determinant after to that before and leave the lists of arguments of the corresponding list operation; the variants at_end append to and remove from the end of both lists, in the order given; removing from an object that is too small throws and changes nothing; a valid call is undefined only if the new matrix is singular and throws only if the periodic check is due.", "quantifier": "all histories, positions and arguments (exact arithmetic)", "why_tests_cant": "statement about all histories", "anchors": ["c++/triqs/det_manip/det_manip.hpp: insert, insert_at_end, insert2, insert2_at_end, remove, remove_at_end, remove2, remove2_at_end, change_col, change_row, change_one_row_and_one_col"]}
{"id": "C166", "title": "Acceptance rates of moves", "statement": "After a run is started on a process, and whatever happened before, the counters of each move are the numbers of steps of this run in which the move was proposed and accepted, by itself or inside of sets of moves; they never have more acceptances than proposals, and those of the moves in a set add up to those of the set. After collecting the results all processes have for each move the quotient of all acceptances and all proposals on all processes. The map of acceptance rates has the names of all moves, also inside of sets, and for different names the rate of the move with this name; the printed statistics have one line for each move, indented by the depth of the sets.", "quantifier": "all forests of moves, numbers of processes, interleaved histories", "why_tests_cant": "statement about all histories of all processes", "anchors": ["c++/triqs/mc_tools/mc_move_set.hpp: move::attempt, accept, clear_statistics, collect_statistics; move_set::clear_statistics, collect_statistics, get_acceptance_rates, get_statistics", "c++/triqs/mc_tools/mc_generic.hpp: run, collect_results"]}
{"id": "C167", "title": "Archives of Monte Carlo calculations", "statement": "A calculation that is set up with the same moves and measures and reads the archive of another one has its numbers of cycles and measurements, its sign, and the states of all moves and measures that can be archived, also inside of sets of moves, if the moves of each set have different names; writing touches nothing outside of the group, whatever the archive had before; a calculation with a move that the archive does not have throws.", "quantifier": "all forests of moves and measures, all archives", "why_tests_cant": "statement about all sets of moves and all previous contents of the archive", "anchors": ["c++/triqs/mc_tools/mc_generic.hpp: h5_write, h5_read", "c++/triqs/mc_tools/mc_move_set.hpp: h5_write, h5_read", "c++/triqs/mc_tools/mc_measure_set.hpp: h5_write, h5_read"]}
{"id": "C168", "title": "Archives of diagonalised atoms", "statement": "An atom_diag written to an archive and read into a new object is the same in all its members: Hamiltonian, operators, subspaces with the position of each Fock state, eigensystems, connections, the matrices of all creation and annihilation operators at their places, vacuum, quantum numbers and positions of the first states, in whatever order HDF5 gives the names of the matrices; read into an object with the same number of subspaces the matrices that were not empty are those written.", "quantifier": "all atoms, orders and objects read into", "why_tests_cant": "statement about all atoms and all states of the object read into", "anchors": ["c++/triqs/atom_diag/impl/atom_diag.cpp: h5_write, h5_read, fill_first_eigenstate_of_subspace", "c++/triqs/hilbert_space/hilbert_space.hpp: sub_hilbert_space::add_fock_state, h5_write, h5_read"]}
{"id": "C169", "title": "Archives of meshes", "statement": "A mesh of any type made by a constructor with parameters (a number of Matsubara frequencies that is not negative; a Brillouin zone made from a lattice) can be written to an archive and read back with all members, derived members and hash included; reading from the archive of a mesh of another type raises an exception; a product of any number of meshes is read back component by component, and when a component cannot be read exactly those before it have been assigned; archives of older versions are read as what they were written for.", "quantifier": "all meshes of all types, parameters, products and results of the numerical constructors", "why_tests_cant": "statement about all parameters and all products", "anchors": ["c++/triqs/mesh/imfreq.hpp: h5_write, h5_read", "c++/triqs/mesh/imtime.hpp: h5_write, h5_read", "c++/triqs/mesh/bases/linear.hpp: h5_write_impl, h5_read_impl", "c++/triqs/mesh/legendre.hpp: h5_write, h5_read", "c++/triqs/mesh/discrete.hpp: h5_write, h5_read", "c++/triqs/mesh/brzone.hpp: h5_write, h5_read", "c++/triqs/mesh/cyclat.hpp: h5_write, h5_read", "c++/triqs/mesh/dlr.hpp: h5_write, h5_read", "c++/triqs/mesh/dlr_imtime.hpp: h5_write, h5_read", "c++/triqs/mesh/dlr_imfreq.hpp: h5_write, h5_read", "c++/triqs/mesh/prod.hpp: h5_write, h5_read", "c++/triqs/lattice/bravais_lattice.cpp: bravais_lattice, h5_write, h5_read", "c++/triqs/lattice/brillouin_zone.cpp: brillouin_zone, h5_write, h5_read"]}
{"id": "C170", "title": "Archives of Green functions", "statement": "A Green function of one or several variables written to an archive and read into any function of the same type has the same data and mesh, whatever that function was before; a function of positive Matsubara frequencies becomes the function of all frequencies with the old values at the positive and their conjugates at the negative ones; an archive with another format than Gf... is not read and changes nothing; an archive with a mesh of another type raises an exception.", "quantifier": "all functions, meshes and functions read into", "why_tests_cant": "statement about all data, meshes and earlier states", "anchors": ["c++/triqs/gfs/gf/_gf_view_common.hpp: h5_write, h5_read", "c++/triqs/gfs/h5.hpp: gf_h5_rw, gf_h5_after_read", "c++/triqs/gfs/functions/imfreq.hpp: make_gf_from_real_gf"]}
{"id": "C171", "title": "Named constructors of Green functions", "statement": "GfImFreq, GfImTime, GfLegendre, GfReFreq and GfReTime called without a mesh make the function that Gf makes on a new mesh with the inverse temperature, statistic, number of points or window asked for, and change nothing that existed; a mesh of the right class that is given is used as it is; every keyword which the class does not know, a missing inverse temperature or window, a statistic other than Fermion and Boson, and a number of points that is not a positive integer are refused.", "quantifier": "all arguments, memories and numbers", "why_tests_cant": "statement about all combinations of arguments", "anchors": ["python/triqs/gf/backwd_compat/gf_imfreq.py: GfImFreq", "python/triqs/gf/backwd_compat/gf_imtime.py: GfImTime", "python/triqs/gf/backwd_compat/gf_legendre.py: GfLegendre", "python/triqs/gf/backwd_compat/gf_refreq.py: GfReFreq", "python/triqs/gf/backwd_compat/gf_retime.py: GfReTime"]}
{"id": "C172", "title": "Distribution of points on nodes", "statement": "On one process DistributionOnNodes computes every point of its list once and in order, skipping None, and uses up the list of the caller; an exception of the function loses the point where it is raised and nothing else; on two or more processes no run comes to its end; master_gets_host_names completes on the master only if the other host names have two characters; without MPI slices and sums are those of MPI on one process.", "quantifier": "all lists of points, functions, numbers of processes and host names", "why_tests_cant": "runs on any number of processes cannot be sampled, a wait without end is not observable", "anchors": ["python/triqs/utility/dist_on_nodes.py: DistributionOnNodes", "python/triqs/utility/mpi_mpi4py.py: master_gets_host_names", "python/triqs/utility/mpi_nompi.py"]}
{"id": "C173", "title": "Densities of states", "statement": "A DOS is made exactly from two one-dimensional arrays of the same length and is equal to its copy and its pickle; a DOSFromFunction with at least two points has equidistant energies from x_min to x_max and the values of the function there; a file whose lines have m + 1 numbers is read as m densities of states with the first column as energies, or as the one asked for, and other numbers of orbitals than 0 to m are refused.", "quantifier": "all arrays, functions, intervals, numbers of points and files", "why_tests_cant": "statement about all inputs", "anchors": ["python/triqs/dos/dos.py: DOS, DOSFromFunction, dos_from_file"]}
{"id": "C174", "title": "Random numbers in double precision", "statement": "With the rounding of the machine, rng(N) is an integer from 0 to N-1 for every bound and every draw, although N and the product are rounded, and for N up to 2^53 it is k exactly when N times the draw is in [k,k+1) up to a relative error of 2^-53; rng(x) is below x for every normal double but the smallest; rng(a,b), for a below b, is a double from a to b, both included, unless b-a overflows.", "quantifier": "all bounds and all doubles drawn from [0,1)", "why_tests_cant": "2^53 draws for each of 2^64 bounds cannot be tried, and the exceptional roundings are rare", "anchors": ["c++/triqs/mc_tools/random_generator.hpp: operator()"]}
{"id": "C175", "title": "Time points in double precision", "statement": "With the rounding of the machine, the value of a point of the grid of 2^64 positions is a double from 0 to beta, does not decrease with the point and is exactly 0 and beta at the ends; random points lie in the interval asked for, and the value of a random point of the whole segment is below a normal beta that is not the smallest; make_time_pt is defined and monotone for all doubles from 0 up to but not including beta, and the value of the point differs from the double by at most 2^-51 beta if beta is normal.", "quantifier": "all points, all doubles beta and x and all draws", "why_tests_cant": "all doubles and all 64-bit positions cannot be tried", "anchors": ["c++/triqs/utility/time_pt.hpp: time_pt, time_segment"]}
{"id": "C176", "title": "Linear meshes in double precision", "statement": "With the rounding of the machine, the first and the last point of a mesh of equidistant points are exactly the ends of the interval; if the interval contains zero the points lie in it, do not decrease, and for at most 2^45+1 points each is found again as the nearest point of its value; for every double of the interval the nearest point and the pair of points of the interpolation belong to the mesh, the weights are in [0,1], and the position is right up to L 2^-49 steps.", "quantifier": "all doubles as ends (length at least 2^-900, ends up to 2^1000), all numbers of points up to 2^45+1, all doubles of the interval", "why_tests_cant": "the rounding errors depend on all the digits of the ends and of the argument", "anchors": ["c++/triqs/mesh/bases/linear.hpp: linear"]}
{"id": "C177", "title": "Histograms in double precision", "statement": "With the rounding of the machine, every double of the interval of a histogram has a bin, whose center is the nearest up to n 2^-49 bins; larger samples go to the same or later bins and the ends to the first and the last one; fewer than 2^53 samples are counted without loss; histograms of integers count integers exactly.", "quantifier": "all doubles as ends (length at least 2^-900, ends up to 2^1000), up to 2^31 bins, all series of samples", "why_tests_cant": "an access outside of the bins would need a rare rounding at the upper end", "anchors": ["c++/triqs/stat/histograms.cpp: histogram::operator<<", "c++/triqs/stat/histograms.hpp: histogram"]}
{"id": "C178", "title": "Choice of moves in double precision", "statement": "With the rounding of the machine, for all weights that are doubles, not negative, not all zero and whose sum is finite, the search for a move ends inside of the table for every number in [0,1); a move is chosen for the numbers between the exact accumulated probabilities up to n 2^-49; a move of weight zero is never chosen unless it is the last one.", "quantifier": "all lists of at most 2^39 weights that are doubles, all doubles in [0,1)", "why_tests_cant": "the accumulated rounding errors depend on all the weights; an access outside of the table would need a rare draw", "anchors": ["c++/triqs/mc_tools/mc_move_set.hpp: attempt", "c++/triqs/mc_tools/mc_move_set.hpp: normaliseProba"]}
{"id": "C179", "title": "Default generator, acceptance and random integers in double precision", "statement": "The numbers of the default generator are doubles between 2^-52 and 1-2^-52 for every seed and run, different for different words of the generator; moves with a ratio of at least one are always accepted; of the 2^32 words, those that accept a ratio r are 2^32 r up to two, those that choose a move are 2^32 times its probability up to 3 + n 2^-15, and those for which rng(N) is k are 2^32/N up to three.", "quantifier": "all seeds, all numbers of draws, all ratios, all lists of at most 2^39 weights, all N up to 2^53", "why_tests_cant": "the counts are over 2^32 words for infinitely many ratios and lists of weights", "anchors": ["c++/triqs/mc_tools/MersenneRNG.cpp: eval", "c++/triqs/mc_tools/MersenneRNG.hpp: operator()", "c++/triqs/mc_tools/mc_generic.hpp: run", "c++/triqs/mc_tools/random_generator.hpp: random_generator"]}
{"id": "C180", "title": "Matsubara frequencies in double precision", "statement": "With the rounding of the machine, the value of -w is exactly minus the value of w, values are strictly ordered like the numbers up to |2n+s| = 2^50, only the bosonic frequency of number zero vanishes, and the relative error with respect to the number pi is at most 5 2^-53; all frequencies of a fermionic mesh that is made from an energy window are inside of the window.", "quantifier": "all inverse temperatures and windows between 2^-400 and 2^400, all numbers up to 2^53", "why_tests_cant": "rounding of pi, of the product and of the quotient for all numbers and temperatures", "anchors": ["c++/triqs/mesh/domains/matsubara.hpp: matsubara_freq", "c++/triqs/mesh/imfreq.hpp: imfreq"]}
{"id": "C181", "title": "Means and error bars in double precision", "statement": "With the rounding of the machine, the mean of data lies between the smallest and the largest datum, is exact for equal data, whose error is exactly zero (for at most 3037000500 data, beyond which the integer product n (n-1) overflows), and differs from the exact mean of n data of size at most B by at most (n+5) B 2^-53; the square of the error has a relative error of at most (2n+10) 2^-53 with respect to the sum of squares of the differences to this mean, if these are neither tiny nor huge; the first level of the logarithmic binning gives the same mean to the last bit, whatever the other levels are, and no sum of squares of any level is negative.", "quantifier": "all lists of doubles up to 2^1000, at most 2^53 data for the accuracy", "why_tests_cant": "rounding errors of all the steps depend on all the data", "anchors": ["c++/triqs/stat/mean_error.hpp: mean, mean_and_err", "c++/triqs/stat/accumulator.hpp: log_binning"]}
{"id": "C182", "title": "Reports of progress in double precision", "statement": "With the rounding of the machine, the percentage that is shown after each cycle is the exact one rounded down, and is 100 after the last cycle only; the time left is right up to one second and a relative error of 2^-50 if it fits into an int; the number of messages grows at most like the logarithm of the time, and the last cycle always has a message.", "quantifier": "all numbers of cycles below 2^31, all series of times of a clock", "why_tests_cant": "percentages near an integer depend on the rounding of the quotient for each of 2^31 numbers of cycles", "anchors": ["c++/triqs/mc_tools/mc_generic.hpp: run", "c++/triqs/utility/timestamp.hpp: estimate_time_left"]}
{"id": "C183", "title": "Thermal weights and functions of imaginary time in double precision", "statement": "With the rounding of the machine and any exponential function with values from zero to one for arguments that are not positive and one at zero, the partition function of an atom is at least one and at most the number of states for every temperature, the weights are between zero and one and add up to one up to 2(n+1) 2^-53; terms of the Green function in imaginary time are bounded by their residue for all poles and times, and their values at the ends of the mesh add up to minus the residue up to 6 2^-53 of it; the same for the levels of a bath.", "quantifier": "all lists of energies, temperatures, poles, residues and times that are doubles", "why_tests_cant": "overflow for low temperatures and the accuracy of exp depend on the arguments and on the library", "anchors": ["c++/triqs/atom_diag/impl/functions.cpp: partition_function, atomic_density_matrix", "c++/triqs/atom_diag/impl/gf.cpp: atomic_g_lehmann_impl, make_term_proc", "python/triqs/gf/tools.py: make_delta"]}
{"id": "C184", "title": "Functions called at the end of a scope", "statement": "At whatever statement a scope is left, every function handed to a scope guard and not dismissed is called exactly once, whatever guards were moved or assigned before; a dismissal takes away exactly one call; without moves the calls are made in reverse order.", "quantifier": "all sequences of creations, dismissals, moves and assignments, all prefixes of them", "why_tests_cant": "the single test creates one guard and leaves the scope normally", "anchors": ["c++/triqs/utility/scope_guard.hpp: scope_guard"]}
{"id": "C185", "title": "Captured standard output", "statement": "For every program of prints, exceptions and captures of the standard output, nested or one after the other, in which no capture object is entered again inside its own block: the stream is put back also after an exception, the old stream gets exactly the text printed outside of the blocks, and each object gains exactly the lines printed directly inside its own blocks; lines printed with their newlines come back unchanged.", "quantifier": "all programs built from print, raise and with, all texts", "why_tests_cant": "nesting, exceptions and reuse of objects combine without bound; the code has no test", "anchors": ["python/triqs/utility/capture_stdout.py: capture_stdout"]}
{"id": "C186", "title": "Redirected C++ output", "statement": "Under every interleaving of the main program and the redirecting threads: if a redirection is started only when no earlier thread is running, then descriptor 1 names the terminal again whenever no thread is running, and no write fails; a thread that was told to stop ends after at most seven steps; each redirection leaves exactly one descriptor open; text written by C++ while redirected is never shown.", "quantifier": "all executions: any number of redirections, all interleavings, all choices of free descriptors, all texts", "why_tests_cant": "depends on the interleaving of system calls of two threads", "anchors": ["python/triqs/utility/redirect.py: T.run, start_redirect, stop_redirect"]}
{"id": "C187", "title": "Laws of operators in double precision", "statement": "With coefficients that are doubles (or pairs of them): the coefficients of a sum are the rounded sums, missing exactly if smaller than 100 epsilon; sums commute to the last bit, an operator minus itself is empty, the dagger is an involution and respects sums, an operator plus its dagger is hermitian, c_i c^dag_j + c^dag_j c_i is exactly one or zero, every expression gives ordered, normal ordered monomials; == is reflexive and symmetric and means the same monomials with coefficients that differ by less than the tolerance.", "quantifier": "all operators, all labels, all doubles without overflow, all expressions", "why_tests_cant": "rounding and the removal of small terms depend on the values; tests use a few integers", "anchors": ["c++/triqs/operators/many_body_operator.hpp: operator+=, operator-=, operator*=, dagger, operator==, is_op_hermitian", "c++/triqs/utility/numeric_ops.hpp: is_zero"]}
{"id": "C188", "title": "Errors of operators in double precision", "statement": "Between any two Fock states, the matrix elements of a sum, a difference, a multiple and a product in double precision are those of the exact operation up to an explicit bound by the number of terms, the sizes of the coefficients and the tolerance; operators that are equal for == have matrix elements within such a bound; the product of two normal ordered monomials is ordered into at most 2^k terms, k the smaller of the numbers of annihilators of the first and creators of the second.", "quantifier": "all operators with at most 2^52 insertions, all Fock states, all doubles without overflow", "why_tests_cant": "errors accumulate over many insertions; a test sees one example", "anchors": ["c++/triqs/operators/many_body_operator.hpp: operator+=, operator-=, operator*=, normalize_and_insert, operator=="]}
{"id": "C189", "title": "Solving for a value in double precision", "statement": "With rounded arithmetic dichotomy returns only points whose value differs exactly by less than the precision from the wanted one; with a precision of at least 2^-500 it never divides by zero; each new point is not below the lower bound and above the upper one at most by rounding; it fails for every number of loops if the step is too small to change the initial guess.", "quantifier": "all functions with doubles as values, all starting points, steps, precisions and numbers of loops", "why_tests_cant": "rounding of differences and products near the solution depends on the function and on the values", "anchors": ["python/triqs/utility/dichotomy.py: dichotomy"]}
{"id": "C190", "title": "Objects of the sum over k", "statement": "SumkDiscrete.__call__ changes no object that existed before the call except the blocks of result; without result, new blocks with the names of the model hold the sums; with a result that has no block in common with Sigma and field, the sums are those of the values before the call and Sigma keeps them; in general what counts is what Sigma and field hold after the blocks of result were set to zero; if a block is missing the call fails and the result is zero.", "quantifier": "all heaps, block structures, points, weights and functions for Sigma, arbitrary operations on the data", "why_tests_cant": "sharing of blocks between arguments is not tested", "anchors": ["python/triqs/sumk/sumk_discrete.py: SumkDiscrete.__call__", "python/triqs/gf/block_gf.py: copy, __lshift__, __iadd__, __isub__, __getitem__"]}
{"id": "C191", "title": "Points of a lattice in double precision", "statement": "Negating a point negates its coordinates exactly, p - p has coordinates zero, sums and differences of points of one lattice obey the laws of a commutative group; each coordinate is the exact one and the coordinates of p + q are the sum of those of p and q up to an explicit bound by a few roundings; adding and subtracting vectors uses the coordinates with one rounding in either order; in C++ points of different lattices are refused.", "quantifier": "all lattices with at most three directions, all indices below 2^53, all vectors", "why_tests_cant": "tests only look at the type of the sums", "anchors": ["python/triqs/lattice/point.py: LatticePoint", "c++/triqs/lattice/bravais_lattice.hpp: point_t, lattice_to_real_coordinates"]}
{"id": "C192", "title": "Energies of densities of states and weights of Hilbert transforms in double precision", "statement": "The first energy of a density of states given by a function is exactly the lower end, the energies do not decrease and are equidistant up to an explicit bound; the weights of a Hilbert transform are non-negative for a non-negative density on ordered energies, their sum is one up to 2n roundings whatever the order in which numpy adds, and a density symmetric around zero has symmetric weights to the last bit.", "quantifier": "all intervals, all numbers of points up to 2^51, all non-negative densities, all orders and bracketings of the sum", "why_tests_cant": "tests compare one density of states with a tolerance", "anchors": ["python/triqs/dos/dos.py: DOSFromFunction.__f", "python/triqs/dos/hilbert_transform.py: HilbertTransform.__normalize"]}
{"id": "C193", "title": "Rebinning of functions of imaginary time in double precision", "statement": "Every point goes to a bin at most half of the distance of two bins away up to rounding, and to the one of exact arithmetic away from ties; the first and the last point go to the first and the last bin, the bins do not decrease; the loop never leaves the new mesh and never divides by zero, and leaves in each bin the rounded average of its points added in order, zero in bins without points; every bin of a coarser mesh has a point; the value of a bin with m points is its exact average up to m + 2 roundings.", "quantifier": "all inverse temperatures from 2^-900 to 2^1000, all numbers of points with a product up to 2^48, all data", "why_tests_cant": "tests rebin one function with a tolerance", "anchors": ["c++/triqs/gfs/functions/imtime.cpp: rebinning_tau"]}
{"id": "C194", "title": "Symmetrised Green functions in double precision", "statement": "make_hermitian and make_real_in_tau return a symmetric function to the last bit for all data, with infinities and NaN; they leave symmetric data alone and applied twice do the same as once; each value is between the value and the reflected one and the mean of them up to two roundings; the result passes the tests with every tolerance; what the tests accept is symmetric up to the tolerance and two roundings.", "quantifier": "all data that is below 2^1022 for the fixed points, all data for the symmetry, all tolerances, all shapes", "why_tests_cant": "tests symmetrise one function and compare with a tolerance", "anchors": ["c++/triqs/gfs/functions/imfreq.hpp: make_hermitian, make_real_in_tau, is_gf_hermitian, is_gf_real_in_tau"]}
{"id": "C195", "title": "The closest point of a mesh of the Brillouin zone in double precision", "statement": "The index is valid for every momentum; a momentum whose computed coordinates are near integers gets the point with these integers up to a reciprocal lattice vector, if the corners of a cell are farther apart than an explicit bound on the errors; the coordinates of mesh points are near integers with an explicit bound, so the closest point to the value of a mesh point is this point, for extents of at least two and for lattices in two dimensions.", "quantifier": "all bases and approximate inverses, all momenta, all mesh points, all products with the error of four roundings, all norms with a small relative error", "why_tests_cant": "tests look at one point of one mesh", "anchors": ["c++/triqs/mesh/brzone.hpp: brzone::closest_index, brzone::to_value"]}
{"id": "C196", "title": "Interpolation in the Brillouin zone in double precision", "statement": "The computed value is the periodic trilinear interpolation of the data at the computed coordinates up to twenty roundings of the largest datum; the interpolation is continuous across the faces of cells and of the zone with an explicit constant; so at the value of a mesh point the result is the datum, and at two momenta that differ by a reciprocal lattice vector the results agree, up to explicit errors.", "quantifier": "all data, all momenta, all bases and approximate inverses, all extents", "why_tests_cant": "tests evaluate a few momenta of one mesh with a tolerance", "anchors": ["c++/triqs/mesh/brzone.hpp: evaluate(brzone, f, v), evaluate(brzone1d, f, vi)", "c++/triqs/mesh/evaluate.hpp: evaluate(tuple)"]}
{"id": "C197", "title": "The determinant kept by det_manip in double precision", "statement": "As long as operations multiply it, the kept determinant is the product of its value at the beginning and of the ratios returned to the user, with exactly their sign and one rounding for each accepted operation; swaps and rolls do not round; at most n_opts_max_before_check roundings are ever in it; a refill returns the ratio up to one rounding. The determinant of a matrix that is emptied is one only up to a rounding, and one that has underflowed stays zero until it is regenerated.", "quantifier": "all histories of accepted operations, all doubles in place of the numbers computed from the inverse matrix", "why_tests_cant": "tests compare with a tolerance after a few dozen operations", "anchors": ["c++/triqs/det_manip/det_manip.hpp: det_manip::try_insert, try_remove, try_change_*, try_refill, complete_operation, _regenerate_with_check, swap_row, roll_matrix, determinant"]}
{"id": "C198", "title": "Legendre polynomials in double precision", "statement": "The values returned by the generator have the parity of the polynomials to the last bit, are exactly 1 and (-1)^n at the ends of the interval, and inside of it differ from the Legendre polynomials by at most 12 n (n+1) 2^-53, so they stay bounded; as functions of imaginary time, with the rounding of the argument 2 tau / beta - 1, by at most 16 n (n+1) 2^-53. At number 2^31 + 1 the unsigned counter wraps around.", "quantifier": "all arguments in the interval, all degrees up to 2^24 (parity and ends: up to 2^31)", "why_tests_cant": "tests compare a few low degrees with a tolerance", "anchors": ["c++/triqs/utility/legendre.hpp: legendre_generator", "c++/triqs/mesh/legendre.hpp: evaluate", "c++/triqs/gfs/transform/legendre_matsubara.hpp: legendre_matsubara_direct, legendre_matsubara_inverse (imtime)"]}
{"id": "C199", "title": "Functions of several variables on products of meshes in double precision", "statement": "A function on a product of any number of meshes, called with doubles inside of linear meshes (mesh points are called with their values) and with indices of other meshes, returns a finite number; for data bounded by A it differs from the exact multilinear interpolation by at most A (prod_k (1 + L_k 2^-47) - 1), where only interpolated variables contribute. Called with the values of a mesh point it returns the datum up to the same error plus A sum_k L_k 2^-47, and with indices only exactly the datum. The order of the variables changes the result by rounding only.", "quantifier": "all numbers of variables, meshes whose ends are in the range of the mesh claims, arguments, and data with a bound between 2^-1000 and 2^1010", "why_tests_cant": "tests evaluate a few functions of two or three variables with a tolerance", "anchors": ["c++/triqs/mesh/evaluate.hpp: evaluate (std::tuple, prod, index, mesh_point_t)", "c++/triqs/mesh/bases/linear.hpp: evaluate"]}
{"id": "C200", "title": "Jackknife in double precision", "statement": "For every function of the user the jackknife estimate of rounded arithmetic lies between any two doubles that enclose the values of the function on the resampled data, the error is not negative, and it is exactly zero if the data of every series are equal. For the mean of one series of n data of size at most B (a power of two) the direct estimate is the exact mean up to (n + 2) B 2^-53, the jackknife estimate up to (8 n + 26) B 2^-53, and the estimate corrected for the bias up to 36 n^2 B 2^-53: the correction multiplies the rounding errors by the number of data.", "quantifier": "all functions, numbers of series and data for which the results are finite; the bounds for 2 to 2^20 data and B between 2^-900 and 2^898", "why_tests_cant": "tests compare a few series with a tolerance", "anchors": ["c++/triqs/stat/jackknife.hpp: jackknifed_t, jackknife_impl, jackknife"]}
{"id": "C201", "title": "Sums over k points on several nodes in double precision", "statement": "The sums over k points and over the energies of a Hilbert transform, distributed on any number of nodes whose results MPI adds in any order, are finite and differ from the exact sum of weight times element by at most 2 (n + nodes + 1) 2^-53 times the sum of the sizes; results of different numbers of nodes and orders differ by rounding only. If no weight is negative and no element positive the result is not positive, whatever the rounding errors, so the imaginary parts of diagonal elements keep their sign. With the default weights a sum without dispersion is the local element up to 2 (n + nodes + 2) 2^-53 of its size.", "quantifier": "all points, weights, elements, numbers of nodes and orders of additions", "why_tests_cant": "tests run on one or two nodes and compare with a tolerance", "anchors": ["python/triqs/sumk/sumk_discrete.py: SumkDiscrete.__call__, resize_arrays", "python/triqs/dos/hilbert_transform.py: HilbertTransform.__call__ (HT)", "python/triqs/utility/mpi_mpi4py.py: slice_array, all_reduce"]}
{"id": "C202", "title": "Tight-binding Hamiltonians in double precision", "statement": "With the rounding of the machine the Fourier transform of hoppings that come in conjugate pairs is hermitian up to 5 n 2^-53 times the sum of the sizes of the hoppings between the two orbitals, and its diagonal elements are real up to half of that: the terms of opposite displacements are conjugate to the last bit, only the order of the additions differs. For one pair of displacements the matrix is hermitian to the last bit; for two pairs on a chain the energy gets an imaginary part of 2^-53. For real hoppings the matrix at -k is the complex conjugate of that at k to the last bit. Elements are the sums of phase times hopping up to (5 n / 2 + 2) 2^-53 of the sizes of the hoppings, and the angles are two pi times k R up to 2 (d + 2) 2^-53 of the sum of its terms.", "quantifier": "all hoppings, displacements, momenta, orbitals; all sine and cosine functions that are odd, even and bounded", "why_tests_cant": "tests compare a few momenta with a tolerance", "anchors": ["c++/triqs/lattice/tight_binding.hpp: tight_binding::fourier"]}
{"id": "C203", "title": "Densities of states of tight-binding Hamiltonians in double precision", "statement": "With the rounding of the machine every energy between the extrema gets an index inside of the array, provided the width of a bin is a normal double; its place on the energy axis is in that bin up to relative errors of 2^-50, indices keep the order of energies, the smallest energy is in the first bin and the largest in the last. For one orbital whose energies differ by 2^-800 at least the density exists, the centres of the bins are in order between the extrema, each value is the number of energies divided by the rounded norm, and the integral is one up to 2^-51. A flat band divides zero by zero and converts the result to int; energies that differ by a few of the smallest doubles get an index outside of the array.", "quantifier": "all lists of energies, numbers of bins and of energies below 2^31", "why_tests_cant": "tests compare a norm with a tolerance; energies at the borders of bins and flat bands are not tried", "anchors": ["c++/triqs/lattice/tight_binding.cpp: dos, dos_patch"]}
{"id": "C204", "title": "Linear bins in double precision", "statement": "With the rounding of the machine linear binning cuts the data into consecutive blocks. If the initial capacity is a power of two, every bin lies between the smallest and the largest datum and is the average of its block up to (n+5) 2^-53 times the largest modulus, n being the size of the block, plus 3n of the smallest doubles; bins of constant data are that constant bit by bit. There are not more bins than allowed, and all but the last have as many data as the capacity. For a capacity of three a compression moves bins of constant data away from the constant.", "quantifier": "all sequences of fewer than 2^31 doubles of modulus up to 2^900, all maximal numbers of bins, all powers of two as capacity", "why_tests_cant": "tests use a few integers or tolerances; bins after many compressions and data that round badly are not tried", "anchors": ["c++/triqs/stat/accumulator.hpp: lin_binning::operator<<, lin_binning::compress"]}
{"id": "C205", "title": "Interaction parameters in double precision", "statement": "With the rounding of the machine the radial integrals computed from U and J for p, d and f shells are those of exact arithmetic up to a relative error of 16 times 2^-53, and so are the Hund's coupling of the interaction they define and the coupling computed back from them, while U comes back as it was; the coupling itself need not come back bit by bit. Other shells are refused. Opposite couplings give opposite integrals. The two Kanamori matrices are those obtained from the Kanamori tensor by reduction, bit by bit, the default interaction of different orbitals is U - 2J up to a relative error of 2^-53, and the tensor has the symmetries of a real interaction.", "quantifier": "all doubles U, all couplings of modulus from 2^-900 to 2^900, all parameters of the Kanamori functions", "why_tests_cant": "tests compare a few values with tolerances", "anchors": ["python/triqs/operators/util/U_matrix.py: U_J_to_radial_integrals, radial_integrals_to_U_J, U_matrix_kanamori, reduce_4index_to_2index"]}
{"id": "C206", "title": "Means of data on several nodes in double precision", "statement": "With the rounding of the machine the mean of data distributed over MPI nodes exists and is the average of all N data up to (N + 4 size + 8) 2^-53 times the largest modulus, plus 3N + 2 size of the smallest doubles, for every distribution of the data on size nodes and every order in which MPI adds; so different distributions agree up to twice that. The mean of reduced levels of logarithmic binning is the weighted average of the means of the nodes with a similar error, and their sum of squares is that of the nodes plus that of the differences of the means, with a relative error of at most (2 size + 14) 2^-53. Sums of squares stay nonnegative, and that of the error on several nodes has a relative error of at most (2 N + 2 size + 10) 2^-53 with respect to the differences to the computed mean, for at most 3037000500 data that differ from it by neither tiny nor huge amounts. On one node mean, error and reduced levels are those without MPI, bit by bit. Constant data on six nodes do not give back the constant and have an error bar that is not zero.", "quantifier": "all distributions of up to 2^50 doubles of modulus up to 2^900 on nodes with at least one datum each, all orders of additions", "why_tests_cant": "tests run on a few nodes with tolerances", "anchors": ["c++/triqs/stat/mean_error.hpp: mean_mpi, mean_and_err_mpi, mpi_reduce_MQ"]}
{"id": "C207", "title": "Real and imaginary parts of operators in double precision", "statement": "With coefficients that are pairs of doubles: real(op) and imag(op) have the parts of the coefficients to the last bit and lack exactly the monomials whose part is below the tolerance of is_zero; both are idempotent in the sense that their real part is themselves and their imaginary part is zero; real commutes with the dagger and imag anticommutes with it, so that an operator that is its own dagger has a hermitian real and an antihermitian imaginary part; real(op) + 1j * imag(op) has the coefficients of the operator with small parts set to zero, and == holds exactly if no stored coefficient is below the tolerance; make_operator_real refuses exactly operators with an imaginary part above the given tolerance, and with tolerance zero returns others unchanged. The parts of the coefficients of z * op have an error of at most 3*2^-53 times the sum of the magnitudes of the two products, plus 2^-1072. False: that the real part of an operator that passes is_op_hermitian passes it too, and that real parts of sums are sums of real parts.", "quantifier": "all operators with finite complex coefficients, all tolerances", "why_tests_cant": "tests use coefficients of order one", "anchors": ["c++/triqs/operators/many_body_operator.hpp: transform, real, imag", "c++/triqs/utility/numeric_ops.hpp: is_zero", "python/triqs/operators/util/hamiltonians.py: make_operator_real"]}
{"id": "C208", "title": "Sums over Legendre coefficients in double precision", "statement": "With every operation rounded, and std::sqrt(2l+1) correctly rounded: for a mesh of n coefficients (1 <= n < 2^20) of absolute value at most B, the evaluation at a time of [0, beta] and the value written by the transformation to imaginary time are finite and differ from the sum of coefficients times root times Legendre polynomial over beta by at most 20 n^3 (B S/beta) 2^-53, S^2 >= 2n; the density differs from minus the value at beta by at most 13 n^2 (B S/beta) 2^-53.", "quantifier": "all coefficients, all times of the interval, B in [2^-700, 2^700], beta in [2^-100, 2^100]", "why_tests_cant": "rounding errors depend on data and grow with the number of coefficients", "anchors": ["c++/triqs/mesh/legendre.hpp: evaluate", "c++/triqs/gfs/transform/legendre_matsubara.hpp: legendre_matsubara_direct", "c++/triqs/gfs/functions/density.cpp: density of legendre", "c++/triqs/utility/legendre.hpp: legendre_generator"]}
{"id": "C209", "title": "Density at zero temperature from real frequencies in double precision", "statement": "With every operation rounded, on a mesh for which the quotient of the first value and the step is within e <= 1/4 of an integer n: the sum that density(gf<refreq>) forms before it is scaled is within B (2 e + 40 (n+2)^2 2^-53) of the rule of trapezes up to the frequency zero for data of absolute value at most B, although the rounded quotient may give an index that is one too small; on symmetric meshes of 2n+1 points within 60 B (n+2)^2 2^-53. On a mesh [-W, 0] with W <= 2^20 the same holds and nothing behind the last point is read. False: for larger W (12 points on [-3e7, 0] read behind the last point), and for steps below the literal 1e-9 (the last interval is lost).", "quantifier": "all data, all meshes with a step of at least 2^-28 and fewer than 2^19 points below zero", "why_tests_cant": "whether the quotient is rounded below the integer depends on the last bits of the mesh; an out-of-range read need not fail a test", "anchors": ["c++/triqs/gfs/functions/density.cpp: density of refreq at zero temperature", "c++/triqs/mesh/bases/linear.hpp: constructor"]}
{"id": "C210", "title": "Auto-correlation times from errors in double precision", "statement": "tau_estimate_from_errors(e, z) for doubles e, z between 2^-200 and 2^200: the result r is finite and |r - ((e/z)^2 - 1)/2| <= (4 (e/z)^2 + 2) 2^-53; r >= -1/2, r <= 0 if e <= z, r >= 0 if z <= e, r is exactly 0 for equal errors; r does not decrease if e grows. False without bounds: errors of zero (constant data) or of 2^-600 or 2^600 give no finite result.", "quantifier": "all pairs of errors in the range", "why_tests_cant": "signs and equalities could be lost by rounding for special values only", "anchors": ["c++/triqs/stat/accumulator.hpp: tau_estimate_from_errors"]}
{"id": "C211", "title": "Auto-correlation time of repeated measurements", "statement": "If every one of m data, not all equal, is put 2^n times in succession into an accumulator, the errors of level n and level 0 of log_bin_errors give tau_estimate_from_errors = m (2^n - 1) / (2 (m - 1)).", "quantifier": "all real data, all n with fewer than 2^31 measurements, any limit on the number of levels that keeps level n", "why_tests_cant": "quantifies over all data; combines binning, errors and the estimate", "anchors": ["c++/triqs/stat/accumulator.hpp: log_binning, log_bin_errors, tau_estimate_from_errors"]}
{"id": "C212", "title": "Errors of logarithmic binning in double precision", "statement": "log_bin_errors in double precision: the product count_n * (count_n - 1) of long numbers overflows at some level if and only if more than 3037000500 data were added; with at most that many data whose sums did not overflow every level has a finite error that is not negative and the number of complete blocks; with two or more blocks the error is sqrt(Q/(k(k-1))) of the stored sum Q of squares up to a relative error of 3*2^-53, if Q is zero or at least 2^-950.", "quantifier": "all sequences of data, all numbers of levels", "why_tests_cant": "overflow needs three billion data; rounding for all values", "anchors": ["c++/triqs/stat/accumulator.hpp: log_bin_errors, log_binning"]}
{"id": "C213", "title": "Density at finite temperature from real frequencies in double precision", "statement": "density(g, beta) of a function on real frequencies, one diagonal element, in double precision, for imaginary parts that are not positive: the result is not negative and at most the total weight, added and scaled in the same way, and is finite if that is; more spectral weight never gives less density; on frequencies at or below (above) zero the density does not decrease (increase) as beta grows, if exp of the library is monotonic; products beta*w beyond the range of doubles give empty or full levels and no NaN; with the exponentials e of the library the result differs from (delta/M_PI) sum -Im g/(1+e) by at most a relative 2(N+5) 2^-53, unless numbers become tiny (data below 2^-500, exponentials above 2^500, result below 2^-1021).", "quantifier": "all meshes, data and temperatures; any exp whose values are not negative", "why_tests_cant": "overflow of exp and rounding for all inputs; comparison of pairs of inputs", "anchors": ["c++/triqs/gfs/functions/density.cpp: density(gf_const_view<refreq>, double)"]}
{"id": "C214", "title": "The semicircular function on Matsubara frequencies in double precision", "statement": "SemiCircular(D) at i w in double precision, D and w between 2^-200 and 2^200: the imaginary part is finite and differs from 2 (w - sqrt(D^2 + w^2)) / D^2 by at most 40 (w + D)/D^2 2^-53; it is never positive for w > 0; values at w and -w are opposite to the last bit. The digits are lost at high frequencies: at w = 2^27 D the value is exactly zero instead of about -1/w.", "quantifier": "all half bandwidths and frequencies in the range, chemical potential zero", "why_tests_cant": "cancellation depends on the values; rounding for all pairs", "anchors": ["python/triqs/gf/descriptors.py: SemiCircular.__call__"]}
{"id": "C215", "title": "Error bars of mean_and_err in double precision", "statement": "mean_and_err in double precision, including the square root: whenever the mean and the sum of squares are finite there is an error that is not negative, never NaN; for 2 to 3037000500 data between two doubles of at most 2^1000, whose differences to the mean are zero or between 2^-400 and 2^400, the error is the standard error around the computed mean up to a relative (2n+12) 2^-53; equal data have an error of exactly zero.", "quantifier": "all sequences of data in the range", "why_tests_cant": "rounding for all data; the root of a rounded sum", "anchors": ["c++/triqs/stat/mean_error.hpp: mean_and_err"]}
