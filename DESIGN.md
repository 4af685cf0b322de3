# Formal model of the TRIQS C++ core — design

## Scope and method

The model is a set of Lean 4 modules in `lean/Verif/`. Each C++ function that
matters for a property is transcribed to a small total function whose comment
cites the file and lines of `/repo` it models; every simplification is stated in
that comment. Layout, per area `X`:

* `Verif/X/Model.lean`  transcription of the code,
* `Verif/X/Lemmas.lean` helper lemmas,
* `Verif/X/Props.lean`  the property theorems, with the small independent
  specification they refer to and an `example` showing a non-trivial instance
  of their hypotheses.

(Small areas use one file with these three sections.)

Where a C++ construct can have undefined behaviour or throw, the model has a
distinct outcome for it (`Option`/`Except`), and theorems either exclude it by a
stated precondition or prove when it happens. When a property is false of the
code, the negation is proved on a concrete witness, and the part that does hold
is proved as a theorem with suffix `_partial`.

## Trusted base

* Lean 4.33.0 kernel; axioms `propext`, `Classical.choice`, `Quot.sound` only.
* The transcription of C++ into Lean (checked by reading; the code is not run).
* Numbers: `double`/`complex<double>` are modelled by an exact field, ring, `ℚ`,
  `ℝ` or `ℂ` as stated in each file; rounding, NaN and infinities are not
  modelled unless a theorem is about them. `is_zero(x)` (|x| < 100 eps) is
  modelled as `x = 0`. The files under `Float/` are the exception: there a
  double is a rational number of the binary64 format, and every operation of
  the code is followed by rounding to nearest even (gradual underflow included,
  overflow is `none`). This trusts the compiler to use these operations, without
  extended precision, contraction to fused operations or `-ffast-math`.
  Square roots (C212, C214, C215) are rounded to nearest, as IEEE 754 demands;
  `exp`, `sin`, `cos` of the C library are parameters with stated contracts.
* Machine integers are modelled by `Int`/`Nat`, except where the property is
  about wrap-around or width (`time_pt`, imperative operator masks, Mersenne
  twister, archive narrowing), where the width is explicit.
* External code is a parameter or an idealisation, stated in each file: HDF5
  (`h5::write/read` store and return the same value), MPI reductions
  (sum over ranks), FFTW (the discrete Fourier sum), `boost::disjoint_sets`
  (union-find), Bessel functions of boost (integral of Poisson),
  LAPACK (exact inverse/determinant), `nda` arrays (functions of
  the index), `std::map` (finite sorted association list).
* Not modelled at all: Python bindings, plotting, `itertools`, I/O formatting,
  compile-time overload resolution, thread safety, performance.

## Properties

| id | what is modelled | how it is proved |
|---|---|---|
| C01 | `monomials` map, `normalize_and_insert`, `operator*=` | semantics in the Fock representation on finite sets of labels; invariant of the sorting loop: value of (emitted terms + current monomial) is constant |
| C02 | `+=`, `-=`, scalar ops | map insertion lemmas |
| C03 | all operations as steps of a history | invariant by induction on histories |
| C04 | `operator==` | faithfulness of the Fock representation on canonical forms |
| C05 | `dagger` | adjointness of matrix elements, reversal keeps strict order |
| C06 | `c`, `c_dag`, `n` | corollary of C01, C04 |
| C07 | `h5_write`, `h5_read` of operators | round-trip law |
| C08 | `extract_*_dict` (`Operators/Extract.lean`) | distinct keys from canonical form, sums in the Fock representation, C04 |
| C09 | `block_matrix_from_op`, `op_from_block_matrix` | coefficients of canonical operators, both round trips; negation for ill-formed terms |
| C10 | `fundamental_operator_set` | invariant over histories, refinement to list without duplicates |
| C11 | string encoding of indices | round trip on 32-bit / NUL-free labels (partial), negation outside |
| C12 | `hilbert_space`, `sub_hilbert_space` | bijection lemmas, invariant over histories |
| C13 | `imperative_operator` | refinement to the Fock representation (labels at positions 0..16, partial), negation with 18 orbitals (label at position 17) |
| C14 | both `state` classes | refinement to functions over histories |
| C15 | `space_partition` ctor | union-find relation = reflexive-transitive-symmetric closure |
| C16 | `_update_index`, `lookup_basis_state` | invariant |
| C17 | `merge_subspaces` | zigzag computes connected components of the bipartite connection graph; negation of the global one-to-one claim |
| C18 | `find_mappings` | set equality |
| C19-C21 | det_manip over a field: all try/complete functions, refill, rotations, swaps, regeneration, `reserve`, periodic check | bordered-determinant and block-inverse lemmas; invariant `Good` over the inductive set `Reach` of histories; `Reach` records the operation on plain lists, not the tables of the code |
| C22 | try/complete/reject state machine | a rejected try stays in `Reach` with the same lists; two objects with the same lists give the same ratio |
| C23 | row_num/col_num | the lists of `Reach` are those read through the tables; insertion and removal are specified by positions and shown unique |
| C24 | bounds checks | decision logic (partial) and progress for valid positions; negations for the unchecked positions |
| C25 | `swap_but_f` | field-wise model; partial for equal `kmax`, negation |
| C26 | `try_insert_from_function` | simulation by an insertion of an extra argument (`Option X`); negation for the stored arguments |
| C27 | `move`, `move_set`, step of `mc_generic::run` (`MC/Moves.lean`) | user moves wrapped by an observer; protocol kept by lifting and by nesting sets (`Built`); induction on steps |
| C28 | the same | product over the accepted trials; weights along the trials (`Follows`) |
| C29 | `mc_generic::run`, `warmup_and_accumulate`, `signal_handler` (`MC/Run.lean`) | state machine with oracles for signals and emergency stops, induction on passes; counters observed in the world |
| C30 | `normaliseProba`, choice in `move_set::attempt` | interval arithmetic over an ordered field |
| C31 | step of `run` and `move_set::attempt` (`MC/Balance.lean`) | Lebesgue measure of the random numbers that lead from x to y; flow = min of the two rates |
| C32 | `measure_set`, `add_measure`, `rm_measure` (`MC/Measures.lean`) | association list in name order, log of calls, induction on histories |
| C33 | `buffered_function` | invariant: emitted ++ buffered = prefix of the stream |
| C34 | `RandMT` | invariant with explicit 32-bit words |
| C35 | `lin_binning` (`Stat/Lin.lean`) | bins = averages of consecutive blocks, invariant over histories of `<<` and `compress` |
| C36 | `log_binning`, `log_bin_errors` (`Stat/Log.lean`) | levels = mean and squared deviations of all complete blocks, invariant over the data |
| C37 | `mpi_reduce_MQ`, `log_bin_errors_all_reduce` (`Stat/Mean.lean`, `Stat/Acc.lean`) | algebra of moments; ranks without a level have no complete block |
| C38 | archive of `accumulator` (`Stat/Acc.lean`) | simulation up to the unreported `lin_binning::count`; negation for the missing limit |
| C39 | `mean`, `mean_and_err`, `jackknife`, MPI versions (`Stat/Mean.lean`) | sums over lists in a module with a symmetric form |
| C40 | `histogram` (`Stat/Hist.lean`) | bin by floor in an ordered field, invariant over the data |
| C41 | `time_pt` | 64-bit arithmetic with wrap-around |
| C42 | linear mesh | ordered field |
| C43-C44 | Matsubara mesh and frequency arithmetic | integers, ℂ values; negation for division |
| C45-C46 | lattice meshes | integer arithmetic |
| C47-C48 | Brillouin-zone evaluation and nearest point | real arithmetic; negation for skewed units |
| C49 | product mesh | induction on components |
| C50 | mesh equality | round trip partial, negation for lattice meshes |
| C51 | adjoint meshes | integer and real arithmetic |
| C52 | lattice Fourier transforms (`Gfs/Dft.lean`, `Gfs/FourierLattice.lean`): rank-3 sums on row-major data; FFTW trusted to compute its documented sums | orthogonality of roots of unity in each direction; the phases are the products k·R of the mesh vectors by C64 |
| C53 | Matsubara transforms with given moments (`Gfs/FourierMatsubara.lean`), unassigned elements of the work array arbitrary | rows are injective on accepted meshes, orthogonality; the direct transform is shown to be the trapezoidal rule plus the exact transform of the model |
| C54 | pole amplitudes of the transforms and of the density; `oneFermion`, `oneBoson` | Vandermonde equations, expansion at infinity as a limit, integral of the exponential: the two halves of the model are transforms of each other |
| C55-C56 | `make_gf_from_real_gf`, `positive_freq_view`, `make_hermitian` and the checks (`Gfs/ImFreq.lean`) | the writes hit every row once; one lemma for any reflection of mesh and target indices |
| C57 | `flatten_2d`, `unflatten_2d` (`Gfs/Flatten.lean`) | positions in C order and the exchange of two dimensions are mutually inverse; negation for kept dimension 2 |
| C58 | `legendre_generator`, `legendre_t`, `evaluate`, `get_tail`, `enforce_discontinuity` (`Utility/Legendre.lean`) | recurrence from the formula of Rodrigues; derivatives at the ends by Taylor expansion; integration by parts gives the transform; negation for the zeroth moment |
| C59 | `replace_by_tail`, `tail_eval` (`Gfs/ImFreq.lean`) | order of the frequencies; negation for bosons |
| C60 | `pade_approximant` (`Utility/Pade.lean`) | invariant of the evaluation loop against the rows of the table; the precision is part of the state |
| C61 | `real_or_complex` | induction on expressions |
| C62 | constructor and `fourier` of `tight_binding` (`Lattice/TightBinding.lean`) | involution of the displacements; negation for repeated displacements and for none |
| C63 | `grid_generator` (`Lattice/Grid.lean`) | invariant of the increments: mixed-radix digits of the counter |
| C64 | Bravais lattice, Brillouin zone and its mesh (`Lattice/Bravais.lean`) | matrix algebra; negations beyond `ndim` and for the default zone |
| C65 | `partition_with_qn` | invariant over the state loop |
| C66 | `autopartition` | composition of C17 passes; counterexample or proof |
| C67 | raw monomial constructor | invariant conditional on a normal-ordered argument, negation otherwise |
| C68 | `is_op_hermitian` | equivalence with the adjoint on Fock space |
| C69 | `mult_by_int`, `div_by_int` of `time_pt` | 64-bit arithmetic; negation beyond one turn |
| C70 | `make_time_pt` | ordered field with floor; negation at the upper end |
| C71 | `random_generator::operator()` (`MC/Buffered.lean`) | floor arithmetic over an ordered field |
| C72 | `RandMT` (`MC/Mersenne.lean`) | invariant relating the in-place array to the recurrence sequence |
| C73 | `filter_op` | C04 and extensionality of canonical operators |
| C74 | `dict_to_matrix` | induction on the dictionary, positions determine labels |
| C75 | `density` of a Matsubara function, one matrix element (`Gfs/FourierMatsubara.lean`) | sum over the rows of the FFT input |
| C76 | real-axis transforms (`Gfs/FourierReal.lean`) | orthogonality; phases cancel on every accepted pair of meshes; improper integrals of the model |
| C77 | completion of the unit vectors, coordinate conversions (`Lattice/Bravais.lean`) | explicit form of the completed basis in each dimension |
| C78 | `fourier` of `tight_binding` on a mesh | the coordinates in units of the reciprocal vectors are `n/d`; exchange of sums |
| C79-C81 | `dos`, `dos_patch`, energies on paths and grids (`Lattice/Dos.lean`) | floor arithmetic of the bins over an ordered field; every energy is in one bin; tiling of a triangle |
| C82 | `restricted_view` (`Gfs/ImFreq.lean`) | index arithmetic; negation for bosons |
| C83-C85 | `tail_fitter`, `gf_evaluator<imfreq>`, `fit_tail_on_window` (`Mesh/TailFit.lean`); the solver is any function that minimises the residual | index arithmetic with truncation; a polynomial with too many zeros vanishes, so the columns are independent and the residual zero has one solution |
| C86 | `fit_tail` of imaginary-time functions, the test of noise (`Gfs/TauMoments.lean`), two rows of the table with all digits | exact rational error of the table; Taylor expansion at both ends; three integrations by parts |
| C87 | `worker::complete` (`AtomDiag/Complete.lean`): filling of the matrices term by term, ordering of the blocks, remapping of the connections; the solver is any function that diagonalises hermitian matrices | columns of the matrix are matrix elements; the order is a permutation and the tables are conjugated with it; `eigSpec_exists` from the spectral theorem |
| C88-C90 | `make_op_matrix`, `get_matrix_element_of_monomial`, `get_op_mat`, `compute_vacuum`, `act` (`AtomDiag/Matrices.lean`) | loop invariants; unitarity of the eigenvectors |
| C91-C92 | `partition_function`, `atomic_density_matrix`, `trace_rho_op`, `quantum_number_eigenvalues(_checked)` (`AtomDiag/Thermal.lean`) | spectral decomposition of the Hamiltonian on the Fock states of all blocks (`AtomDiag/Spectral.lean`), matrix exponential, invariance of the trace |
| C93-C95 | `atomic_g_lehmann_impl` and the term processors for imaginary time, Matsubara and real frequencies (`AtomDiag/Lehmann.lean`) | the list of terms is a sum over pairs of eigenstates, all other pairs have residue zero or below the threshold; the trace formula in the eigenbasis; transform of a single pole (C54); anticommutation relations from the Fock space of C05 |
| C96-C97 | `legendre_T`, `mod_cyl_bessel_i`, `legendre_matsubara_direct/inverse` (`Gfs/LegendreMatsubara.lean`); Bessel functions of boost are trusted to satisfy the integral of Poisson | Rodrigues formula and repeated integration by parts turn the transform of P_l into the integral of Poisson; trapezoidal rule of Mathlib; orthogonality |
| C98 | `atomic_g_l` (`AtomDiag/LehmannLegendre.lean`) | same integral for modified Bessel functions, parity in the argument |
| C99-C103 | `gf`, `gf_view`, `gf_expr`, `clef_auto_assign`, `_subscript_impl`, `filter_mesh`, `compute_position` (`Gfs/GfCore.lean`): storages with strided views, expressions evaluated lazily while the target is being written | loop invariant: elements not yet written still have their old values; separation invariant over histories; layouts of slices |
| C104-C106 | `block_gf`, `block_gf_view`, `bgf_expr`, iterators, `map_block_gf`, factories, archives, `mpi_broadcast` (`Gfs/BlockGf.lean`); blocks are values at addresses, an archive is a map from names to contents | loop invariant over the blocks not yet written; freshness of resized blocks; lists of keys |
| C107-C111 | all of `gfs/functions/density.cpp` (`Gfs/Density.lean`); the tail fit is a parameter, exact arithmetic | loop invariant over the visited pairs; Mittag-Leffler expansion of the cotangent for the sum over frequencies; integrals of the interpolation interval by interval; Legendre polynomials at one |
| C112 | `rebinning_tau` (`Gfs/Rebin.lean`), exact arithmetic | loop invariant; consecutive indices differ by at most one on coarser and at least one on finer meshes |
| C113-C117 | labels, Slater, Kanamori and density Hamiltonians, diagonal part, basis change (`Operators/Hamiltonians.lean`, `Operators/TwoBody.lean`), exact field | the operators act on Fock space as one- and two-body sums; commutators of such sums follow from the anticommutation relations; equality by matrix elements (C04) |
| C118-C119 | spin and orbital momenta (`Operators/Observables.lean`), real and imaginary parts (`Operators/Parts.lean`), exact complex numbers | every component is a one-body sum; the commutators of one-body sums are those of their matrices; matrix elements of the raising operator give the ladder relations, a change of basis is a conjugation |
| C120-C124 | cubic harmonics (`Operators/CubicBasis.lean`), three-j symbols (`Operators/ThreeJ.lean`), the matrix of a shell (`Operators/UMatrix.lean`), exact numbers | three-j symbols: a telescoping recursion of the sum over inverse factorials gives the raising relation, orthogonality follows by shifting and a Vandermonde sum; the raising relation makes the tensor invariant, so the Hamiltonian commutes with the orbital momentum (C118); averages over orbitals from orthogonality |
| C125-C126 | the search for cluster sites, change of coordinates, folding (`Lattice/SuperLattice.lean`), exact integers | coordinates in the super cell are the fractional parts of the inverse units times the point; sites in the unit cell are representatives of the classes; folding is a bijection of the bonds modulo the super lattice |
| C127-C128 | both loops of `dichotomy`, the two directions of `determine_bounds` (`Utility/RootFinding.lean`), real functions | invariants of the loops; convergence of the false position by compactness; completeness by following the first point where the sign is right |
| C129 | slices of the ranks with Python slicing (`Utility/MpiSlice.lean`) | start of a rank is the end of the previous one; concatenation by induction on the ranks |
| C130-C131 | weights, loops over the slices of all nodes, options (`Lattice/HilbertTransform.lean`), one frequency, exact matrices, singular inverse is an error | slices recombine by C129; a matrix with positive definite imaginary part is invertible and its inverse has a negative one, as Im(-1/M) = M^-1 Im(M) M^-H; tail from continuity of the adjugate |
| C132 | the loops over grid points, shift, patch, copy (`Lattice/KGrid.lean`) | orthogonality of the phases in each direction, sums factorise |
| C133 | search of the index with the wrapped index below the band (`Lattice/DosDensity.lean`) | sum telescopes to the trapezoid sum; area as a sum of clamped steps |
| C134 | numpy arrays with shape, broadcasting, tensordot and matmul; operators of `Gf` and `BlockGf` (`Gfs/PyArith.lean`) | an index in range is unchanged by broadcasting; the mesh part of the shape splits off; matrix product at each mesh index |
| C135 | `dyson` as a function of the list of keyword arguments, `delta` with the tail fit as a parameter (`Gfs/Dyson.lean`) | inverse of inverse; positive definiteness of the imaginary part passes to inverses |
| C136 | `make_delta`: `linspace`, the two formulas, the contraction (`Gfs/Bath.lean`) | Schur complement of the matrix of orbitals and bath; integral of an exponential; limits in the cobounded filter |
| C137 | packing of parameters, start values, sorting of `discretize_bath` (`Gfs/BathFit.lean`) | positions in nested lists; sum over the levels with the same remainder; a permutation leaves a sum unchanged |
| C138 | `fit_legendre` with `legfit` as a parameter (`Gfs/FitLegendre.lean`) | normal equations; Legendre polynomials are linearly independent on enough points; projection on Hermitian matrices |
| C139 | the formulas of `SemiCircular` and `Flat` with the branches of the complex square root and logarithm (`Gfs/Descriptors.lean`) | sign of the imaginary part of a square root; integral by substitution of the angle |
| C140 | building, conversion and evaluation of lazy expressions, `<<` for functions and for blocks (`Gfs/LazyExpr.lean`) | induction on the expression, in both directions |
| C141 | `k_space_path` (`Lattice/KPath.lean`) | indices in the concatenation of the segments; partial sums of lengths |
| C142 | the reader of `_hr.dat` and `.wout`, spin, local term (`Lattice/Wannier.lean`) | position of each number in the flattened file; linearity of the sum over the dictionary |
| C143 | the dictionary built from a pythTB model; the array and the sum of `TB_to_sympy` (`Lattice/Convert.lean`) | invariant of the loop for all linear functions of the dictionary; keys with both signs fit into the array |
| C144 | meshes, transformations, evaluation, density of DLR functions with the kernels of cppdlr (`Gfs/Dlr.lean`) | inverse matrices; integrals of exponentials (C136) |
| C145 | brackets, slices, views and assignment of Python Green functions (`Gfs/PyAccess.lean`) | positions of a strided view; a write through a view changes exactly the image of its index map |
| C146 | `BlockGf` as names and objects in a heap (`Gfs/PyBlocks.lean`) | invariants of the loops over the blocks; pigeonhole for names that are not strings |
| C147 | `Block2Gf` as two lists of names, rows of objects and the dictionary of its archive (`Gfs/PyBlock2.lean`) | rows as a function of the names; membership and distinctness of the keys of the dictionary |
| C148 | archives as trees of keys with an arbitrary comparison of numbers (`Utility/H5Diff.lean`) | mutual induction over the trees |
| C149 | files as lists of rows, the loop over the files with its exceptions (`Gfs/TxtFiles.lean`) | smallest and largest number of an equally spaced list; names split at the last underscores |
| C150 | slices from two searches in a list, curves from the product of ranges, `arange` (`Gfs/PyPlot.lean`) | monotone predicates on ordered lists; colexicographic order; labels split at underscores |
| C151 | data symmetries from index symmetries, classes of `nda::sym_grp` as a contract (`Gfs/SymGrp.lean`) | numbering is a bijection; induction on reachability; mean of a constant list |
| C152 | flatten, transform columns, put back (`Gfs/PartialTransform.lean`) | C57 for the position of elements; exchange of sums |
| C153 | frequencies, points and the choice of the Python method (`Mesh/PyFreq.lean`) | cases of the operands; value of a frequency from index and statistics |
| C154 | timer as a machine of starts and stops, text of a time, estimate (`Utility/Timer.lean`) | count of the ticks covered by induction on the events; decimal digits |
| C155 | tuples as lists, the index recursions of the templates (`Utility/TupleTools.lean`) | induction on the position |
| C156 | comparison with NaN and infinities (`Gfs/TestTools.lean`) | invariant of the fold of `std::max`; pairs of blocks |
| C157 | triangles of a polygon, weight and density of states (`Lattice/BzPatch.lean`) | signed areas of a fan of triangles; induction on the corners |
| C158 | loops over the points of views in a memory, inversion as a contract, fold of the errors (`Gfs/MatrixOps.lean`) | invariant of a loop that writes at each point what it reads there; injective addresses |
| C159 | search for nearest points with doubling, choice by strides, equally spaced points (`Gfs/PathPoints.lean`) | invariants of the loops; the powers of two modulo three for the search without end; floors of the shares of the length |
| C160 | signal handler as a machine of starts, stops and arrivals, composed with the main loop of C29 (`MC/Signals.lean`) | invariant of the list of signals; the hypothesis of C29 on signals is discharged |
| C161 | `pade` of scalar and tensor functions on top of the approximant of C60 (`Gfs/PadeGf.lean`) | the forward recursion equals the continued fraction (invariant of the loop); the inverse differences of a continued fraction are its tails, so the coefficients are recovered; one pole as a fraction with two coefficients |
| C162 | a memory of mesh objects and arrays, `Gf` as references, constructor, `copy`, `copy_from`, `<<`, `transpose`, `conjugate`, pickles (`Gfs/PyGf.lean`) | frame lemmas for each operation; new objects are outside of the old memory; names of the components of a product are injective |
| C163 | operations in place and operators of `BlockGf` and `Block2Gf` on the objects of C146 and C147 (`Gfs/PyBlockArith.lean`) | one lemma about a loop of operations on different objects, applied to the blocks and to a copy of them (C146) |
| C164 | `h5_write`, `h5_read` and the move constructor of `det_manip` on the model of C19 (`DetManip/Model.lean`, `DetManip/Archive.lean`) | reading back is a step of the histories of C19 to C24, so that all their theorems apply to it |
| C165 | the short cuts of `det_manip` (`DetManip/Archive.lean`) | from the theorems about a try and its completion; the positions at the end by lemmas about lists |
| C166 | counters and rates of moves as a forest with the counters of all processes; histories of steps, runs and collections (`MC/MoveStats.lean`) | a call along a path changes exactly the moves at prefixes of the path; counts by induction on the history |
| C167 | archives as maps from paths to entries; `h5_write` and `h5_read` of moves, measures and the calculation (`MC/MoveArchive.lean`) | writing changes only what is below the names written, reading looks only there; induction on the forest |
| C168 | `h5_write`, `h5_read` of `atom_diag` and `sub_hilbert_space` with the names of the matrices as characters (`AtomDiag/AdArchive.lean`) | parsing a name gives the indices; the loop sets exactly the entries written, in any order; both maps from states to positions are those of the list |
| C169 | `h5_write`, `h5_read` and constructors of all meshes, of `bravais_lattice` and `brillouin_zone`, products of meshes into a target, archives of older versions (`Mesh/Archive.lean`) | the constructors are functions of what is written; the block of a completed basis is the block given; the names of components are injective |
| C170 | `h5_write`, `h5_read` of `gf`, the loop of `make_gf_from_real_gf` row by row (`Gfs/GfArchive.lean`) | C169 for the mesh; invariant of the loop over frequencies |
| C171 | the five constructors of `backwd_compat` on top of `construct` of C162 (`Gfs/PyCompat.lean`) | the made mesh is characterised by what the arguments describe; then the properties of `construct` |
| C172 | `DistributionOnNodes` with the list of the caller as a heap object, messages of the parallel run, `master_gets_host_names`, `mpi_nompi` (`Utility/DistNodes.lean`) | induction over the list of points; the first message of the master decides the end of all processes |
| C173 | `DOS`, `DOSFromFunction`, `dos_from_file` over any field and any reader of numbers (`Lattice/DosObjects.lean`) | reshaping of equal lines gives back the lines, list induction |
| C174 | rounding to nearest even over the rationals (`Float/Binary64.lean`), the operators of `random_generator` (`Float/Random.lean`) | rounding is monotone, idempotent and leaves doubles alone; a normal double times one below one is rounded to something smaller |
| C175 | `val`, `make_time_pt` and `get_random_pt` in double precision (`Float/TimePoints.lean`) | monotone rounding; two different doubles have a ratio of at most 1 - 2^-53; three rounding errors |
| C176 | construction, `to_value`, `to_index` of the nearest point and `evaluate` of linear meshes in double precision (`Float/LinearMesh.lean`) | relative errors of chains of operations (`Float/Relative.lean`), absolute errors with gradual underflow, monotone rounding |
| C177 | construction, binning, counting in doubles and centers of histograms (`Float/Histogram.lean`) | error of the position below half a bin at the upper end; integers up to 2^53 need no rounding; induction over the samples |
| C178 | `normaliseProba` and the search of `attempt` in double precision (`Float/Moves.lean`) | relative error of the sum, induction over the table with an error that grows with the probability and the number of steps; 0.001 added to the last entry exceeds it |
| C179 | `RandMT::operator()`, the Metropolis test, the choice of moves and `rng(N)` as functions of the 32-bit word (`Float/Generator.lean`) | monotone rounding and the two end points; counting of words in intervals; pigeonhole; words of every run from C34 |
| C180 | value of `matsubara_freq` and the constructor of `imfreq` from an energy window (`Float/Matsubara.lean`) | relative errors, bounds of pi with twenty digits, antisymmetry of rounding |
| C181 | `mean`, `mean_and_err` and the logarithmic binning of real data in double precision (`Float/Mean.lean`) | the sum of the old mean and of the increment stays between the mean and the datum, because differences of doubles are exact or not subnormal; induction with an error that is divided by the number of data |
| C182 | percentage, time left and times of the messages of `mc_generic::run` (`Float/Progress.lean`) | an integer is further from the quotient than the rounding error unless it is equal; the waiting time grows by a fifth with every message |
| C183 | Boltzmann weights, density matrix, terms of the Green functions of atoms and baths (`Float/Thermal.lean`) | the ground state has energy exactly zero; relative error of sums; the same exponential occurs in the denominator and at one end of the mesh, the other end has exponent zero |
| C184 | `scope_guard` with moves, swaps and dismissals (`Utility/ScopeExit.lean`) | every statement keeps the multiset of calls still owed; counts under `List.set` |
| C185 | `capture_stdout` with streams, attributes and exceptions (`Utility/Capture.lean`) | induction on the program: the attributes of an object are untouched by a block that does not use it |
| C186 | `redirect.py` as a process with a table of descriptors and any number of threads (`Utility/Redirect.lean`) | invariant: descriptors in different hands are different and open; in careful executions only the last thread runs and its saved descriptor names the terminal |
| C187 | `many_body_operator.hpp` with rounded sums and removal below 100 epsilon (`Float/OperatorAlgebra.lean`) | operators as ordered lists are determined by the coefficients of all monomials; the laws are those of the arithmetic of two coefficients |
| C188 | the same, errors (`Float/OperatorError.lean`) | each insertion multiplies the size plus 200 by at most 1 + 2^-53 and its error is the increase; matrix elements of monomials are at most one; each swap keeps the possible contractions or uses one up, which doubles the terms |
| C189 | both loops of `dichotomy.py` with rounded operations (`Float/RootFinding.lean`) | the sign of a rounded difference is exact; while the loop runs both ends are further than the precision on opposite sides, so products of differences do not underflow |
| C190 | `SumkDiscrete.__call__` with the blocks as objects on a heap, loops that stop at exceptions (`Lattice/SumKHeap.lean`) | each loop over blocks with different objects sets each of them once and nothing else; invariant of the loop over the points |
| C191 | `LatticePoint` with its kept coordinates and `point_t`, rounded products of matrix and indices (`Float/LatticePoints.lean`) | rounding commutes with the sign; errors of at most three terms |
| C192 | energies of `DOSFromFunction`, weights of `HilbertTransform`, sums as trees of rounded additions (`Float/Dos.lean`) | relative errors along the tree; rounding is monotone and odd |
| C193 | index, loop and final division of `rebinning_tau` with rounding (`Float/Rebin.lean`) | four roundings of the position, invariant of the loop, error of a sum from left to right |
| C194 | `make_hermitian`, `make_real_in_tau` and the two tests on doubles with infinities and NaN (`Float/Hermitian.lean`) | addition of doubles is commutative and odd, halving a doubled number is exact; monotone rounding; fold of `std::max` |
| C195 | `closest_index`, `to_value` with rounding (`Float/ClosestPoint.lean`) | error of the coordinates from the residual of the inverse, unique minimum of the fold over the corners |
| C196 | `evaluate` of `brzone` with rounding (`Float/Interpolation.lean`) | linear interpolation is a contraction in the data and Lipschitz in the position; error of one direction, three times |
| C197 | the members `det`, `sign`, `n_opts` of `det_manip` and the ratios with rounding (`Float/DetTrack.lean`) | one rounding for each operation, with its sign; induction over histories; the counter bounds the number of roundings since the last fresh value |
| C198 | `legendre_generator` and its argument with rounding and the unsigned counter (`Float/Legendre.lean`) | a quadratic form in two consecutive elements does not grow along the recurrence; it bounds the polynomials by one and the errors by the sum of the sources |
| C199 | `evaluate` on a tuple of meshes, the first variable innermost, with the interpolation of `linear` in doubles (`Float/Product.lean`) | induction over the variables: the rounded values of the first variable are data of the others with a slightly larger bound, and exact interpolation does not enlarge errors |
| C200 | `jackknife` on one node with rounding (`Float/Jackknife.lean`) | the running mean is that of C181; errors of the sum, of the resampled data and of the correction are added up |
| C201 | the loops of `SumkDiscrete` and `HilbertTransform` on the slices of the nodes and a tree of additions for `all_reduce` (`Float/NodeSum.lean`) | induction over the points and over the tree: every addition multiplies the error factor by 1 + 2^-53; the slices are a partition by C129 |
| C202 | `fourier` of one momentum with rounding of every operation, for given sine and cosine (`Float/TightBinding.lean`) | rounding is odd, so terms of opposite displacements are conjugate; the two sums are sums of permuted lists, each within its error bound of the exact sum |
| C203 | `dos` for one orbital and the index of both functions with rounding of every operation (`Float/DosBins.lean`) | relative errors of the difference, width and quotient; integers and half integers are doubles, so rounding does not cross them; counts are exact |
| C204 | `lin_binning` of real data with rounding of every operation (`Float/LinearBins.lean`) | products with powers of two are exact and quotients by them too, up to subnormal numbers; adding data is the running mean of C181; invariant over all sequences of data |
| C205 | conversions between U, J and radial integrals, Kanamori matrices and tensor, with rounding of every operation (`Float/Interaction.lean`) | relative errors of products and quotients by constants, whose doubles are computed; case distinctions for the tensor |
| C206 | `mean_mpi`, `mean_and_err_mpi`, `mpi_reduce_MQ` of real data with rounding of every operation and any order of reduction (`Float/NodeMean.lean`) | errors of the means of the nodes (C181), of the weights and of the reduction (C201) are added up |
| C207 | `transform`, `real`, `imag`, products with `1j` and `make_operator_real` with complex doubles and the tolerance of `is_zero` (`Float/OperatorParts.lean`) | the coefficient of every monomial of the result, then equality of sorted lists with equal coefficients (C187) |
| C208 | `evaluate` of a Legendre mesh, one time of `legendre_matsubara_direct` and `density`, every operation rounded and the recursion of `legendre_generator` rounded as in C198 (`Float/LegendreSum.lean`) | error of a term from C198, errors of running sums as in C181, and the error of the roots, against the polynomials of Rodrigues |
| C209 | index of zero, width of the last interval and sum of `density(gf<refreq>)` at zero temperature, every operation rounded (`Float/ZeroDensity.lean`) | the rounded index is that of zero or the one before; in both cases the weights of the last interval are close to those of the trapezes |
| C210-C211 | `tau_estimate_from_errors`, rounded and exact (`Float/AutoCorrelation.lean`) | relative errors of squares and quotient, monotonicity of rounding; C36 for data that are constant on blocks |
| C212 | `log_bin_errors` with `long` products, rounded quotient and root, after the binning of C181 (`Float/LogErrors.lean`) | integer square root for the rounded root; relative errors; sums of squares are doubles by induction over the data |
| C213 | `density(gf<refreq>, beta)`, a diagonal element, every operation rounded, infinite exponentials (`Float/FermiDensity.lean`) | rounding is monotonic, partial sums of numbers of one sign are ordered; relative errors add up |
| C214 | `SemiCircular` on imaginary frequencies, every operation rounded, root rounded to nearest (`Float/SemiCircular.lean`) | relative errors up to the difference, absolute ones after it; the root of a rounded square is not below the number |
| C215 | `mean_and_err` with the root of C212 (`Float/ErrorBars.lean`) | C181 for the square; difference of roots by the difference of squares |

## Disagreements between the code and the expected property

Each is a theorem about the model (a concrete witness); the code itself was not run.

* C07: `h5_read` does not clear the operator read into (`C07_read_does_not_clear`).
* C09: the condition of `block_matrix_from_op` is `A and ... or B`: every term whose second factor has a
  two-component label is accepted (hopping between blocks, quartic terms) and stored as a matrix element;
  constants and single operators read `m[1]` out of bounds; unknown blocks are written out of bounds.
* C10: the vector constructor of `fundamental_operator_set` keeps duplicates.
* C11: labels outside 32 bits, or strings with a NUL, do not survive the archive.
* C12: dimension overflow from 31 orbitals, negative indices accepted, label shift undefined from
  position 32, duplicate states break the archive of a sub-space.
* C13: `parity_number_of_bits` ignores bits from 16 on; wrong sign with 18 orbitals.
* C15: with a hybridisation operator, elements stored as those of the Hamiltonian are overwritten.
* C17: after `merge_subspaces` the operators need not be one-to-one between subspaces: the connection
  tables are not recomputed when subspaces merge.
* C65: the tolerant comparison of quantum numbers is not a strict weak order.
* C66: `autopartition` of a Hermitian four-orbital Hamiltonian leaves a subspace that one creation
  operator takes to two subspaces; the connection table keeps only one of them.
* C41: the negative of time 0 is the largest time, not 0 (equal on the circle only).
* C42: a linear mesh of one point has `delta = 0` and dividing by it is undefined.
* C43: an empty bosonic mesh (`n_iw = 0`) has size -1.
* C44: the quotient of two Matsubara frequencies is computed as their product.
* C48: `closest_index` is not the nearest point for skewed units.
* C50: lattice meshes compare equal for permuted extents or for units with the same sum.
* C51: a time mesh whose size is not `6 n + 1` is not recovered from its adjoint.
* C69: `mult_by_int` wraps beyond one turn and then differs from the real multiple.
* C70: `make_time_pt(beta)` converts a value outside the range of 64-bit integers.
* C24: `try_insert_k` and `try_remove_k` do not check the largest position, `try_change_row` not the
  sign; lists of one position access unallocated arrays; a refused `try_insert_k` blocks the object.
* C25: `swap` does not exchange `kmax`, `k`, the thresholds and the refill arrays.
* C26: `try_insert_from_function` does not set the new arguments; `regenerate` then uses stale ones.
* C67: the raw monomial constructor stores a monomial that is not normal ordered.
* C28: a ratio of absolute value at most 1e-14 is given the sign +1; it can be accepted by the smallest
  number of the default generator (2^-52), and the sign is then wrong.
* C29: a signal received during the last requested cycle interrupts it without a measurement, but the
  status is 0; `int NC` overflows beyond 2^31-1 cycles although `n_cycles` has 64 bits; with no cycle
  requested `nmeasures` is not set; without an MPI environment an exception dereferences a null monitor.
* C30: for the number 1 (outside the range of the generators) a last move of probability 0 is chosen.
* C33: a buffered function with an empty buffer reads past its end; copies of a buffered `RandMT`
  restart the sequence of the seed (also C34).
* C34: `state[624]` is read by `reloadMT` without being initialised; the value is not used.
* C35: from 2^31 data on, `compress` stores bin counts in `int` and the averages are wrong.
* C36: `1 << 31` is negative: with unlimited levels datum number 2^31 accesses level 31, which does not exist.
* C38: the archive lacks `log_binning::max_n_bins`; an accumulator read into a default one ignores further
  data in the logarithmic binning.
* C39: `jackknife_mpi` divides by `mpi::reduce(N)`, valid on the root only, on all ranks; its bias correction
  uses the number of data of one rank.
* C52: the extents of the output mesh are not compared with those of the input; a smaller one is written
  beyond its end.
* C62: a displacement given twice is accepted although its opposite is given once: `h(k)` is then not
  Hermitian; an empty list of displacements is accepted but `fourier` reads its first value.
* C64: `brzone::to_value` ignores the index in the directions beyond `ndim`, so that a mesh with several
  points there has coinciding vectors; the default `brillouin_zone` has reciprocal vectors without `2π`.
* C77: a one-dimensional lattice with zero unit vector is not refused; the completion divides by zero.
* C63: `operator==` of `grid_generator` ignores `at_end`; without points the loop body is executed once
  (`dos` and `energies_on_bz_grid` then write outside of their arrays).
* C79, C80: bands of zero width convert 0/0 to `int`; `dos_patch` with one bin returns 0/0 as energy.
* C55: for bosons the value at frequency zero is copied, so the extension is symmetric only if it is real.
* C57: with kept dimension 2 or more the other dimensions are not in the documented original order.
* C58: `get_tail` calls `legendre_t(l, 0)`, which its assertion forbids; row 0 is not zero.
* C59: for bosons `replace_by_tail` replaces `n_min` and not `-n_min`.
* C60: `pade_approximant` evaluated at one of its points can divide by zero (u = 1 + z at 0, 1, 2), and when the constructor
  throws the default precision of GMP stays changed.
* C82: `restricted_view` always makes a fermionic mesh.
* C83: the windows of the tail fit are `first .. first + n - 1` and `last - n .. last - 1`: the last frequency is never used, the
  sample is not symmetric, `fit_tail_on_window` uses `n_min - 1` and neither `n_max - 1` nor `n_max`; with a fraction of 1 indices are used
  twice and bosons use frequency zero, whose inverse is taken.
* C84: ten or more known moments together with a larger expansion order address a solver outside of an array of ten.
* C85: the evaluation at a `matsubara_freq` looks at its index only.
* C86: the test for noisy data takes smooth functions with vanishing first derivatives at the ends for noisy, on every mesh.
* C83: for bosons `replace_by_tail` replaces one positive frequency more than negative ones.
* C87: blocks are visited in the order of `energy + 1e-10 * number`, so two blocks with closer energies are not sorted; a Hamiltonian that
  leaves a block (possible with a filter or user supplied quantum numbers) calls `get_state_index` with a state that is not in the block.
* C88: `get_op_mat` with `CHECK_ISSUE833` in the environment reads `eigensystems[-1]` for an operator that vanishes on a block.
* C89: without the vacuum in any block (filter on the particle number) `vacuum_subspace_index` is not initialised.
* C92: `quantum_number_eigenvalues` returns diagonal elements, which are not eigenvalues if a level is degenerate; the checked version
  adds up real parts only and accepts `i (c†_0 c_1 - c†_1 c_0)`.
* C93: excluded states are left out of the sum over pairs but not of the partition function.
* C96: `legendre_matsubara_direct` does not look at the statistics: on bosonic meshes the value at index n is that of the fermionic
  frequency n, although a bosonic Legendre mesh can be constructed.
* C99: `g = v` with a view `v` of the storage of `g` in another layout reads elements already overwritten, or storage freed by
  `resize`; the same holds for `g[w_] << ...` that reads `g` at other points.
* C103: `gf::operator=(RHS&&)` replaces the mesh before `data_shape()` of the right hand side throws, so that mesh and data of the
  target no longer fit together.
* C104: the number of blocks of an expression is the maximum over its operands; an operand with fewer blocks is read outside of its
  vector. For arity two, views compare only the product of rows and columns. `mpi_broadcast` does not send the names.
* C105: blocks of arity two are stored under `name1_name2`, which may coincide for different pairs; a block named `block_names`
  replaces the list of names.
* C106: the constructor of `block2_gf` looks only at the first row.
* C107: `density` of a Matsubara function computes only the elements on and above the diagonal and copies conjugates below it, also for
  functions that are not hermitian; a target with more columns than rows is written out of bounds.
* C109: for a mesh that does not contain zero the weights `a*a/2` and `a*(2-a)/2` of the last, partial interval are exchanged
  (`C109_off_mesh`: 3/4 instead of 1/4); a mesh that ends below zero is read out of bounds.
* C111: the density of a Legendre function is transposed, that of a Matsubara function is not.
* C112: `rebinning_tau` to a finer mesh leaves zeros in the bins without old points; to one point it divides by a step of zero.
* C114: the file written by `h_int_slater(H_dump=...)` lists the labels `(s2,a3), (s1,a4)` for the operators `c(s2,a4) c(s1,a3)` of the term (hamiltonians.py:87, 94-95); `h_int_kanamori` writes `-J` for the pair-hopping terms, whose coefficient is `+J/2` (lines 190, 197). Found by reading; the dump is not modelled.
* C119: `imag(op)` is documented as a copy with the real parts of the coefficients set to zero (many_body_operator.hpp:335, operators_desc.py:43); it returns the imaginary parts as real coefficients (`C119_documentation_false`).
* C120: `spherical_to_cubic(0)` returns the zero matrix (`C120_s_orbital`), so that `U_matrix_slater` with `basis='cubic'` and l = 0 has no interaction (`C121_s_shell`). For l = 2 the rows that the convention `wien2k` calls "yz", "xz" and "xy" are xz, -i yz and i xy (`C120_wien2k`).
* C121: `U_matrix_slater` without radial integrals and with exactly one of `U_int` and `J_hund` fails with a `TypeError` of the loop instead of the intended `ValueError` (`C121_outcome`). `cubic_names(0)` (U_matrix.py:426) returns a string and not a tuple; not modelled.
* C123: `clebsch_gordan` (U_matrix.py:627) tests `j1-j2+m3 % 2`, where `%` binds stronger: the sign is wrong for instance for ⟨2 0 0 0|2 0⟩ (`C123_wrong_sign`).
* C124: `radial_integrals_to_U_J` ignores all integrals after the second; the returned `J_hund` is the coupling of the interaction only for integrals with the assumed ratios (`C124_inverse`).
* C125: the box searched by `SuperLattice` (super_lattice.py) takes the maximum of the components without their absolute value: units that point backwards in a coordinate can fail the assertion on the number of sites, e.g. a negative unit in one dimension (`C125_refuses`). `change_coordinates_SL_to_L` (lines 143-145) always raises a `TypeError` (`C125_inverse_never`). Cluster sites given by the user other than those of the canonical cell, or given as tuples, make `change_coordinates_L_to_SL` raise (`C125_given`, `C125_tuples`).
* C126: `remove_internal_hoppings=True` always fails, line 137 uses the missing attribute `self.tb_lattice` (`C126_remove_never`).
* C127: `dichotomy` finds solutions only of functions that increase with x, which is not documented (`C127_decreasing`); a value at exactly the precision stops the loops (lines 73 and 99) but is refused at the end (line 110), so that an exact solution with precision 0 is reported as a failure (`C127_boundary`). It interpolates linearly and does not bisect.
* C128: `determine_bounds` takes a decreasing function that is constant over the starting interval for an increasing one (`C128_plateau`).
* C130: the first and last point of a DOS count with the whole neighbouring interval instead of half of it (hilbert_transform.py:58-59, `C130_edges`). `n_points_integral` and `test_convergence` always raise for a `DOSFromFunction`: the method is not called `_DOS__f` (line 171) and `DOS.HilbertTransform` (line 183) does not exist. A numpy matrix as `field` raises a `ValueError` (line 120 compares it with `!= None`) unless it is 1x1 (`C130_outcome`). `__reduce__` (line 49) uses the missing attribute `rho`; not modelled.
* C132: a shift `Q` is never applied: line 120 calls the missing method `N_kpts`; a patch always raises a `TypeError` as line 144 makes a float; `Gauss` is an assertion (`C132_outcome`). A copy made with `pickle` or `copy` takes the total number of points for the number per direction (line 56, `C132_copy`). The point k = 0 is missing in grids with an odd number of points (`C132_gamma`).
* C133: below the band the index `ind-1` wraps to the last point, the density is negative there unless the DOS vanishes at the edges (`C133_below`); on an uneven grid the first distance is used for all (`C133_uneven`).
* C134: `G1 += G2` compares the meshes only, so a 1x1 function is added to all elements of an n x n one (`C134_broadcast_witness`), and a scalar-valued function of N points to an N x N one with the column used as the mesh point (`C134_add_scalar`). `G1 *= G2` fails for all matrix functions, as the condition in gf.py:486 is the wrong way round (`C134_inplace_never`). `G * A` with a single column, `A * G` with a single row give a full matrix (`C134_right`, `C134_left`). `A * B` of a matrix and a block function is `B * A` (block_gf.py:363, `C134_block_left_witness`). Blocks missing in the first operand of a sum are left out (`C134_blocks_extra`).
* C136: `make_delta` with the energies as a list, as documented, raises a TypeError (`eps[None, :]`), and with other meshes an unbound variable is used (`C136_outcome`). For a bosonic imaginary-time mesh the formula of fermions is used; its transform has an additional factor tanh(beta e/2) (`C136_boson`).
* C137: `discretize_bath` cannot start with a real start value for the hoppings if `cmplx=True`, with a complex array if `cmplx=False`, nor without a start value for scalar-valued functions (`C137_start`). With fewer levels than orbitals the start values do not have the first moment (`C137_guess`). It also changes its argument `delta_in` (line 406), and the norm that is minimised is not the one of the documentation (line 431 has 1/sqrt(N) outside of the root).
* C139: `SemiCircular` on a real-frequency mesh (descriptors.py:98-101) lacks the unit matrix, so that all elements of a matrix-valued function are set (`C139_semi_offdiagonal`). At the bosonic Matsubara frequency zero with a chemical potential above the band the wrong root is taken (`C139_semi_zero_wrong`). `OneFermionInTime` (30-43) uses attributes that do not exist.
* C140: `g / A` with a numpy matrix divides element by element although `g * A` is the matrix product (`C140_division_witness`). `g * iOmega_n` fails by an assertion although `iOmega_n * g` works (gf.py:546-550); `1 / iOmega_n` and a numpy array to the left of a descriptor cannot be assigned. A descriptor of a block function (`Fourier(G)`) is paired with the blocks by position and not by name (`C140_blocks_witness`), and since it holds a generator its second use has no effect and no error (`C140_once`).
* C142: wannier90 writes the first orbital index fastest, and the reader reshapes the lines with the second axis fastest without looking at the columns 3 and 4 (utils.py:113-115), so that each matrix and `H(k)` are transposed (`C142_transpose_witness`). The eigenvalues are right; the elements are not unless the matrices are symmetric.
* C143: `TB_from_pythTB` stores the on-site energies under the key `(0, 0, 0)` (utils.py:239), so that one- and two-dimensional models are refused by the constructor (`C143_dimension`). `TB_to_sympy` uses `exp(-I k R)` (utils.py:337) where `fourier` uses `exp(+2 pi i k R)`, so that the formula is `H(-k)` (`C143_sign_witness`).
* C144: a DLR function evaluated at a negative time gives the value at `tau + beta` for fermions too, without the sign (`C144_antiperiodic_witness`). The hash of the points of `dlr_imtime` does not include the statistic (dlr_imtime.hpp:77,89; `C144_point_hash`), although the equality of the meshes does.
* C145: an index `Idx(n)` below the first index of a Matsubara mesh gives a negative position, which numpy counts from the end: up to `size` below the first one the value of another frequency is returned instead of an error (`C145_idx`, `C145_wrong_frequency`). On product meshes a single mesh point or `Idx` never works (`C145_product_single`), and a tuple of one index on a mesh of one variable raises `AttributeError` (`C145_tuple_of_one`).
* C146: `BlockGf.copy_from` pairs blocks by position, `<<` by name; with a different order of names they give different results (`C146_position_or_name`). Different sizes raise `NameError` because the message of line 156 uses the undefined `i1`, and scalar blocks raise `IndexError`. `view_selected_blocks` renames the blocks of the original (`C146_view_renames`), and `copy` drops the name of the block function. Names that are integers are accepted from a generator, but such a function can neither be copied nor reloaded (`C146_int_names`). A block size of zero or less gives a scalar target (`C146_struct_shapes`).
* C147: an unknown name in `Block2Gf.__getitem__` raises `ValueError`, not the intended `IndexError` (`C147_get`). `view_selected_blocks` has the order of the selection, not "the same order as self" (`C147_view_order`). `G << number` always raises `TypeError` although the documentation promises it (`C147_assign_number`). Functions whose joined names coincide, or are `block_names1`, can be written but not read (`C147_collision`, `C147_reserved`). `BlockGf.all_indices` yields ranges, four per matrix valued block, instead of indices (`C147_all_indices_block`).
* C148: `h5diff` compares arrays with a fixed tolerance (h5diff.py:65) and ignores the precision except for Green functions (`C148_precision`); arrays of different shapes are equal if they broadcast (`C148_broadcast`); an empty array differs from itself (`C148_empty`); a second call reports the failures of the first (`C148_second_call`).
* C149: a file with decreasing frequencies is read with the frequencies reversed and the data not (`C149_decreasing`); frequencies that are not equally spaced are silently replaced (`C149_mesh`); rectangular input with fewer columns than rows gives zeros (`C149_rectangular`); a function of one point can be written but not read (`C149_one_point`). An imaginary-frequency function can be written but is read as a function of real frequencies.
* C150: `clip_array` promises to work for generators, but the second search continues where the first stopped and counts from zero (`C150_generator`, `C150_generator_wrong`). `x_data_view` with a window raises `TypeError` for every mesh but imaginary frequencies, because points of meshes cannot be compared (`C150_view_window`). A meaningless mode is accepted for real data (`C150_real_overrules`). Complex data given as pairs fail in protocol.py:79, where `Y` is a tuple.
* C151: with the checks of debug mode off, an index out of a lattice mesh is the data index of another point (`C151_alias`), so a symmetry that leaves the mesh, like a translation that is not reduced, becomes a wrong symmetry of the data (`C151_translation`).
* C152: `flatten_2d<N>` exchanges dimension `N` with the first, `make_zero_tail<N>` moves it to the front. For `N` of two or more the orders of the other dimensions differ and the known moments of a line are those of another line (`C152_moments_mixed`).
* C153: a frequency plus a point of a mesh at another temperature is a plain number without an error, while two points raise (`C153_temperature_ignored`); a frequency minus a point is a frequency, a point minus a frequency is a number (`C153_not_symmetric`).
* C154: a run with zero cycles returns before the timer is stopped, so that the reported time keeps growing (`C154_run`); the number of cycles is cut to 32 bits in the estimate of the time left (`C154_many_cycles`).
* C155: the comment of the fold of two tuples promises the opposite order (`C155_fold_comment`); the order of the calls of `map` is left open by C++, with a function that has a state the result depends on the compiler (`C155_order_matters`).
* C156: if the first difference is NaN the comparison passes whatever the other data are, a later NaN is not noticed (`C156_nan`).
* C157: for a polygon that is not convex the weight depends on the first point, an arrow of area 4 has weight 4 or 12 (`C157_not_convex`); the integral of the density of states of a patch is the weight and not one (`C157_dos`).
* C158: `set_from_L_G_R` gives a wrong result for views that overlap with a shift (`C158_lgr_shifted`) and accepts a second function with more points (`C158_lgr_sizes`); a singular matrix leaves the earlier points inverted (`C158_inverse`); NaN is not noticed by `is_gf_real` unless it comes first (`C158_real_nan`); an error of a block that is NaN hides all errors before it (`C158_fit_nan`, `C158_fit_hidden`).
* C159: `closest_to` does not end for some meshes, it finds two and three points in turn (`C159_endless`), and it can stop before it has found a point in the middle of the path (`C159_missed`); a segment with few points has stride zero and raises (`C159_stride_zero`), in a dense segment the corner is left out (`C159_corner_lost`); a short segment makes `generate_points_on_path` divide by zero (`C159_short_segment`).
* C160: the handlers stay in place after `stop`, so that a signal between two runs does not end the process but stops the next run at its first poll (`C160_between_runs`, `C160_stale`); a signal in the last cycle of the warmup is forgotten and the accumulation is done in full (`C160_lost`); a time limit that is not positive is no limit (`C160_clock`).
* C161: `n_points = 0` is accepted (the message of the exception says it should be positive) and reads outside of the coefficients (`C161_zero_points`); an exception of the approximant leaves a tensor-valued function half written (`C161_half_written`); a function whose value at the lowest frequency is below 1e-10 is continued to a constant (`C161_constant`).
* C162: `Gf.copy_from` overwrites the mesh in place before it compares the shapes: after the failure the mesh, also of all functions that share the mesh object (slices, transposes, real parts), is that of the source and does not fit the data (`C162_copy_from_mesh`). A pickled or deep-copied function on positive Matsubara frequencies comes back on the full mesh without its name (`C162_pickle_positive`), or raises a `TypeError` if it is not matrix-valued (`C162_pickle_scalar`).
* C163: a Green function that stands in a `BlockGf` under two names is changed twice by `+=` and once by `+` (`C163_shared`); a failing `+=` leaves the blocks before changed (`C163_half_witness`); a list as operand of a `Block2Gf` is always refused because the rows are unpacked to a name and a block (`C163_sequence2`); a number or a matrix cannot be added to a matrix-valued function on another mesh than real or Matsubara frequencies, and a matrix of a wrong shape is not refused there (`C163_number`, `C163_matrix`); division by a matrix is done element by element (`C163_divide`).
* C164: `h5_read` of a `det_manip` restores `Nmax` but not the size of the work arrays: read into an object that was constructed with less room, the next insertion writes outside of the arrays (`C164_small_reader`); `precision_warning` and `precision_error` are not stored and the move constructor leaves the thresholds behind (`C164_settings_lost`).
* C166, C167: nothing prevents two moves with the same name. The map of acceptance rates then has only the rate of the first one (`C166_hidden`; this also happens for moves in different sets, since the map is flattened), and in an archive they overwrite each other: both read the state of the last one (`C167_same_name`), or reading throws if one is a set (`C167_same_name_set`).
* C168: `h5_read` of an `atom_diag` resizes the vectors of matrices with `resize(n, row)`, which keeps the rows that are there: read into an object that was used before, old matrices stay where the new ones are empty (`C168_kept`), and if the object had fewer subspaces the code writes outside of the rows (`C168_undefined`). A `sub_hilbert_space` to which a state was added twice has other positions after reading, though the two compare equal (`C168_twice`).
* C169: a fermionic Matsubara mesh of all frequencies with negative `n_iw` has one more after reading (`C169_negative`). A default constructed `legendre` mesh has hash zero and `operator==` compares it, so it is not equal to what is read (`C169_defaults`); default constructed DLR meshes cannot be written (empty pointer). A default constructed `brillouin_zone` has the unit matrix as reciprocal lattice, what is read has that of the cubic lattice, with the factor 2π; the archive of a default constructed `brzone` mesh cannot be read (`C169_default_zone`). Reading a product of meshes from an archive with more components succeeds (`C169_products`), and an exception in a component leaves the target with those before it replaced (`C169_products_failure`).
* C170: when the mesh of an archive has another type, `h5_read` throws after it has replaced the data: the function has the data of the archive and its old mesh (`C170_other_type`). A function of positive Matsubara frequencies does not come back as such (`C170_positive`).
* C171: the documented argument `is_real` is a `TypeError` for all five classes, and so are `beta` and `statistic` for `GfReFreq` and `GfReTime`, whose documentation mentions them. With a given mesh the arguments `beta`, `n_points`, `statistic` and `window` are ignored without a word (`C171_given_mesh`). The documentation of the Legendre mesh speaks of the degrees up to `max_n`; there are `max_n` coefficients (`C171_default_points`).
* C172: on two or more processes `DistributionOnNodes` calls `mpi.irecv`, which does not exist: the master stops with an `AttributeError` and the others wait forever; with an empty list all wait (`C172_parallel`). `master_gets_host_names` raises a `ValueError` unless the other host names have two characters, and the other processes never complete it (`C172_host_names`). `recv` of `mpi_nompi` always raises (`C172_serial_mpi`). The list of the caller is emptied (`C172_callers_list`).
* C173: `single_orbital=0` counts as no choice and a file with a headline is read as empty densities of states (`C173_file`, `C173_headline`); lines of different lengths whose total fits are reshaped (example). The function of a `DOSFromFunction` is called at 0.001 even if that is outside of the interval, functions with arrays as values, which the documentation asks for, are refused, and one point is a division by zero (`C173_function_refusals`). The name is not stored in the archive (`C173_copies`).
* C174: `rng(a, b)`, documented as a number in `[a,b[`, gives `b`, between neighbouring doubles for half of the draws (`C174_between_closed`), and no finite number if `b - a` overflows (`C174_between_overflow`); `rng(x)` can give `x` for the smallest normal `x` (`C174_real_closed`). The integers are equally likely only up to rounding (`C174_not_exact`).
* C175: the point before the last one has the value `beta` (`C175_value_not_injective`); at `beta` itself, which its precondition admits, `make_time_pt` converts 2^64 to a 64-bit integer, which is undefined (`C175_make`).
* C176: a point of a mesh over an interval without zero can lie outside of the interval and below its predecessor (`C176_outside`: ten points from 7 to the next double), and then asking for the nearest point of its value breaks the precondition of `to_index`. A mesh of one point has no nearest point (`C176_single`).
* C177: the center of the last bin of a histogram can lie above the upper end, and a sample there is lost (`C177_center_lost`: two bins from 0 to 1.9). The largest double below one half is counted at 1 (`C177_half`). For an interval of the length of the smallest double the conversion to `int` is undefined (`C177_short`); a bin stops at 2^53 (`C177_limit`).
* C178: a last move of weight zero can be chosen: with seven moves of weight 1 before it, the accumulated probability is 1 - 2^-52, which the default generator reaches (`C178_zero_last`). If the sum of the weights overflows, the search leaves the table (`C178_overflow`); if all weights are zero too (`C178_all_zero`).
* C179: a move with a ratio up to 2^-52 is never accepted (`C179_never`), since the generator gives no smaller number; for N above 2^32 some integers are never drawn by `rng(N)` (`C179_missing`).
* C180: the constructor of `imfreq` from an energy window makes `n_iw` the number of the last frequency in the window, not the count: the mesh lacks the largest frequency that fits (`C180_window_missing`, `C180_window_witness`), and is empty if only one fits (`C180_window_empty`).
* C181: a new level of the logarithmic binning starts its average with the sum of the data and corrects it by the difference to the average. In double precision digits are lost: for eight data equal to 1 + 2^-52 the level of blocks of four has average 1 and a sum of squares that is not zero (`C181_levels_witness`). A datum whose square is not finite spoils the sum of squares although its mean is right.
* C182: `int(sec)` of the time left is undefined from 2^31 seconds on, which happens at the first cycle of long runs that are to be ended by a time limit: 10^9 cycles of three seconds (`C182_eta_overflow`).
* C184: `crash_logger.hpp`, which uses the guards, declares its destructor `noexcept()` with nothing between the parentheses; no file includes it. It is not modelled.
* C185: `with c: with c: ...` (the same object) raises `AttributeError` at the outer exit and leaves `sys.stdout` on a buffer nobody reads (`C185_reentry`).
* C186: `stop_redirect` does not wait for the thread; a redirection started within the next second saves the pipe of the first thread as "old" output and puts descriptor 1 back to it: from then on writes of C++ code fail (`C186_hasty`). The saved descriptor is never closed (`C186_leak`). `os.read` returns `bytes`, `sys.stdout.write` accepts text only, and `except: pass` hides the `TypeError`: redirected output is lost (`C186_swallowed`).
* C187: in double precision sums of operators are not associative beyond rounding (`C187_not_associative`: one order gives zero, the other a coefficient above the tolerance), `==` is not transitive (`C187_not_transitive`), and `x * op` is zero for every `|x| < 100 epsilon` although the coefficients may be large (`C187_small_factor`: 2^-46 times 2^60 n is 0, not 2^14 n), while newly inserted terms are never tested.
* C189: with a tiny precision (below 2^-600) the product of two differences in line 103 underflows to zero, the wrong bound is replaced and line 101 divides by zero (`C189_underflow`); a step `delta_x` below half a unit of the last digit of `x_init` makes `dichotomy` evaluate the same point `max_loops + 1` times and fail (`C189_stuck`); line 101 can give a point above the upper bound (example in the file).
* C190: `SK(Sigma, result=Sigma)` sets the self-energy to zero before it is used and returns the sum without self-energy (`C190_alias`); a result with one object under two names gets the sum of both (`C190_shared`); a function for Sigma that returns the blocks of the result sees partial sums (`C190_function`). Line 118 uses `inspect.getargspec`, which Python 3.11 has removed, and line 145 compares a field with `!=`, which fails for arrays (not modelled).
* C191: `LatticePoint` in Python adds points of different lattices and uses the lattice of the first (`C191_lattices`; C++ refuses, bravais_lattice.hpp:94), drops the indices one of two points lacks (`C191_lengths`), and keeps the coordinates when the public `index` changes afterwards (`C191_cached`).
* C192: `DOSFromFunction` on `[x_min, x_max]` may evaluate the function above `x_max` (`C192_last`: 0 to 0.7 with 36 points ends at 0.7000000000000001), where a density with a square root edge is not a number.
* C193: `rebinning_tau` sends points half way between two bins to either of them (`C193_ties`: 11 points to 6 bins gives bins of 1, 3, 1, 3, 1 and 2 points; in exact arithmetic 1, 2, 2, 2, 2 and 2).
* C194: `is_gf_hermitian` for matrices takes `max_element` of the differences, and a NaN in the first element hides all others (`C194_nan`); `make_hermitian` turns symmetric values of 2^1023 and more into infinities (`C194_overflow`), since it halves after the addition.
* C195: `closest_index` searches only one corner in a direction with extent one, and a coordinate rounded below zero then gives the wrong cell: on the mesh of a body-centred cubic lattice with extents `(6, 6, 1)` the closest point to the value of the mesh point `(3, 4, 0)` is `(4, 5, 0)` (`C195_flat`).
* C197: `complete_operation` overwrites the determinant that `clear` has set to one with the product computed by the try: after removing the last row of a matrix of one element 49 the determinant of the empty matrix is `1 - 2^-53`, and `try_refill` of nothing by nothing returns `1 + 2^-52` (`C197_empty_not_one`). A determinant that underflows stays zero, `determinant()` regenerates, `try_refill` divides by zero (`C197_underflow`).
* C198: the factor `2 * n - 1` of the Legendre generator is an `unsigned int`; from number `2^31 + 1` on the values are wrong (`C198_wrap`).
* C200: the correction for the bias multiplies rounding errors by the number of data; equal data need not be returned (`C200_bias_witness`).
* C204: for a capacity that is not a power of two, compressed bins of constant data can differ from the constant and so lie outside of the range of the data (`C204_capacity_witness`, capacity 3).
* C206: the mean of constant data on several nodes need not be that constant: six nodes with the datum 1 give 1 - 2^-53 and a nonzero error (`C206_constant_witness`).
* C181: `mean_and_err` and `mean_and_err_mpi` compute `length * (length - 1)` in `long`, which overflows from 3037000501 data on (24 GB of doubles); the model refuses such data (`C181_overflow`).
* C207: small parts of coefficients are removed one by one: the real part of an operator that passes `is_op_hermitian` need not pass it (`C207_hermitian_witness`), and `real(a + b)` can differ from `real(a) + real(b)` (`C207_additive_witness`).
* C209: 12 points on `[-3e7, 0]`: rounding makes the last interval wider than `1e-9`, and the point behind the last one is read (`C209_end_witness`). With steps below `1e-9` the last interval may be lost (`C209_fine_witness`).
* C210: `tau_estimate_from_errors` has no finite value for constant data (`0/0`), nor for errors whose squares underflow or overflow (`C210_small_witness`).
* C212: `log_bin_errors` multiplies two `long` numbers, which overflows (undefined behaviour) once 3037000501 data have been added (`C212_overflow`).
* C214: `SemiCircular` subtracts a root close to the frequency: from `2^27` half bandwidths on the value may be exactly zero instead of about `1/(i w)` (`C214_zero_witness`), so that the tail is lost.

Not modelled: `h5_monomial` writes a `bool` with `H5T_NATIVE_INT` (byte layout).

## Tests against wrong programs

`seeded/LOG.jsonl` has one line per edit of the model. A failing helper proof alone is not counted as
detection, because a proof can fail although the claim is still true. Each line therefore has an
`evidence` field: a concrete wrong result, checked to hold on the edited model and to fail on the
original. Some of these are results of an intermediate function and not of the whole claim. Edits
found to change nothing observable are recorded as equivalent.
