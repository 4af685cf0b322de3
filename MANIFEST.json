{
 "claims": [
  {
   "property": "C01",
   "status": "proved",
   "theorems": [
    "Verif.Operators.C01_product_is_composition"
   ],
   "note": "exact commutative ring coefficients"
  },
  {
   "property": "C02",
   "status": "proved",
   "theorems": [
    "Verif.Operators.C02_linear_operations"
   ],
   "note": ""
  },
  {
   "property": "C03",
   "status": "proved",
   "theorems": [
    "Verif.Operators.C03_always_canonical",
    "Verif.Operators.normalOrdered_iff"
   ],
   "note": "coefficients in an integral domain"
  },
  {
   "property": "C04",
   "status": "proved",
   "theorems": [
    "Verif.Operators.C04_equality_is_semantic"
   ],
   "note": ""
  },
  {
   "property": "C05",
   "status": "proved",
   "theorems": [
    "Verif.Operators.C05_dagger_is_adjoint",
    "Verif.Operators.C05_dagger_laws"
   ],
   "note": ""
  },
  {
   "property": "C06",
   "status": "proved",
   "theorems": [
    "Verif.Operators.C06_anticommutation"
   ],
   "note": ""
  },
  {
   "property": "C07",
   "status": "proved",
   "theorems": [
    "Verif.Operators.C07_operator_archive_round_trip",
    "Verif.Operators.C07_read_does_not_clear"
   ],
   "note": "labels representable as in C11; reading into a non-empty operator does not clear it (second theorem)"
  },
  {
   "property": "C08",
   "status": "proved",
   "theorems": [
    "Verif.Operators.C08_extract_h",
    "Verif.Operators.C08_extract_U2",
    "Verif.Operators.C08_extract_U4"
   ],
   "note": "exact field of characteristic other than 2; histories whose raw monomials are normal ordered"
  },
  {
   "property": "C09",
   "status": "partial",
   "theorems": [
    "Verif.Operators.C09_matrix_round_trip",
    "Verif.Operators.C09_operator_round_trip",
    "Verif.Operators.C09_refuses_partial",
    "Verif.Operators.C09_accepts_other_terms",
    "Verif.Operators.C09_round_trip_fails",
    "Verif.Operators.C09_constant_term_undefined",
    "Verif.Operators.C09_unknown_block_undefined"
   ],
   "note": "round trips hold for distinct block names; the refusal of other terms is false: and/or precedence accepts every term whose second label has two components, constants read out of bounds (witnesses)"
  },
  {
   "property": "C10",
   "status": "proved",
   "theorems": [
    "Verif.Fops.C10_stable_numbering",
    "Verif.Fops.C10_vector_constructor_keeps_duplicates"
   ],
   "note": "for sets built by insertion; the raw vector constructor keeps duplicates (second theorem)"
  },
  {
   "property": "C100",
   "status": "proved",
   "theorems": [
    "Verif.GfCore.C100_history",
    "Verif.GfCore.C100_start",
    "Verif.GfCore.C100_frame",
    "Verif.GfCore.C100_copy",
    "Verif.GfCore.C100_move"
   ],
   "note": "as stated"
  },
  {
   "property": "C101",
   "status": "proved",
   "theorems": [
    "Verif.GfCore.C101_positions",
    "Verif.GfCore.C101_slice",
    "Verif.GfCore.C101_ok"
   ],
   "note": "as stated; the points are given by their data indices"
  },
  {
   "property": "C102",
   "status": "proved",
   "theorems": [
    "Verif.GfCore.C102_statistics",
    "Verif.GfCore.C102_equal"
   ],
   "note": "as stated, one variable for the statistics of products"
  },
  {
   "property": "C103",
   "status": "partial",
   "theorems": [
    "Verif.GfCore.C103_mesh",
    "Verif.GfCore.C103_view",
    "Verif.GfCore.C103_view_throws",
    "Verif.GfCore.C103_throws",
    "Verif.GfCore.C103_shape"
   ],
   "note": "true for differing meshes and for views; false for operands of different shapes on equal meshes: the mesh of the target is replaced before the exception"
  },
  {
   "property": "C104",
   "status": "partial",
   "theorems": [
    "Verif.BlockGf.C104_assign",
    "Verif.BlockGf.C104_assign2",
    "Verif.BlockGf.C104_view",
    "Verif.BlockGf.C104_view_exn",
    "Verif.BlockGf.C104_sizes",
    "Verif.BlockGf.C104_shape",
    "Verif.BlockGf.C104_exchange",
    "Verif.BlockGf.C104_copy",
    "Verif.BlockGf.C104_names",
    "Verif.BlockGf.C104_broadcast"
   ],
   "note": "true for operands of equal structure that share blocks only at equal places; false otherwise: operands with fewer blocks are read outside of the vector, two by three is accepted for three by two, views that exchange blocks, copies between views of different sizes"
  },
  {
   "property": "C105",
   "status": "partial",
   "theorems": [
    "Verif.BlockGf.C105_round_trip",
    "Verif.BlockGf.C105_necessary",
    "Verif.BlockGf.C105_round_trip2",
    "Verif.BlockGf.C105_plain",
    "Verif.BlockGf.C105_collision",
    "Verif.BlockGf.C105_reserved"
   ],
   "note": "exact condition on the names proved for arity one, sufficient ones for arity two; false in general: names joined by an underscore may coincide, block_names is reserved"
  },
  {
   "property": "C106",
   "status": "partial",
   "theorems": [
    "Verif.BlockGf.C106_iterate",
    "Verif.BlockGf.C106_defined",
    "Verif.BlockGf.C106_jagged",
    "Verif.BlockGf.C106_make2",
    "Verif.BlockGf.C106_map",
    "Verif.BlockGf.C106_names"
   ],
   "note": "true if all rows have the same length; the constructor accepts rows of different lengths, for which the iteration is undefined"
  },
  {
   "property": "C107",
   "status": "partial",
   "theorems": [
    "Verif.Density.C107_elements",
    "Verif.Density.C107_upper",
    "Verif.Density.C107_not_hermitian",
    "Verif.Density.C107_shape",
    "Verif.Density.C107_checks"
   ],
   "note": "true for hermitian functions with square target; false otherwise: elements below the diagonal are conjugates of those above, wide targets are written out of bounds and tall ones are left partly unassigned"
  },
  {
   "property": "C108",
   "status": "proved",
   "theorems": [
    "Verif.Density.C108_limit",
    "Verif.Density.C108_atomic"
   ],
   "note": "exact arithmetic; the limit for a wrong first moment is proved as well"
  },
  {
   "property": "C109",
   "status": "partial",
   "theorems": [
    "Verif.Density.C109_on_mesh",
    "Verif.Density.C109_partial_interval",
    "Verif.Density.C109_off_mesh",
    "Verif.Density.C109_outside",
    "Verif.Density.C109_positive"
   ],
   "note": "true if zero is a mesh point; false otherwise: the two weights of the last partial interval are exchanged, and a mesh that ends below zero is read out of bounds"
  },
  {
   "property": "C11",
   "status": "partial",
   "theorems": [
    "Verif.Fops.C11_archive_round_trip_partial",
    "Verif.Fops.C11_fails_for_wide_integers",
    "Verif.Fops.C11_fails_for_nul_strings"
   ],
   "note": "holds for 32-bit integer and NUL-free string labels; false outside (witnesses)"
  },
  {
   "property": "C110",
   "status": "proved",
   "theorems": [
    "Verif.Density.C110_sum",
    "Verif.Density.C110_bounds",
    "Verif.Density.C110_zero_temperature"
   ],
   "note": "exact arithmetic"
  },
  {
   "property": "C111",
   "status": "partial",
   "theorems": [
    "Verif.Density.C111_minus_G_beta",
    "Verif.Density.C111_transposed"
   ],
   "note": "the value is -G(beta) transposed; the density from Matsubara frequencies of the same function is not transposed"
  },
  {
   "property": "C112",
   "status": "partial",
   "theorems": [
    "Verif.Rebin.C112_average",
    "Verif.Rebin.C112_nonempty",
    "Verif.Rebin.C112_error",
    "Verif.Rebin.C112_finer",
    "Verif.Rebin.C112_reflection",
    "Verif.Rebin.C112_one_point"
   ],
   "note": "true for coarser meshes of at least two points; false for finer meshes, where bins without old points are zero; one new point is undefined; the reflection symmetry of a function is not kept"
  },
  {
   "property": "C113",
   "status": "proved",
   "theorems": [
    "Verif.Ham.C113_injective",
    "Verif.Ham.C113_structure",
    "Verif.Ham.C113_dictionary"
   ],
   "note": "labels of both conventions and of a dictionary"
  },
  {
   "property": "C114",
   "status": "partial",
   "theorems": [
    "Verif.Ham.C114_formula",
    "Verif.Ham.C114_number",
    "Verif.Ham.C114_hermitian",
    "Verif.Ham.C114_reality"
   ],
   "note": "exact arithmetic; the dump file is not modelled"
  },
  {
   "property": "C115",
   "status": "partial",
   "theorems": [
    "Verif.Ham.C115_equals_slater",
    "Verif.Ham.C115_number_hermitian",
    "Verif.Ham.C115_rotations"
   ],
   "note": "exact arithmetic; rotations are infinitesimal (antisymmetric generators); the dump file is not modelled"
  },
  {
   "property": "C116",
   "status": "partial",
   "theorems": [
    "Verif.Ham.C116_diagonal_part",
    "Verif.Ham.C116_density"
   ],
   "note": "exact arithmetic; matrices over a field, the code takes real parts"
  },
  {
   "property": "C117",
   "status": "partial",
   "theorems": [
    "Verif.Ham.C117_substitution",
    "Verif.Ham.C117_car",
    "Verif.Ham.C117_compose"
   ],
   "note": "exact arithmetic"
  },
  {
   "property": "C118",
   "status": "partial",
   "theorems": [
    "Verif.Ham.C118_spin",
    "Verif.Ham.C118_orbital",
    "Verif.Ham.C118_spin_names",
    "Verif.Ham.C118_spin_conserved",
    "Verif.Ham.C118_coupling",
    "Verif.Ham.C118_one_particle"
   ],
   "note": "exact arithmetic; np.isclose is equality; the tests of the basis argument are not modelled"
  },
  {
   "property": "C119",
   "status": "partial",
   "theorems": [
    "Verif.Ham.C119_melem",
    "Verif.Ham.C119_sum",
    "Verif.Ham.C119_hermitian",
    "Verif.Ham.C119_make_real",
    "Verif.Ham.C119_documentation_false"
   ],
   "note": "exact arithmetic"
  },
  {
   "property": "C12",
   "status": "partial",
   "theorems": [
    "Verif.HSpace.C12_full_space_partial",
    "Verif.HSpace.C12_sub_space",
    "Verif.HSpace.C12_sub_space_archive",
    "Verif.HSpace.C12_fock_state_of_labels",
    "Verif.HSpace.C12_dimension_overflows",
    "Verif.HSpace.C12_negative_index_accepted",
    "Verif.HSpace.C12_archive_fails_with_duplicates",
    "Verif.HSpace.C12_fock_state_of_labels_fails_at_32"
   ],
   "note": "full space: up to 30 orbitals and non-negative indices, false outside (witnesses); sub-spaces: distinct states"
  },
  {
   "property": "C120",
   "status": "partial",
   "theorems": [
    "Verif.Ham.C120_domain",
    "Verif.Ham.C120_unitary",
    "Verif.Ham.C120_s_orbital",
    "Verif.Ham.C120_real",
    "Verif.Ham.C120_names",
    "Verif.Ham.C120_wien2k",
    "Verif.Ham.C120_manifolds"
   ],
   "note": "exact arithmetic"
  },
  {
   "property": "C121",
   "status": "partial",
   "theorems": [
    "Verif.Ham.C121_symmetries",
    "Verif.Ham.C121_outcome",
    "Verif.Ham.C121_invariant",
    "Verif.Ham.C121_real",
    "Verif.Ham.C121_s_shell"
   ],
   "note": "exact arithmetic; the warning about inconsistent arguments is not modelled"
  },
  {
   "property": "C122",
   "status": "partial",
   "theorems": [
    "Verif.ThreeJ.C122_selection",
    "Verif.ThreeJ.C122_defined",
    "Verif.ThreeJ.C122_raise",
    "Verif.ThreeJ.C122_lower",
    "Verif.ThreeJ.C122_reflect",
    "Verif.ThreeJ.C122_swap",
    "Verif.ThreeJ.C122_orthogonal",
    "Verif.ThreeJ.C122_phase"
   ],
   "note": "exact arithmetic; integer quantum numbers"
  },
  {
   "property": "C123",
   "status": "partial",
   "theorems": [
    "Verif.ThreeJ.C123_iff",
    "Verif.ThreeJ.C123_wrong_sign",
    "Verif.ThreeJ.C123_orthonormal"
   ],
   "note": "the documented sign is false for some arguments; exact arithmetic; integer quantum numbers"
  },
  {
   "property": "C124",
   "status": "partial",
   "theorems": [
    "Verif.Ham.C124_averages",
    "Verif.Ham.C124_convert",
    "Verif.Ham.C124_inverse"
   ],
   "note": "exact arithmetic"
  },
  {
   "property": "C125",
   "status": "partial",
   "theorems": [
    "Verif.SuperLattice.C125_sites",
    "Verif.SuperLattice.C125_outcome",
    "Verif.SuperLattice.C125_accepts",
    "Verif.SuperLattice.C125_refuses",
    "Verif.SuperLattice.C125_coordinates",
    "Verif.SuperLattice.C125_total",
    "Verif.SuperLattice.C125_given",
    "Verif.SuperLattice.C125_tuples",
    "Verif.SuperLattice.C125_inverse_never"
   ],
   "note": "exact integer determinant and inverse; the search fails for some valid units, the inverse change of coordinates never works"
  },
  {
   "property": "C126",
   "status": "partial",
   "theorems": [
    "Verif.SuperLattice.C126_fold",
    "Verif.SuperLattice.C126_action",
    "Verif.SuperLattice.C126_bands",
    "Verif.SuperLattice.C126_hermitian",
    "Verif.SuperLattice.C126_positions",
    "Verif.SuperLattice.C126_remove_never"
   ],
   "note": "exact arithmetic; remove_internal_hoppings never works"
  },
  {
   "property": "C127",
   "status": "partial",
   "theorems": [
    "Verif.RootFinding.C127_no_division",
    "Verif.RootFinding.C127_sound",
    "Verif.RootFinding.C127_decreasing",
    "Verif.RootFinding.C127_boundary",
    "Verif.RootFinding.C127_converges"
   ],
   "note": "exact real arithmetic"
  },
  {
   "property": "C128",
   "status": "partial",
   "theorems": [
    "Verif.RootFinding.C128_sound",
    "Verif.RootFinding.C128_zero",
    "Verif.RootFinding.C128_complete",
    "Verif.RootFinding.C128_plateau"
   ],
   "note": "exact real arithmetic; scipy.optimize.bisect is not modelled"
  },
  {
   "property": "C129",
   "status": "proved",
   "theorems": [
    "Verif.MpiSlice.C129_partition",
    "Verif.MpiSlice.C129_balanced",
    "Verif.MpiSlice.C129_sum",
    "Verif.MpiSlice.C129_zip",
    "Verif.MpiSlice.C129_python"
   ],
   "note": ""
  },
  {
   "property": "C13",
   "status": "partial",
   "theorems": [
    "Verif.Imp.C13_imperative_eq_algebraic_partial",
    "Verif.Imp.C13_unknown_label_throws",
    "Verif.Imp.C13_fails_with_18_orbitals"
   ],
   "note": "holds when the labels of the operator sit at positions 0..16, false from position 17 (witness)"
  },
  {
   "property": "C130",
   "status": "partial",
   "theorems": [
    "Verif.HilbertTransform.C130_weights",
    "Verif.HilbertTransform.C130_rule",
    "Verif.HilbertTransform.C130_trapezoid",
    "Verif.HilbertTransform.C130_edges",
    "Verif.HilbertTransform.C130_value",
    "Verif.HilbertTransform.C130_outcome",
    "Verif.HilbertTransform.C130_causal",
    "Verif.HilbertTransform.C130_adjoint",
    "Verif.HilbertTransform.C130_tail"
   ],
   "note": "exact arithmetic; the end points count too much if the DOS does not vanish there; some documented options never work"
  },
  {
   "property": "C131",
   "status": "partial",
   "theorems": [
    "Verif.HilbertTransform.C131_value",
    "Verif.HilbertTransform.C131_causal",
    "Verif.HilbertTransform.C131_tail"
   ],
   "note": "exact arithmetic; one block and one frequency at a time"
  },
  {
   "property": "C132",
   "status": "partial",
   "theorems": [
    "Verif.KGrid.C132_average",
    "Verif.KGrid.C132_local",
    "Verif.KGrid.C132_zone",
    "Verif.KGrid.C132_gamma",
    "Verif.KGrid.C132_outcome",
    "Verif.KGrid.C132_errors",
    "Verif.KGrid.C132_copy"
   ],
   "note": "exact arithmetic; shifts, patches and copies do not work in the code"
  },
  {
   "property": "C133",
   "status": "partial",
   "theorems": [
    "Verif.DosDensity.C133_density",
    "Verif.DosDensity.C133_monotone",
    "Verif.DosDensity.C133_below",
    "Verif.DosDensity.C133_below_iff",
    "Verif.DosDensity.C133_uneven"
   ],
   "note": "false below the band and on uneven grids; exact arithmetic"
  },
  {
   "property": "C134",
   "status": "partial",
   "theorems": [
    "Verif.PyArith.C134_add",
    "Verif.PyArith.C134_add_iff",
    "Verif.PyArith.C134_add_value",
    "Verif.PyArith.C134_add_scalar",
    "Verif.PyArith.C134_inplace_never",
    "Verif.PyArith.C134_mul_iff",
    "Verif.PyArith.C134_mul",
    "Verif.PyArith.C134_assoc",
    "Verif.PyArith.C134_scalar",
    "Verif.PyArith.C134_right_iff",
    "Verif.PyArith.C134_right",
    "Verif.PyArith.C134_left_iff",
    "Verif.PyArith.C134_left",
    "Verif.PyArith.C134_blocks",
    "Verif.PyArith.C134_blocks_extra",
    "Verif.PyArith.C134_statistic",
    "Verif.PyArith.C134_broadcast_witness",
    "Verif.PyArith.C134_block_left_witness"
   ],
   "note": "operands of other shapes are accepted, exactly characterised; in-place products of matrix functions never work; a matrix on the left of a block function multiplies from the right; adding numbers to matrix functions not modelled; exact arithmetic"
  },
  {
   "property": "C135",
   "status": "proved",
   "theorems": [
    "Verif.Dyson.C135_consistent",
    "Verif.Dyson.C135_equation",
    "Verif.Dyson.C135_right",
    "Verif.Dyson.C135_causal",
    "Verif.Dyson.C135_outcome",
    "Verif.Dyson.C135_delta",
    "Verif.Dyson.C135_delta_back"
   ],
   "note": "the tail fit of delta() is a parameter (see the tail fit properties); exact arithmetic"
  },
  {
   "property": "C136",
   "status": "partial",
   "theorems": [
    "Verif.Bath.C136_freq_points",
    "Verif.Bath.C136_tau_points",
    "Verif.Bath.C136_tau",
    "Verif.Bath.C136_stable",
    "Verif.Bath.C136_fourier",
    "Verif.Bath.C136_boson",
    "Verif.Bath.C136_hermitian",
    "Verif.Bath.C136_causal",
    "Verif.Bath.C136_tau_negative",
    "Verif.Bath.C136_moment_tau",
    "Verif.Bath.C136_moment",
    "Verif.Bath.C136_bath",
    "Verif.Bath.C136_outcome",
    "Verif.Bath.C136_value_freq",
    "Verif.Bath.C136_value_tau"
   ],
   "note": "bosonic imaginary-time meshes are not the transform; energies as a list are refused; exact arithmetic"
  },
  {
   "property": "C137",
   "status": "partial",
   "theorems": [
    "Verif.BathFit.C137_roundtrip",
    "Verif.BathFit.C137_mismatch",
    "Verif.BathFit.C137_start",
    "Verif.BathFit.C137_guess",
    "Verif.BathFit.C137_grid",
    "Verif.BathFit.C137_sorted",
    "Verif.BathFit.C137_result"
   ],
   "note": "the minimiser is not modelled; the first moment is only right with at least as many levels as orbitals; several documented start values fail"
  },
  {
   "property": "C138",
   "status": "proved",
   "theorems": [
    "Verif.FitLegendre.C138_hermitian",
    "Verif.FitLegendre.C138_best",
    "Verif.FitLegendre.C138_exact",
    "Verif.FitLegendre.C138_legfit_exists",
    "Verif.FitLegendre.C138_outcome"
   ],
   "note": "numpy's legfit is a parameter with the contract of a least-squares fit; order at most the number of points; exact arithmetic"
  },
  {
   "property": "C139",
   "status": "partial",
   "theorems": [
    "Verif.Descriptors.C139_semi_im",
    "Verif.Descriptors.C139_semi_re_in",
    "Verif.Descriptors.C139_semi_re_out",
    "Verif.Descriptors.C139_semi_norm",
    "Verif.Descriptors.C139_semi_edge",
    "Verif.Descriptors.C139_semi_zero",
    "Verif.Descriptors.C139_semi_zero_wrong",
    "Verif.Descriptors.C139_semi_offdiagonal",
    "Verif.Descriptors.C139_flat_im",
    "Verif.Descriptors.C139_flat_re_in",
    "Verif.Descriptors.C139_flat_re_out",
    "Verif.Descriptors.C139_flat_zero"
   ],
   "note": "wrong root at the bosonic frequency zero for chemical potentials above the band; off-diagonal elements on real frequencies; exact arithmetic"
  },
  {
   "property": "C14",
   "status": "proved",
   "theorems": [
    "Verif.State.C14_states_agree",
    "Verif.State.C14_project_is_restriction"
   ],
   "note": "exact field with conjugation"
  },
  {
   "property": "C140",
   "status": "partial",
   "theorems": [
    "Verif.LazyExpr.C140_assign",
    "Verif.LazyExpr.C140_sound",
    "Verif.LazyExpr.C140_operators",
    "Verif.LazyExpr.C140_scalar",
    "Verif.LazyExpr.C140_division_witness",
    "Verif.LazyExpr.C140_blocks",
    "Verif.LazyExpr.C140_blocks_names",
    "Verif.LazyExpr.C140_blocks_witness",
    "Verif.LazyExpr.C140_once"
   ],
   "note": "one frequency mesh and one square target; quotients by arrays are elementwise; exact arithmetic"
  },
  {
   "property": "C141",
   "status": "proved",
   "theorems": [
    "Verif.KPath.C141_outcome",
    "Verif.KPath.C141_points",
    "Verif.KPath.C141_dist",
    "Verif.KPath.C141_ticks",
    "Verif.KPath.C141_monotone"
   ],
   "note": "three components; exact arithmetic"
  },
  {
   "property": "C142",
   "status": "partial",
   "theorems": [
    "Verif.Wannier.C142_parse",
    "Verif.Wannier.C142_fourier",
    "Verif.Wannier.C142_spin",
    "Verif.Wannier.C142_local",
    "Verif.Wannier.C142_refused",
    "Verif.Wannier.C142_vectors",
    "Verif.Wannier.C142_transpose_witness"
   ],
   "note": "the orbital indices are exchanged; the split of lines into numbers is not modelled; exact arithmetic"
  },
  {
   "property": "C143",
   "status": "partial",
   "theorems": [
    "Verif.TBConvert.C143_pyth",
    "Verif.TBConvert.C143_fourier",
    "Verif.TBConvert.C143_accepted",
    "Verif.TBConvert.C143_dimension",
    "Verif.TBConvert.C143_sympy3",
    "Verif.TBConvert.C143_sympy2",
    "Verif.TBConvert.C143_sympy_fourier",
    "Verif.TBConvert.C143_numerical",
    "Verif.TBConvert.C143_sign_witness"
   ],
   "note": "pythTB models only in three dimensions; the sign of the momentum in the formula differs from the library; a formula is its value"
  },
  {
   "property": "C144",
   "status": "partial",
   "theorems": [
    "Verif.Dlr.C144_time",
    "Verif.Dlr.C144_freq",
    "Verif.Dlr.C144_time_nodes",
    "Verif.Dlr.C144_freq_nodes",
    "Verif.Dlr.C144_fourier",
    "Verif.Dlr.C144_freq_to_time",
    "Verif.Dlr.C144_imfreq",
    "Verif.Dlr.C144_density",
    "Verif.Dlr.C144_ends",
    "Verif.Dlr.C144_negative",
    "Verif.Dlr.C144_convert",
    "Verif.Dlr.C144_equal",
    "Verif.Dlr.C144_point_hash",
    "Verif.Dlr.C144_fit",
    "Verif.Dlr.C144_antiperiodic_witness"
   ],
   "note": "cppdlr enters through its contract; no product meshes; negative times are periodic for fermions too; exact arithmetic"
  },
  {
   "property": "C145",
   "status": "partial",
   "theorems": [
    "Verif.PyAccess.C145_point",
    "Verif.PyAccess.C145_point_other",
    "Verif.PyAccess.C145_idx",
    "Verif.PyAccess.C145_product_single",
    "Verif.PyAccess.C145_tuple_of_one",
    "Verif.PyAccess.C145_points",
    "Verif.PyAccess.C145_mixed",
    "Verif.PyAccess.C145_slices",
    "Verif.PyAccess.C145_ints",
    "Verif.PyAccess.C145_target_iff",
    "Verif.PyAccess.C145_view",
    "Verif.PyAccess.C145_assign",
    "Verif.PyAccess.C145_assign_point",
    "Verif.PyAccess.C145_assign_gf",
    "Verif.PyAccess.C145_assign_array",
    "Verif.PyAccess.C145_wrong_frequency",
    "Verif.PyAccess.C145_assign_shape",
    "Verif.PyAccess.C145_partial_slice"
   ],
   "note": "an index below the first is not always refused; single indices of product meshes never work; lattice meshes and slices with a step are not modelled"
  },
  {
   "property": "C146",
   "status": "partial",
   "theorems": [
    "Verif.PyBlocks.C146_accepts",
    "Verif.PyBlocks.C146_construct",
    "Verif.PyBlocks.C146_get",
    "Verif.PyBlocks.C146_copy",
    "Verif.PyBlocks.C146_view",
    "Verif.PyBlocks.C146_view_empty",
    "Verif.PyBlocks.C146_view_unknown",
    "Verif.PyBlocks.C146_copy_selected",
    "Verif.PyBlocks.C146_copy_from",
    "Verif.PyBlocks.C146_copy_from_scalar",
    "Verif.PyBlocks.C146_copy_from_size",
    "Verif.PyBlocks.C146_assign",
    "Verif.PyBlocks.C146_assign_missing",
    "Verif.PyBlocks.C146_reload",
    "Verif.PyBlocks.C146_int_names",
    "Verif.PyBlocks.C146_struct_shapes",
    "Verif.PyBlocks.C146_fix_struct",
    "Verif.PyBlocks.C146_fix_struct_mixed",
    "Verif.PyBlocks.C146_map",
    "Verif.PyBlocks.C146_position_or_name",
    "Verif.PyBlocks.C146_view_renames",
    "Verif.PyBlocks.C146_block_names",
    "Verif.PyBlocks.C146_copy_from_stops"
   ],
   "note": "copy_from goes by position and not by name; views rename the blocks of the original; meshes shared between blocks are not modelled"
  },
  {
   "property": "C147",
   "status": "partial",
   "theorems": [
    "Verif.PyBlock2.C147_accepts",
    "Verif.PyBlock2.C147_iter",
    "Verif.PyBlock2.C147_get",
    "Verif.PyBlock2.C147_view",
    "Verif.PyBlock2.C147_view_refused",
    "Verif.PyBlock2.C147_copy",
    "Verif.PyBlock2.C147_map",
    "Verif.PyBlock2.C147_copy_from",
    "Verif.PyBlock2.C147_assign",
    "Verif.PyBlock2.C147_assign_number",
    "Verif.PyBlock2.C147_all_indices",
    "Verif.PyBlock2.C147_all_indices_block",
    "Verif.PyBlock2.C147_reload",
    "Verif.PyBlock2.C147_view_order",
    "Verif.PyBlock2.C147_collision",
    "Verif.PyBlock2.C147_reserved"
   ],
   "note": "views have the order of the selection; numbers cannot be assigned; BlockGf.all_indices gives ranges; joined names may coincide; the names given to the blocks and operations with lists are not modelled"
  },
  {
   "property": "C148",
   "status": "partial",
   "theorems": [
    "Verif.H5Diff.C148_paths",
    "Verif.H5Diff.C148_arrays",
    "Verif.H5Diff.C148_self",
    "Verif.H5Diff.C148_symm",
    "Verif.H5Diff.C148_precision",
    "Verif.H5Diff.C148_calls",
    "Verif.H5Diff.C148_empty",
    "Verif.H5Diff.C148_broadcast",
    "Verif.H5Diff.C148_second_call"
   ],
   "note": "arrays are compared with a fixed tolerance and after broadcasting, an empty array differs from itself, the list of failures is global; the archive library and numpy are assumed"
  },
  {
   "property": "C149",
   "status": "partial",
   "theorems": [
    "Verif.TxtFiles.C149_round_trip",
    "Verif.TxtFiles.C149_mesh",
    "Verif.TxtFiles.C149_rectangular",
    "Verif.TxtFiles.C149_one_point",
    "Verif.TxtFiles.C149_lengths",
    "Verif.TxtFiles.C149_names",
    "Verif.TxtFiles.C149_decreasing"
   ],
   "note": "exact arithmetic for the frequencies; decreasing files are read with reversed frequencies, missing columns are zero, one point cannot be read; parsing of numbers is assumed"
  },
  {
   "property": "C15",
   "status": "proved",
   "theorems": [
    "Verif.Partition.C15_phase_one",
    "Verif.Partition.C15_invariant_and_finest",
    "Verif.Partition.C15_hybridisation_overwrites_elements"
   ],
   "note": "any union-find link order; the stored Hamiltonian elements are overwritten by the hybridisation (third theorem)"
  },
  {
   "property": "C150",
   "status": "partial",
   "theorems": [
    "Verif.PyPlot.C150_assertion",
    "Verif.PyPlot.C150_clip",
    "Verif.PyPlot.C150_generator",
    "Verif.PyPlot.C150_indices",
    "Verif.PyPlot.C150_labels",
    "Verif.PyPlot.C150_plot",
    "Verif.PyPlot.C150_distinct",
    "Verif.PyPlot.C150_view",
    "Verif.PyPlot.C150_flatten",
    "Verif.PyPlot.C150_view_window",
    "Verif.PyPlot.C150_callable",
    "Verif.PyPlot.C150_generator_wrong",
    "Verif.PyPlot.C150_not_ordered",
    "Verif.PyPlot.C150_real_overrules"
   ],
   "note": "generators lose points of the window, a window in x_data_view fails for all but imaginary frequencies, real data accept any mode; further options, NaN and matplotlib are not modelled"
  },
  {
   "property": "C151",
   "status": "partial",
   "theorems": [
    "Verif.SymGrp.C151_translate",
    "Verif.SymGrp.C151_invariant",
    "Verif.SymGrp.C151_init",
    "Verif.SymGrp.C151_symmetrize",
    "Verif.SymGrp.C151_idempotent",
    "Verif.SymGrp.C151_reported",
    "Verif.SymGrp.C151_imfreq",
    "Verif.SymGrp.C151_lattice",
    "Verif.SymGrp.C151_alias",
    "Verif.SymGrp.C151_translation"
   ],
   "note": "the search for classes of nda::sym_grp is not in the repository and assumed; on lattice meshes symmetries must stay on the mesh; no projection of indices out of bounds (max_length = 0)"
  },
  {
   "property": "C152",
   "status": "partial",
   "theorems": [
    "Verif.PartialTransform.C152_lines",
    "Verif.PartialTransform.C152_round_trip",
    "Verif.PartialTransform.C152_commute",
    "Verif.PartialTransform.C152_moments_partial",
    "Verif.PartialTransform.C152_moments_mixed"
   ],
   "note": "known moments for the first two variables only, from the third on they are mixed up between lines; exact arithmetic"
  },
  {
   "property": "C153",
   "status": "partial",
   "theorems": [
    "Verif.PyFreq.C153_value",
    "Verif.PyFreq.C153_errors",
    "Verif.PyFreq.C153_frequencies",
    "Verif.PyFreq.C153_convert",
    "Verif.PyFreq.C153_points",
    "Verif.PyFreq.C153_neg",
    "Verif.PyFreq.C153_temperature_ignored",
    "Verif.PyFreq.C153_not_symmetric"
   ],
   "note": "exact arithmetic; beta nonzero; no arrays as operands"
  },
  {
   "property": "C154",
   "status": "partial",
   "theorems": [
    "Verif.Timer.C154_timer",
    "Verif.Timer.C154_repeated",
    "Verif.Timer.C154_format",
    "Verif.Timer.C154_eta",
    "Verif.Timer.C154_run",
    "Verif.Timer.C154_cycles",
    "Verif.Timer.C154_stop_only",
    "Verif.Timer.C154_many_cycles"
   ],
   "note": "seconds are exact numbers; no overflow of the number of seconds; a run of zero cycles leaves the timer running"
  },
  {
   "property": "C155",
   "status": "partial",
   "theorems": [
    "Verif.TupleTools.C155_complement",
    "Verif.TupleTools.C155_filter",
    "Verif.TupleTools.C155_filter_out",
    "Verif.TupleTools.C155_pop_front",
    "Verif.TupleTools.C155_replace",
    "Verif.TupleTools.C155_reverse",
    "Verif.TupleTools.C155_repeat",
    "Verif.TupleTools.C155_for_each",
    "Verif.TupleTools.C155_for_each_zip",
    "Verif.TupleTools.C155_fold",
    "Verif.TupleTools.C155_fold_two",
    "Verif.TupleTools.C155_map",
    "Verif.TupleTools.C155_print",
    "Verif.TupleTools.C155_order_matters",
    "Verif.TupleTools.C155_fold_comment"
   ],
   "note": "all elements have one type; references and moves are not modelled"
  },
  {
   "property": "C156",
   "status": "partial",
   "theorems": [
    "Verif.TestTools.C156_passes",
    "Verif.TestTools.C156_finite",
    "Verif.TestTools.C156_nan",
    "Verif.TestTools.C156_infinite",
    "Verif.TestTools.C156_blocks",
    "Verif.TestTools.C156_blocks2"
   ],
   "note": "real data; max_element of nda is assumed to fold std::max; false for NaN in the data"
  },
  {
   "property": "C157",
   "status": "partial",
   "theorems": [
    "Verif.BzPatch.C157_triangles",
    "Verif.BzPatch.C157_weight_ge",
    "Verif.BzPatch.C157_weight",
    "Verif.BzPatch.C157_cover",
    "Verif.BzPatch.C157_disjoint",
    "Verif.BzPatch.C157_convex_weight",
    "Verif.BzPatch.C157_dos",
    "Verif.BzPatch.C157_not_convex"
   ],
   "note": "exact arithmetic; convex polygons only, for others the weight depends on the first point"
  },
  {
   "property": "C158",
   "status": "partial",
   "theorems": [
    "Verif.MatrixOps.C158_lgr",
    "Verif.MatrixOps.C158_lgr_places",
    "Verif.MatrixOps.C158_lgr_sizes",
    "Verif.MatrixOps.C158_lgr_shifted",
    "Verif.MatrixOps.C158_mul_right",
    "Verif.MatrixOps.C158_mul_left",
    "Verif.MatrixOps.C158_inverse",
    "Verif.MatrixOps.C158_real",
    "Verif.MatrixOps.C158_real_nan",
    "Verif.MatrixOps.C158_real_blocks",
    "Verif.MatrixOps.C158_fit",
    "Verif.MatrixOps.C158_fit_error",
    "Verif.MatrixOps.C158_fit_nan",
    "Verif.MatrixOps.C158_fit_hidden"
   ],
   "note": "exact arithmetic; gemm, inverse_in_place and max_element of nda are assumed; false for views that overlap with a shift and for NaN in the data or the errors"
  },
  {
   "property": "C159",
   "status": "partial",
   "theorems": [
    "Verif.PathPoints.C159_closest",
    "Verif.PathPoints.C159_closest_to",
    "Verif.PathPoints.C159_endless",
    "Verif.PathPoints.C159_missed",
    "Verif.PathPoints.C159_points",
    "Verif.PathPoints.C159_path",
    "Verif.PathPoints.C159_pick",
    "Verif.PathPoints.C159_round",
    "Verif.PathPoints.C159_one_segment",
    "Verif.PathPoints.C159_stride_zero",
    "Verif.PathPoints.C159_corner_lost",
    "Verif.PathPoints.C159_short_segment"
   ],
   "note": "exact arithmetic; the search need not end and may miss points; paths of several segments may fail or lose corners; the order of the chosen indices is proved for the first one only; the interpolation of scipy is not modelled"
  },
  {
   "property": "C16",
   "status": "proved",
   "theorems": [
    "Verif.Partition.C16_numbering"
   ],
   "note": ""
  },
  {
   "property": "C160",
   "status": "partial",
   "theorems": [
    "Verif.MC.Signals.C160_received",
    "Verif.MC.Signals.C160_default",
    "Verif.MC.Signals.C160_pop",
    "Verif.MC.Signals.C160_polls",
    "Verif.MC.Signals.C160_run",
    "Verif.MC.Signals.C160_stale",
    "Verif.MC.Signals.C160_clock",
    "Verif.MC.Signals.C160_between_runs",
    "Verif.MC.Signals.C160_lost"
   ],
   "note": "signals arrive between operations, not during one (the handler allocates memory, which is undefined during an allocation); false for signals between runs and in the last cycle of the warmup"
  },
  {
   "property": "C161",
   "status": "partial",
   "theorems": [
    "Verif.PadeGf.C161_evaluation",
    "Verif.PadeGf.C161_coefficients",
    "Verif.PadeGf.C161_continuation_partial",
    "Verif.PadeGf.C161_pole",
    "Verif.PadeGf.C161_level",
    "Verif.PadeGf.C161_constant",
    "Verif.PadeGf.C161_scaling",
    "Verif.PadeGf.C161_refused",
    "Verif.PadeGf.C161_no_frequencies",
    "Verif.PadeGf.C161_elements",
    "Verif.PadeGf.C161_zero_points",
    "Verif.PadeGf.C161_half_written"
   ],
   "note": "exact arithmetic; the evaluation can divide by zero where an intermediate convergent has a pole; false for zero points and after an exception of the approximant"
  },
  {
   "property": "C162",
   "status": "proved",
   "theorems": [
    "Verif.PyGf.C162_construct",
    "Verif.PyGf.C162_construct_data",
    "Verif.PyGf.C162_construct_indices",
    "Verif.PyGf.C162_construct_shape",
    "Verif.PyGf.C162_copy",
    "Verif.PyGf.C162_frame",
    "Verif.PyGf.C162_assign",
    "Verif.PyGf.C162_copy_from_mesh",
    "Verif.PyGf.C162_transpose",
    "Verif.PyGf.C162_conjugate",
    "Verif.PyGf.C162_pickle",
    "Verif.PyGf.C162_pickle_positive",
    "Verif.PyGf.C162_pickle_scalar",
    "Verif.PyGf.C162_product"
   ],
   "note": "copy_from outside of << overwrites the mesh before it fails (C162_copy_from_mesh); positive frequencies come back on the full mesh or not at all (C162_pickle_positive, C162_pickle_scalar); arrays that are views of each other are not modelled"
  },
  {
   "property": "C163",
   "status": "partial",
   "theorems": [
    "Verif.PyBlockArith.C163_in_place",
    "Verif.PyBlockArith.C163_half",
    "Verif.PyBlockArith.C163_binary",
    "Verif.PyBlockArith.C163_kept",
    "Verif.PyBlockArith.C163_rsub",
    "Verif.PyBlockArith.C163_number",
    "Verif.PyBlockArith.C163_matrix",
    "Verif.PyBlockArith.C163_inverse",
    "Verif.PyBlockArith.C163_divide",
    "Verif.PyBlockArith.C163_in_place2",
    "Verif.PyBlockArith.C163_sequence2",
    "Verif.PyBlockArith.C163_shared",
    "Verif.PyBlockArith.C163_half_witness"
   ],
   "note": "exact arithmetic; operations in place change shared blocks several times and stop halfway on failure; lists are refused for two-index functions; numbers cannot be added to matrix-valued functions of time; the operators of two-index functions are modelled in place only"
  },
  {
   "property": "C164",
   "status": "partial",
   "theorems": [
    "Verif.DetManip.C164_shown",
    "Verif.DetManip.C164_continue",
    "Verif.DetManip.C164_pending",
    "Verif.DetManip.C164_move",
    "Verif.DetManip.C164_small_reader",
    "Verif.DetManip.C164_settings_lost"
   ],
   "note": "exact arithmetic; false for an object with less reserved room than the one written (the work arrays are not allocated); the precisions of the periodic check are not stored, and a move does not take over the threshold; move construction is proved for objects without operations on several rows"
  },
  {
   "property": "C165",
   "status": "partial",
   "theorems": [
    "Verif.DetManip.C165_now",
    "Verif.DetManip.C165_calls",
    "Verif.DetManip.C165_two",
    "Verif.DetManip.C165_insert_at_end",
    "Verif.DetManip.C165_insert2_at_end",
    "Verif.DetManip.C165_remove_at_end",
    "Verif.DetManip.C165_remove2_at_end",
    "Verif.DetManip.C165_there_and_back"
   ],
   "note": "exact arithmetic; a singular new matrix is a division by zero"
  },
  {
   "property": "C166",
   "status": "partial",
   "theorems": [
    "Verif.MC.MoveStats.C166_names",
    "Verif.MC.MoveStats.C166_counts",
    "Verif.MC.MoveStats.C166_rate",
    "Verif.MC.MoveStats.C166_forget",
    "Verif.MC.MoveStats.C166_mixture",
    "Verif.MC.MoveStats.C166_map",
    "Verif.MC.MoveStats.C166_lookup",
    "Verif.MC.MoveStats.C166_text",
    "Verif.MC.MoveStats.C166_hidden"
   ],
   "note": "false for the map if two moves have the same name, also in different sets: the first one met hides the others; the division is an arbitrary function of the two counters, and the counters do not wrap around"
  },
  {
   "property": "C167",
   "status": "partial",
   "theorems": [
    "Verif.MC.MoveArchive.C167_outside",
    "Verif.MC.MoveArchive.C167_back",
    "Verif.MC.MoveArchive.C167_missing",
    "Verif.MC.MoveArchive.C167_same_name",
    "Verif.MC.MoveArchive.C167_same_name_set"
   ],
   "note": "false if two moves of a set have the same name, which nothing prevents; what a move writes is one value at its name; names without '/'"
  },
  {
   "property": "C168",
   "status": "partial",
   "theorems": [
    "Verif.AtomDiag.AdArchive.C168_subspace",
    "Verif.AtomDiag.AdArchive.C168_back",
    "Verif.AtomDiag.AdArchive.C168_over",
    "Verif.AtomDiag.AdArchive.C168_kept",
    "Verif.AtomDiag.AdArchive.C168_undefined",
    "Verif.AtomDiag.AdArchive.C168_twice"
   ],
   "note": "false for objects that were used before: old matrices stay where the new ones are empty, and with fewer subspaces the code writes outside of vectors; false for subspaces to which a state was added twice; single values are opaque and come back from HDF5 as they were written"
  },
  {
   "property": "C169",
   "status": "proved",
   "theorems": [
    "Verif.MeshArchive.C169_round_trip",
    "Verif.MeshArchive.C169_types",
    "Verif.MeshArchive.C169_products",
    "Verif.MeshArchive.C169_products_failure",
    "Verif.MeshArchive.C169_old_archives",
    "Verif.MeshArchive.C169_negative",
    "Verif.MeshArchive.C169_defaults",
    "Verif.MeshArchive.C169_default_zone",
    "Verif.MeshArchive.C169_last_point",
    "Verif.MeshArchive.C169_dlr_hash"
   ],
   "note": "numbers and the results of numerical routines are opaque, HDF5 and the archive functions of cppdlr give back what was written; C169_negative, C169_defaults and C169_default_zone show which meshes do not come back"
  },
  {
   "property": "C17",
   "status": "partial",
   "theorems": [
    "Verif.Partition.C17_merge_partial",
    "Verif.Partition.C17_not_one_to_one"
   ],
   "note": "exact characterisation of the merged partition; the documented one-to-one claim is false (witness)"
  },
  {
   "property": "C170",
   "status": "proved",
   "theorems": [
    "Verif.GfArchive.C170_round_trip",
    "Verif.GfArchive.C170_positive",
    "Verif.GfArchive.C170_positive_empty",
    "Verif.GfArchive.C170_other_type",
    "Verif.GfArchive.C170_formats"
   ],
   "note": "data and numbers are opaque and come back from HDF5 as they were written; functions that own their data"
  },
  {
   "property": "C171",
   "status": "proved",
   "theorems": [
    "Verif.PyCompat.C171_new_mesh",
    "Verif.PyCompat.C171_success",
    "Verif.PyCompat.C171_given_mesh",
    "Verif.PyCompat.C171_refusals",
    "Verif.PyCompat.C171_default_points"
   ],
   "note": "numbers are opaque; the constructor of Gf is that of C162"
  },
  {
   "property": "C172",
   "status": "proved",
   "theorems": [
    "Verif.DistNodes.C172_serial",
    "Verif.DistNodes.C172_callers_list",
    "Verif.DistNodes.C172_exception",
    "Verif.DistNodes.C172_parallel",
    "Verif.DistNodes.C172_host_names",
    "Verif.DistNodes.C172_serial_mpi"
   ],
   "note": "a parallel run is modelled up to the call of mpi.irecv, which does not exist; messages are delivered in order and a receive without a message waits"
  },
  {
   "property": "C173",
   "status": "partial",
   "theorems": [
    "Verif.DosObjects.C173_construct",
    "Verif.DosObjects.C173_copies",
    "Verif.DosObjects.C173_function",
    "Verif.DosObjects.C173_function_refusals",
    "Verif.DosObjects.C173_file",
    "Verif.DosObjects.C173_headline",
    "Verif.DosObjects.C173_file_refusals"
   ],
   "note": "exact arithmetic for the equidistant energies; in floating point the last of them need not be x_max"
  },
  {
   "property": "C174",
   "status": "proved",
   "theorems": [
    "Verif.RandomDouble.C174_integer",
    "Verif.RandomDouble.C174_flat",
    "Verif.RandomDouble.C174_not_exact",
    "Verif.RandomDouble.C174_real",
    "Verif.RandomDouble.C174_real_closed",
    "Verif.RandomDouble.C174_between",
    "Verif.RandomDouble.C174_between_overflow",
    "Verif.RandomDouble.C174_between_closed"
   ],
   "note": "binary64 arithmetic with rounding to nearest even; C174_not_exact, C174_real_closed and C174_between_closed show that the upper ends are reached and that C71 does not hold exactly"
  },
  {
   "property": "C175",
   "status": "proved",
   "theorems": [
    "Verif.TimeDouble.C175_value",
    "Verif.TimeDouble.C175_value_not_injective",
    "Verif.TimeDouble.C175_random",
    "Verif.TimeDouble.C175_random_value",
    "Verif.TimeDouble.C175_make",
    "Verif.TimeDouble.C175_round_trip"
   ],
   "note": "binary64 arithmetic with rounding to nearest even; random points for nonempty intervals; beta normal for the accuracy and for the values of random points"
  },
  {
   "property": "C176",
   "status": "proved",
   "theorems": [
    "Verif.LinearDouble.C176_ends",
    "Verif.LinearDouble.C176_order",
    "Verif.LinearDouble.C176_outside",
    "Verif.LinearDouble.C176_accuracy",
    "Verif.LinearDouble.C176_nearest",
    "Verif.LinearDouble.C176_strict",
    "Verif.LinearDouble.C176_round_trip",
    "Verif.LinearDouble.C176_round_trip_zero",
    "Verif.LinearDouble.C176_bracket",
    "Verif.LinearDouble.C176_evaluate",
    "Verif.LinearDouble.C176_single"
   ],
   "note": "binary64 arithmetic with rounding to nearest even; C176_outside shows that points can leave an interval without zero; intervals that are extremely short or long are not covered"
  },
  {
   "property": "C177",
   "status": "proved",
   "theorems": [
    "Verif.HistDouble.C177_bin",
    "Verif.HistDouble.C177_histogram",
    "Verif.HistDouble.C177_integers",
    "Verif.HistDouble.C177_center_lost",
    "Verif.HistDouble.C177_half",
    "Verif.HistDouble.C177_short",
    "Verif.HistDouble.C177_limit"
   ],
   "note": "binary64 arithmetic with rounding to nearest even; C177_short and C177_limit show why the conditions are needed"
  },
  {
   "property": "C178",
   "status": "proved",
   "theorems": [
    "Verif.MovesDouble.C178_found",
    "Verif.MovesDouble.C178_probabilities",
    "Verif.MovesDouble.C178_zero",
    "Verif.MovesDouble.C178_zero_last",
    "Verif.MovesDouble.C178_overflow",
    "Verif.MovesDouble.C178_all_zero"
   ],
   "note": "binary64 arithmetic with rounding to nearest even; the last three are witnesses for the conditions: a last move of weight zero can be chosen"
  },
  {
   "property": "C179",
   "status": "proved",
   "theorems": [
    "Verif.GeneratorDouble.C179_range",
    "Verif.GeneratorDouble.C179_accuracy",
    "Verif.GeneratorDouble.C179_strict",
    "Verif.GeneratorDouble.C179_run",
    "Verif.GeneratorDouble.C179_certain",
    "Verif.GeneratorDouble.C179_never",
    "Verif.GeneratorDouble.C179_acceptance",
    "Verif.GeneratorDouble.C179_moves",
    "Verif.GeneratorDouble.C179_integers",
    "Verif.GeneratorDouble.C179_missing"
   ],
   "note": "binary64 arithmetic with rounding to nearest even; how often a word is drawn is not part of the claim"
  },
  {
   "property": "C18",
   "status": "proved",
   "theorems": [
    "Verif.Partition.C18_find_mappings",
    "Verif.Partition.C18_stored_elements"
   ],
   "note": ""
  },
  {
   "property": "C180",
   "status": "proved",
   "theorems": [
    "Verif.MatsubaraDouble.C180_symmetry",
    "Verif.MatsubaraDouble.C180_zero",
    "Verif.MatsubaraDouble.C180_order",
    "Verif.MatsubaraDouble.C180_accuracy",
    "Verif.MatsubaraDouble.C180_window_inside",
    "Verif.MatsubaraDouble.C180_window_missing",
    "Verif.MatsubaraDouble.C180_window_witness",
    "Verif.MatsubaraDouble.C180_window_empty"
   ],
   "note": "binary64 arithmetic with rounding to nearest even; C180_window_missing proves that the mesh made from a window lacks the last frequency that fits"
  },
  {
   "property": "C181",
   "status": "proved",
   "theorems": [
    "Verif.MeanDouble.C181_between",
    "Verif.MeanDouble.C181_constant",
    "Verif.MeanDouble.C181_accuracy",
    "Verif.MeanDouble.C181_error",
    "Verif.MeanDouble.C181_first_level",
    "Verif.MeanDouble.C181_first_level_constant",
    "Verif.MeanDouble.C181_nonneg",
    "Verif.MeanDouble.C181_nonneg_direct",
    "Verif.MeanDouble.C181_levels_witness",
    "Verif.MeanDouble.C181_overflow"
   ],
   "note": "binary64 arithmetic with rounding to nearest even; real data; C181_levels_witness: higher levels lose digits, equal data can have an error bar that is not zero there"
  },
  {
   "property": "C182",
   "status": "proved",
   "theorems": [
    "Verif.ProgressDouble.C182_percent",
    "Verif.ProgressDouble.C182_complete",
    "Verif.ProgressDouble.C182_infinite",
    "Verif.ProgressDouble.C182_eta",
    "Verif.ProgressDouble.C182_eta_last",
    "Verif.ProgressDouble.C182_eta_overflow",
    "Verif.ProgressDouble.C182_messages",
    "Verif.ProgressDouble.C182_last_message"
   ],
   "note": "binary64 arithmetic with rounding to nearest even; C182_eta_overflow: the conversion of the time left to int is undefined from 2^31 seconds on"
  },
  {
   "property": "C183",
   "status": "proved",
   "theorems": [
    "Verif.ThermalDouble.C183_ground",
    "Verif.ThermalDouble.C183_density_matrix",
    "Verif.ThermalDouble.C183_lehmann_weights",
    "Verif.ThermalDouble.C183_bounded",
    "Verif.ThermalDouble.C183_jump",
    "Verif.ThermalDouble.C183_bath",
    "Verif.ThermalDouble.C183_bath_jump"
   ],
   "note": "binary64 arithmetic with rounding to nearest even; the exponential is any function with the stated contract; real residues; products of beta and the energies of a bath are finite"
  },
  {
   "property": "C184",
   "status": "proved",
   "theorems": [
    "Verif.ScopeExit.C184_all",
    "Verif.ScopeExit.C184_at_most",
    "Verif.ScopeExit.C184_dismiss",
    "Verif.ScopeExit.C184_order"
   ],
   "note": "functions that do not throw; guards are local variables of one scope"
  },
  {
   "property": "C185",
   "status": "proved",
   "theorems": [
    "Verif.Capture.C185_restored",
    "Verif.Capture.C185_outside",
    "Verif.Capture.C185_lines",
    "Verif.Capture.C185_splitlines",
    "Verif.Capture.C185_reentry"
   ],
   "note": "exceptions are not caught inside the program; C185_reentry: an object entered again inside its own block loses sys.stdout"
  },
  {
   "property": "C186",
   "status": "proved",
   "theorems": [
    "Verif.Redirect.C186_restored",
    "Verif.Redirect.C186_swallowed",
    "Verif.Redirect.C186_leak",
    "Verif.Redirect.C186_ends",
    "Verif.Redirect.C186_hasty"
   ],
   "note": "system calls are atomic and succeed; sys.stdout is a text stream; C186_hasty: two redirections within a second leave descriptor 1 on a pipe without reader"
  },
  {
   "property": "C187",
   "status": "proved",
   "theorems": [
    "Verif.OperatorDouble.C187_coefficients",
    "Verif.OperatorDouble.C187_add_comm",
    "Verif.OperatorDouble.C187_equality",
    "Verif.OperatorDouble.C187_eq_refl_symm",
    "Verif.OperatorDouble.C187_sub_self",
    "Verif.OperatorDouble.C187_dagger",
    "Verif.OperatorDouble.C187_hermitian",
    "Verif.OperatorDouble.C187_anticommutator",
    "Verif.OperatorDouble.C187_form",
    "Verif.OperatorDouble.real_laws",
    "Verif.OperatorDouble.complex_laws",
    "Verif.OperatorDouble.C187_not_associative",
    "Verif.OperatorDouble.C187_not_transitive",
    "Verif.OperatorDouble.C187_small_factor"
   ],
   "note": "no overflow and no NaN; products, multiples, anticommutators and C187_form for real coefficients; C187_not_associative, C187_not_transitive and C187_small_factor are what fails"
  },
  {
   "property": "C188",
   "status": "proved",
   "theorems": [
    "Verif.OperatorError.C188_sum",
    "Verif.OperatorError.C188_difference",
    "Verif.OperatorError.C188_terms",
    "Verif.OperatorError.C188_product",
    "Verif.OperatorError.C188_product_canonical",
    "Verif.OperatorError.C188_multiple",
    "Verif.OperatorError.C188_equal"
   ],
   "note": "real coefficients, no overflow and no NaN"
  },
  {
   "property": "C189",
   "status": "proved",
   "theorems": [
    "Verif.RootDouble.C189_sound",
    "Verif.RootDouble.C189_search",
    "Verif.RootDouble.C189_no_division",
    "Verif.RootDouble.C189_cut",
    "Verif.RootDouble.C189_stuck",
    "Verif.RootDouble.C189_underflow"
   ],
   "note": "no overflow and no NaN; C189_underflow: with a precision below 2^-600 the test of the signs can underflow and the code divides by zero"
  },
  {
   "property": "C19",
   "status": "proved",
   "theorems": [
    "Verif.DetManip.determinant_exact",
    "Verif.DetManip.determinant_defined"
   ],
   "note": "exact field; histories of all operations, accepted or rejected; a singular matrix on completion is a separate outcome"
  },
  {
   "property": "C190",
   "status": "proved",
   "theorems": [
    "Verif.SumKHeap.C190_result",
    "Verif.SumKHeap.C190_separate",
    "Verif.SumKHeap.C190_new",
    "Verif.SumKHeap.C190_alias",
    "Verif.SumKHeap.C190_missing",
    "Verif.SumKHeap.C190_shared",
    "Verif.SumKHeap.C190_function"
   ],
   "note": "C190_alias, C190_shared and C190_function are what fails when objects are shared"
  },
  {
   "property": "C191",
   "status": "proved",
   "theorems": [
    "Verif.LatticePointDouble.C191_neg",
    "Verif.LatticePointDouble.C191_sub_self",
    "Verif.LatticePointDouble.C191_group",
    "Verif.LatticePointDouble.C191_vectors",
    "Verif.LatticePointDouble.C191_coordinates",
    "Verif.LatticePointDouble.C191_add",
    "Verif.LatticePointDouble.C191_cpp",
    "Verif.LatticePointDouble.C191_cached",
    "Verif.LatticePointDouble.C191_lattices",
    "Verif.LatticePointDouble.C191_lengths"
   ],
   "note": "no overflow and no NaN; products of matrix and indices added in the order of the indices; C191_cached, C191_lattices and C191_lengths: in Python coordinates are not updated with the indices, and points of different lattices or with different numbers of indices are added without complaint"
  },
  {
   "property": "C192",
   "status": "proved",
   "theorems": [
    "Verif.DosDouble.C192_first",
    "Verif.DosDouble.C192_order",
    "Verif.DosDouble.C192_energies",
    "Verif.DosDouble.C192_positive",
    "Verif.DosDouble.C192_nonneg",
    "Verif.DosDouble.C192_normalised",
    "Verif.DosDouble.C192_symmetric",
    "Verif.DosDouble.C192_last",
    "Verif.DosDouble.C192_unsymmetric"
   ],
   "note": "no overflow and no NaN; numpy.sum is any binary tree of rounded additions; C192_last and C192_unsymmetric: the last energy may exceed the upper end, and the energies of an interval around zero need not be symmetric"
  },
  {
   "property": "C193",
   "status": "proved",
   "theorems": [
    "Verif.RebinDouble.C193_nearest",
    "Verif.RebinDouble.C193_exact",
    "Verif.RebinDouble.C193_ends",
    "Verif.RebinDouble.C193_order",
    "Verif.RebinDouble.C193_values",
    "Verif.RebinDouble.C193_nonempty",
    "Verif.RebinDouble.C193_accuracy",
    "Verif.RebinDouble.C193_ties"
   ],
   "note": "one part of one element of the target; sums of the data do not overflow; C193_ties: points half way between two bins go to either of them"
  },
  {
   "property": "C194",
   "status": "proved",
   "theorems": [
    "Verif.HermitianDouble.C194_symmetric",
    "Verif.HermitianDouble.C194_elements",
    "Verif.HermitianDouble.C194_fixed",
    "Verif.HermitianDouble.C194_twice",
    "Verif.HermitianDouble.C194_between",
    "Verif.HermitianDouble.C194_accepted",
    "Verif.HermitianDouble.C194_each",
    "Verif.HermitianDouble.C194_largest",
    "Verif.HermitianDouble.C194_nan",
    "Verif.HermitianDouble.C194_overflow"
   ],
   "note": "the modulus of a complex number is any function with the contract Hypot; C194_nan and C194_overflow: a NaN in the first element makes is_gf_hermitian accept, and finite data may become infinite"
  },
  {
   "property": "C195",
   "status": "proved",
   "theorems": [
    "Verif.ClosestDouble.mul_accurate",
    "Verif.ClosestDouble.C195_valid",
    "Verif.ClosestDouble.C195_near",
    "Verif.ClosestDouble.C195_coordinates",
    "Verif.ClosestDouble.C195_own",
    "Verif.ClosestDouble.C195_plane",
    "Verif.ClosestDouble.C195_flat"
   ],
   "note": "product of a matrix and a vector and the norm under the contracts Accurate and Norm; no overflow and no NaN; C195_flat: with an extent of one in a direction oblique to the others the closest point of a mesh point can be another one"
  },
  {
   "property": "C196",
   "status": "proved",
   "theorems": [
    "Verif.InterpolationDouble.C196_continuous",
    "Verif.InterpolationDouble.C196_periodic",
    "Verif.InterpolationDouble.C196_rounding",
    "Verif.InterpolationDouble.C196_near",
    "Verif.InterpolationDouble.C196_own",
    "Verif.InterpolationDouble.C196_translation",
    "Verif.InterpolationDouble.C196_constant"
   ],
   "note": "one part of one element of the target; product of a matrix and a vector under the contract Accurate; no overflow and no NaN; C196_constant: a constant function need not be reproduced to the last bit"
  },
  {
   "property": "C197",
   "status": "proved",
   "theorems": [
    "Verif.DetDouble.C197_track",
    "Verif.DetDouble.C197_budget",
    "Verif.DetDouble.C197_error",
    "Verif.DetDouble.C197_signs",
    "Verif.DetDouble.C197_determinant",
    "Verif.DetDouble.C197_refill",
    "Verif.DetDouble.C197_stuck",
    "Verif.DetDouble.C197_empty",
    "Verif.DetDouble.C197_empty_not_one",
    "Verif.DetDouble.C197_underflow"
   ],
   "note": "value_type = double and the default singular_threshold; ksi, the determinant of nda and the outcome of a regeneration are arbitrary doubles; no overflow and no NaN; C197_empty_not_one, C197_underflow: what fails"
  },
  {
   "property": "C198",
   "status": "proved",
   "theorems": [
    "Verif.LegendreDouble.C198_parity",
    "Verif.LegendreDouble.C198_ends",
    "Verif.LegendreDouble.C198_error",
    "Verif.LegendreDouble.C198_bounded",
    "Verif.LegendreDouble.C198_argument",
    "Verif.LegendreDouble.C198_basis",
    "Verif.LegendreDouble.C198_wrap"
   ],
   "note": "the sums over coefficients and the square roots are not part of the claim; C198_wrap: what fails from 2^31 + 1 on"
  },
  {
   "property": "C199",
   "status": "proved",
   "theorems": [
    "Verif.ProductDouble.C199_product",
    "Verif.ProductDouble.C199_points",
    "Verif.ProductDouble.C199_order",
    "Verif.ProductDouble.C199_rounding_witness"
   ],
   "note": "one part of one element of the target; the ranges all_t are passed through and not part of the claim; C199_points: intervals that contain zero; C199_order: two variables, exact; C199_rounding_witness: rounding does occur"
  },
  {
   "property": "C20",
   "status": "proved",
   "theorems": [
    "Verif.DetManip.inverse_exact"
   ],
   "note": "exact field"
  },
  {
   "property": "C200",
   "status": "proved",
   "theorems": [
    "Verif.JackknifeDouble.C200_between",
    "Verif.JackknifeDouble.C200_constant",
    "Verif.JackknifeDouble.C200_identity",
    "Verif.JackknifeDouble.C200_bias_witness"
   ],
   "note": "real data on one node; the square root is an arbitrary function that is zero at zero and not negative; C200_bias_witness: thirteen equal data, for which the corrected estimate is twelve units of the last digit off while the direct one is exact"
  },
  {
   "property": "C201",
   "status": "proved",
   "theorems": [
    "Verif.NodeSum.C201_error",
    "Verif.NodeSum.C201_nodes",
    "Verif.NodeSum.C201_sign",
    "Verif.NodeSum.C201_flat",
    "Verif.NodeSum.C201_order_witness"
   ],
   "note": "one part of one matrix element; the elements of the inverse matrices are given; bounds without subnormal products and up to 2^50 points and nodes; C201_order_witness: the bits depend on the number of nodes and on the order"
  },
  {
   "property": "C202",
   "status": "proved",
   "theorems": [
    "Verif.TightBindingDouble.C202_hermitian",
    "Verif.TightBindingDouble.C202_value",
    "Verif.TightBindingDouble.C202_angle",
    "Verif.TightBindingDouble.C202_diagonal",
    "Verif.TightBindingDouble.C202_pair",
    "Verif.TightBindingDouble.C202_time_reversal",
    "Verif.TightBindingDouble.C202_chain"
   ],
   "note": "one momentum at a time (rank one); hoppings that are conjugate exactly, where the constructor allows 1e-12; up to 2^50 displacements; sine and cosine of the C library odd and even to the last bit"
  },
  {
   "property": "C203",
   "status": "proved",
   "theorems": [
    "Verif.DosBins.C203_index",
    "Verif.DosBins.C203_order",
    "Verif.DosBins.C203_dos",
    "Verif.DosBins.C203_flat",
    "Verif.DosBins.C203_tiny_outside"
   ],
   "note": "the index for both functions; the density for one orbital with given energies up to 2^900; C203_flat and C203_tiny_outside: undefined behaviour for flat bands"
  },
  {
   "property": "C204",
   "status": "proved",
   "theorems": [
    "Verif.LinearBins.C204_bins",
    "Verif.LinearBins.C204_constant",
    "Verif.LinearBins.C204_last",
    "Verif.LinearBins.C204_capacity_witness"
   ],
   "note": "real data; C204_bins is about compressions by operator<< only, C204_last about the last bin of any compression by two; C204_capacity_witness: bins of constant data leave the constant for capacity three"
  },
  {
   "property": "C205",
   "status": "proved",
   "theorems": [
    "Verif.InteractionDouble.C205_radial",
    "Verif.InteractionDouble.C205_refused",
    "Verif.InteractionDouble.C205_odd",
    "Verif.InteractionDouble.C205_back_odd",
    "Verif.InteractionDouble.C205_kanamori",
    "Verif.InteractionDouble.C205_differences",
    "Verif.InteractionDouble.C205_symmetric",
    "Verif.InteractionDouble.C205_witness"
   ],
   "note": "real parameters; C205_witness: couplings that do not come back bit by bit"
  },
  {
   "property": "C206",
   "status": "proved",
   "theorems": [
    "Verif.NodeMean.C206_mean",
    "Verif.NodeMean.C206_nodes",
    "Verif.NodeMean.C206_levels",
    "Verif.NodeMean.C206_nonneg",
    "Verif.NodeMean.C206_one",
    "Verif.NodeMean.C206_error",
    "Verif.NodeMean.C206_squares",
    "Verif.NodeMean.C206_constant_witness"
   ],
   "note": "real data; C206_constant_witness: constant data on six nodes"
  },
  {
   "property": "C207",
   "status": "proved",
   "theorems": [
    "Verif.OperatorDouble.C207_parts",
    "Verif.OperatorDouble.C207_twice",
    "Verif.OperatorDouble.C207_dagger",
    "Verif.OperatorDouble.C207_hermitian",
    "Verif.OperatorDouble.C207_sum",
    "Verif.OperatorDouble.C207_number",
    "Verif.OperatorDouble.C207_make_real",
    "Verif.OperatorDouble.C207_make_real_default",
    "Verif.OperatorDouble.C207_hermitian_witness",
    "Verif.OperatorDouble.C207_additive_witness"
   ],
   "note": "finite coefficients; the two false statements are refuted by the witnesses"
  },
  {
   "property": "C208",
   "status": "proved",
   "theorems": [
    "Verif.LegendreSum.C208_time",
    "Verif.LegendreSum.C208_density"
   ],
   "note": "double precision; that std::sqrt is correctly rounded is a hypothesis; elements of complex data by parts"
  },
  {
   "property": "C209",
   "status": "proved",
   "theorems": [
    "Verif.ZeroDensity.C209_sum",
    "Verif.ZeroDensity.C209_symmetric",
    "Verif.ZeroDensity.C209_end",
    "Verif.ZeroDensity.C209_end_witness",
    "Verif.ZeroDensity.C209_fine_witness"
   ],
   "note": "double precision; one part of one matrix element, before scaling and taking the hermitian part; the two false statements are refuted by the witnesses"
  },
  {
   "property": "C21",
   "status": "proved",
   "theorems": [
    "Verif.DetManip.try_ratio",
    "Verif.DetManip.roll_ratio"
   ],
   "note": "exact field"
  },
  {
   "property": "C210",
   "status": "proved",
   "theorems": [
    "Verif.AutoCorrelation.C210_error",
    "Verif.AutoCorrelation.C210_sign",
    "Verif.AutoCorrelation.C210_mono",
    "Verif.AutoCorrelation.C210_small_witness"
   ],
   "note": "double precision, scalar errors"
  },
  {
   "property": "C211",
   "status": "partial",
   "theorems": [
    "Verif.AutoCorrelation.C211_repeated_partial"
   ],
   "note": "exact real arithmetic: the model cannot show the rounding of the errors; fewer than 2^31 measurements"
  },
  {
   "property": "C212",
   "status": "proved",
   "theorems": [
    "Verif.LogErrors.C212_overflow",
    "Verif.LogErrors.C212_finite",
    "Verif.LogErrors.C212_accuracy"
   ],
   "note": "double precision; scalar real data; the root is rounded to nearest, as IEEE 754 demands"
  },
  {
   "property": "C213",
   "status": "proved",
   "theorems": [
    "Verif.FermiDensity.C213_bounds",
    "Verif.FermiDensity.C213_weight",
    "Verif.FermiDensity.C213_cold",
    "Verif.FermiDensity.C213_empty",
    "Verif.FermiDensity.C213_extreme",
    "Verif.FermiDensity.C213_accuracy"
   ],
   "note": "double precision; a diagonal element; exp of the C library is a parameter"
  },
  {
   "property": "C214",
   "status": "proved",
   "theorems": [
    "Verif.SemiDouble.C214_accuracy",
    "Verif.SemiDouble.C214_sign",
    "Verif.SemiDouble.C214_odd",
    "Verif.SemiDouble.C214_zero_witness"
   ],
   "note": "double precision; chemical potential zero, imaginary frequencies"
  },
  {
   "property": "C215",
   "status": "proved",
   "theorems": [
    "Verif.ErrorBars.C215_error",
    "Verif.ErrorBars.C215_defined",
    "Verif.ErrorBars.C215_constant"
   ],
   "note": "double precision; real data; the root is rounded to nearest, as IEEE 754 demands"
  },
  {
   "property": "C22",
   "status": "proved",
   "theorems": [
    "Verif.DetManip.reject_no_trace",
    "Verif.DetManip.history_independent"
   ],
   "note": ""
  },
  {
   "property": "C23",
   "status": "proved",
   "theorems": [
    "Verif.DetManip.user_order",
    "Verif.DetManip.Op.Spec.unique",
    "Verif.DetManip.Inserted.unique",
    "Verif.DetManip.Inserted.exists"
   ],
   "note": ""
  },
  {
   "property": "C24",
   "status": "partial",
   "theorems": [
    "Verif.DetManip.positions_refused_partial",
    "Verif.DetManip.repeated_refused",
    "Verif.DetManip.try_progress",
    "Verif.DetManip.complete_defined",
    "Verif.DetManip.position_check_incomplete",
    "Verif.DetManip.single_position_k",
    "Verif.DetManip.refused_blocks"
   ],
   "note": "valid positions are accepted and single positions checked; the largest of several positions and negative rows are not checked (witness)"
  },
  {
   "property": "C25",
   "status": "partial",
   "theorems": [
    "Verif.DetManip.swap_partial",
    "Verif.DetManip.swap_loses_capacity",
    "Verif.DetManip.swap_keeps_threshold"
   ],
   "note": "holds for objects with the same kmax; false otherwise and for the thresholds (witnesses)"
  },
  {
   "property": "C26",
   "status": "partial",
   "theorems": [
    "Verif.DetManip.insert_from_function_partial",
    "Verif.DetManip.insert_from_function_stale"
   ],
   "note": "ratio, inverse and determinant are right; the stored arguments are stale (witness)"
  },
  {
   "property": "C27",
   "status": "proved",
   "theorems": [
    "Verif.MC.C27_attempts_resolved_once",
    "Verif.MC.C27_throwing_run",
    "Verif.MC.Built.protocol"
   ],
   "note": "user moves alone or in nested sets"
  },
  {
   "property": "C28",
   "status": "partial",
   "theorems": [
    "Verif.MC.C28_sign_follows_weight_partial",
    "Verif.MC.C28_tiny_ratio"
   ],
   "note": "holds when the numbers drawn are at least 1e-14; false for smaller ones (witness with the smallest number of the default generator)"
  },
  {
   "property": "C29",
   "status": "partial",
   "theorems": [
    "Verif.MC.C29_accounting_partial",
    "Verif.MC.C29_returns",
    "Verif.MC.C29_exception",
    "Verif.MC.mainLoop_more",
    "Verif.MC.C29_signal_in_last_cycle",
    "Verif.MC.C29_no_cycle",
    "Verif.MC.C29_counter_overflow"
   ],
   "note": "accounting holds for every run that returns; a signal in the last cycle is reported as status 0, and the cycle counter overflows beyond 2^31-1 cycles (witnesses)"
  },
  {
   "property": "C30",
   "status": "proved",
   "theorems": [
    "Verif.MC.C30_selection",
    "Verif.MC.C30_length",
    "Verif.MC.C30_zero_never",
    "Verif.MC.C30_probability",
    "Verif.MC.C30_one_picks_last"
   ],
   "note": "exact ordered field, numbers in [0,1)"
  },
  {
   "property": "C31",
   "status": "proved",
   "theorems": [
    "Verif.MC.C31_transition_probability",
    "Verif.MC.C31_detailed_balance",
    "Verif.MC.C31_stationary",
    "Verif.MC.P_sum"
   ],
   "note": "exact real numbers; user moves whose noise is one draw from a probability space"
  },
  {
   "property": "C32",
   "status": "proved",
   "theorems": [
    "Verif.Measures.C32_measures_once",
    "Verif.Measures.C32_counts_since_registration"
   ],
   "note": "measures that do not throw"
  },
  {
   "property": "C33",
   "status": "proved",
   "theorems": [
    "Verif.Buffered.C33_stream_preserved",
    "Verif.Buffered.C33_stream_preserved_reseeding",
    "Verif.Buffered.C33_empty_buffer_undefined",
    "Verif.Buffered.C33_copy_restarts"
   ],
   "note": "buffer of at least one number; the other theorems are the limits: empty buffers, copies of a generator"
  },
  {
   "property": "C34",
   "status": "proved",
   "theorems": [
    "Verif.MT.C34_bounds",
    "Verif.MT.C34_copy_restarts"
   ],
   "note": ""
  },
  {
   "property": "C35",
   "status": "partial",
   "theorems": [
    "Verif.Stat.C35_lin_binning_partial",
    "Verif.Stat.C35_defined",
    "Verif.Stat.C35_int_overflow"
   ],
   "note": "fewer than 2^31 data; from there on compress computes with wrapped int counts (witness)"
  },
  {
   "property": "C36",
   "status": "partial",
   "theorems": [
    "Verif.Stat.C36_log_binning_partial",
    "Verif.Stat.C36_errors_partial",
    "Verif.Stat.C36_shift_overflow"
   ],
   "note": "fewer than 2^31 data; with unlimited levels datum number 2^31 accesses a missing level"
  },
  {
   "property": "C37",
   "status": "proved",
   "theorems": [
    "Verif.Stat.C37_reduce",
    "Verif.Stat.C37_errors_all_reduce_partial"
   ],
   "note": "the reduction of any data; log_bin_errors_all_reduce for fewer than 2^31 data on each rank"
  },
  {
   "property": "C38",
   "status": "partial",
   "theorems": [
    "Verif.Stat.C38_same_report",
    "Verif.Stat.C38_continue_partial",
    "Verif.Stat.C38_ignores_data"
   ],
   "note": "same report always, same continuation if the object read into has the same limit of levels, which the archive lacks; otherwise further data are ignored"
  },
  {
   "property": "C39",
   "status": "partial",
   "theorems": [
    "Verif.Stat.C39_mean",
    "Verif.Stat.C39_mean_and_err",
    "Verif.Stat.C39_mean_mpi",
    "Verif.Stat.C39_mean_and_err_mpi",
    "Verif.Stat.C39_jackknife",
    "Verif.Stat.C39_jackknife_affine",
    "Verif.Stat.C39_jackknife_identity",
    "Verif.Stat.C39_jackknife_mpi_partial",
    "Verif.Stat.C39_jackknife_mpi_bias",
    "Verif.Stat.C39_jackknife_mpi_uninitialised"
   ],
   "note": "proved without MPI; jackknife_mpi uses a number valid on the root only, and the local number of data in the bias correction (witnesses)"
  },
  {
   "property": "C40",
   "status": "proved",
   "theorems": [
    "Verif.Stat.C40_histogram",
    "Verif.Stat.C40_nearest",
    "Verif.Stat.C40_add",
    "Verif.Stat.C40_pdf_cdf",
    "Verif.Stat.C40_integers",
    "Verif.Stat.C40_archive",
    "Verif.Stat.C40_reduce"
   ],
   "note": "exact ordered field, at least one and at most 2^31 bins"
  },
  {
   "property": "C41",
   "status": "proved",
   "theorems": [
    "Verif.TimePt.C41_circle_arithmetic",
    "Verif.TimePt.C41_negative_of_zero"
   ],
   "note": "64-bit machine arithmetic; the negative of 0 is the upper end (equal on the circle only)"
  },
  {
   "property": "C42",
   "status": "proved",
   "theorems": [
    "Verif.Linear.C42_values_and_nearest",
    "Verif.Linear.C42_interpolation",
    "Verif.Linear.C42_archive",
    "Verif.Linear.C42_single_point_undefined"
   ],
   "note": "exact ordered field; at least two points"
  },
  {
   "property": "C43",
   "status": "proved",
   "theorems": [
    "Verif.Matsubara.C43_matsubara_mesh",
    "Verif.Matsubara.C43_empty_boson_mesh"
   ],
   "note": "for n_iw >= 1"
  },
  {
   "property": "C44",
   "status": "partial",
   "theorems": [
    "Verif.Matsubara.C44_frequency_arithmetic_partial",
    "Verif.Matsubara.C44_division_is_wrong"
   ],
   "note": "sum, difference, negative and product hold; the quotient is false (witness)"
  },
  {
   "property": "C45",
   "status": "proved",
   "theorems": [
    "Verif.Lattice.C45_index_bijection"
   ],
   "note": ""
  },
  {
   "property": "C46",
   "status": "proved",
   "theorems": [
    "Verif.Lattice.C46_periodic_folding"
   ],
   "note": ""
  },
  {
   "property": "C47",
   "status": "proved",
   "theorems": [
    "Verif.Lattice.C47_interpolation"
   ],
   "note": "exact ordered field"
  },
  {
   "property": "C48",
   "status": "partial",
   "theorems": [
    "Verif.Lattice.C48_closest_index_partial",
    "Verif.Lattice.C48_fails_for_skewed_units"
   ],
   "note": "holds for orthogonal units, false for skewed ones (witness)"
  },
  {
   "property": "C49",
   "status": "proved",
   "theorems": [
    "Verif.Product.C49_product_indexing",
    "Verif.Product.C49_tensor_product_evaluation",
    "Verif.Product.C49_exact_on_points"
   ],
   "note": "component evaluations are finite weighted sums"
  },
  {
   "property": "C50",
   "status": "partial",
   "theorems": [
    "Verif.MeshEq.C50_mesh_equality_partial",
    "Verif.MeshEq.C50_fails_for_lattice_meshes"
   ],
   "note": "holds for Matsubara and linear meshes; false for lattice meshes (witness, for any hash functions)"
  },
  {
   "property": "C51",
   "status": "proved",
   "theorems": [
    "Verif.MeshEq.C51_matsubara_adjoint",
    "Verif.MeshEq.C51_time_mesh_not_recovered",
    "Verif.MeshEq.C51_real_adjoint"
   ],
   "note": "n_iw >= 1; real meshes of at least two points"
  },
  {
   "property": "C52",
   "status": "proved",
   "theorems": [
    "Verif.FourierLattice.C52_round_trips",
    "Verif.FourierLattice.C52_meaning",
    "Verif.FourierLattice.C52_smaller_output_undefined"
   ],
   "note": "exact arithmetic, output mesh of the same extents (not compared by the code, witness)"
  },
  {
   "property": "C53",
   "status": "proved",
   "theorems": [
    "Verif.Fourier.C53_round_trip",
    "Verif.Fourier.C53_trapezoid",
    "Verif.Fourier.C53_exact_on_model"
   ],
   "note": "exact arithmetic, moments up to order three given"
  },
  {
   "property": "C54",
   "status": "proved",
   "theorems": [
    "Verif.Fourier.C54_moments",
    "Verif.Fourier.C54_tail",
    "Verif.Fourier.C54_jump",
    "Verif.Fourier.C54_fermion_pole",
    "Verif.Fourier.C54_boson_pole",
    "Verif.Fourier.C54_model_transform"
   ],
   "note": ""
  },
  {
   "property": "C55",
   "status": "partial",
   "theorems": [
    "Verif.ImFreq.C55_round_trip",
    "Verif.ImFreq.C55_symmetry_partial",
    "Verif.ImFreq.C55_boson_zero",
    "Verif.ImFreq.C55_needs_positive"
   ],
   "note": "round trip for all data; the symmetry fails exactly for bosons with a complex value at frequency zero"
  },
  {
   "property": "C56",
   "status": "proved",
   "theorems": [
    "Verif.ImFreq.C56_hermitian",
    "Verif.ImFreq.C56_components",
    "Verif.ImFreq.C56_hermitian_tau",
    "Verif.ImFreq.C56_real_in_tau",
    "Verif.ImFreq.C56_check",
    "Verif.ImFreq.C56_not_square"
   ],
   "note": "targets of rank 0, 2, 4, exact complex numbers; a target that is not square is undefined"
  },
  {
   "property": "C57",
   "status": "partial",
   "theorems": [
    "Verif.Flatten.C57_elements",
    "Verif.Flatten.C57_round_trip",
    "Verif.Flatten.C57_order_partial",
    "Verif.Flatten.C57_order_changes",
    "Verif.Flatten.C57_no_rows"
   ],
   "note": "round trip for all shapes; the documented order of the columns fails from kept dimension 2 on"
  },
  {
   "property": "C58",
   "status": "partial",
   "theorems": [
    "Verif.Legendre.C58_generator",
    "Verif.Legendre.C58_coefficients",
    "Verif.Legendre.C58_evaluate",
    "Verif.Legendre.C58_tail_boundary",
    "Verif.Legendre.C58_tail_transform_partial",
    "Verif.Legendre.C58_zeroth_moment",
    "Verif.Legendre.C58_discontinuity",
    "Verif.Legendre.C58_no_coefficients"
   ],
   "note": "the zeroth moment of get_tail is not zero (witness); legendre_T (Bessel functions) is not modelled"
  },
  {
   "property": "C59",
   "status": "partial",
   "theorems": [
    "Verif.ImFreq.C59_fermions_partial",
    "Verif.ImFreq.C59_bosons",
    "Verif.ImFreq.C59_bosons_pairs"
   ],
   "note": "holds for fermions; fails for bosons exactly at the pair +-n_min"
  },
  {
   "property": "C60",
   "status": "partial",
   "theorems": [
    "Verif.Pade.C60_interpolates_partial",
    "Verif.Pade.C60_evaluation_undefined",
    "Verif.Pade.C60_truncated",
    "Verif.Pade.C60_precision_partial",
    "Verif.Pade.C60_precision_leaks"
   ],
   "note": "exact field; the evaluation can divide by zero at an input point, and an exception leaves the precision of GMP changed"
  },
  {
   "property": "C61",
   "status": "proved",
   "theorems": [
    "Verif.RoC.C61_real_or_complex_sound",
    "Verif.RoC.C61_equality"
   ],
   "note": "exact real and complex numbers; division by zero is a separate outcome"
  },
  {
   "property": "C62",
   "status": "partial",
   "theorems": [
    "Verif.TightBinding.C62_hermitian_partial",
    "Verif.TightBinding.C62_fails_for_repeated_displacements",
    "Verif.TightBinding.C62_empty_undefined"
   ],
   "note": "distinct displacements; false for repeated ones, and an empty list is accepted but cannot be evaluated (witnesses)"
  },
  {
   "property": "C63",
   "status": "proved",
   "theorems": [
    "Verif.Grid.C63_grid",
    "Verif.Grid.C63_end_equals_last_point",
    "Verif.Grid.C63_no_points",
    "Verif.Grid.C63_size_overflow"
   ],
   "note": "exact ordered field; witnesses for zero points and for sizes outside the range of int"
  },
  {
   "property": "C64",
   "status": "partial",
   "theorems": [
    "Verif.Lattice3.C64_duality",
    "Verif.Lattice3.C64_duality_partial",
    "Verif.Lattice3.C64_linear_size",
    "Verif.Lattice3.C64_fails_beyond_ndim",
    "Verif.Lattice3.C64_fails_for_default"
   ],
   "note": "holds with one mesh point in the directions beyond ndim; false with more points there and for the default Brillouin zone (witnesses)"
  },
  {
   "property": "C65",
   "status": "partial",
   "theorems": [
    "Verif.Qn.C65_blocks",
    "Verif.Qn.C65_connections",
    "Verif.Qn.C65_comparison_is_lexicographic",
    "Verif.Qn.C65_comparison_not_transitive"
   ],
   "note": "holds for quantum numbers equal or further apart than the tolerance; otherwise the map comparison is not a strict weak order (third theorem)"
  },
  {
   "property": "C66",
   "status": "partial",
   "theorems": [
    "Verif.AtomDiag.C66_connection_table_partial",
    "Verif.AtomDiag.C66_invariant",
    "Verif.AtomDiag.C66_kept_subspaces",
    "Verif.AtomDiag.C66_two_connections"
   ],
   "note": "invariance and numbering hold; uniqueness of the connections is false (witness with four orbitals)"
  },
  {
   "property": "C67",
   "status": "partial",
   "theorems": [
    "Verif.Operators.C67_raw_constructor_partial",
    "Verif.Operators.C67_raw_constructor_breaks_equality"
   ],
   "note": "false for unsorted factor lists (witness); holds for normal-ordered ones"
  },
  {
   "property": "C68",
   "status": "proved",
   "theorems": [
    "Verif.Operators.C68_is_op_hermitian"
   ],
   "note": ""
  },
  {
   "property": "C69",
   "status": "partial",
   "theorems": [
    "Verif.TimePt.C69_integer_multiples_partial",
    "Verif.TimePt.C69_fails_beyond_one_turn"
   ],
   "note": "holds while the product stays below one turn, false beyond (witness)"
  },
  {
   "property": "C70",
   "status": "partial",
   "theorems": [
    "Verif.TimePt.C70_make_time_pt_partial",
    "Verif.TimePt.C70_upper_end_undefined"
   ],
   "note": "holds for x < beta; at x = beta the conversion is undefined"
  },
  {
   "property": "C71",
   "status": "proved",
   "theorems": [
    "Verif.Buffered.C71_random_ranges"
   ],
   "note": "exact ordered field"
  },
  {
   "property": "C72",
   "status": "proved",
   "theorems": [
    "Verif.MT.C72_is_mersenne_twister"
   ],
   "note": ""
  },
  {
   "property": "C73",
   "status": "proved",
   "theorems": [
    "Verif.Operators.C73_filter_op"
   ],
   "note": ""
  },
  {
   "property": "C74",
   "status": "proved",
   "theorems": [
    "Verif.Operators.C74_dict_to_matrix"
   ],
   "note": "the key tuple is a list"
  },
  {
   "property": "C75",
   "status": "proved",
   "theorems": [
    "Verif.Fourier.C75_density_is_minus_G_beta"
   ],
   "note": "exact arithmetic; work array initialised to zero"
  },
  {
   "property": "C76",
   "status": "proved",
   "theorems": [
    "Verif.FourierReal.C76_round_trips",
    "Verif.FourierReal.C76_riemann_sum",
    "Verif.FourierReal.C76_model_moments",
    "Verif.FourierReal.C76_model_transform",
    "Verif.FourierReal.C76_model_jump",
    "Verif.FourierReal.C76_adjoint_accepted"
   ],
   "note": "exact arithmetic"
  },
  {
   "property": "C77",
   "status": "proved",
   "theorems": [
    "Verif.Lattice3.C77_completion",
    "Verif.Lattice3.C77_accepts",
    "Verif.Lattice3.C77_coordinates_round_trip",
    "Verif.Lattice3.C77_zero_vector_undefined"
   ],
   "note": "exact arithmetic; a zero vector in one dimension is not refused (witness)"
  },
  {
   "property": "C78",
   "status": "proved",
   "theorems": [
    "Verif.TightBinding.C78_mesh_values",
    "Verif.TightBinding.C78_is_lattice_transform"
   ],
   "note": "exact arithmetic, at least one displacement"
  },
  {
   "property": "C79",
   "status": "proved",
   "theorems": [
    "Verif.Dos.C79_dos"
   ],
   "note": "exact ordered field, eigenvectors complete; a range of zero width is undefined"
  },
  {
   "property": "C80",
   "status": "proved",
   "theorems": [
    "Verif.Dos.C80_points",
    "Verif.Dos.C80_dos_patch",
    "Verif.Dos.C80_one_bin"
   ],
   "note": "exact ordered field; a range of zero width is undefined, one bin returns 0/0 as its energy"
  },
  {
   "property": "C81",
   "status": "proved",
   "theorems": [
    "Verif.Dos.C81_path",
    "Verif.Dos.C81_end_not_visited",
    "Verif.Dos.C81_grid",
    "Verif.Dos.C81_empty_grid_undefined"
   ],
   "note": ""
  },
  {
   "property": "C82",
   "status": "partial",
   "theorems": [
    "Verif.ImFreq.C82_restricted_partial",
    "Verif.ImFreq.C82_bosons"
   ],
   "note": "holds for fermions; the view of a bosonic function is fermionic and can start outside of the data"
  },
  {
   "property": "C83",
   "status": "partial",
   "theorems": [
    "Verif.TailFit.C83_indices_partial",
    "Verif.TailFit.C83_matsubara",
    "Verif.TailFit.C83_not_symmetric",
    "Verif.TailFit.C83_repeated",
    "Verif.TailFit.C83_zero_frequency",
    "Verif.TailFit.C83_window",
    "Verif.TailFit.C83_replaced",
    "Verif.TailFit.C83_replaced_opposite",
    "Verif.TailFit.C83_replaced_bosons"
   ],
   "note": "distinct and valid for fractions up to 1/2; with fraction 1 indices repeat and bosons use frequency zero; the sample never contains the last frequency, so it is not symmetric, and the positive part of a window is shifted by one"
  },
  {
   "property": "C84",
   "status": "proved",
   "theorems": [
    "Verif.TailFit.C84_exact",
    "Verif.TailFit.C84_returns",
    "Verif.TailFit.C84_too_many_moments",
    "Verif.TailFit.leastSquares_exists"
   ],
   "note": "exact numbers; any solver that minimises the residual; ten or more known moments with a larger given order are undefined behaviour"
  },
  {
   "property": "C85",
   "status": "partial",
   "theorems": [
    "Verif.TailFit.C85_on_mesh",
    "Verif.TailFit.C85_continuation",
    "Verif.TailFit.C85_positive_only",
    "Verif.TailFit.C85_no_check"
   ],
   "note": "values as stated; other temperatures and statistics are not refused (witness)"
  },
  {
   "property": "C86",
   "status": "partial",
   "theorems": [
    "Verif.TauMoments.C86_meaning",
    "Verif.TauMoments.C86_polynomials",
    "Verif.TauMoments.C86_short_mesh",
    "Verif.TauMoments.C86_smooth_refused",
    "Verif.TauMoments.C86_linear_accepted",
    "Verif.TauMoments.C86_noise_refused"
   ],
   "note": "as stated for the fit; the test before it refuses smooth functions with vanishing first derivatives on every mesh, and meshes of fewer than nine points are read out of bounds"
  },
  {
   "property": "C87",
   "status": "partial",
   "theorems": [
    "Verif.Diag.C87_complete",
    "Verif.Diag.C87_leaves_block",
    "Verif.Diag.C87_not_sorted",
    "Verif.Diag.eigSpec_exists"
   ],
   "note": "as stated for any solver that diagonalises hermitian matrices (one exists); blocks closer in energy than 1e-10 times their distance are not sorted by energy; a Hamiltonian that leaves a block is undefined behaviour"
  },
  {
   "property": "C88",
   "status": "partial",
   "theorems": [
    "Verif.Diag.C88_make_op_matrix",
    "Verif.Diag.C88_monomial",
    "Verif.Diag.C88_op_mat",
    "Verif.Diag.C88_check833"
   ],
   "note": "as stated; with CHECK_ISSUE833 set, an operator that vanishes on a block reads the eigensystem -1"
  },
  {
   "property": "C89",
   "status": "partial",
   "theorems": [
    "Verif.Diag.C89_flat",
    "Verif.Diag.C89_vacuum",
    "Verif.Diag.C89_no_vacuum"
   ],
   "note": "as stated when a block contains the vacuum; otherwise the index of its block is not initialised and the vector is zero"
  },
  {
   "property": "C90",
   "status": "proved",
   "theorems": [
    "Verif.Diag.C90_act",
    "Verif.Diag.C90_representation"
   ],
   "note": "complex or real scalars; monomials that map blocks to blocks"
  },
  {
   "property": "C91",
   "status": "proved",
   "theorems": [
    "Verif.Diag.C91_partition",
    "Verif.Diag.C91_trace",
    "Verif.Diag.C91_mismatch",
    "Verif.Diag.C91_normalised",
    "Verif.Diag.C91_gibbs",
    "Verif.Diag.C91_all_states",
    "Verif.Diag.C91_from_constructor",
    "Verif.Diag.complete_spectral"
   ],
   "note": "real arithmetic; the matrix exponential of Mathlib"
  },
  {
   "property": "C92",
   "status": "partial",
   "theorems": [
    "Verif.Diag.C92_values",
    "Verif.Diag.C92_refused",
    "Verif.Diag.C92_nondegenerate",
    "Verif.Diag.C92_checked",
    "Verif.Diag.C92_degenerate",
    "Verif.Diag.C92_imaginary"
   ],
   "note": "true for energies that occur once; false for degenerate levels, where diagonal elements are returned that need not be eigenvalues; the checked version only looks at real parts"
  },
  {
   "property": "C93",
   "status": "proved",
   "theorems": [
    "Verif.Diag.C93_green",
    "Verif.Diag.C93_excluded"
   ],
   "note": "the error is bounded by the threshold times the square of the dimension; excluded states still contribute to the partition function"
  },
  {
   "property": "C94",
   "status": "proved",
   "theorems": [
    "Verif.Diag.C94_transform",
    "Verif.Diag.C94_matsubara",
    "Verif.Diag.C94_real"
   ],
   "note": "as stated"
  },
  {
   "property": "C95",
   "status": "proved",
   "theorems": [
    "Verif.Diag.C95_sum_rule",
    "Verif.Diag.C95_jump",
    "Verif.Diag.C95_positive",
    "Verif.Diag.C95_hermitian",
    "Verif.Diag.car",
    "Verif.Diag.cre_adjoint"
   ],
   "note": "as stated; without excluded states"
  },
  {
   "property": "C96",
   "status": "partial",
   "theorems": [
    "Verif.LegMat.C96_matrix",
    "Verif.LegMat.C96_direct_frequency",
    "Verif.LegMat.C96_direct_time",
    "Verif.LegMat.C96_bosons",
    "Verif.LegMat.poisson_exists"
   ],
   "note": "true for fermions, given the integral of Poisson for the Bessel functions of boost; false for bosonic meshes, whose index n is treated as that of the fermionic frequency"
  },
  {
   "property": "C97",
   "status": "proved",
   "theorems": [
    "Verif.LegMat.C97_inverse",
    "Verif.LegMat.C97_series",
    "Verif.LegMat.C97_round_trip",
    "Verif.LegMat.orthogonal",
    "Verif.LegMat.norm_P"
   ],
   "note": "as stated, real arithmetic; from Matsubara frequencies the code first calls fourier, which is not part of this claim"
  },
  {
   "property": "C98",
   "status": "proved",
   "theorems": [
    "Verif.Diag.C98_legendre",
    "Verif.Diag.mod_eq"
   ],
   "note": "given the integral of Poisson for the modified Bessel functions of boost"
  },
  {
   "property": "C99",
   "status": "partial",
   "theorems": [
    "Verif.GfCore.C99_assign",
    "Verif.GfCore.C99_lazy",
    "Verif.GfCore.C99_view",
    "Verif.GfCore.C99_inplace",
    "Verif.GfCore.C99_transposed",
    "Verif.GfCore.C99_part",
    "Verif.GfCore.C99_shifted"
   ],
   "note": "true if every operand is either disjoint from the target or addresses it in the same way; false for other views of the storage of the target (witnesses: transposed view, view of a part, shifted argument)"
  }
 ]
}