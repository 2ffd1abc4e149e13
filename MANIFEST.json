{
 "claims": [
  {
   "property": "C01",
   "status": "proved",
   "theorems": [
    "Legume.C01_layers_tile",
    "Legume.C01_layer_positions"
   ],
   "note": "Invariant over all histories of building calls, including rejected ones."
  },
  {
   "property": "C02",
   "status": "proved",
   "theorems": [
    "Legume.C02_get_eps_region",
    "Legume.C02_get_eps_outside"
   ],
   "note": "Exact arithmetic; the in-plane map of the region is characterised in C08."
  },
  {
   "property": "C03",
   "status": "proved",
   "theorems": [
    "Legume.C03_get_eps_in_bounds",
    "Legume.C03_bounds_attained"
   ],
   "note": ""
  },
  {
   "property": "C04",
   "status": "proved",
   "theorems": [
    "Legume.C04_eps_avg",
    "Legume.C04_order_independent"
   ],
   "note": ""
  },
  {
   "property": "C05",
   "status": "partial",
   "theorems": [
    "Legume.C05_rejected_unchanged_partial",
    "Legume.C05_list_prefix",
    "Legume.C05_which_error",
    "Legume.C05_list_not_atomic"
   ],
   "note": "Full atomicity is false of the code for add_shape with a list (C05_list_not_atomic); proved for all other calls, and the exact effect of a failing list call is C05_list_prefix."
  },
  {
   "property": "C06",
   "status": "proved",
   "theorems": [
    "Legume.C06_z_to_lind",
    "Legume.C06_agrees_with_get_eps",
    "Legume.C06_interface_disagreement"
   ],
   "note": "At interfaces the two functions take different layers (C06_interface_disagreement), as the statement allows."
  },
  {
   "property": "C07",
   "status": "proved",
   "theorems": [
    "Legume.C07_add_qw_iff",
    "Legume.C07_qw_in_layer"
   ],
   "note": ""
  },
  {
   "property": "C08",
   "status": "partial",
   "theorems": [
    "Legume.C08_get_eps_periodic_map_partial",
    "Legume.C08_orthogonal_partial",
    "Legume.C08_translation_invariance_partial",
    "Legume.C08_hexagonal_not_periodic",
    "Legume.C08_far_shape_missed"
   ],
   "note": "The full statement is false of the code: on the hexagonal lattice the number of periods scanned is too small for points along the long diagonal (C08_hexagonal_not_periodic), and a shape whose centre lies outside the scanned window is missed (C08_far_shape_missed). Proved when the scanned window covers the shape images, in particular for orthogonal lattices with shapes inside the cell."
  },
  {
   "property": "C09",
   "status": "proved",
   "theorems": [
    "Legume.C09_reciprocal_dual",
    "Legume.C09_phase_one"
   ],
   "note": ""
  },
  {
   "property": "C10",
   "status": "proved",
   "theorems": [
    "Legume.C10_bz_path",
    "Legume.C10_int_ns_rejected"
   ],
   "note": "Includes the disagreement that a plain integer ns (documented) is rejected with TypeError."
  },
  {
   "property": "C11",
   "status": "proved",
   "theorems": [
    "Legume.C11_square_X",
    "Legume.C11_square_M",
    "Legume.C11_hexagonal_M",
    "Legume.C11_hexagonal_K",
    "Legume.C11_wrong_lattice_rejected"
   ],
   "note": ""
  },
  {
   "property": "C12",
   "status": "proved",
   "theorems": [
    "Legume.C12_circle_conj",
    "Legume.C12_ellipse_conj",
    "Legume.C12_poly_conj",
    "Legume.C12_layer_conj",
    "Legume.C12_layer_value"
   ],
   "note": "Exact arithmetic with all regularising constants; the Bessel function is an arbitrary real function."
  },
  {
   "property": "C13",
   "status": "proved",
   "theorems": [
    "Legume.C13_area",
    "Legume.C13_rejects_clockwise",
    "Legume.C13_first_vertex",
    "Legume.C13_rigid_motion"
   ],
   "note": ""
  },
  {
   "property": "C14",
   "status": "proved",
   "theorems": [
    "Legume.C14_rotate_area_com",
    "Legume.C14_rotate_compose",
    "Legume.C14_rotate_rigid"
   ],
   "note": ""
  },
  {
   "property": "C15",
   "status": "proved",
   "theorems": [
    "Legume.C15_square",
    "Legume.C15_hexagon"
   ],
   "note": ""
  },
  {
   "property": "C16",
   "status": "partial",
   "theorems": [
    "Legume.C16_circle_translate",
    "Legume.C16_poly_translate_partial",
    "Legume.C16_tiny_g_no_phase",
    "Legume.C16_ellipse_translate",
    "Legume.C16_ellipse_center_rotated"
   ],
   "note": "Circle, Ellipse: full. Poly: exact at G=0 and outside the box |Gx|,|Gy|<1e-10; inside the box the code returns the area without phase (C16_tiny_g_no_phase). C16_ellipse_center_rotated records that x_cent,y_cent of a tilted ellipse are coordinates in the rotated frame."
  },
  {
   "property": "C17",
   "status": "proved",
   "theorems": [
    "Legume.C17_members",
    "Legume.C17_structure"
   ],
   "note": ""
  },
  {
   "property": "C18",
   "status": "partial",
   "theorems": [
    "Legume.C18_sound",
    "Legume.C18_complete_partial",
    "Legume.C18_disc_partial",
    "Legume.C18_symmetric_partial",
    "Legume.C18_oblique_incomplete"
   ],
   "note": "Soundness for all lattices. Completeness of the disc is false for very oblique lattices (C18_oblique_incomplete) and proved under an explicit obliqueness condition."
  },
  {
   "property": "C19",
   "status": "partial",
   "theorems": [
    "Legume.C19_hermitian",
    "Legume.C19_entry_partial",
    "Legume.C19_real_storage_error",
    "Legume.C19_mixed_storage_wrong",
    "Legume.C19_homogeneity_test_wrong",
    "Legume.C19_homogeneous"
   ],
   "note": "Hermiticity for all transforms. Entry formula proved when the two sample arrays are both stored complex, or both real (then up to C19_real_storage_error). Mixed storage loses phases (C19_mixed_storage_wrong) and the homogeneity test inspects one quadrant of differences only (C19_homogeneity_test_wrong)."
  },
  {
   "property": "C20",
   "status": "proved",
   "theorems": [
    "Legume.C20_entry",
    "Legume.C20_hermitian",
    "Legume.C20_used"
   ],
   "note": ""
  },
  {
   "property": "C21",
   "status": "partial",
   "theorems": [
    "Legume.C21_transpose_partial",
    "Legume.C21_transpose_real_partial"
   ],
   "note": "Proved for complex storage and, up to the dropped imaginary parts, for real storage; mixed storage is wrong (see C19)."
  },
  {
   "property": "C22",
   "status": "proved",
   "theorems": [
    "Legume.C22_assertion",
    "Legume.C22_three_layers",
    "Legume.C22_vectorised"
   ],
   "note": "Exact complex arithmetic."
  },
  {
   "property": "C23",
   "status": "proved",
   "theorems": [
    "Legume.C23_split",
    "Legume.C23_split_zeros"
   ],
   "note": ""
  },
  {
   "property": "C24",
   "status": "proved",
   "theorems": [
    "Legume.C24_reverse",
    "Legume.C24_reverse_zeros"
   ],
   "note": ""
  },
  {
   "property": "C25",
   "status": "proved",
   "theorems": [
    "Legume.C25_interfaces",
    "Legume.C25_no_layers"
   ],
   "note": "A stack without inner layers raises IndexError (C25_no_layers)."
  },
  {
   "property": "C26",
   "status": "proved",
   "theorems": [
    "Legume.C26_real",
    "Legume.C26_real_three",
    "Legume.C26_search",
    "Legume.C26_root_on_grid_missed",
    "Legume.C26_modes",
    "Legume.C26_modes_length",
    "Legume.C26_modes_reuse"
   ],
   "note": "The root finder is a parameter with the contract of brentq. A root exactly on a sampling point is missed (C26_root_on_grid_missed), which the statement allows since it speaks of strict sign changes."
  },
  {
   "property": "C27",
   "status": "proved",
   "theorems": [
    "Legume.C27_layer",
    "Legume.C27_half_line",
    "Legume.C27_layer_error",
    "Legume.C27_half_line_error"
   ],
   "note": "The code adds 1e-20 to the exponent: exact identity for the shifted exponent and explicit error bound for the stated one."
  },
  {
   "property": "C28",
   "status": "proved",
   "theorems": [
    "Legume.C28_adjoint",
    "Legume.C28_adjoint_regularised",
    "Legume.C28_error",
    "Legume.C28_completion"
   ],
   "note": "Exact for the exact layer integrals; the code adds 1e-20 to the exponents, whose effect is described exactly (C28_adjoint_regularised) and bounded explicitly (C28_error)."
  },
  {
   "property": "C29",
   "status": "proved",
   "theorems": [
    "Legume.C29_hermitian",
    "Legume.C29_upper",
    "Legume.C29_blocks"
   ],
   "note": "For every matrix of computed entries."
  },
  {
   "property": "C30",
   "status": "proved",
   "theorems": [
    "Legume.C30_basis",
    "Legume.C30_decouple",
    "Legume.C30_accepts",
    "Legume.C30_eigenvectors",
    "Legume.C30_spectrum",
    "Legume.C30_residual",
    "Legume.C30_missing_mode",
    "Legume.C30_sizes",
    "Legume.C30_element",
    "Legume.C30_eps_inv",
    "Legume.C30_commutes"
   ],
   "note": "C30_commutes derives the commutation with the mirror from the matrix elements of a mirror-symmetric structure; C30_residual bounds the coupling accepted by the check when commutation is only approximate; C30_sizes counts both sectors. Reciprocal vectors of a mode are assumed spaced by more than the lookup tolerance."
  },
  {
   "property": "C31",
   "status": "partial",
   "theorems": [
    "Legume.C31_history_partial",
    "Legume.C31_repeat",
    "Legume.C31_failed_call",
    "Legume.C31_stale_eps",
    "Legume.C31_stale_ind",
    "Legume.C31_stale_loss",
    "Legume.C31_only_gmodes_counterexample",
    "Legume.C31_symmetry_counterexample"
   ],
   "note": "Holds for repeated calls with any options, and for calls without kz_symmetry and with compute_im=True after calls with the same only_gmodes. The counterexample theorems show why the other cases fail."
  },
  {
   "property": "C32",
   "status": "proved",
   "theorems": [
    "Legume.C32_gme",
    "Legume.C32_pwe",
    "Legume.C32_abs",
    "Legume.C32_one_parity",
    "Legume.C32_eigsh"
   ],
   "note": "Every branch of run (eigh with and without kz_symmetry, eigsh) and PlaneWaveExp.run; eigh enters through its contract."
  },
  {
   "property": "C33",
   "status": "partial",
   "theorems": [
    "Legume.C33_light_line",
    "Legume.C33_nonneg_partial",
    "Legume.C33_guided",
    "Legume.C33_value"
   ],
   "note": "All modes except those with a plane wave exactly on a light line, where the code divides by zero. C33_value gives the size of the loss."
  },
  {
   "property": "C34",
   "status": "proved",
   "theorems": [
    "Legume.C34_fraction"
   ],
   "note": "For finite losses. Near the threshold 1e-15 the returned value can be as low as half the true share; C34_fraction gives the bound."
  },
  {
   "property": "C35",
   "status": "proved",
   "theorems": [
    "Legume.C35_additive",
    "Legume.C35_parts",
    "Legume.C35_phase"
   ],
   "note": "Sum over channels in any order; couplings as matrix elements over all basis states; invariant under the phase of the eigenvector."
  },
  {
   "property": "C36",
   "status": "proved",
   "theorems": [
    "Legume.C36_psd",
    "Legume.C36_hermitian",
    "Legume.C36_energy",
    "Legume.C36_frequencies",
    "Legume.C36_bad_pol"
   ],
   "note": "Inverse permittivity assumed positive semidefinite; frequencies through the contract of eigh, which eigh_exists shows can be met."
  },
  {
   "property": "C37",
   "status": "partial",
   "theorems": [
    "Legume.C37_unit_vectors_partial",
    "Legume.C37_not_exact",
    "Legume.C37_singular",
    "Legume.C37_divergence",
    "Legume.C37_divergence_true_partial",
    "Legume.C37_energy"
   ],
   "note": "Orthonormality exact; orthogonality to k+G and zero divergence exact for the shifted vector k+G+(1e-10,0) that the code uses, and within 1e-10 for k+G itself. C37_not_exact and C37_singular show that the exact statement fails."
  },
  {
   "property": "C38",
   "status": "proved",
   "theorems": [
    "Legume.C38_potential_abs",
    "Legume.C38_potential_tbt",
    "Legume.C38_potential_value",
    "Legume.C38_truncations_transposed",
    "Legume.C38_hermitian",
    "Legume.C38_kinetic",
    "Legume.C38_transposed_energies",
    "Legume.C38_energies",
    "Legume.C38_check"
   ],
   "note": "Shapes enter through conjugate-symmetric transforms, which C17 proves for the shapes of the library; eigensolver and sorting through their contracts."
  },
  {
   "property": "C39",
   "status": "partial",
   "theorems": [
    "Legume.C39_sum_partial",
    "Legume.C39_actual_weights",
    "Legume.C39_two_shapes_wrong",
    "Legume.C39_negative_shift"
   ],
   "note": "False in general: the division by the cell area is inside the loop over shapes (C39_two_shapes_wrong; exact weights in C39_actual_weights), and attractive potentials are shifted (C39_negative_shift)."
  },
  {
   "property": "C40",
   "status": "proved",
   "theorems": [
    "Legume.C40_fractions",
    "Legume.C40_blocks"
   ],
   "note": ""
  },
  {
   "property": "C41",
   "status": "partial",
   "theorems": [
    "Legume.C41_pairs",
    "Legume.C41_multiplicities",
    "Legume.C41_lossless_partial",
    "Legume.C41_not_conjugate"
   ],
   "note": "True without losses (C41_lossless_partial); with losses false as stated (C41_not_conjugate). C41_pairs and C41_multiplicities prove the symmetry w -> -w for all problems, which carries the conclusion about discarding the negative half."
  },
  {
   "property": "C42",
   "status": "partial",
   "theorems": [
    "Legume.C42_zero_epochs",
    "Legume.C42_bounds_partial"
   ],
   "note": "Fails for zero epochs (C42_zero_epochs); proved for at least one epoch."
  },
  {
   "property": "C43",
   "status": "proved",
   "theorems": [
    "Legume.C43_history",
    "Legume.C43_iterates",
    "Legume.C43_last",
    "Legume.C43_last_bounded",
    "Legume.C43_one_epoch_bounded"
   ],
   "note": "The returned parameters with bounds are covered too, from two epochs on (C43_last_bounded, counterexample for one)."
  },
  {
   "property": "C44",
   "status": "proved",
   "theorems": [
    "Legume.C44_moments",
    "Legume.C44_run_moments",
    "Legume.C44_second_moment",
    "Legume.C44_constant",
    "Legume.C44_step_lt_one",
    "Legume.C44_linear"
   ],
   "note": "The step in the run itself is covered by C44_linear."
  },
  {
   "property": "C45",
   "status": "partial",
   "theorems": [
    "Legume.C45_lists_accepted",
    "Legume.C45_outcome",
    "Legume.C45_parse_partial",
    "Legume.C45_all_lists"
   ],
   "note": "Pairs given as lists are not checked (C45_lists_accepted)."
  },
  {
   "property": "C46",
   "status": "proved",
   "theorems": [
    "Legume.C46_adjoint",
    "Legume.C46_values",
    "Legume.C46_repeated"
   ],
   "note": "C46_repeated shows that the restriction to distinct positions is needed."
  },
  {
   "property": "C47",
   "status": "proved",
   "theorems": [
    "Legume.C47_directional",
    "Legume.C47_change",
    "Legume.C47_inconsistent"
   ],
   "note": "Complex dtype. C47_change: the matrix is additive in its data."
  },
  {
   "property": "C48",
   "status": "proved",
   "theorems": [
    "Legume.C48_triangle",
    "Legume.C48_pairing",
    "Legume.C48_eigenvalues",
    "Legume.C48_derivative"
   ],
   "note": "Includes the eigenvector part and the derivative along any differentiable path."
  },
  {
   "property": "C49",
   "status": "proved",
   "theorems": [
    "Legume.C49_pairing",
    "Legume.C49_derivative"
   ],
   "note": "C49_derivative proves the derivative of the inverse along any differentiable path."
  },
  {
   "property": "C50",
   "status": "proved",
   "theorems": [
    "Legume.C50_row",
    "Legume.C50_adjoint",
    "Legume.C50_outside"
   ],
   "note": ""
  },
  {
   "property": "C51",
   "status": "proved",
   "theorems": [
    "Legume.C51_implicit",
    "Legume.C51_chain"
   ],
   "note": "Differentiability of the root is proved for a continuous branch."
  },
  {
   "property": "C52",
   "status": "proved",
   "theorems": [
    "Legume.C52_quotients",
    "Legume.C52_affine",
    "Legume.C52_int_step",
    "Legume.C52_limit"
   ],
   "note": "C52_limit relates the quotient to the derivative for every function."
  },
  {
   "property": "C53",
   "status": "proved",
   "theorems": [
    "Legume.C53_nearest",
    "Legume.C53_negative"
   ],
   "note": "Contract assumed for argsort is IsArgsort."
  },
  {
   "property": "C54",
   "status": "proved",
   "theorems": [
    "Legume.C54_scatters",
    "Legume.C54_scatters_exists",
    "Legume.C54_identity",
    "Legume.C54_assoc",
    "Legume.C54_transfer",
    "Legume.C54_transfer_meaning"
   ],
   "note": "Scalar scattering matrices, as in the code."
  },
  {
   "property": "C55",
   "status": "proved",
   "theorems": [
    "Legume.C55_once",
    "Legume.C55_repetition",
    "Legume.C55_real",
    "Legume.C55_eps_real",
    "Legume.C55_periodic",
    "Legume.C55_grid"
   ],
   "note": ""
  },
  {
   "property": "C56",
   "status": "partial",
   "theorems": [
    "Legume.C56_zero_wrong_exception",
    "Legume.C56_convert_partial",
    "Legume.C56_decreasing"
   ],
   "note": "Fails for the Python float 0.0 (C56_zero_wrong_exception)."
  },
  {
   "property": "C57",
   "status": "partial",
   "theorems": [
    "Legume.C57_orders",
    "Legume.C57_pairing_partial",
    "Legume.C57_pairing_wrong",
    "Legume.C57_present_partial",
    "Legume.C57_include"
   ],
   "note": "Pairing and presence hold when the mode count does not decrease along the grid and cutoffs are separated by more than 1e-10; refuted otherwise."
  },
  {
   "property": "C58",
   "status": "partial",
   "theorems": [
    "Legume.C58_axis",
    "Legume.C58_kunits_partial",
    "Legume.C58_degenerate"
   ],
   "note": "The normalisation holds for paths of positive length; refuted for paths of zero length."
  },
  {
   "property": "C59",
   "status": "proved",
   "theorems": [
    "Legume.C59_light_line",
    "Legume.C59_below",
    "Legume.C59_folded"
   ],
   "note": ""
  },
  {
   "property": "C60",
   "status": "proved",
   "theorems": [
    "Legume.C60_backend",
    "Legume.C60_print",
    "Legume.C60_history",
    "Legume.C60_print_history",
    "Legume.C60_available"
   ],
   "note": ""
  },
  {
   "property": "C61",
   "status": "proved",
   "theorems": [
    "Legume.C61_content_history",
    "Legume.C61_add_shape_ok_iff",
    "Legume.C61_z_mid"
   ],
   "note": ""
  },
  {
   "property": "C62",
   "status": "proved",
   "theorems": [
    "Legume.C62_fourier_shape",
    "Legume.C62_radius",
    "Legume.C62_empty"
   ],
   "note": ""
  },
  {
   "property": "C63",
   "status": "proved",
   "theorems": [
    "Legume.C63_inner",
    "Legume.C63_clad",
    "Legume.C63_total"
   ],
   "note": "Exact arithmetic; the error bound is linear in the regulariser."
  },
  {
   "property": "C64",
   "status": "proved",
   "theorems": [
    "Legume.C64_upper",
    "Legume.C64_lower"
   ],
   "note": "At frequencies where the growing amplitude vanishes the code divides by zero; excluded by hypothesis. C119 shows that this does not happen in open channels."
  },
  {
   "property": "C65",
   "status": "proved",
   "theorems": [
    "Legume.C65_overlap"
   ],
   "note": "The deviation due to the regulariser is bounded in C28_error. The displacement is tied to the curl of the magnetic field by C67."
  },
  {
   "property": "C66",
   "status": "proved",
   "theorems": [
    "Legume.C66_psd"
   ],
   "note": "Exact layer integrals; deviation bounded in C28_error."
  },
  {
   "property": "C67",
   "status": "proved",
   "theorems": [
    "Legume.C67_divergence",
    "Legume.C67_curl",
    "Legume.C67_overlap_field"
   ],
   "note": "Sign convention exp(+i omega t). The E field is the matrix product with the inverse permittivity and is modelled (eFt) without a separate claim."
  },
  {
   "property": "C68",
   "status": "partial",
   "theorems": [
    "Legume.C68_pstart_partial",
    "Legume.C68_one_epoch_overwrites"
   ],
   "note": "Fails for one epoch with bounds."
  },
  {
   "property": "C69",
   "status": "proved",
   "theorems": [
    "Legume.C69_eigsh_derivative",
    "Legume.C69_spdot",
    "Legume.C69_fmap",
    "Legume.C69_eig_undefined",
    "Legume.C69_eig_names"
   ],
   "note": "The conjugate-gradient solver is assumed to return some exact solution."
  },
  {
   "property": "C70",
   "status": "proved",
   "theorems": [
    "Legume.C70_shifted",
    "Legume.C70_bounds"
   ],
   "note": ""
  },
  {
   "property": "C71",
   "status": "partial",
   "theorems": [
    "Legume.C71_returns_partial",
    "Legume.C71_index_error",
    "Legume.C71_labels",
    "Legume.C71_parity"
   ],
   "note": "Labels are proved right whenever the call returns; it always returns when the odd sector is not larger than the even one."
  },
  {
   "property": "C72",
   "status": "proved",
   "theorems": [
    "Legume.C72_requests"
   ],
   "note": ""
  },
  {
   "property": "C73",
   "status": "partial",
   "theorems": [
    "Legume.C73_ampere_partial",
    "Legume.C73_faraday_partial",
    "Legume.C73_not_maxwell"
   ],
   "note": "The statement is false of the code: C73_not_maxwell. The partial theorems show that the missing factor |k+G| is the only defect."
  },
  {
   "property": "C74",
   "status": "proved",
   "theorems": [
    "Legume.C74_components",
    "Legume.C74_field_names"
   ],
   "note": ""
  },
  {
   "property": "C75",
   "status": "proved",
   "theorems": [
    "Legume.C75_accepted",
    "Legume.C75_refused",
    "Legume.C75_polariton"
   ],
   "note": ""
  },
  {
   "property": "C76",
   "status": "partial",
   "theorems": [
    "Legume.C76_couplings",
    "Legume.C76_coupling_value",
    "Legume.C76_not_invariant",
    "Legume.C76_phases_partial"
   ],
   "note": "False for photonic phases other than a common one and signs (C76_not_invariant); proved for those and for all excitonic phases."
  },
  {
   "property": "C77",
   "status": "partial",
   "theorems": [
    "Legume.C77_order_matters",
    "Legume.C77_fixing_last_partial"
   ],
   "note": "False in general (C77_order_matters); proved for permutations fixing the last well."
  },
  {
   "property": "C78",
   "status": "partial",
   "theorems": [
    "Legume.C78_stored_partial",
    "Legume.C78_upper_lost"
   ],
   "note": "The highest polariton is lost; all others are proved to be stored in order."
  },
  {
   "property": "C79",
   "status": "partial",
   "theorems": [
    "Legume.C79_same_kpoints",
    "Legume.C79_defaults",
    "Legume.C79_caller_changed",
    "Legume.C79_other_options_partial"
   ],
   "note": "The first two claims are proved; the caller's dictionaries are changed in the entry kpoints (C79_caller_changed) and in no other."
  },
  {
   "property": "C80",
   "status": "proved",
   "theorems": [
    "Legume.C80_between",
    "Legume.C80_frequency",
    "Legume.C80_grid",
    "Legume.C80_covers"
   ],
   "note": ""
  },
  {
   "property": "C81",
   "status": "proved",
   "theorems": [
    "Legume.C81_quality",
    "Legume.C81_bar"
   ],
   "note": ""
  },
  {
   "property": "C82",
   "status": "proved",
   "theorems": [
    "Legume.C82_dispersion",
    "Legume.C82_splitting",
    "Legume.C82_sum_rule"
   ],
   "note": ""
  },
  {
   "property": "C83",
   "status": "proved",
   "theorems": [
    "Legume.C83_general",
    "Legume.C83_along_y",
    "Legume.C83_zero",
    "Legume.C83_rectangle",
    "Legume.C83_dropped_edge"
   ],
   "note": ""
  },
  {
   "property": "C84",
   "status": "proved",
   "theorems": [
    "Legume.C84_circle",
    "Legume.C84_ellipse",
    "Legume.C84_circle_region",
    "Legume.C84_ellipse_region",
    "Legume.C84_area"
   ],
   "note": "scipy.special.j1 is replaced by Bessel's integral for J1; its numerical evaluation is trusted."
  },
  {
   "property": "C85",
   "status": "proved",
   "theorems": [
    "Legume.C85_abscissae",
    "Legume.C85_angles"
   ],
   "note": "Path lengths of zero (all points equal) give a division by zero and are excluded; labels are not modelled."
  },
  {
   "property": "C86",
   "status": "proved",
   "theorems": [
    "Legume.C86_xy_grid",
    "Legume.C86_xy_cell",
    "Legume.C86_xy_collapse",
    "Legume.C86_scalar_periods",
    "Legume.C86_z_grid"
   ],
   "note": "C86_xy_collapse and C86_scalar_periods record where the code departs from its documentation."
  },
  {
   "property": "C87",
   "status": "proved",
   "theorems": [
    "Legume.C87_accept",
    "Legume.C87_square_axes",
    "Legume.C87_hexagonal_axes",
    "Legume.C87_rectangular_axes",
    "Legume.C87_invariant",
    "Legume.C87_found",
    "Legume.C87_square_by_vectors",
    "Legume.C87_rotated_rectangular",
    "Legume.C87_tbt_hexagonal"
   ],
   "note": "C87_rotated_rectangular, C87_square_by_vectors and C87_tbt_hexagonal record where the claim cannot be extended."
  },
  {
   "property": "C88",
   "status": "proved",
   "theorems": [
    "Legume.C88_history",
    "Legume.C88_pass_self",
    "Legume.C88_pass_self_variadic",
    "Legume.C88_bad_bounds"
   ],
   "note": "SciPy is represented by its sequence of evaluations and reports."
  },
  {
   "property": "C89",
   "status": "proved",
   "theorems": [
    "Legume.C89_polygon",
    "Legume.C89_layers",
    "Legume.C89_raster"
   ],
   "note": "The file library is represented by the list of elements it is given; the contour finder by the contours."
  },
  {
   "property": "C90",
   "status": "proved",
   "theorems": [
    "Legume.C90_makers",
    "Legume.C90_missing",
    "Legume.C90_affine",
    "Legume.C90_limit",
    "Legume.C90_ft2square"
   ],
   "note": "Arrays are flattened; no broadcasting."
  },
  {
   "property": "C91",
   "status": "proved",
   "theorems": [
    "Legume.C91_homogeneous"
   ],
   "note": ""
  },
  {
   "property": "C92",
   "status": "proved",
   "theorems": [
    "Legume.C92_displacement",
    "Legume.C92_lattice_shift",
    "Legume.C92_order",
    "Legume.C92_reversal",
    "Legume.C92_permittivity"
   ],
   "note": ""
  },
  {
   "property": "C93",
   "status": "proved",
   "theorems": [
    "Legume.C93_elements",
    "Legume.C93_spectrum"
   ],
   "note": "for exact roots and exact layer integrals; interpolation and regulariser are treated in C27, C28 and C63"
  },
  {
   "property": "C94",
   "status": "proved",
   "theorems": [
    "Legume.C94_dispersion",
    "Legume.C94_branch",
    "Legume.C94_slab",
    "Legume.C94_even"
   ],
   "note": ""
  },
  {
   "property": "C95",
   "status": "proved",
   "theorems": [
    "Legume.C95_displacement",
    "Legume.C95_same_transform",
    "Legume.C95_order",
    "Legume.C95_lattice_shift"
   ],
   "note": "Reals instead of floating point; the eigensolver is any Hermitian solver with ascending eigenvalues (numpy.linalg.eigh). truncate_g='abs'."
  },
  {
   "property": "C96",
   "status": "proved",
   "theorems": [
    "Legume.C96_upside_down",
    "Legume.C96_basis"
   ],
   "note": "exact roots and exact layer integrals, as in C93"
  },
  {
   "property": "C97",
   "status": "proved",
   "theorems": [
    "Legume.C97_subdivision",
    "Legume.C97_basis"
   ],
   "note": "exact roots and exact layer integrals, as in C93"
  },
  {
   "property": "C98",
   "status": "proved",
   "theorems": [
    "Legume.C98_pwe",
    "Legume.C98_gme_abs",
    "Legume.C98_gme_tbt",
    "Legume.C98_coefficient",
    "Legume.C98_average",
    "Legume.C98_real"
   ],
   "note": "GME with 'tbt': under the stated condition on the storage of coefficients (see C19)"
  },
  {
   "property": "C99",
   "status": "proved",
   "theorems": [
    "Legume.C99_magnetic",
    "Legume.C99_modes",
    "Legume.C99_electric",
    "Legume.C99_energy",
    "Legume.C99_nonnegative"
   ],
   "note": "With the exact layer integrals (the code adds 1e-20 to the exponents, see C28) and an exact eigensolver"
  },
  {
   "property": "C100",
   "status": "proved",
   "theorems": [
    "Legume.C100_xy",
    "Legume.C100_xz",
    "Legume.C100_yz",
    "Legume.C100_planes",
    "Legume.C100_errors"
   ],
   "note": "Field names other than H, D, E and the Fourier coefficients themselves are the subject of C67 and C74"
  },
  {
   "property": "C101",
   "status": "proved",
   "theorems": [
    "Legume.C101_coefficient",
    "Legume.C101_bounds",
    "Legume.C101_pwe",
    "Legume.C101_gme",
    "Legume.C101_circle",
    "Legume.C101_ellipse",
    "Legume.C101_circles"
   ],
   "note": "Positivity holds while (number of plane waves) x (error of a coefficient) is below the lowest permittivity; exact real arithmetic"
  },
  {
   "property": "C102",
   "status": "proved",
   "theorems": [
    "Legume.C102_raise",
    "Legume.C102_between"
   ],
   "note": "Exact real arithmetic and an exact eigensolver; the margin comes from the errors of the transforms (C101)"
  },
  {
   "property": "C103",
   "status": "proved",
   "theorems": [
    "Legume.C103_truncation"
   ],
   "note": "Exact real arithmetic and an exact eigensolver. For TE the truncation of the inverse matrix is not variational and nothing is claimed"
  },
  {
   "property": "C104",
   "status": "proved",
   "theorems": [
    "Legume.C104_modes",
    "Legume.C104_drawn",
    "Legume.C104_found",
    "Legume.C104_code"
   ],
   "note": "Exact real arithmetic and eigensolver; the layer integrals are the exact ones (C106 bounds the effect of the 1e-20 regulariser); the guided modes enter as a parameter required to decay in the claddings in C104_modes and C104_drawn, and are those that the code itself finds with gmode_compute='exact' in C104_found and C104_code"
  },
  {
   "property": "C105",
   "status": "proved",
   "theorems": [
    "Legume.C105_order",
    "Legume.C105_raise",
    "Legume.C105_code"
   ],
   "note": "As C104, with C105_code for the guided modes that the code itself finds; with eps_eff='average' the guided modes themselves depend on the permittivities and nothing is claimed"
  },
  {
   "property": "C106",
   "status": "proved",
   "theorems": [
    "Legume.C106_near",
    "Legume.C106_modes",
    "Legume.C106_order",
    "Legume.C106_size",
    "Legume.C106_drawn"
   ],
   "note": "Exact real arithmetic and eigensolver otherwise; the arguments of the integrals must not hit -1e-20 exactly, where the code divides by zero"
  },
  {
   "property": "C107",
   "status": "partial",
   "theorems": [
    "Legume.C107_pwe",
    "Legume.C107_gme",
    "Legume.C107_gme_partial",
    "Legume.C107_tbt",
    "Legume.C107_gme_displaced"
   ],
   "note": "False in general for guided-mode expansions with truncate_g='abs' (C107_gme_displaced negates it); proved for plane-wave expansions (C107_pwe), for 'tbt' with complex samples (C107_tbt), for inversion-symmetric structures with 'abs' (C107_gme_partial), and in general with the inverted permittivity (C107_gme)"
  },
  {
   "property": "C108",
   "status": "proved",
   "theorems": [
    "Legume.C108_reversal",
    "Legume.C108_real",
    "Legume.C108_inversion",
    "Legume.C108_shapes",
    "Legume.C108_branches",
    "Legume.C108_code"
   ],
   "note": "Equality with exact layer integrals; for the integrals of the code up to twice the bound of C106 (`C108_code`)."
  },
  {
   "property": "C109",
   "status": "proved",
   "theorems": [
    "Legume.C109_reversal",
    "Legume.C109_inversion",
    "Legume.C109_displacement",
    "Legume.C109_truncation",
    "Legume.C109_potential",
    "Legume.C109_between",
    "Legume.C109_raise"
   ],
   "note": "Bounds with the margin `N * |V| * err / area` for the errors of the transforms; several shapes only in cells of area 1, where the code treats them as drawn."
  },
  {
   "property": "C110",
   "status": "partial",
   "theorems": [
    "Legume.C110_tbt",
    "Legume.C110_abs",
    "Legume.C110_abs_partial",
    "Legume.C110_orthonormal",
    "Legume.C110_potential_tbt",
    "Legume.C110_potential_abs",
    "Legume.C110_abs_displaced"
   ],
   "note": "Fails with the default truncation for patterns not symmetric under inversion (`C110_abs_displaced`), and `get_pot_xy` raises IndexError with 'tbt' (`C110_potential_tbt`). Proved: 'tbt', inversion-symmetric patterns, orthonormality, the potential with 'abs'."
  },
  {
   "property": "C111",
   "status": "proved",
   "theorems": [
    "Legume.C111_between",
    "Legume.C111_drawn",
    "Legume.C111_holes",
    "Legume.C111_code"
   ],
   "note": "Guided modes are the normalised roots of the dispersion relation of the effective slab, distinct at each plane wave; exact layer integrals, `C111_code` for those of the code."
  },
  {
   "property": "C112",
   "status": "partial",
   "theorems": [
    "Legume.C112_weak_partial",
    "Legume.C112_one_well_partial",
    "Legume.C112_one_mode",
    "Legume.C112_complex",
    "Legume.C112_stored"
   ],
   "note": "False in general (`C112_complex`); exact criterion for one photonic mode, sufficient conditions otherwise."
  },
  {
   "property": "C113",
   "status": "proved",
   "theorems": [
    "Legume.C113_couplings",
    "Legume.C113_stored",
    "Legume.C113_uncoupled",
    "Legume.C113_real",
    "Legume.C113_no_losses"
   ],
   "note": ""
  },
  {
   "property": "C114",
   "status": "partial",
   "theorems": [
    "Legume.C114_planes",
    "Legume.C114_periodic",
    "Legume.C114_bloch_partial",
    "Legume.C114_xy_phase",
    "Legume.C114_xy_unequal",
    "Legume.C114_abs",
    "Legume.C114_repeated",
    "Legume.C114_errors",
    "Legume.C114_xy_wrong"
   ],
   "note": "The full statement is false of the code in the xy plane with periodic=False (C114_xy_phase, C114_xy_wrong, C114_xy_unequal) and for repeated letters (C114_repeated). Proved: planes and errors, periodic parts in all planes, moduli everywhere, and full fields in vertical planes and in the xy plane with equal grids and k along x (C114_bloch_partial)."
  },
  {
   "property": "C115",
   "status": "partial",
   "theorems": [
    "Legume.C115_markers",
    "Legume.C115_axis",
    "Legume.C115_cone",
    "Legume.C115_quality_partial",
    "Legume.C115_lossless",
    "Legume.C115_errors",
    "Legume.C115_pol"
   ],
   "note": "The full statement is false of the code for bands whose quality factors all reach Q_clip (C115_lossless) and for PlaneWaveExp objects with default arguments (C115_errors). Everything else is proved; quality factors under the hypothesis that one is below Q_clip (C115_quality_partial)."
  },
  {
   "property": "C116",
   "status": "partial",
   "theorems": [
    "Legume.C116_layer_image_partial",
    "Legume.C116_plane_in_layer",
    "Legume.C116_vertical_partial",
    "Legume.C116_hexagonal_partial",
    "Legume.C116_structure",
    "Legume.C116_structure_limits",
    "Legume.C116_zero_thickness",
    "Legume.C116_structure_errors",
    "Legume.C116_eps_ft",
    "Legume.C116_eps_ft_wrong_layer",
    "Legume.C116_eps_ft_pwe",
    "Legume.C116_eps_ft_errors",
    "Legume.C116_pot_ft"
   ],
   "note": "The full statement is false of the code for layers of zero thickness (C116_zero_thickness, C116_eps_ft_wrong_layer), shapes far from the origin (C08) and the arguments of the error theorems. The periodic map is proved for orthogonal lattices and for Lattice('hexagonal') with shapes near the origin (C116_layer_image_partial, C116_vertical_partial, C116_hexagonal_partial)."
  },
  {
   "property": "C117",
   "status": "proved",
   "theorems": [
    "Legume.C117_upside_down",
    "Legume.C117_basis",
    "Legume.C117_unpatterned",
    "Legume.C117_frequencies",
    "Legume.C117_losses",
    "Legume.C117_displacement",
    "Legume.C117_same_transform"
   ],
   "note": "The theorems on upside-down and unpatterned structures are about exact integrals over the layers (`ijExact`), the others about the integrals as computed."
  },
  {
   "property": "C118",
   "status": "proved",
   "theorems": [
    "Legume.C118_norm",
    "Legume.C118_separate",
    "Legume.C118_basis",
    "Legume.C118_slab",
    "Legume.C118_plain",
    "Legume.C118_lossless",
    "Legume.C118_outcome",
    "Legume.C118_reversal",
    "Legume.C118_finder",
    "Legume.C118_history"
   ],
   "note": "`C118_outcome` is about all normalisations and options; the others take the exact norm (`normExact`) and exact integrals over the layers (`ijExact`)."
  },
  {
   "property": "C119",
   "status": "proved",
   "theorems": [
    "Legume.C119_wave",
    "Legume.C119_coupling",
    "Legume.C119_run"
   ],
   "note": "Exact integrals over the layers (`ijExact`); the code's ones add 1e-20 to the arguments (C27)."
  },
  {
   "property": "C120",
   "status": "proved",
   "theorems": [
    "Legume.C120_energy"
   ],
   "note": ""
  },
  {
   "property": "C121",
   "status": "proved",
   "theorems": [
    "Legume.C121_both",
    "Legume.C121_sectors",
    "Legume.C121_accepts",
    "Legume.C121_angles",
    "Legume.C121_shapes",
    "Legume.C121_lattice"
   ],
   "note": "Exact integrals over the layers (`ijExact`); the code's ones add 1e-20 to the arguments (C27)."
  },
  {
   "property": "C122",
   "status": "proved",
   "theorems": [
    "Legume.C122_similar",
    "Legume.C122_symmetric",
    "Legume.C122_shapes",
    "Legume.C122_square",
    "Legume.C122_hexagonal"
   ],
   "note": "C122_hexagonal proves that the six-fold symmetry of the hexagonal lattice is broken by the set of plane waves."
  },
  {
   "property": "C123",
   "status": "proved",
   "theorems": [
    "Legume.C123_image",
    "Legume.C123_symmetric",
    "Legume.C123_lattice"
   ],
   "note": ""
  },
  {
   "property": "C124",
   "status": "partial",
   "theorems": [
    "Legume.C124_outlines_partial",
    "Legume.C124_ellipse",
    "Legume.C124_closed",
    "Legume.C124_corner"
   ],
   "note": "Proved for layers without ellipses and for the copies which are drawn; C124_corner and C124_ellipse refute the full claim for the code."
  },
  {
   "property": "C125",
   "status": "proved",
   "theorems": [
    "Legume.C125_ellipse",
    "Legume.C125_layer",
    "Legume.C125_structure",
    "Legume.C125_wells",
    "Legume.C125_lattice"
   ],
   "note": ""
  },
  {
   "property": "C126",
   "status": "proved",
   "theorems": [
    "Legume.C126_slab",
    "Legume.C126_scale",
    "Legume.C126_units"
   ],
   "note": ""
  },
  {
   "property": "C127",
   "status": "proved",
   "theorems": [
    "Legume.C127_image",
    "Legume.C127_symmetric"
   ],
   "note": ""
  },
  {
   "property": "C128",
   "status": "proved",
   "theorems": [
    "Legume.C128_reversal",
    "Legume.C128_branches",
    "Legume.C128_run",
    "Legume.C128_waves"
   ],
   "note": "Powers radiated into the two claddings separately are not the same in general and are not claimed. Channels on a light line of a layer or at normal incidence (|k+G| < 1e-10) are excluded, since the waves of the code are degenerate there. Exact integrals (ijExact); the code adds 1e-20 to the wave numbers in the denominators."
  },
  {
   "property": "C129",
   "status": "proved",
   "theorems": [
    "Legume.C129_units",
    "Legume.C129_scale",
    "Legume.C129_quality"
   ],
   "note": "Plane waves shorter than 1e-10 in either unit are excluded, since the code replaces them by 1e-10, and so are the constants of the search for guided modes which are not lengths (UnitNeutral, as in C126). Exact integrals (ijExact)."
  },
  {
   "property": "C130",
   "status": "partial",
   "theorems": [
    "Legume.C130_fresh",
    "Legume.C130_success_partial",
    "Legume.C130_failed",
    "Legume.C130_history",
    "Legume.C130_mixed",
    "Legume.C130_empty"
   ],
   "note": "False of the code as claimed: a failing call leaves the wave vectors of that call with older energies (C130_mixed). Proved for calls that return (C130_success_partial), with the exact state after failing calls (C130_failed, C130_history)."
  },
  {
   "property": "C131",
   "status": "partial",
   "theorems": [
    "Legume.C131_image_partial",
    "Legume.C131_density",
    "Legume.C131_norm",
    "Legume.C131_errors",
    "Legume.C131_re_periodic",
    "Legume.C131_reciprocal"
   ],
   "note": "False of the code for 're' and 'im' at wave vectors other than zero: the Bloch phase is missing (C131_re_periodic). Everything else holds, with the periodic part in place of the wave function (C131_image_partial), and the density is that of the wave function (C131_density)."
  },
  {
   "property": "C132",
   "status": "proved",
   "theorems": [
    "Legume.C132_upside_down",
    "Legume.C132_frequencies",
    "Legume.C132_subdivision",
    "Legume.C132_subdivision_frequencies",
    "Legume.C132_branches",
    "Legume.C132_branches_subdivision",
    "Legume.C132_run",
    "Legume.C132_run_slab",
    "Legume.C132_run_subdivision",
    "Legume.C132_run_layers",
    "Legume.C132_finders"
   ],
   "note": ""
  },
  {
   "property": "C133",
   "status": "partial",
   "theorems": [
    "Legume.C133_similar_partial",
    "Legume.C133_symmetric_partial",
    "Legume.C133_similar_fails"
   ],
   "note": "False of the code for several shapes in cells of area other than 1 (C133_similar_fails); proved for rotations and mirrors of all wells, for changes of unit with at most one shape, and for symmetric wells with one shape or area 1."
  },
  {
   "property": "C134",
   "status": "proved",
   "theorems": [
    "Legume.C134_fields"
   ],
   "note": ""
  },
  {
   "property": "C135",
   "status": "partial",
   "theorems": [
    "Legume.C135_turned_partial",
    "Legume.C135_turned_fails"
   ],
   "note": "False of the code for equal strengths along x and y (C135_turned_fails); proved when the vector of the roots of the strengths is mapped with the sample up to a sign, which includes all dipoles along z and half turns of dipoles in the plane."
  },
  {
   "property": "C136",
   "status": "proved",
   "theorems": [
    "Legume.C136_waves",
    "Legume.C136_primitive",
    "Legume.C136_excitons"
   ],
   "note": ""
  },
  {
   "property": "C137",
   "status": "proved",
   "theorems": [
    "Legume.C137_supercell"
   ],
   "note": ""
  },
  {
   "property": "C138",
   "status": "proved",
   "theorems": [
    "Legume.C138_code",
    "Legume.C138_supercell"
   ],
   "note": "Guided modes are taken from `branchGuided` (for every mode number a frequency depending on the length of the wave vector); C118 shows that the search of the code has this form for exact root finders and separated wave vectors. Layers of the cell that the code takes for uniform must have no shapes."
  },
  {
   "property": "C139",
   "status": "partial",
   "theorems": [
    "Legume.C139_exact",
    "Legume.C139_interp_partial",
    "Legume.C139_report",
    "Legume.C139_shares",
    "Legume.C139_exciton",
    "Legume.C139_one_row",
    "Legume.C139_interp_negative"
   ],
   "note": "False for gmode_compute='interp': the time for the construction of the matrices can be negative (C139_interp_negative); all other statements hold there too (C139_interp_partial). Everything holds for 'exact'."
  },
  {
   "property": "C140",
   "status": "proved",
   "theorems": [
    "Legume.C140_photon",
    "Legume.C140_exciton",
    "Legume.C140_coupling",
    "Legume.C140_consistent"
   ],
   "note": ""
  },
  {
   "property": "C141",
   "status": "proved",
   "theorems": [
    "Legume.C141_claddings",
    "Legume.C141_layers",
    "Legume.C141_custom",
    "Legume.C141_rejected",
    "Legume.C141_classes"
   ],
   "note": ""
  },
  {
   "property": "C142",
   "status": "partial",
   "theorems": [
    "Legume.C142_supercell_partial",
    "Legume.C142_supercell_wrong"
   ],
   "note": "False of the code in general (C142_supercell_wrong); proved when all shapes enter with the same weight."
  },
  {
   "property": "C143",
   "status": "proved",
   "theorems": [
    "Legume.C143_gradient",
    "Legume.C143_error"
   ],
   "note": "The factor of the regularised square root is exact (C143_gradient) and bounded (C143_error). autograd's rules for arithmetic, abs and indexing are part of the trusted base."
  },
  {
   "property": "C144",
   "status": "proved",
   "theorems": [
    "Legume.C144_tbt",
    "Legume.C144_abs"
   ],
   "note": ""
  },
  {
   "property": "C145",
   "status": "proved",
   "theorems": [
    "Legume.C145_gradient",
    "Legume.C145_error"
   ],
   "note": "truncate_g='abs', eig_solver='eigh', kz_symmetry=None. Which layers are treated as homogeneous is taken as fixed near the parameter value."
  },
  {
   "property": "C146",
   "status": "proved",
   "theorems": [
    "Legume.C146_pwe",
    "Legume.C146_gme",
    "Legume.C146_losses",
    "Legume.C146_interp",
    "Legume.C146_kz",
    "Legume.C146_exc",
    "Legume.C146_pol",
    "Legume.C146_tbt",
    "Legume.C146_tbt_interp"
   ],
   "note": "For `interp` the dependence on the longest wave vector is real, so only lists with the same longest one are compared."
  },
  {
   "property": "C147",
   "status": "partial",
   "theorems": [
    "Legume.C147_gme",
    "Legume.C147_options",
    "Legume.C147_gme_fresh",
    "Legume.C147_pol",
    "Legume.C147_pwe",
    "Legume.C147_exc_partial",
    "Legume.C147_loss_fails"
   ],
   "note": "The loss of an exciton is printed in the wrong unit (C147_loss_fails); everything else is as stated."
  },
  {
   "property": "C148",
   "status": "proved",
   "theorems": [
    "Legume.C148_result",
    "Legume.C148_rejected",
    "Legume.C148_earlier"
   ],
   "note": "Objectives which look at the object through pass_self are as in C43; lists of the lbfgs method are C88."
  },
  {
   "property": "C149",
   "status": "proved",
   "theorems": [
    "Legume.C149_pwe",
    "Legume.C149_exc"
   ],
   "note": ""
  },
  {
   "property": "C150",
   "status": "proved",
   "theorems": [
    "Legume.C150_gme",
    "Legume.C150_pwe"
   ],
   "note": "C150_gme starts at gmeSimIj, i.e. from the layers; the guided modes are a function of the effective stack, the plane waves and the wave vectors, hence constant along the family. C150_pwe starts at pweFreqs. Degenerate frequencies and frequencies equal to zero are excluded: the objective is not differentiable there in general."
  },
  {
   "property": "C151",
   "status": "proved",
   "theorems": [
    "Legume.C151_pwe",
    "Legume.C151_gme"
   ],
   "note": "For guided modes with fixed effective permittivities, truncate_g='abs', eig_sigma=0."
  },
  {
   "property": "C152",
   "status": "proved",
   "theorems": [
    "Legume.C152_pwe",
    "Legume.C152_forms",
    "Legume.C152_gme",
    "Legume.C152_code"
   ],
   "note": "C152_forms gives the general statement for inverse permittivity matrices; guided modes with truncate_g='abs', eig_sigma=0, exact integrals and fixed effective permittivities."
  },
  {
   "property": "C153",
   "status": "proved",
   "theorems": [
    "Legume.C153_slope",
    "Legume.C153_energy",
    "Legume.C153_pwe",
    "Legume.C153_exc"
   ],
   "note": ""
  },
  {
   "property": "C154",
   "status": "proved",
   "theorems": [
    "Legume.C154_pwe",
    "Legume.C154_tbt",
    "Legume.C154_abs",
    "Legume.C154_fails",
    "Legume.C154_gme"
   ],
   "note": ""
  },
  {
   "property": "C155",
   "status": "proved",
   "theorems": [
    "Legume.C155_polarisations",
    "Legume.C155_zero",
    "Legume.C155_exciton"
   ],
   "note": ""
  },
  {
   "property": "C156",
   "status": "proved",
   "theorems": [
    "Legume.C156_displacement",
    "Legume.C156_same_transform",
    "Legume.C156_reversal",
    "Legume.C156_branches"
   ],
   "note": ""
  },
  {
   "property": "C157",
   "status": "proved",
   "theorems": [
    "Legume.C157_matrix",
    "Legume.C157_between",
    "Legume.C157_drawn",
    "Legume.C157_only_gmodes",
    "Legume.C157_unpatterned"
   ],
   "note": ""
  },
  {
   "property": "C158",
   "status": "proved",
   "theorems": [
    "Legume.C158_modes",
    "Legume.C158_order",
    "Legume.C158_drawn",
    "Legume.C158_raise"
   ],
   "note": ""
  },
  {
   "property": "C159",
   "status": "proved",
   "theorems": [
    "Legume.C159_fewer",
    "Legume.C159_sigma",
    "Legume.C159_pwe",
    "Legume.C159_exc"
   ],
   "note": ""
  },
  {
   "property": "C160",
   "status": "proved",
   "theorems": [
    "Legume.C160_scale",
    "Legume.C160_units"
   ],
   "note": ""
  },
  {
   "property": "C161",
   "status": "proved",
   "theorems": [
    "Legume.C161_same_waves",
    "Legume.C161_branches"
   ],
   "note": ""
  },
  {
   "property": "C162",
   "status": "proved",
   "theorems": [
    "Legume.C162_refused",
    "Legume.C162_hexagonal",
    "Legume.C162_only_gmodes"
   ],
   "note": ""
  },
  {
   "property": "C163",
   "status": "proved",
   "theorems": [
    "Legume.C163_accepts",
    "Legume.C163_both",
    "Legume.C163_sectors"
   ],
   "note": ""
  }
 ]
}