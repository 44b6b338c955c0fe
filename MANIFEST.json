{
 "claims": [
  {
   "property": "C01",
   "status": "proved",
   "theorems": [
    "Heap.C01_link_effect",
    "Heap.C01_unlink_link",
    "Heap.C01_unlink_refuses",
    "Heap.C01_unlink_effect"
   ],
   "note": ""
  },
  {
   "property": "C02",
   "status": "proved",
   "theorems": [
    "Heap.C02_mutual",
    "Heap.C02_overwrite_breaks"
   ],
   "note": ""
  },
  {
   "property": "C03",
   "status": "proved",
   "theorems": [
    "Heap.C03_check_completness",
    "Heap.C03_raises_incomplete"
   ],
   "note": ""
  },
  {
   "property": "C04",
   "status": "proved",
   "theorems": [
    "Heap.C04_visitor",
    "Heap.C04_leaves",
    "Heap.C04_from_leaf"
   ],
   "note": ""
  },
  {
   "property": "C05",
   "status": "proved",
   "theorems": [
    "Heap.C05_visitor_start",
    "Heap.C05_tree_start"
   ],
   "note": ""
  },
  {
   "property": "C06",
   "status": "proved",
   "theorems": [
    "Heap.C06_linkage_visitor",
    "Heap.C06_decorated",
    "Heap.C06_directed"
   ],
   "note": ""
  },
  {
   "property": "C07",
   "status": "proved",
   "theorems": [
    "Heap.C07_generate",
    "Heap.C07_generate_no_root"
   ],
   "note": ""
  },
  {
   "property": "C08",
   "status": "proved",
   "theorems": [
    "Heap.C08_tensorize_vectorize",
    "Heap.C08_tensorize_vectorize_aux",
    "Heap.C08_vectorize_tensorize"
   ],
   "note": ""
  },
  {
   "property": "C09",
   "status": "proved",
   "theorems": [
    "Heap.C09_unite_split",
    "Heap.C09_in_place"
   ],
   "note": ""
  },
  {
   "property": "C10",
   "status": "proved",
   "theorems": [
    "Heap.C10_split_unite"
   ],
   "note": ""
  },
  {
   "property": "C11",
   "status": "proved",
   "theorems": [
    "Heap.C11_unite_split"
   ],
   "note": ""
  },
  {
   "property": "C12",
   "status": "proved",
   "theorems": [
    "Heap.C12_split_unite",
    "Heap.C12_unite_split",
    "Heap.C12_moves",
    "Heap.C12_root_independent"
   ],
   "note": ""
  },
  {
   "property": "C13",
   "status": "proved",
   "theorems": [
    "Heap.C13_canonical",
    "Heap.C13_split_unite",
    "Heap.C13_unite_split"
   ],
   "note": ""
  },
  {
   "property": "C14",
   "status": "proved",
   "theorems": [
    "Heap.C14_inner_product",
    "Heap.C14_matrix_element",
    "Heap.C14_global_square",
    "Heap.C14_expection"
   ],
   "note": ""
  },
  {
   "property": "C15",
   "status": "proved",
   "theorems": [
    "Heap.C15_partial_env",
    "Heap.C15_partial_env_root",
    "Heap.C15_cache"
   ],
   "note": ""
  },
  {
   "property": "C16",
   "status": "partial",
   "theorems": [
    "ML.C16_matrix_element_partial",
    "ML.C16_matrix_element_symmetric",
    "ML.C16_expection_partial",
    "ML.C16_expection_symmetric",
    "ML.C16_violated"
   ],
   "note": "The equality with <aux|H|state> is proved for symmetric dense matrices; for others the code computes with the transposed matrix (proved as C16_*_partial; C16_violated is a counterexample with sigma_y). The check that the imaginary part is almost zero and np.real are the subject of C120."
  },
  {
   "property": "C17",
   "status": "proved",
   "theorems": [
    "Heap.C17_contraction",
    "Heap.C17_after",
    "Heap.C17_dry_run"
   ],
   "note": ""
  },
  {
   "property": "C18",
   "status": "proved",
   "theorems": [
    "Heap.C18_axis",
    "Heap.C18_root",
    "Heap.C18_skip",
    "Heap.C18_no_array"
   ],
   "note": ""
  },
  {
   "property": "C19",
   "status": "proved",
   "theorems": [
    "Heap.C19_projector",
    "Heap.C19_comp",
    "Heap.C19_no_axis"
   ],
   "note": ""
  },
  {
   "property": "C20",
   "status": "proved",
   "theorems": [
    "Tensor.C20_partial_product",
    "Tensor.C20_partial_product_none",
    "Tensor.C20_partial_product_error",
    "Tensor.C20_reshape",
    "Tensor.C20_partial_trace",
    "Tensor.C20_partial_trace_full",
    "Tensor.C20_partial_trace_mixed"
   ],
   "note": ""
  },
  {
   "property": "C21",
   "status": "partial",
   "theorems": [
    "CompressedSvd.C21_factors",
    "CompressedSvd.C21_err",
    "CompressedSvd.C21_rank_partial",
    "CompressedSvd.C21_no_truncation",
    "CompressedSvd.C21_nonpositive_rank",
    "CompressedSvd.C21_as_oracle",
    "CompressedSvd.C21_rank_cap_violated"
   ],
   "note": "Shapes, exactness without truncation, the err bound (and minimality) and the error for a nonpositive rank are proved for every decomposition. The rank cap holds only if err is not given (C21_rank_partial); with both, err overrides rank (C21_rank_cap_violated)."
  },
  {
   "property": "C22",
   "status": "proved",
   "theorems": [
    "Triangular.C22_permutation",
    "Triangular.C22_sorted",
    "Triangular.C22_first"
   ],
   "note": ""
  },
  {
   "property": "C23",
   "status": "proved",
   "theorems": [
    "Heap.C23_autocomplete",
    "Heap.C23_product_state"
   ],
   "note": ""
  },
  {
   "property": "C24",
   "status": "proved",
   "theorems": [
    "Huffman.C24_huffman_tree",
    "Huffman.C24_no_sources",
    "Huffman.C24_no_branching",
    "Huffman.C24_default_names_fail"
   ],
   "note": ""
  },
  {
   "property": "C25",
   "status": "proved",
   "theorems": [
    "IterVisitor.C25_iter_visitor",
    "IterVisitor.C25_unknown_method"
   ],
   "note": ""
  },
  {
   "property": "C26",
   "status": "proved",
   "theorems": [
    "Sweep.C26_split_step",
    "Sweep.C26_mirror",
    "Sweep.C26_snd_order"
   ],
   "note": ""
  },
  {
   "property": "C27",
   "status": "partial",
   "theorems": [
    "Sweep.C27_forward_partial",
    "Sweep.C27_backward_violated"
   ],
   "note": "Proved for backward=False. backward=True violates the property: C27_backward_violated shows it raises RuntimeError on every network with a link between two tensors. A network of one tensor is not propagated at all."
  },
  {
   "property": "C28",
   "status": "partial",
   "theorems": [
    "SplitProp.C28_sweeps_partial",
    "SplitProp.C28_f_list_violated"
   ],
   "note": "Proved for any list of sweeps (split, unite, r_split of both orders), any solver and any number of terms in h_list that do not depend on time (C28_sweeps_partial). With an f_list the property is violated: remove_env does not delete its mean fields (C28_f_list_violated)."
  },
  {
   "property": "C29",
   "status": "proved",
   "theorems": [
    "ML.C29_term_visitor",
    "ML.C29_trace",
    "ML.C29_not_leaf"
   ],
   "note": ""
  },
  {
   "property": "C30",
   "status": "partial",
   "theorems": [
    "Ode.C30_limit",
    "Ode.C30_terminates",
    "Ode.C30_count_faithful",
    "Ode.C30_done",
    "Ode.C30_hit",
    "Ode.C30_propagator_ends_partial",
    "Ode.C30_split_violated",
    "Ode.C30_split_not_root"
   ],
   "note": "The bound on the number of steps, termination, and the end of the direct propagator are proved for every solver. In the projector-splitting methods the RuntimeWarning is swallowed (C30_split_violated), so the propagator does not end."
  },
  {
   "property": "C31",
   "status": "proved",
   "theorems": [
    "Ode.C31_propagator",
    "Ode.C31_propagator2",
    "Ode.C31_exactly",
    "Ode.C31_forever",
    "Ode.C31_method",
    "Ode.C31_grid_propagator"
   ],
   "note": ""
  },
  {
   "property": "C32",
   "status": "proved",
   "theorems": [
    "ML.C32_eom_gauge",
    "ML.C32_no_terms"
   ],
   "note": ""
  },
  {
   "property": "C33",
   "status": "proved",
   "theorems": [
    "Dmrg.C33_mat_element",
    "Dmrg.C33_from_right",
    "Dmrg.C33_overlap",
    "Dmrg.C33_overlap_from_right",
    "Dmrg.C33_overlap_lengths",
    "Dmrg.C33_lengths"
   ],
   "note": ""
  },
  {
   "property": "C34",
   "status": "partial",
   "theorems": [
    "Dmrg.C34_is_mpo",
    "Dmrg.C34_heisenberg_partial",
    "Dmrg.C34_doubled_partial",
    "Dmrg.C34_violated",
    "Dmrg.C34_short"
   ],
   "note": "The code enters Jz with half the documented value (C34_violated). C34_heisenberg_partial proves, for every number of sites N >= 2 and all parameters, that the operator is exactly the documented one with Jz/2 in place of Jz."
  },
  {
   "property": "C35",
   "status": "proved",
   "theorems": [
    "Dmrg.C35_environments",
    "Dmrg.C35_every_site"
   ],
   "note": ""
  },
  {
   "property": "C36",
   "status": "partial",
   "theorems": [
    "Dmrg.C36_environments",
    "Dmrg.C36_every_pair_partial",
    "Dmrg.C36_two_sites_violated"
   ],
   "note": "The environments are proved to be the exact contractions for every chain; every neighbouring pair is optimised in every sweep of a chain of at least three sites (C36_every_pair_partial). For two sites the property fails: C36_two_sites_violated shows that nothing is optimised."
  },
  {
   "property": "C37",
   "status": "proved",
   "theorems": [
    "Dmrg.C37_coarse_grain_mps",
    "Dmrg.C37_coarse_grain_mpo",
    "Dmrg.C37_fine_grain_mps",
    "Dmrg.C37_round_trip",
    "Dmrg.C37_canonical"
   ],
   "note": ""
  },
  {
   "property": "C38",
   "status": "partial",
   "theorems": [
    "Dvr.C38_subindex",
    "Dvr.C38_subindex_pack",
    "Dvr.C38_potential",
    "Dvr.C38_transform_partial",
    "Dvr.C38_transform_violated",
    "Dvr.C38_hamiltonian_partial",
    "Dvr.C38_hamiltonian_violated"
   ],
   "note": "Index decoding and the potential on the grid are proved for all grids. The Hamiltonian acts as the sum of the one-dimensional ones exactly when all coordinates after the first have grids of the same size (C38_hamiltonian_partial); otherwise applying it raises ValueError (C38_hamiltonian_violated): the code exchanges axes where it should move one."
  },
  {
   "property": "C39",
   "status": "proved",
   "theorems": [
    "SineDVR.C39_symmetric",
    "SineDVR.C39_orthogonal",
    "SineDVR.C39_round_trip",
    "SineDVR.C39_norm",
    "SineDVR.C39_matrix_round_trip"
   ],
   "note": ""
  },
  {
   "property": "C40",
   "status": "proved",
   "theorems": [
    "SineDVR.C40_fast_is_dense"
   ],
   "note": ""
  },
  {
   "property": "C41",
   "status": "proved",
   "theorems": [
    "Grids.C41_round_trip",
    "Grids.C41_conj_conj",
    "Grids.C41_no_width"
   ],
   "note": ""
  },
  {
   "property": "C42",
   "status": "partial",
   "theorems": [
    "Heom.C42_refused",
    "Heom.C42_refused2",
    "Heom.C42_hierachy_partial",
    "Heom.C42_hierachy_violated",
    "Heom.C42_eom2",
    "Heom.C42_eom"
   ],
   "note": "eom2.py and eom.py for all operators; hierachy.py only for symmetric operators: C42_hierachy_violated gives a Hermitian h for which the trace changes."
  },
  {
   "property": "C43",
   "status": "partial",
   "theorems": [
    "Heom.C43_hierachy_partial",
    "Heom.C43_eom2",
    "Heom.C43_eom_partial",
    "Heom.C43_eom_violated",
    "Heom.C43_hierachy_violated",
    "Heom.C43_drude_partial"
   ],
   "note": "eom2.py for all Hermitian operators. hierachy.py only for symmetric operators and eom.py only for a symmetric coupling operator: C43_hierachy_violated and C43_eom_violated give Hermitian operators for which a Hermitian hierarchy gets a derivative that is not Hermitian."
  },
  {
   "property": "C44",
   "status": "partial",
   "theorems": [
    "Heom.C44_hierachy_partial",
    "Heom.C44_eom2_partial",
    "Heom.C44_eom_violated"
   ],
   "note": "hierachy.py and eom2.py proved; in eom.py the two ladder operators are exchanged (C44_eom_violated)."
  },
  {
   "property": "C45",
   "status": "proved",
   "theorems": [
    "Heom.C45_extended",
    "Heom.C45_not_square",
    "Heom.C45_empty",
    "Heom.C45_simple_heom"
   ],
   "note": ""
  },
  {
   "property": "C46",
   "status": "partial",
   "theorems": [
    "Corr.C46_drude_partial",
    "Corr.C46_decompositions_partial",
    "Corr.C46_drude_zero",
    "Corr.C46_brownian_violated",
    "Corr.C46_brownian_underdamped",
    "Corr.C46_generate_partial"
   ],
   "note": "Proved for the Drude model, for the decompositions and for generate_BCF. The Brownian model announces k_max+2 terms but carries only 2 or k_max+1 coefficients (C46_brownian_violated)."
  },
  {
   "property": "C47",
   "status": "proved",
   "theorems": [
    "Corr.C47_generate",
    "Corr.C47_drude",
    "Corr.C47_decompositions",
    "Corr.C47_brownian"
   ],
   "note": ""
  },
  {
   "property": "C48",
   "status": "proved",
   "theorems": [
    "Units.C48_known",
    "Units.C48_make",
    "Units.C48_convert",
    "Units.C48_arithmetic",
    "Units.C48_division_by_zero",
    "Units.C48_comparison",
    "Units.C48_units_do_not_matter",
    "Units.C48_wave_number"
   ],
   "note": ""
  },
  {
   "property": "C49",
   "status": "partial",
   "theorems": [
    "Phonon.C49_adjoint",
    "Phonon.C49_ladder",
    "Phonon.C49_number",
    "Phonon.C49_commutator",
    "Phonon.C49_hamiltonian",
    "Phonon.C49_hermitian",
    "Phonon.C49_oscillator",
    "Phonon.C49_matrix_free_partial",
    "Phonon.C49_functions",
    "Phonon.C49_exchanged",
    "Phonon.C49_violated",
    "Phonon.C49_wrong_length"
   ],
   "note": "Everything proved except that the matrix-free creation and annihilation operators act as the dense ones: they are exchanged (C49_exchanged, C49_violated)."
  },
  {
   "property": "C50",
   "status": "partial",
   "theorems": [
    "Davidson.C50_bounds_partial",
    "Davidson.C50_projected_partial",
    "Davidson.C50_orthonormal_partial",
    "Davidson.C50_eigenpairs_partial",
    "Davidson.C50_search_mode",
    "Davidson.C50_never_stops",
    "Davidson.C50_restart_in_last_cycle",
    "Davidson.C50_too_many_start_vectors",
    "Davidson.C50_restart_drops_preconditioner",
    "Davidson.C50_stops_violated",
    "Davidson.C50_restart_violated",
    "Davidson.C50_exact_start",
    "Davidson.C50_convergence_test",
    "Davidson.C50_restart_state"
   ],
   "note": "Bounds, the projected matrix, orthonormality and the returned Ritz pairs are proved for every operator, start, orth and eigh meeting their contracts (C50_bounds_partial, C50_projected_partial, C50_orthonormal_partial, C50_eigenpairs_partial, C50_search_mode). The last clause is false of the code: the loop never stops before max_cycle (C50_never_stops, C50_stops_violated); and a restart in the last cycle makes kernel() raise a TypeError (C50_restart_in_last_cycle, C50_restart_violated)."
  },
  {
   "property": "C51",
   "status": "proved",
   "theorems": [
    "Mctdh.C51_negative",
    "Mctdh.C51_unpack_pack",
    "Mctdh.C51_from_end",
    "Mctdh.C51_pack_unpack",
    "Mctdh.C51_too_short"
   ],
   "note": ""
  },
  {
   "property": "C52",
   "status": "proved",
   "theorems": [
    "Sweep.C52_first_order",
    "Sweep.C52_second_order"
   ],
   "note": ""
  },
  {
   "property": "C53",
   "status": "proved",
   "theorems": [
    "SpinBoson.C53_collect",
    "SpinBoson.C53_no_field"
   ],
   "note": ""
  },
  {
   "property": "C54",
   "status": "partial",
   "theorems": [
    "SpinBoson.C54_full_partial",
    "SpinBoson.C54_autograph_partial",
    "SpinBoson.C54_autograph_violated",
    "SpinBoson.C54_mctdh_violated"
   ],
   "note": "autograph_full keeps every leaf (C54_full_partial). autograph keeps them only when each group has exactly two leaves (C54_autograph_partial, C54_autograph_violated); autograph_mctdh maps each single-particle function to a string, so the leaf is split into letters (C54_mctdh_violated)."
  },
  {
   "property": "C55",
   "status": "partial",
   "theorems": [
    "Units.C55_prefixes_partial",
    "Units.C55_meV_violated",
    "Units.C55_energies"
   ],
   "note": "All prefixed units except meV convert by the metric factor (C55_prefixes_partial); meV uses 1e-3 instead of 1e3 (C55_meV_violated)."
  },
  {
   "property": "C56",
   "status": "partial",
   "theorems": [
    "Heom.C56_hierachy_partial",
    "Heom.C56_eom2",
    "Heom.C56_eom_decoupled",
    "Heom.C56_eom_violated",
    "Heom.C56_hierachy_violated"
   ],
   "note": "eom2.py for all operators; hierachy.py for symmetric operators (C56_hierachy_violated for others); eom.py is not the equations of motion (C56_eom_decoupled, C56_eom_violated)."
  },
  {
   "property": "C57",
   "status": "proved",
   "theorems": [
    "SineDVR.C57_current"
   ],
   "note": ""
  },
  {
   "property": "C58",
   "status": "proved",
   "theorems": [
    "SineDVR.C58_spectrum",
    "SineDVR.C58_second_derivative"
   ],
   "note": ""
  },
  {
   "property": "C59",
   "status": "partial",
   "theorems": [
    "Grids.C59_spacing_partial",
    "Grids.C59_zero",
    "Grids.C59_violated"
   ],
   "note": "False for the code: the product of the spacings is 2 pi hbar n/(n-1)^2 (C59_spacing_partial), never 2 pi hbar/n (C59_violated)."
  },
  {
   "property": "C60",
   "status": "proved",
   "theorems": [
    "ML.C60_variational",
    "ML.C60_newton_step",
    "ML.C60_newton_marks_violated"
   ],
   "note": "One step from an orthonormal network with sound normalization marks. Finding: the step itself breaks the marks, as set_array leaves normalized=True (C60_newton_marks_violated), so the hypotheses do not hold for the following step of the same object. RK4 and ODE-solver branches of direct_step are not modelled."
  },
  {
   "property": "C61",
   "status": "partial",
   "theorems": [
    "ML.C61_norm_rate",
    "ML.C61_norm_partial",
    "ML.C61_init_energy_violated"
   ],
   "note": "Proved without init_energy (C61_norm_partial; C61_norm_rate gives the exact rate in general). The code violates the claim when init_energy is set: C61_init_energy_violated."
  },
  {
   "property": "C62",
   "status": "proved",
   "theorems": [
    "ML.C62_energy"
   ],
   "note": ""
  },
  {
   "property": "C63",
   "status": "partial",
   "theorems": [
    "SplitProp.C63_generator_partial",
    "SplitProp.C63_generator_sweeps_partial",
    "SplitProp.C63_sweeps_partial",
    "SplitProp.C63_sweeps_violated",
    "SplitProp.C63_direct_violated"
   ],
   "note": "Proved up to the factor (C63_sweeps_partial). The factor is wrong: coefficient() returns hbar in real time and i hbar in imaginary time. C63_sweeps_violated and C63_direct_violated prove that no nonzero derivative obeys the Schroedinger equation. With -iH in h_list, as in models/sbm.py, both equations are right (C63_generator_partial, C63_generator_sweeps_partial)."
  },
  {
   "property": "C64",
   "status": "partial",
   "theorems": [
    "Heap.C64_equal_partial",
    "Heap.C64_violated"
   ],
   "note": "Proved for tensors all of whose children have the same dimension (C64_equal_partial). False otherwise (C64_violated): triangular numbers configurations with the first index running fastest, np.reshape with the last one."
  },
  {
   "property": "C65",
   "status": "partial",
   "theorems": [
    "Mctdh.C65_projected_partial",
    "Mctdh.C65_energy_partial",
    "Mctdh.C65_complex_violated",
    "Mctdh.C65_unequal_violated"
   ],
   "note": "Proved for real orthonormal single-particle functions and equal numbers of them on all coordinates but the first (C65_energy_partial); C65_projected_partial gives what the projected matrices are in general. False for complex single-particle functions (C65_complex_violated: cross terms of real and imaginary parts are dropped) and for unequal numbers (C65_unequal_violated)."
  },
  {
   "property": "C66",
   "status": "partial",
   "theorems": [
    "Mctdh.C66_equations_partial",
    "Mctdh.C66_two_coordinates_partial",
    "Mctdh.C66_complex_violated",
    "Mctdh.C66_three_violated"
   ],
   "note": "Proved for real single-particle functions, with inverses of the density matrices given: for two coordinates without further conditions, for more coordinates when the axis exchanged by _partial_transform does not matter. Violated for complex single-particle functions and, by a ValueError, for a coupling of the first to the second of three coordinates."
  },
  {
   "property": "C67",
   "status": "partial",
   "theorems": [
    "Splitting2.C67_one_term_partial",
    "Splitting2.C67_one_site_order_partial",
    "Splitting2.C67_two_terms_violated"
   ],
   "note": "Proved for any steps (one-site in both directions, two-site forwards), any solver and any Hamiltonian of at most one term. Violated with two terms on two tensors: term_visitor does not reset the caches between the terms (C67_two_terms_violated)."
  },
  {
   "property": "C68",
   "status": "proved",
   "theorems": [
    "Autocorr.C68_autocorr",
    "Autocorr.C68_fast",
    "Autocorr.C68_fast_agrees"
   ],
   "note": "For any step function that keeps the tree, the links and the dimensions at the leaves and leaves nothing in aux (move_energy=False). The arrays and the bond dimensions may change arbitrarily."
  },
  {
   "property": "C69",
   "status": "partial",
   "theorems": [
    "ML.C69_rk4_partial",
    "ML.C69_stale_fields_violated"
   ],
   "note": "Proved for networks with one tensor (any number of leaves and terms). False for more tensors: env_ and inv_density are formed once per step and not updated between the stages (C69_stale_fields_violated)."
  },
  {
   "property": "C70",
   "status": "partial",
   "theorems": [
    "DirectSolve.C70_scipy_step",
    "DirectSolve.C70_one_tensor_partial",
    "DirectSolve.C70_stale_fields_violated",
    "DirectSolve.C70_stale_time_violated"
   ],
   "note": "The constant-mean-field scheme is proved for all trees and solvers (C70_scipy_step), and the exact right-hand side for one tensor and operators that do not depend on time (C70_one_tensor_partial). False: for time-dependent operators even one tensor gets H at an older time (C70_stale_time_violated). With two tensors the derivatives are not those of the equations of motion at y, by design of the scheme (C70_stale_fields_violated)."
  },
  {
   "property": "C71",
   "status": "proved",
   "theorems": [
    "Pade.C71_pade",
    "Pade.C71_convergence"
   ],
   "note": ""
  },
  {
   "property": "C72",
   "status": "proved",
   "theorems": [
    "Corr.C72_drude",
    "Corr.C72_pade",
    "Corr.C72_matsubara"
   ],
   "note": ""
  },
  {
   "property": "C73",
   "status": "partial",
   "theorems": [
    "Corr.C73_cold",
    "Corr.C73_brownian_partial",
    "Corr.C73_matsubara_violated",
    "Corr.C73_total"
   ],
   "note": "Proved for the two terms of the oscillator (C73_brownian_partial) and existence (C73_total). False for the Matsubara terms: the code evaluates the spectral density at the real number 2 pi k/beta, so its coefficients are wrong unless omega^2 = 2 gamma^2 (C73_matsubara_violated)."
  },
  {
   "property": "C74",
   "status": "proved",
   "theorems": [
    "Corr.C74_drude",
    "Corr.C74_decompositions",
    "Corr.C74_brownian",
    "Corr.C74_generate",
    "Corr.C74_temperature"
   ],
   "note": ""
  },
  {
   "property": "C75",
   "status": "partial",
   "theorems": [
    "Pade.C75_psd_partial",
    "Pade.C75_fermi_violated",
    "Pade.C75_assertion",
    "Pade.C75_third"
   ],
   "note": "Proved for pade=1 and pade=3 with both statistics (C75_psd_partial, C75_third), pade=2 for bosons, and for the arguments (C75_assertion). False for fermions with pade=2: the poles and residues are right but rn is 0 instead of 1/(4(N+1)(2N+1)) (C75_fermi_violated)."
  },
  {
   "property": "C76",
   "status": "proved",
   "theorems": [
    "BoseFermi.C76_msd",
    "BoseFermi.C76_arguments"
   ],
   "note": ""
  },
  {
   "property": "C77",
   "status": "partial",
   "theorems": [
    "Sbm.C77_transposed",
    "Sbm.C77_heom_partial",
    "Sbm.C77_trace_partial",
    "Sbm.C77_heom2",
    "Sbm.C77_errors",
    "Sbm.C77_labels_violated"
   ],
   "note": "Proved for symmetric system operators (C77_heom_partial, C77_trace_partial), with the errors (C77_errors) and heom_h_list2 (C77_heom2). For Hermitian operators that are not symmetric the derivative is wrong as in C56 and C42. Too many labels are accepted and the system operators then act on the surplus labels (C77_labels_violated). For basis=None; see C135 for DVRs."
  },
  {
   "property": "C78",
   "status": "proved",
   "theorems": [
    "Sbm.C78_scale",
    "Sbm.C78_reduced"
   ],
   "note": ""
  },
  {
   "property": "C79",
   "status": "partial",
   "theorems": [
    "Sbm.C79_mirror_partial",
    "Sbm.C79_hermitian_partial",
    "Sbm.C79_violated"
   ],
   "note": "Proved for real symmetric operators (C79_mirror_partial, C79_hermitian_partial). For other Hermitian operators it is false (C79_violated): the code acts from the left with the transposed operator."
  },
  {
   "property": "C80",
   "status": "partial",
   "theorems": [
    "Sbm.C80_wfn_partial",
    "Sbm.C80_norm",
    "Sbm.C80_labels_violated"
   ],
   "note": "The action is proved for symmetric system operators (C80_wfn_partial); the code acts with the transposed operators, so for others it is the equation of the transposed Hamiltonian. The conservation of the norm is proved for all Hermitian operators (C80_norm). Missing labels are not noticed (C80_labels_violated)."
  },
  {
   "property": "C81",
   "status": "partial",
   "theorems": [
    "Sbm.C81_do_partial",
    "Sbm.C81_trace_partial",
    "Sbm.C81_violated"
   ],
   "note": "Proved for symmetric system operators (C81_do_partial, C81_trace_partial). For Hermitian operators that are not symmetric it is false, and the trace is not conserved (C81_violated)."
  },
  {
   "property": "C82",
   "status": "partial",
   "theorems": [
    "DrudeNoise.C82_drude_partial",
    "DrudeNoise.C82_matsubara_violated"
   ],
   "note": "Proved: the numbers of terms, the first term (with the exact Bose function), the decay rates of the others (C82_drude_partial). The coefficients of the others are false for every temperature at which the poles do not coincide (C82_matsubara_violated)."
  },
  {
   "property": "C83",
   "status": "partial",
   "theorems": [
    "DrudeNoise.C83_reads_partial",
    "DrudeNoise.C83_frozen",
    "DrudeNoise.C83_mixed_violated"
   ],
   "note": "Proved for all histories of reads (C83_reads_partial). After a change of a parameter it is false: what has been read once keeps its value for ever (C83_frozen), and what is read then mixes old and new parameters (C83_mixed_violated)."
  },
  {
   "property": "C84",
   "status": "partial",
   "theorems": [
    "Spd.C84_function",
    "Spd.C84_zero_temperature_partial",
    "Spd.C84_zero_temperature_violated"
   ],
   "note": "Function and detailed balance are proved for all temperatures and frequencies (C84_function). The limit is proved for positive frequencies (C84_zero_temperature_partial); for negative ones it is false (C84_zero_temperature_violated)."
  },
  {
   "property": "C85",
   "status": "partial",
   "theorems": [
    "Spd.C85_matsubara",
    "Spd.C85_residues_partial",
    "Spd.C85_residues_violated",
    "Spd.C85_two_violated"
   ],
   "note": "Proved: the empty cases, the refusals (C85_residues_partial) and the numbers of the Matsubara method (C85_matsubara). residues itself raises an exception in all other cases (C85_residues_violated) but one, where the result is wrong (C85_two_violated)."
  },
  {
   "property": "C86",
   "status": "partial",
   "theorems": [
    "Spd.C86_drude",
    "Spd.C86_brownian_violated"
   ],
   "note": "Proved for Drude (C86_drude). The methods of Brownian always raise TypeError (C86_brownian_violated)."
  },
  {
   "property": "C87",
   "status": "partial",
   "theorems": [
    "Seom.C87_generator",
    "Seom.C87_decay_violated"
   ],
   "note": "The action is proved in full (C87_generator). The members do not decay: the sign of the exponents is wrong for the propagator it is used with (C87_decay_violated)."
  },
  {
   "property": "C88",
   "status": "partial",
   "theorems": [
    "ML.C88_types",
    "ML.C88_names",
    "ML.C88_unknown_violated",
    "ML.C88_again_violated"
   ],
   "note": "The type checks (C88_types) and the resolution of names (C88_names, for distinct lists) are proved. False: an unknown name leaves the lists half converted and loses a pair (C88_unknown_violated), and lists that have been used once cannot be used again (C88_again_violated)."
  },
  {
   "property": "C89",
   "status": "partial",
   "theorems": [
    "PoDvr.C89_history_partial",
    "PoDvr.C89_stale_violated",
    "PoDvr.C89_wrong_violated",
    "PoDvr.C89_before",
    "PoDvr.C89_too_many"
   ],
   "note": "Proved for all histories when v_rst is given, or never was (C89_history_partial), on grids for which h_mat() can be applied (see C38). False otherwise: a call without v_rst keeps the v_rst of an earlier call (C89_stale_violated, C89_wrong_violated). fast=False only."
  },
  {
   "property": "C90",
   "status": "partial",
   "theorems": [
    "PoProp.C90_values",
    "PoProp.C90_end_partial",
    "PoProp.C90_end_violated",
    "PoProp.C90_energy",
    "PoDvr.C90_equation_partial"
   ],
   "note": "The values, the energy bound and the equation are proved; the equation with the side conditions of C89. The end holds before Python 3.7 only (C90_end_partial); since then the iteration ends with RuntimeError (C90_end_violated)."
  },
  {
   "property": "C91",
   "status": "partial",
   "theorems": [
    "PoProp.C91_values",
    "PoProp.C91_doubled",
    "PoProp.C91_end_partial",
    "PoProp.C91_end_violated"
   ],
   "note": "The values and their meaning are proved. The end holds before Python 3.7 only (C91_end_partial); since then no iteration ends without an exception (C91_end_violated)."
  },
  {
   "property": "C92",
   "status": "partial",
   "theorems": [
    "PoProp.C92_spectrum_violated",
    "PoProp.C92_spectrum_partial",
    "PoProp.C92_decomposition",
    "PoProp.C92_refuses"
   ],
   "note": "The decomposition and the refusals are proved for the values of the generator, and that spectrum uses all of them, before Python 3.7 (C92_spectrum_partial). Since then spectrum never returns (C92_spectrum_violated)."
  },
  {
   "property": "C93",
   "status": "partial",
   "theorems": [
    "Mctdh.C93_value",
    "Mctdh.C93_values",
    "Mctdh.C93_state_partial",
    "Mctdh.C93_violated"
   ],
   "note": "The values are the sums of the squared coefficients (C93_values). These are the autocorrelation function if the single-particle functions satisfy C^T C = 1, in particular if they are real and orthonormal (C93_state_partial); in general they are not (C93_violated)."
  },
  {
   "property": "C94",
   "status": "proved",
   "theorems": [
    "Mctdh.C94_terms",
    "Mctdh.C94_none",
    "Mctdh.C94_range"
   ],
   "note": "For fast=False."
  },
  {
   "property": "C95",
   "status": "proved",
   "theorems": [
    "Mctdh.C95_solve",
    "Mctdh.C95_init",
    "Mctdh.C95_empty",
    "Mctdh.C95_exact"
   ],
   "note": "eigsh of scipy is a parameter that is assumed to return the lowest orthonormal eigenvectors; C95_exact shows that such an eigensolver exists for all real potentials. fast=False."
  },
  {
   "property": "C96",
   "status": "partial",
   "theorems": [
    "Mctdh.C96_blocks",
    "Mctdh.C96_fixed",
    "Mctdh.C96_state_partial",
    "Mctdh.C96_violated"
   ],
   "note": "The norms of the blocks, the direction of the state and the fixed points are proved. The represented state is normalized if the single-particle functions of each coordinate are orthogonal and of equal norm (C96_state_partial), and not in general (C96_violated)."
  },
  {
   "property": "C97",
   "status": "partial",
   "theorems": [
    "Mctdh.C97_updated_partial",
    "Mctdh.C97_default_partial",
    "Mctdh.C97_given_violated"
   ],
   "note": "Proved after each step and for the vector of init_state, with the conditions of C66 (real single-particle functions, ...). For a given init the first evaluations use the mean fields of the previous vector of the object (C97_given_violated)."
  },
  {
   "property": "C98",
   "status": "proved",
   "theorems": [
    "SineDVR.C98_exists",
    "SineDVR.C98_length",
    "SineDVR.C98_box",
    "SineDVR.C98_grid",
    "SineDVR.C98_inner",
    "SineDVR.C98_dvr_func",
    "SineDVR.C98_dvr_func_range"
   ],
   "note": "Boxes with a < b."
  },
  {
   "property": "C99",
   "status": "proved",
   "theorems": [
    "SineDVR.C99_kinetic",
    "SineDVR.C99_second",
    "SineDVR.C99_first",
    "SineDVR.C99_antisymmetric"
   ],
   "note": "Boxes with a < b."
  },
  {
   "property": "C100",
   "status": "partial",
   "theorems": [
    "Symbolic.C100_orthonormal_partial",
    "Symbolic.C100_eigenfunction_partial",
    "Symbolic.C100_ground",
    "Symbolic.C100_norm_of_one",
    "Symbolic.C100_violated"
   ],
   "note": "Proved for m k / hbar = 1 and for the ground function in general; false otherwise (C100_violated, C100_norm_of_one): factor*y instead of sqrt(factor)*y is passed to the Hermite polynomial."
  },
  {
   "property": "C101",
   "status": "proved",
   "theorems": [
    "Numerical.C101_g0prime",
    "Numerical.C101_g1prime"
   ],
   "note": ""
  },
  {
   "property": "C102",
   "status": "partial",
   "theorems": [
    "Numerical.C102_w_well",
    "Numerical.C102_linear_corr",
    "Numerical.C102_coupled",
    "Numerical.C102_square_well",
    "Numerical.C102_sho_partial",
    "Numerical.C102_sho_violated"
   ],
   "note": "w_well, square_well and linear_corr proved; sho(k) fits harmonic_oscillator(n, k, m) for m = 1 only (C102_sho_violated)."
  },
  {
   "property": "C103",
   "status": "proved",
   "theorems": [
    "CasDVR.C103_exists",
    "CasDVR.C103_inner",
    "CasDVR.C103_position",
    "CasDVR.C103_t_mat",
    "CasDVR.C103_kinetic"
   ],
   "note": "eigh and the quadrature are parameters that are assumed to be exact; such an eigh exists for all bases (exactEigh_ok), and all hypotheses are met by the functions of the harmonic oscillator (ho_basis)."
  },
  {
   "property": "C104",
   "status": "partial",
   "theorems": [
    "CasDVR.C104_partial",
    "CasDVR.C104_violated"
   ],
   "note": "Proved for operators that are symmetric between the basis functions; for others (diff(1)) the upper triangle is wrong (C104_violated)."
  },
  {
   "property": "C105",
   "status": "partial",
   "theorems": [
    "SineDVR.C105_eigh",
    "SineDVR.C105_partial",
    "SineDVR.C105_unitary",
    "SineDVR.C105_other",
    "SineDVR.C105_before",
    "SineDVR.C105_violated"
   ],
   "note": "Proved for hbar = 1, unitarity for all hbar. The exponents contain hbar instead of 1/hbar (C105_violated). eigh is a parameter that is assumed to be exact; C105_eigh shows that such a function exists."
  },
  {
   "property": "C106",
   "status": "partial",
   "theorems": [
    "Heom.C106_raiser_partial",
    "Heom.C106_lower_partial",
    "Heom.C106_number_partial",
    "Heom.C106_adjoint",
    "Heom.C106_terms_partial",
    "Heom.C106_none",
    "Heom.C106_violated"
   ],
   "note": "Proved for objects to which a method eig_mat has been attached; the DVR classes of the package have none, so that the terms cannot be made (C106_violated)."
  },
  {
   "property": "C107",
   "status": "partial",
   "theorems": [
    "ML.C107_run",
    "ML.C107_rk4_partial",
    "ML.C107_partition_partial",
    "ML.C107_violated",
    "ML.C107_limit_partial"
   ],
   "note": "C107_run is the general theorem for any step that is homogeneous in the state. For the Runge-Kutta steps this is proved for networks with one tensor (C107_rk4_partial, C107_partition_partial), and there the relative partition function tends to Z(beta)/Z(0) = tr exp(-beta H)/tr 1 when the number of steps grows (C107_limit_partial); for more tensors the steps are not linear. With the Hamiltonian in h_list, as documented, the coefficient of ml.py makes the evolution in imaginary time unitary, so that the result is not the ratio of partition functions (C107_violated)."
  },
  {
   "property": "C110",
   "status": "proved",
   "theorems": [
    "SplitProp.C110_sweeps",
    "SplitProp.C110_direct"
   ],
   "note": "C110_sweeps for split propagation (all sweeps), C110_direct for direct propagation, where the equation is tested with all variations of the state."
  },
  {
   "property": "C108",
   "status": "partial",
   "theorems": [
    "ML.C108_state_partial",
    "ML.C108_returns_partial",
    "ML.C108_bond_one",
    "ML.C108_given",
    "ML.C108_violated",
    "ML.C108_matvec",
    "ML.C108_matvec_error"
   ],
   "note": "C108_state_partial: whenever it returns normally, the state is the maximally entangled one (for all Hamiltonians and dimensions). C108_bond_one: it returns for bonds of dimension 1; C108_returns_partial: it returns if the Davidson search finds enough vectors. That it returns whenever the dimensions fit is false: with sigma_z as the local Hamiltonian and bonds of dimension 3 it raises an exception (C108_violated). C108_given: given arrays are kept."
  },
  {
   "property": "C109",
   "status": "proved",
   "theorems": [
    "Settings.C109_set",
    "Settings.C109_unknown",
    "Settings.C109_others",
    "Settings.C109_violated"
   ],
   "note": "With an unknown name the options named before it are set already (C109_unknown). As a setting of one solver only, which the call solver.settings(...) of the tests suggests, it is violated: it changes all solvers of the class (C109_violated)."
  },
  {
   "property": "C111",
   "status": "partial",
   "theorems": [
    "Network.C111_root_partial",
    "Network.C111_ambiguous",
    "Network.C111_violated",
    "Network.C111_foreign",
    "Network.C111_set",
    "Network.C111_overwrite",
    "Network.C111_template",
    "Network.C111_copy_partial",
    "Network.C111_copy_violated"
   ],
   "note": "Proved for networks in which only the root has no axis. Leaves have no axis, so that a Network cannot be made for any network with leaves (C111_violated), and the copy of a template cannot be filled (C111_copy_violated)."
  },
  {
   "property": "C112",
   "status": "partial",
   "theorems": [
    "Network.C112_vectorize_partial",
    "Network.C112_tensorize_partial",
    "Network.C112_violated"
   ],
   "note": "Proved for networks in which every object has an array; violated if there are objects without one, such as leaves (C112_violated)."
  },
  {
   "property": "C113",
   "status": "partial",
   "theorems": [
    "Network.C113_deepcopy_violated",
    "Network.C113_partial_env_violated",
    "Network.C113_partial_env_error"
   ],
   "note": "False: both methods raise for every network (C113_deepcopy_violated, C113_partial_env_violated)."
  },
  {
   "property": "C114",
   "status": "proved",
   "theorems": [
    "Bath.C114_modes",
    "Bath.C114_convergence",
    "Bath.C114_empty_cell",
    "Bath.C114_number"
   ],
   "note": "quad is a parameter that returns the integral of continuous functions."
  },
  {
   "property": "C115",
   "status": "partial",
   "theorems": [
    "SpinBoson.C115_hamiltonian_partial",
    "SpinBoson.C115_documented_partial",
    "SpinBoson.C115_inner_leaves",
    "SpinBoson.C115_field",
    "SpinBoson.C115_missing",
    "SpinBoson.C115_bath_violated",
    "SpinBoson.C115_lengths_violated"
   ],
   "note": "Proved without the outer bath, the documented form for components in which no oscillator is in its highest state (truncation), an equivalent form for all. including_bath=True raises AttributeError for all parameters (C115_bath_violated); vibrations without an entry in dim_list are left out without an error (C115_lengths_violated)."
  },
  {
   "property": "C116",
   "status": "proved",
   "theorems": [
    "Grids.C116_norm",
    "Grids.C116_reversible",
    "Grids.C116_renormalize",
    "Grids.C116_converges",
    "Grids.C116_solution"
   ],
   "note": "One state (n_state = 1). integrate.simps is a parameter: a sum with positive weights."
  },
  {
   "property": "C117",
   "status": "proved",
   "theorems": [
    "Grids.C117_moments",
    "Grids.C117_uncertainty"
   ],
   "note": ""
  },
  {
   "property": "C118",
   "status": "partial",
   "theorems": [
    "PoDvr.C118_init",
    "PoDvr.C118_no_vector",
    "PoDvr.C118_ground_partial",
    "PoDvr.C118_ground_violated",
    "PoDvr.C118_davidson_partial",
    "PoDvr.C118_before",
    "PoDvr.C118_mu",
    "PoDvr.C118_mu_errors",
    "PoDvr.C118_mu_violated",
    "PoDvr.C118_mu_transition",
    "PoDvr.C118_eigsh",
    "PoDvr.C118_eigsh_ground_partial",
    "PoDvr.C118_eigsh_before"
   ],
   "note": "init_state and the ground state are proved, with the restriction of C38 on the sizes of the grids (C118_ground_violated: a ValueError otherwise). mu_mat multiplies by one minus the coordinate, which is no multiple of the coordinate (C118_mu_violated); its matrix elements between orthogonal states are right up to the sign. eigsh is a parameter, assumed to return the lowest eigenvectors of the operator it is given in columns."
  },
  {
   "property": "C119",
   "status": "partial",
   "theorems": [
    "Network.C119_vertices",
    "Network.C119_edges",
    "Network.C119_directed_partial",
    "Network.C119_subleaves",
    "Network.C119_subleaves_error",
    "Network.C119_directed_violated"
   ],
   "note": "All lists but directed_edges are right. directed_edges lacks the reverses of the links that are not links of the root (C119_directed_violated)."
  },
  {
   "property": "C120",
   "status": "proved",
   "theorems": [
    "ML.C120_hermitian_terms",
    "ML.C120_value",
    "ML.C120_real",
    "ML.C120_variational",
    "ML.C120_ground"
   ],
   "note": "The eigenvector equation and the value are those of the transposed matrix (see C16); its bounds are those of the matrix itself."
  },
  {
   "property": "C121",
   "status": "proved",
   "theorems": [
    "Heap.C121_overlap",
    "Heap.C121_norm",
    "Heap.C121_zero",
    "Heap.C121_angle",
    "Heap.C121_symmetric"
   ],
   "note": "Norm and angle for real arrays; the three contractions (C121_overlap) for every commutative star ring."
  },
  {
   "property": "C122",
   "status": "partial",
   "theorems": [
    "SpinBoson.C122_pairs",
    "SpinBoson.C122_tree_partial",
    "SpinBoson.C122_violated"
   ],
   "note": "The pairs and the dimensions are right. The network is complete only if both groups of vibrations have two members (C122_tree_partial); otherwise a degree of freedom is lost or IndexError is raised (C122_violated)."
  },
  {
   "property": "C123",
   "status": "proved",
   "theorems": [
    "Dmrg.C123_one_site",
    "Dmrg.C123_two_sites",
    "Dmrg.C123_size"
   ],
   "note": "For every commutative ring."
  },
  {
   "property": "C124",
   "status": "proved",
   "theorems": [
    "Dmrg.C124_one_site",
    "Dmrg.C124_two_sites",
    "Dmrg.C124_converges_one_site",
    "Dmrg.C124_converges_two_sites",
    "Dmrg.C124_energy",
    "Dmrg.C124_exact_libraries"
   ],
   "note": "Exact arithmetic, eigensolver and singular value decomposition over the reals; such functions are shown to exist."
  },
  {
   "property": "C125",
   "status": "proved",
   "theorems": [
    "Dmrg.C125_fm_state",
    "Dmrg.C125_ferromagnet",
    "Dmrg.C125_antiferromagnet",
    "Dmrg.C125_dmrg",
    "Dmrg.C125_odd"
   ],
   "note": "Exact libraries as in C124 for the statement about DMRG."
  },
  {
   "property": "C126",
   "status": "proved",
   "theorems": [
    "Heap.C126_truncation",
    "Heap.C126_error",
    "Heap.C126_best"
   ],
   "note": "The singular value decomposition is a parameter assumed exact (factors multiply to the matrix, orthonormal outer factors); one over the reals is shown to exist. C126_best holds over the real and the complex numbers, with singular values that fall (also shown to exist over the reals)."
  },
  {
   "property": "C127",
   "status": "proved",
   "theorems": [
    "SplitProp.C127_one_site",
    "SplitProp.C127_sweeps",
    "SplitProp.C127_exact_value",
    "SplitProp.C127_exact"
   ],
   "note": "C127_one_site needs nothing of the decomposition for pairs, C127_sweeps includes unite_step with an exact one (the error of a truncated one is C126). The solver is a parameter assumed conservative; C127_exact shows that the exact exponential is such a solver. Which coefficient the code uses in which mode is C63."
  },
  {
   "property": "C128",
   "status": "partial",
   "theorems": [
    "Dmrg.C128_fine_grain",
    "Dmrg.C128_best",
    "Dmrg.C128_two_sites_partial",
    "Dmrg.C128_norm_violated"
   ],
   "note": "The result is not normalized after a truncation (C128_norm_violated, finding 58); all the other parts are proved. dmrg1 is in C129."
  },
  {
   "property": "C129",
   "status": "proved",
   "theorems": [
    "Dmrg.C129_move_right",
    "Dmrg.C129_best",
    "Dmrg.C129_one_site",
    "Dmrg.C129_converges"
   ],
   "note": " C129_best: with falling singular values no other pair of matrices with a bond of at most trunc gives a state nearer to the one before."
  },
  {
   "property": "C130",
   "status": "partial",
   "theorems": [
    "Sbm.C130_loop",
    "Sbm.C130_missing",
    "Sbm.C130_loop_partial",
    "Sbm.C130_product_violated",
    "Sbm.C130_raises_violated",
    "Sbm.C130_bath_violated",
    "Sbm.C130_system_partial"
   ],
   "note": "Violated: with an oscillator dense_h always raises TypeError (C130_raises_violated), with a bath it never returns (C130_bath_violated), and a term with several factors contributes their sum instead of their product (C130_product_violated). Proved: the exact matrix of the loop for all term lists (C130_loop), which is that of the generator if no term has two factors (C130_loop_partial), and -i [h, .] for a system without oscillators and bath and with a symmetric Hamiltonian (C130_system_partial)."
  },
  {
   "property": "C131",
   "status": "partial",
   "theorems": [
    "OdeReal.C131_sweeps_violated",
    "OdeReal.C131_split_prop_violated",
    "OdeReal.C131_diff_partial",
    "OdeReal.C131_case_violated"
   ],
   "note": "Violated: with ode_in_real=True nothing is propagated. For every network, every Hamiltonian, every solver and every list of sweeps, the sweeps return normally with the state of the start (C131_sweeps_violated, C131_split_prop_violated), also where the same step on complex numbers changes the state (C131_case_violated). Proved of the claim: the right-hand side given to the solver is the right one on pairs of real numbers (C131_diff_partial)."
  },
  {
   "property": "C132",
   "status": "proved",
   "theorems": [
    "ML.C132_density",
    "ML.C132_inverse",
    "ML.C132_norm"
   ],
   "note": "Over the complex numbers, with scipy.linalg.inv assumed exact on invertible matrices. C132_density: densities are Hermitian and positive semidefinite in every network. C132_inverse: the inverses are found in every network and are what the claim says, with the bounds. C132_norm: the derivative exists and keeps the norm, whatever the ranks."
  },
  {
   "property": "C133",
   "status": "proved",
   "theorems": [
    "ML.C133_direct",
    "ML.C133_regular",
    "SplitProp.C133_root",
    "SplitProp.C133_single"
   ],
   "note": "C133_direct: the derivative of the direct method, for any inverses of fitting shape. C133_regular: with the regularized inverses of the code, over the complex numbers, whatever the ranks. C133_root: _form_env and _split_prop of a full root with the exact solution of the local equations, anti-Hermitian H / coef, norm 1. C133_single: sequences of split_step and r_split_step on one tensor (unite_step does not propagate a single tensor, see C27). For whole sweeps over several tensors see C134."
  },
  {
   "property": "C134",
   "status": "proved",
   "theorems": [
    "SplitProp.C134_sweeps",
    "SplitProp.C134_second",
    "SplitProp.C134_pairs",
    "SplitProp.C134_single"
   ],
   "note": "C134_sweeps: sequences of split_step (forward, backward) and r_split_step of first and second order. C134_second: snd_order_step with split_step. Over the complex numbers, with the exact solution of the local equations, an anti-Hermitian generator and norm 1; the decomposition keeps all singular values (svd_err=None, svd_rank=None). C134_pairs: sequences that contain also unite_step, with at least two tensors. C134_single: unite_step does not propagate a network of one tensor."
  },
  {
   "property": "C135",
   "status": "partial",
   "theorems": [
    "Sbm.C135_none",
    "Sbm.C135_terms_partial",
    "Sbm.C135_oscillators",
    "Sbm.C135_violated"
   ],
   "note": "Violated: the DVR classes of the package have no eig_mat, so that heom_h_list never returns if one tier has such a DVR (C135_violated). Proved for DVRs to which eig_mat has been added, if the mean of the coefficients of every tier has a positive real part (C135_terms_partial), which holds for oscillators (C135_oscillators); and without DVRs (C135_none)."
  },
  {
   "property": "C136",
   "status": "proved",
   "theorems": [
    "Unzip.C136_schedule",
    "Unzip.C136_column",
    "Unzip.C136_lazy",
    "Unzip.C136_empty"
   ],
   "note": "itertools.tee is modelled by the equivalent program of its documentation; the argument is an iterator over a finite list; the returned generator is unpacked at once."
  },
  {
   "property": "C137",
   "status": "partial",
   "theorems": [
    "PoFast.C137_history",
    "PoFast.C137_exceptions",
    "PoFast.C137_propagation",
    "PoFast.C137_hamiltonian_partial"
   ],
   "note": "The equality with fast=False is proved in full (C137_history, C137_exceptions). What the Hamiltonian is (C137_hamiltonian_partial) has the two restrictions of C89, where the code violates the claim: grids of different sizes after the first coordinate (C38) and a residual potential left from an earlier call."
  },
  {
   "property": "C138",
   "status": "proved",
   "theorems": [
    "GridStates.C138_exponential",
    "GridStates.C138_eigh",
    "GridStates.C138_norm",
    "GridStates.C138_group",
    "GridStates.C138_reverse",
    "GridStates.C138_commute",
    "GridStates.C138_uncoupled"
   ],
   "note": "linalg.eigh is a parameter that diagonalises Hermitian matrices by a unitary matrix (such a function exists, C138_eigh); at least one point."
  },
  {
   "property": "C139",
   "status": "proved",
   "theorems": [
    "GridStates.C139_norm",
    "GridStates.C139_reversible",
    "GridStates.C139_trajectory",
    "GridStates.C139_renormalize"
   ],
   "note": "Values at the grid points; linalg.eigh as in C138; scipy simps is a sum with positive weights (SimpsOk, as in C116), the initial wave function is not zero."
  }
 ]
}